import Verif.Smt.Report
import Verif.Props.C04
import Verif.Props.C10
import Verif.Props.C50

/-!
# C70: a reported counterexample is a counterexample

When the solver has found a model, the values of the variables, the slices, and the value of the verification condition are printed. They
are to belong to one state in which the verification condition fails.
-/

open scoped ENNReal NNReal

namespace Caesar.Smt
set_option linter.unusedSectionVars false

/-- Specification: the printed value is this value. -/
def Means [Doms] : (t : Ty) → Shown t → t.den → Prop
  | .bool => fun (b : Bool) (p : Prop) => (p ↔ b = true)
  | .uint => fun (z : ℤ) (n : ℕ) => z = n
  | .int => fun (z n : ℤ) => z = n
  | .ureal => fun (q : ℚ) (x : ℝ≥0) => (q : ℝ) = x
  | .real => fun (q : ℚ) (x : ℝ) => (q : ℝ) = x
  | .eureal => fun (c : Concrete) (x : ℝ≥0∞) => match c with
      | .infinity => x = ⊤
      | .real q => 0 ≤ q ∧ x = ENNReal.ofReal (q : ℝ)
  | .list _ => fun _ _ => False
  | .dom _ => fun a b => a = b

/-- Specification of `z3::Model::eval`. The solver's model assigns values to some symbols. `agree` are the SMT models which have these
values, `full` is the one used for model completion. The model knows the symbols that have been asserted, i.e. those of the translator's state.
* Without completion, a value is returned only if it is the value in all the SMT models; with completion it is the value in `full`.
* The symbols that have not been asserted can have any values.
* The Boolean constants for which there is no value can have any values, and so can the Boolean parts of `EUReal` constants. -/
structure SolverModel.For [Doms] (Z : SolverModel) (st : TState) (agree : Model → Prop) (full : Model) : Prop where
  full_agree : agree full
  bool : ∀ r b, Z.bool r = some b → ∀ M, agree M → (r M ↔ b = true)
  real : ∀ r q, Z.real r = some q → ∀ M, agree M → r M = q
  int : ∀ r z, Z.int r = some z → r full = z
  dyn : ∀ n r x, Z.dyn n r = some x → r full = x
  unasserted : ∀ M M', agree M → (∀ v n, st.locals.get v = some n → M'.val n v.ty = M.val n v.ty) → (∀ k < st.next, M'.sk k = M.sk k) → agree M'
  unassigned : ∀ M M', agree M → M'.sk = M.sk → (∀ n t, t ≠ .bool → t ≠ .eureal → M'.val n t = M.val n t) →
    (∀ n, Z.bool (fun M => M.val n .bool) ≠ none → M'.val n .bool = M.val n .bool) →
    (∀ n, Pair.num (M'.val n .eureal) = Pair.num (M.val n .eureal)) →
    (∀ n, Z.bool (fun M => Pair.isInf (M.val n .eureal)) ≠ none → Pair.isInf (M'.val n .eureal) = Pair.isInf (M.val n .eureal)) → agree M'

/-- Specification: the verification condition fails in the state. -/
def FailsIn [Doms] [Interp] (d : Dir) (vc : Expr .eureal) (σ : Env) : Prop :=
  match d with
  | .down => vc.ev σ ≠ ⊤
  | .up => vc.ev σ ≠ 0

/-- Specification: the state in which the slice variables are true. -/
def enabledIn [Doms] (σ : Env) (sm : List (Slicing.SliceStmt × Bool)) : Env :=
  sm.foldr (fun s σ => σ.upd ⟨s.1.ident, .bool⟩ (show Ty.bool.den from True)) σ

/-- Specification: the report describes the state. -/
structure Describes [Doms] [Interp] (rep : Report) (sm : Slicing.SliceModel) (vc : Expr .eureal) (σ : Env) : Prop where
  globals : ∀ v w, ⟨v, some w⟩ ∈ rep.globals → Means v.ty w (σ v)
  slices : ∀ s b, (s, b) ∈ sm.stmts → ((show Prop from σ s.var) ↔ b = true)
  results : rep.slices = sm.results
  pre : ∀ w, rep.pre = some w → Means .eureal w (vc.eval (enabledIn σ sm.stmts))
  hasSliced : rep.sliced.isSome ↔ ∃ s, (s, false) ∈ sm.stmts
  sliced : ∀ r w, rep.sliced = some (r, some w) → Means .eureal w (vc.eval σ)

/-- Hypotheses about the run: the formula `b`, which is equivalent to the verification condition being `⊤` (or `0`), has been translated, and the
solver has found a model in which it does not hold. -/
structure Refuted [Doms] [Interp] [SmtInterp] (O : Oracle) (d : Dir) (vc : Expr .eureal) (b : Expr .bool) (st : TState) (Z : SolverModel) (agree : Model → Prop)
    (full : Model) : Prop where
  equiv : ∀ σ : Env, b.tv σ ↔ (intoBoolVc d vc).tv σ
  model : Z.For st agree full
  sat : ∃ r, trans O b .new = some (r, st) ∧ ∀ M, agree M → Respects st M ∧ ¬ (show Prop from r M)

/-- Hypotheses about the report. -/
structure Reported [Doms] [SmtInterp] (O : Oracle) (Z : SolverModel) (stmts : List Slicing.SliceStmt) (vc : Expr .eureal) (c : TyCtx) (span : Nat) (st : TState)
    (sm : Slicing.SliceModel) (rep : Report) : Prop where
  declared : ∀ v, vc.Occurs v → v.id ∈ c.decls
  sliceDecls : ∀ s ∈ stmts, s.ident ∈ c.decls
  model : sm = Slicing.SliceModel.fromModel .error stmts Slicing.Selection.failure true (Z.slices st)
  report : report O Z true span stmts vc c st = some rep

/-- The full property. -/
def C70_full : Prop := ∀ (_ : Doms) (_ : Interp) (_ : SmtInterp) (_ : Faithful) (O : Oracle) (d : Dir) (vc : Expr .eureal) (b : Expr .bool) (st : TState)
  (Z : SolverModel) (agree : Model → Prop) (full : Model) (stmts : List Slicing.SliceStmt) (c : TyCtx) (span : Nat) (sm : Slicing.SliceModel) (rep : Report),
  Refuted O d vc b st Z agree full → Reported O Z stmts vc c span st sm rep → ∃ σ : Env, Describes rep sm vc σ ∧ FailsIn d vc σ

section
variable [Doms] [Interp] [SmtInterp]

open Classical in
/-- The values of the symbols in the state that is described. -/
noncomputable def fixVal (Z : SolverModel) (n : Nat) : (t : Ty) → SVal t → SVal t
  | .bool => fun (p : Prop) => (if Z.bool (fun M => M.val n .bool) = none then True else p : Prop)
  | .eureal => fun (p : Pair) => (⟨if Z.bool (fun M => Pair.isInf (M.val n .eureal)) = none then True else p.isInf, p.num⟩ : Pair)
  | _ => id

/-- Values of symbols which have not been asserted. -/
noncomputable def dfltVal : (t : Ty) → SVal t
  | .bool => True
  | t => (inv_exists t).choose

theorem dfltVal_inv (t : Ty) : inv t (dfltVal t) := by
  cases t with
  | bool => trivial
  | _ => exact (inv_exists _).choose_spec

open Classical in
/-- The SMT model for the state that is described, without the symbols of the report. -/
noncomputable def fixModel (Z : SolverModel) (st : TState) (full : Model) : Model :=
  ⟨fun n t => if ∃ v, st.locals.get v = some n ∧ v.ty = t then fixVal Z n t (full.val n t) else dfltVal t, full.sk⟩

theorem fixModel_agree {Z : SolverModel} {st : TState} {agree : Model → Prop} {full : Model} (h : Z.For st agree full) : agree (fixModel Z st full) := by
  refine h.unasserted ⟨fun n t => fixVal Z n t (full.val n t), full.sk⟩ _ ?_ (fun v n hn => if_pos ⟨v, hn, rfl⟩) fun _ _ => rfl
  refine h.unassigned full _ h.full_agree rfl (fun n t hb he => ?_) (fun n hn => ?_) (fun n => rfl) fun n hn => ?_
  · cases t <;> first | rfl | exact absurd rfl hb | exact absurd rfl he
  · exact if_neg hn
  · exact if_neg hn

theorem fixModel_local {Z : SolverModel} {st : TState} {full : Model} {v : Var} {n : Nat} (h : st.locals.get v = some n) :
    (fixModel Z st full).val n v.ty = fixVal Z n v.ty (full.val n v.ty) := if_pos ⟨v, h, rfl⟩

theorem fixModel_other {Z : SolverModel} {st : TState} {full : Model} {t : Ty} {n : Nat} (h : ¬ ∃ v, st.locals.get v = some n ∧ v.ty = t) :
    (fixModel Z st full).val n t = dfltVal t := if_neg h

/-- A printed value of a variable is the value of its symbol. -/
theorem eval_local {Z : SolverModel} {st : TState} {agree : Model → Prop} {full : Model} (h : Z.For st agree full) {n : Nat} {t : Ty} {w : Shown t}
    (hw : Z.eval t (fun M => M.val n t) = some w) {M : Model} (hM : agree M) (hv : M.val n t = fixVal Z n t (full.val n t)) {x : t.den}
    (hx : Rep t (M.val n t) x) : Means t w x := by
  cases t with
  | bool =>
    have hw : some (Z.evalBool (fun M => M.val n .bool)) = some w := hw
    have hx : (show Prop from M.val n .bool) ↔ x := hx
    refine Iff.trans hx.symm ?_
    injection hw with hw
    subst hw
    unfold SolverModel.evalBool
    cases hb : Z.bool (fun M => M.val n .bool) with
    | none =>
      have : M.val n .bool = True := hv.trans (if_pos hb)
      rw [this]
      exact ⟨fun _ => rfl, fun _ => trivial⟩
    | some b => exact h.bool _ _ hb M hM
  | uint =>
    have hx : M.val n .uint = ((show ℕ from x) : ℤ) := hx
    have h1 : full.val n .uint = w := h.int _ _ hw
    exact (h1.symm.trans hv.symm).trans hx
  | int =>
    have h1 : full.val n .int = w := h.int _ _ hw
    exact (h1.symm.trans hv.symm).trans hx
  | ureal =>
    have h1 : M.val n .ureal = ((show ℚ from w) : ℝ) := h.real _ _ hw M hM
    exact h1.symm.trans hx
  | real =>
    have h1 : M.val n .real = ((show ℚ from w) : ℝ) := h.real _ _ hw M hM
    exact h1.symm.trans hx
  | eureal =>
    have hw : Z.evalEUReal (fun M => M.val n .eureal) = some w := hw
    unfold SolverModel.evalEUReal at hw
    cases hq : Z.real (fun M => Pair.num (M.val n .eureal)) with
    | none => rw [hq] at hw; cases hw
    | some q =>
      rw [hq] at hw
      have hq' : Pair.num (M.val n .eureal) = q := h.real _ _ hq M hM
      obtain ⟨h0, hx⟩ : Pair.Repr (M.val n .eureal) x := hx
      unfold SolverModel.evalBool at hw
      cases hb : Z.bool (fun M => Pair.isInf (M.val n .eureal)) with
      | none =>
        rw [hb] at hw
        injection hw with hw
        subst hw
        have : Pair.isInf (M.val n .eureal) := by rw [hv]; show (if _ then True else _ : Prop); rw [if_pos hb]; trivial
        exact hx.trans (if_pos this)
      | some b =>
        rw [hb] at hw
        have hb' := h.bool _ _ hb M hM
        cases b with
        | true =>
          injection hw with hw
          subst hw
          exact hx.trans (if_pos (hb'.2 rfl))
        | false =>
          injection hw with hw
          subst hw
          rw [hq'] at h0 hx
          exact ⟨by exact_mod_cast h0, hx.trans (if_neg fun hi => by cases hb'.1 hi)⟩
  | list s => cases hw
  | dom m =>
    have h1 : full.val n (.dom m) = w := h.dyn _ _ _ hw
    exact (h1.symm.trans hv.symm).trans hx

/-- A printed value of a term is its value if it is finite or if the solver knows that it is infinite. -/
theorem eval_term {Z : SolverModel} {st : TState} {agree : Model → Prop} {full : Model} (h : Z.For st agree full) {r : Term .eureal} {w : Concrete}
    (hw : Z.evalEUReal r = some w) (hk : w = .infinity → Z.bool (fun M => Pair.isInf (r M)) ≠ none) {M : Model} (hM : agree M) {x : ℝ≥0∞}
    (hx : Pair.Repr (r M) x) : Means .eureal w x := by
  unfold SolverModel.evalEUReal at hw
  obtain ⟨h0, hx⟩ := hx
  cases hq : Z.real (fun M => Pair.num (r M)) with
  | none => rw [hq] at hw; cases hw
  | some q =>
    rw [hq] at hw
    have hq' : Pair.num (r M) = q := h.real _ _ hq M hM
    unfold SolverModel.evalBool at hw
    cases hb : Z.bool (fun M => Pair.isInf (r M)) with
    | none =>
      rw [hb] at hw
      injection hw with hw
      exact absurd hb (hk hw.symm)
    | some b =>
      rw [hb] at hw
      have hb' := h.bool _ _ hb M hM
      cases b with
      | true =>
        injection hw with hw
        subst hw
        exact hx.trans (if_pos (hb'.2 rfl))
      | false =>
        injection hw with hw
        subst hw
        rw [hq'] at h0 hx
        exact ⟨by exact_mod_cast h0, hx.trans (if_neg fun hi => by cases hb'.1 hi)⟩

theorem foldl_subst_eval (sm : List (Slicing.SliceStmt × Bool)) (e : Expr .eureal) (σ : Env) :
    (sm.foldl (fun e s => Expr.subst s.1.var (.lit (.bool true)) e) e).eval σ = e.eval (enabledIn σ sm) := by
  induction sm generalizing e with
  | nil => rfl
  | cons s sm ih =>
    rw [List.foldl_cons, ih]
    have : (show Prop from (Expr.lit (.bool true)).eval (enabledIn σ sm)) = True := eq_true (show true = true from rfl)
    exact congrArg (fun p : Prop => e.eval ((enabledIn σ sm).upd ⟨s.1.ident, .bool⟩ (show Ty.bool.den from p))) this

theorem foldl_subst_occurs (sm : List (Slicing.SliceStmt × Bool)) (e : Expr .eureal) {v : Var}
    (h : (sm.foldl (fun e s => Expr.subst s.1.var (.lit (.bool true)) e) e).Occurs v) : e.Occurs v ∨ ∃ s ∈ sm, v = s.1.var := by
  induction sm generalizing e with
  | nil => exact .inl h
  | cons s sm ih =>
    rcases ih _ h with h | ⟨s', hs, rfl⟩
    · simp only [Expr.Occurs] at h
      rcases h with h | h | h
      all_goals first | exact .inr ⟨s, List.mem_cons_self, h⟩ | exact .inl h | exact h.elim
    · exact .inr ⟨s', List.mem_cons_of_mem _ hs, rfl⟩

theorem enabledIn_self {σ : Env} {sm : List (Slicing.SliceStmt × Bool)} (h : ∀ s b, (s, b) ∈ sm → (show Prop from σ s.var)) : enabledIn σ sm = σ := by
  induction sm with
  | nil => rfl
  | cons s sm ih =>
    have h0 : (enabledIn σ (s :: sm)) = (enabledIn σ sm).upd ⟨s.1.ident, .bool⟩ (show Ty.bool.den from True) := rfl
    rw [h0, ih fun s b hs => h s b (List.mem_cons_of_mem _ hs)]
    have h1 : σ ⟨s.1.ident, .bool⟩ = (show Ty.bool.den from True) := eq_true (h s.1 s.2 List.mem_cons_self)
    unfold Env.upd
    rw [← h1]
    exact Function.update_eq_self _ _

theorem countSliced_pos {sm : Slicing.SliceModel} : countSliced sm > 0 ↔ ∃ s, (s, false) ∈ sm.stmts := by
  unfold countSliced
  rw [gt_iff_lt, List.length_pos_iff_exists_mem]
  constructor
  · rintro ⟨⟨s, b⟩, h⟩
    obtain ⟨h1, h2⟩ := List.mem_filter.1 h
    cases b
    · exact ⟨s, h1⟩
    · cases h2
  · rintro ⟨s, h⟩
    exact ⟨(s, false), List.mem_filter.2 ⟨h, rfl⟩⟩

/-- What is reported about one translated expression. -/
theorem originalVc_eval {span : Nat} {sm : Slicing.SliceModel} {vc orig : Expr .eureal} {c c' : TyCtx} (hc : ∀ v, vc.Occurs v → v.id ∈ c.decls)
    (hs : ∀ s ∈ sm.stmts, s.1.ident ∈ c.decls) (h : originalVc span sm vc c = some (orig, c')) (σ : Env) :
    orig.eval σ = vc.eval (if countSliced sm = 0 then σ else enabledIn σ sm.stmts) := by
  unfold originalVc at h
  split at h
  · rename_i h0
    rw [if_pos h0]
    cases h
    rfl
  · rename_i h0
    rw [if_neg h0, ← foldl_subst_eval]
    have hd : ∀ v, (sm.stmts.foldl (fun e s => Expr.subst s.1.var (.lit (.bool true)) e) vc).Occurs v → v.id ∈ c.decls := by
      intro v hv
      rcases foldl_subst_occurs _ _ hv with hv | ⟨s, hs', rfl⟩
      · exact hc v hv
      · exact hs s hs'
    obtain ⟨e', c'', h1, -, h2, -⟩ := C04_apply_subst span _ c hd
    rw [h1] at h
    cases h
    exact h2 σ

/-- The state that is described: one that the SMT model represents, where Boolean variables without symbols are true. -/
theorem exists_state {st : TState} (hI : Inv st) {M : Model} (hM : WF M) :
    ∃ σ : Env, Rel st M σ ∧ ∀ id, st.locals.get ⟨id, .bool⟩ = none → (show Prop from σ ⟨id, .bool⟩) := by
  obtain ⟨σ, hσ⟩ := hI.exists_rel (M := M) fun v n _ => hM n v.ty
  have : ∀ v : Var, ∃ x : v.ty.den, (∀ n, st.locals.get v = some n → x = σ v) ∧ (st.locals.get v = none → ∀ h : v.ty = .bool, (show Prop from (h ▸ x : Ty.bool.den))) := by
    rintro ⟨id, t⟩
    cases hv : st.locals.get ⟨id, t⟩ with
    | some n => exact ⟨σ _, fun _ _ => rfl, fun h => nomatch h⟩
    | none =>
      by_cases ht : t = .bool
      · subst ht
        exact ⟨(show Prop from True), (fun _ h => by cases h), fun _ _ => trivial⟩
      · exact ⟨σ _, fun _ _ => rfl, fun _ h => absurd h ht⟩
  choose τ h1 h2 using this
  refine ⟨τ, fun v n hn => ?_, fun id hid => h2 ⟨id, .bool⟩ hid rfl⟩
  rw [h1 v n hn]
  exact hσ v n hn

theorem mem_reportGlobals {Z : SolverModel} {stmts : List Slicing.SliceStmt} {st : TState} {v : Var} {w : Option (Shown v.ty)} (h : ⟨v, w⟩ ∈ reportGlobals Z stmts st) :
    ∃ n, st.locals.get v = some n ∧ Z.eval v.ty (fun M => M.val n v.ty) = w := by
  unfold reportGlobals at h
  obtain ⟨u, -, hu⟩ := List.mem_filterMap.1 h
  cases hn : st.locals.get u with
  | none => rw [hn] at hu; cases hu
  | some n =>
    rw [hn] at hu
    cases hu
    exact ⟨n, hn, rfl⟩

/-- The state and the SMT model after both translations of the report. -/
theorem report_state {st st2 : TState} (hI2 : Inv st2) (hstep : ∀ v n, st.locals.get v = some n → st2.locals.get v = some n) (hcons : Cons st st2)
    {Z : SolverModel} {agree : Model → Prop} {full : Model} (h : Z.For st agree full) (hsat : ∀ M, agree M → Respects st M) :
    ∃ M σ, agree M ∧ Sat st2 M ∧ Rel st2 M σ ∧ (∀ v n, st.locals.get v = some n → M.val n v.ty = fixVal Z n v.ty (full.val n v.ty)) ∧
      ∀ id, ((show Prop from σ ⟨id, .bool⟩) ↔ (Z.slices st id).getD true = true) := by
  have ha := fixModel_agree h
  have hwf : WF (fixModel Z st full) := by
    intro n t
    by_cases hl : ∃ v, st.locals.get v = some n ∧ v.ty = t
    · obtain ⟨v, hn, rfl⟩ := hl
      exact (hsat _ ha).2 v n hn
    · rw [fixModel_other hl]
      exact dfltVal_inv t
  obtain ⟨M, hv, hk, hS⟩ := hcons _ hwf (hsat _ ha).1
  have hM : agree M := h.unasserted _ M ha (fun v n _ => by rw [hv]) hk
  obtain ⟨σ, hR, hσ⟩ := exists_state hI2 (M := M) fun n t => by rw [hv]; exact hwf n t
  refine ⟨M, σ, hM, hS, hR, fun v n hn => by rw [hv]; exact fixModel_local hn, fun id => ?_⟩
  unfold SolverModel.slices
  cases hn : st.locals.get ⟨id, .bool⟩ with
  | some n =>
    have hrep : (show Prop from M.val n .bool) ↔ (show Prop from σ ⟨id, .bool⟩) := (hR _ n (hstep _ n hn)).2
    refine hrep.symm.trans ?_
    cases hb : Z.bool (fun M => M.val n .bool) with
    | none =>
      have : M.val n .bool = True := by rw [hv]; exact (fixModel_local hn).trans (if_pos hb)
      rw [this]
      exact ⟨fun _ => by simp [hb], fun _ => trivial⟩
    | some b =>
      refine (h.bool _ _ hb M hM).trans ?_
      simp [hb]
  | none =>
    refine ⟨fun _ => rfl, fun _ => ?_⟩
    cases hn2 : st2.locals.get ⟨id, .bool⟩ with
    | none => exact hσ id hn2
    | some n =>
      have hrep : (show Prop from M.val n .bool) ↔ (show Prop from σ ⟨id, .bool⟩) := (hR _ n hn2).2
      refine hrep.1 ?_
      have : M.val n .bool = True := by
        rw [hv]
        refine fixModel_other ?_
        rintro ⟨w, hw, -⟩
        have := hI2.inj w ⟨id, .bool⟩ n (hstep w n hw) hn2
        rw [this, hn] at hw
        cases hw
      rw [this]
      trivial

/-- The property, if no subtraction has an infinite subtrahend, and if the solver knows that the values are infinite that are printed as `∞`. -/
theorem C70_partial (F : Faithful) (O : Oracle) (d : Dir) (vc : Expr .eureal) (b : Expr .bool) (st : TState) (Z : SolverModel) (agree : Model → Prop) (full : Model)
    (stmts : List Slicing.SliceStmt) (c : TyCtx) (span : Nat) (sm : Slicing.SliceModel) (rep : Report)
    (h : Refuted O d vc b st Z agree full) (hr : Reported O Z stmts vc c span st sm rep)
    (hb : FinSub b) (hvc : FinSub vc) (ho : ∀ orig c', originalVc span sm vc c = some (orig, c') → FinSub orig)
    (hpre : rep.pre = some .infinity → Z.bool (fun M => Pair.isInf (rep.preTerm M)) ≠ none)
    (hsl : ∀ r, rep.sliced = some (r, some .infinity) → Z.bool (fun M => Pair.isInf (r M)) ≠ none) :
    ∃ σ : Env, Describes rep sm vc σ ∧ FailsIn d vc σ := by
  obtain ⟨r0, h0, hsat⟩ := h.sat
  have P0 := trans_post F O b hb inv_new h0
  have hq0 : st.quants = [] := P0.step.quants
  have hrep := hr.report
  unfold report at hrep
  rw [← hr.model] at hrep
  have hsm : ∀ s ∈ sm.stmts, s.1.ident ∈ c.decls := by
    intro s hs
    rw [hr.model] at hs
    obtain ⟨s', hs', rfl⟩ := List.mem_map.1 (List.mem_of_mem_filter hs)
    exact hr.sliceDecls s' hs'
  have hsl' : ∀ s b, (s, b) ∈ sm.stmts → b = (Z.slices st s.ident).getD true := by
    intro s b hs
    rw [hr.model] at hs
    obtain ⟨s', -, he⟩ := List.mem_map.1 (List.mem_of_mem_filter hs)
    cases he
    rfl
  obtain ⟨⟨orig, c'⟩, horig, hrep⟩ := Option.bind_eq_some_iff.1 hrep
  have hoe := originalVc_eval hr.declared hsm horig
  obtain ⟨⟨r, st1⟩, ht, hrep⟩ := Option.bind_eq_some_iff.1 hrep
  have P1 := trans_post F O orig (ho _ _ horig) P0.inv ht
  have hq1 : st1.quants = [] := P1.step.quants.trans hq0
  have finish : ∀ st2 : TState, Inv st2 → Step (fun _ => True) st1 st2 → Cons st1 st2 → rep.pre = Z.evalEUReal r → rep.preTerm = r → rep.slices = sm.results →
      rep.globals = reportGlobals Z stmts st → (rep.sliced.isSome ↔ countSliced sm > 0) → (∀ r' w, rep.sliced = some (r', w) → w = Z.evalEUReal r' ∧ Good st2 vc r') →
      ∃ σ : Env, Describes rep sm vc σ ∧ FailsIn d vc σ := by
    intro st2 hI2 hs2 hc2 h1 h2 h3 h4 hcs h5
    have hq2 : st2.quants = [] := hs2.quants.trans hq1
    obtain ⟨M, σ, hM, hS, hR, hval, hslice⟩ := report_state hI2 (fun v n hn => hs2.ext v n (P1.step.ext v n hn)) (P1.cons.trans P1.step.next hc2) h.model
      fun M hM => (hsat M hM).1
    have hin : invOn st2.quants.flatten M := by rw [hq2]; intro s hs; cases hs
    have hsv : ∀ s b, (s, b) ∈ sm.stmts → ((show Prop from σ s.var) ↔ b = true) := fun s b hs => by
      rw [hsl' s b hs]
      exact hslice s.ident
    refine ⟨σ, ⟨fun v w hw => ?_, hsv, h3, fun w hw => ?_, hcs.trans countSliced_pos, fun r' w hw => ?_⟩, ?_⟩
    · rw [h4] at hw
      obtain ⟨n, hn, he⟩ := mem_reportGlobals hw
      exact eval_local h.model he hM (hval v n hn) (hR v n (hs2.ext v n (P1.step.ext v n hn))).2
    · have hen : (if countSliced sm = 0 then σ else enabledIn σ sm.stmts) = enabledIn σ sm.stmts := by
        split
        · rename_i h00
          refine (enabledIn_self fun s b hs => ?_).symm
          refine (hsv s b hs).2 ?_
          cases b
          · exact absurd (countSliced_pos.2 ⟨s, hs⟩) (by omega)
          · rfl
        · rfl
      have hx := (P1.good.mono hs2).2.2 M σ hS hR hin
      rw [hoe σ, hen] at hx
      refine eval_term h.model (h1.symm.trans hw) (fun hi => ?_) hM hx
      rw [← h2]
      exact hpre (by rw [hw, hi])
    · obtain ⟨hw', hg⟩ := h5 r' _ hw
      refine eval_term h.model hw'.symm (fun hi => hsl r' (by rw [hw, hi])) hM (hg.2.2 M σ hS hR hin)
    · have hx := (P0.good.mono (P1.step.trans hs2 (fun v _ => trivial) fun v _ => trivial : Step (fun _ => True) st st2)).2.2 M σ hS hR hin
      have hn : ¬ b.tv σ := fun hb => (hsat M hM).2 ((show (show Prop from r0 M) ↔ b.tv σ from hx).2 hb)
      rw [h.equiv, intoBoolVc_tv] at hn
      unfold FailsIn
      cases d <;> exact hn
  have hrep : (if countSliced sm > 0 then _ else _) = some rep := hrep
  by_cases hcs : countSliced sm > 0
  · rw [if_pos hcs] at hrep
    obtain ⟨⟨r', st2⟩, ht2, hrep⟩ := Option.bind_eq_some_iff.1 hrep
    have P2 := trans_post F O vc hvc P1.inv ht2
    cases hrep
    refine finish st2 P2.inv (P2.step.mono fun _ _ => trivial) P2.cons rfl rfl rfl rfl ⟨fun _ => hcs, fun _ => rfl⟩ fun r'' w hw => ?_
    cases hw
    exact ⟨rfl, P2.good⟩
  · rw [if_neg hcs] at hrep
    cases hrep
    exact finish st1 P1.inv (Step.refl _ _) (Cons.refl _) rfl rfl rfl rfl ⟨fun hs => absurd hs (by simp), fun hs => absurd hs hcs⟩ fun r'' w hw => nomatch hw

/-- Each free variable of the formula which is not a slice variable is listed in the report. -/
theorem C70_listed (F : Faithful) (O : Oracle) (b : Expr .bool) (st : TState) (r0 : Term .bool) (hb : FinSub b) (h0 : trans O b .new = some (r0, st))
    (Z : SolverModel) (stmts : List Slicing.SliceStmt) (vc : Expr .eureal) (c : TyCtx) (span : Nat) (k : Bool) (rep : Report)
    (hr : report O Z k span stmts vc c st = some rep) (v : Var) (hv : b.Free v) (hs : ∀ s ∈ stmts, v ≠ s.var) : ∃ w, ⟨v, w⟩ ∈ rep.globals := by
  have P0 := trans_post F O b hb inv_new h0
  obtain ⟨n, hn⟩ := P0.good.1 v hv
  have hg : rep.globals = reportGlobals Z stmts st := by
    unfold report at hr
    obtain ⟨⟨orig, c'⟩, -, hr⟩ := Option.bind_eq_some_iff.1 hr
    obtain ⟨⟨r, st1⟩, -, hr⟩ := Option.bind_eq_some_iff.1 hr
    have hr : (if _ > 0 then _ else _) = some rep := hr
    split at hr
    · obtain ⟨⟨r', st2⟩, -, hr⟩ := Option.bind_eq_some_iff.1 hr
      cases hr
      rfl
    · cases hr
      rfl
  rw [hg]
  refine ⟨_, List.mem_filterMap.2 ⟨v, List.mem_filter.2 ⟨?_, ?_⟩, by rw [hn]; rfl⟩⟩
  · have ht : st.locals.scopes.tail = [] := P0.step.scopes
    unfold ScopeMap.get at hn
    unfold localKeys
    cases hsc : st.locals.scopes with
    | nil => rw [hsc] at hn; cases hn
    | cons m ms =>
      rw [hsc] at hn ht
      have ht : ms = [] := ht
      subst ht
      have key : ∀ m : IndexMap Var (ScopeEntry Nat), ScopeMap.getIn [m] v = some n → ∃ p ∈ m, p.1 = v ∧ ∃ n, p.2 = .value n := by
        intro m hm
        unfold ScopeMap.getIn at hm
        induction m with
        | nil => cases hm
        | cons p m ih =>
          unfold IndexMap.get at hm
          by_cases hp : p.1 = v
          · rw [if_pos hp] at hm
            obtain ⟨p1, p2⟩ := p
            cases p2 with
            | value n => exact ⟨_, List.mem_cons_self, hp, n, rfl⟩
            | deleted => cases hm
          · rw [if_neg hp] at hm
            obtain ⟨q, hq, h⟩ := ih hm
            exact ⟨q, List.mem_cons_of_mem _ hq, h⟩
      obtain ⟨p, hp, hpv, n', hp2⟩ := key m hn
      refine List.mem_filterMap.2 ⟨p, hp, ?_⟩
      rw [hp2, hpv]
  · refine decide_eq_true fun hm => ?_
    obtain ⟨s, hs', he⟩ := List.mem_map.1 hm
    exact hs s hs' he.symm

end

/-! ## Witnesses -/

open Classical in
/-- A solver which answers as much as it may. -/
noncomputable def preciseModel [Doms] (agree : Model → Prop) (full : Model) : SolverModel where
  bool r := if ∀ M, agree M → r M then some true else if ∀ M, agree M → ¬ r M then some false else none
  real r := if h : ∃ q : ℚ, ∀ M, agree M → r M = q then some h.choose else none
  int r := some (r full)
  dyn _ r := some (r full)

theorem preciseModel_bool [Doms] {agree : Model → Prop} {full : Model} {r : Model → Prop} {b : Bool} (h : (preciseModel agree full).bool r = some b) (M : Model)
    (hM : agree M) : r M ↔ b = true := by
  unfold preciseModel at h
  dsimp only at h
  split at h
  · rename_i h1; cases h; exact ⟨fun _ => rfl, fun _ => h1 M hM⟩
  · split at h
    · rename_i h1; cases h; exact ⟨fun hr => absurd hr (h1 M hM), fun h => by cases h⟩
    · cases h

theorem preciseModel_real [Doms] {agree : Model → Prop} {full : Model} {r : Model → ℝ} {q : ℚ} (h : (preciseModel agree full).real r = some q) (M : Model)
    (hM : agree M) : r M = q := by
  unfold preciseModel at h
  dsimp only at h
  split at h
  · rename_i h1; cases h; exact h1.choose_spec M hM
  · cases h

theorem preciseModel_real_const [Doms] {agree : Model → Prop} {full : Model} (hf : agree full) {r : Model → ℝ} {q : ℚ} (h : ∀ M, agree M → r M = q) :
    (preciseModel agree full).real r = some q := by
  have hx : ∃ q : ℚ, ∀ M, agree M → r M = q := ⟨q, h⟩
  have : (preciseModel agree full).real r = some hx.choose := dif_pos hx
  rw [this]
  have h1 := hx.choose_spec full hf
  rw [h full hf] at h1
  rw [← (Rat.cast_injective h1 : q = hx.choose)]

/-- `if b { 1 } else { ∞ }`. -/
def C70_vc : Expr .eureal := .ite (.var ⟨"b", 0⟩) (.lit (.efrac 1)) (.lit .infty)

/-- The state of the translator after the translation of the formula. -/
def C70_st [Doms] : TState := { TState.new with next := 1, locals := ⟨[[(⟨⟨"b", 0⟩, .bool⟩, .value 0)]]⟩ }

/-- The term for `C70_vc`. -/
noncomputable def C70_term [Doms] : Term .eureal :=
  fun M => sBranch .eureal (show Prop from M.val 0 .bool) (Pair.fromUReal (((1 : ℚ≥0) : ℚ) : ℝ)) Pair.infinity

theorem C70_trans [Doms] [SmtInterp] : ∃ r, trans noCache (intoBoolVc .up C70_vc) .new = some (r, C70_st) := by
  unfold intoBoolVc C70_vc Expr.topLit
  simp only [trans, cached_no]
  exact ⟨_, rfl⟩

theorem C70_trans_vc [Doms] [SmtInterp] : trans noCache C70_vc C70_st = some (C70_term, C70_st) := by
  unfold C70_vc
  simp only [trans, cached_no]
  rfl

theorem C70_get [Doms] {v : Var} {n : Nat} (h : C70_st.locals.get v = some n) : v = ⟨⟨"b", 0⟩, .bool⟩ ∧ n = 0 := by
  by_cases hv : (⟨⟨"b", 0⟩, .bool⟩ : Var) = v
  · subst hv
    cases h
    exact ⟨rfl, rfl⟩
  · unfold ScopeMap.get C70_st at h
    simp only [ScopeMap.getIn, IndexMap.get, if_neg hv] at h
    cases h

/-- The solver's models for the formula. -/
theorem C70_refuted [Doms] [Interp] [SmtInterp] (F : Faithful) (agree : Model → Prop) (full : Model) (hZ : (preciseModel agree full).For C70_st agree full) :
    Refuted noCache .up C70_vc (intoBoolVc .up C70_vc) C70_st (preciseModel agree full) agree full := by
  refine ⟨fun _ => Iff.rfl, hZ, ?_⟩
  obtain ⟨r, h⟩ := C70_trans
  have hfin : FinSub (intoBoolVc .up C70_vc) := ⟨trivial, trivial, trivial, trivial⟩
  refine ⟨r, h, fun M _ => ?_⟩
  have hM : Respects C70_st M := ⟨(fun A hA => by cases hA), fun v n hn => by obtain ⟨rfl, rfl⟩ := C70_get hn; trivial⟩
  refine ⟨hM, fun hr => ?_⟩
  obtain ⟨σ, hσ⟩ := C50_models_partial F noCache _ hfin h M hM
  have h1 : (intoBoolVc .up C70_vc).tv σ := (C50_translation_partial F noCache _ hfin h M σ hM hσ : _ ↔ _).1 hr
  rw [intoBoolVc_tv] at h1
  have h2 : ∀ p : Prop, [Decidable p] → (if p then (((1 : ℚ≥0) : ℝ≥0) : ℝ≥0∞) else ⊤) = 0 → False := by
    intro p _ hp
    split at hp
    · simp at hp
    · simp at hp
  classical exact h2 _ h1

/-- The report for it. -/
theorem C70_report [Doms] [SmtInterp] (Z : SolverModel) : Reported noCache Z [] C70_vc ⟨[⟨"b", 0⟩], fun _ => none⟩ 7 C70_st
    (Slicing.SliceModel.fromModel .error [] Slicing.Selection.failure true (Z.slices C70_st))
    ⟨[⟨⟨⟨"b", 0⟩, .bool⟩, some (Z.evalBool fun M => M.val 0 .bool)⟩], [], C70_term, Z.evalEUReal C70_term, none⟩ := by
  refine ⟨fun v hv => ?_, (fun s hs => by cases hs), rfl, ?_⟩
  · unfold C70_vc at hv
    simp only [Expr.Occurs] at hv
    rcases hv with hv | hv | hv
    · subst hv; exact List.mem_cons_self
    · exact hv.elim
    · exact hv.elim
  · show (do let (r, _) ← trans noCache C70_vc C70_st; some _) = _
    rw [C70_trans_vc]
    rfl

theorem C70_term_pos [Doms] {M : Model} (h : (show Prop from M.val 0 .bool)) : C70_term M = Pair.fromUReal (((1 : ℚ≥0) : ℚ) : ℝ) := sBranch_pos h _ _
theorem C70_term_neg [Doms] {M : Model} (h : ¬ (show Prop from M.val 0 .bool)) : C70_term M = Pair.infinity := sBranch_neg h _ _

theorem C70_term_fin [Doms] {M : Model} (h : (show Prop from M.val 0 .bool)) : ¬ Pair.isInf (C70_term M) := by
  have : C70_term M = Pair.fromUReal _ := C70_term_pos h
  rw [this]
  exact id
theorem C70_term_inf [Doms] {M : Model} (h : ¬ (show Prop from M.val 0 .bool)) : Pair.isInf (C70_term M) := by
  have : C70_term M = Pair.infinity := C70_term_neg h
  rw [this]
  trivial

theorem C70_term_num [Doms] (M : Model) : Pair.num (C70_term M) = ((1 : ℚ) : ℝ) := by
  by_cases h : (show Prop from M.val 0 .bool)
  · rw [C70_term_pos h]
    show ((((1 : ℚ≥0) : ℚ)) : ℝ) = _
    norm_num
  · rw [C70_term_neg h]
    show (1 : ℝ) = _
    norm_num

open Classical in
/-- An SMT model in which `b` has the given value. -/
noncomputable def C70_model [Doms] (p : Prop) : Model :=
  ⟨fun _ t => if h : t = .bool then h ▸ (show Ty.bool.den from p : SVal .bool) else (inv_exists t).choose, fun _ _ => Pair.zero⟩

theorem C70_model_val [Doms] (p : Prop) : (C70_model p).val 0 .bool = p := rfl

/-- The theorem applies: if `b` is true in the solver's model, then the report is `b: true` and the value `1`. -/
example : ∃ (_ : Doms) (_ : Interp) (_ : SmtInterp) (_ : Faithful) (Z : SolverModel) (agree : Model → Prop) (full : Model) (sm : Slicing.SliceModel) (rep : Report),
    Refuted noCache .up C70_vc (intoBoolVc .up C70_vc) C70_st Z agree full ∧ Reported noCache Z [] C70_vc ⟨[⟨"b", 0⟩], fun _ => none⟩ 7 C70_st sm rep ∧
    rep.globals = [⟨⟨⟨"b", 0⟩, .bool⟩, some true⟩] ∧ rep.pre = some (.real 1) ∧ rep.sliced = none ∧
    (rep.pre = some .infinity → Z.bool (fun M => Pair.isInf (rep.preTerm M)) ≠ none) ∧ ∃ σ : Env, Describes rep sm C70_vc σ ∧ FailsIn .up C70_vc σ := by
  let _ := unitDoms
  let _ := unitInterp
  obtain ⟨S, F⟩ := faithful_exists (fun _ => rfl) (fun _ => rfl)
  let agree : Model → Prop := fun M => (show Prop from M.val 0 .bool)
  have hb : (preciseModel agree (C70_model True)).bool (fun M => M.val 0 .bool) = some true := if_pos fun M hM => hM
  have hZ : (preciseModel agree (C70_model True)).For C70_st agree (C70_model True) := by
    refine ⟨trivial, fun r b h => preciseModel_bool h, fun r q h => preciseModel_real h, fun r z h => Option.some.inj h, fun n r x h => Option.some.inj h,
      fun M M' hM h _ => ?_, fun M M' hM _ _ h _ _ => ?_⟩
    · exact (show (show Prop from M'.val 0 .bool) = (show Prop from M.val 0 .bool) from h ⟨⟨"b", 0⟩, .bool⟩ 0 rfl).mpr hM
    · exact (show (show Prop from M'.val 0 .bool) = (show Prop from M.val 0 .bool) from h 0 (by rw [hb]; exact fun h => nomatch h)).mpr hM
  have hR := C70_refuted F agree _ hZ
  have hP := C70_report (preciseModel agree (C70_model True))
  have hpre : (preciseModel agree (C70_model True)).evalEUReal C70_term = some (.real 1) := by
    unfold SolverModel.evalEUReal SolverModel.evalBool
    have h1 : (preciseModel agree (C70_model True)).bool (fun M => Pair.isInf (C70_term M)) = some false := by
      refine (if_neg fun h => ?_).trans (if_pos fun M hM => ?_)
      · exact C70_term_fin (M := C70_model True) trivial (h (C70_model True) trivial)
      · exact C70_term_fin hM
    rw [h1, preciseModel_real_const (q := 1) trivial fun M _ => C70_term_num M]
    rfl
  refine ⟨_, _, S, F, _, agree, _, _, _, hR, hP, ?_, hpre, rfl, ?_, ?_⟩
  · show [(⟨⟨⟨"b", 0⟩, .bool⟩, some (((preciseModel agree (C70_model True)).bool (fun M => M.val 0 .bool)).getD true)⟩ : (v : Var) × Option (Shown v.ty))] = _
    rw [hb]
    rfl
  · intro h
    exact absurd (hpre.symm.trans h) (by simp)
  · refine C70_partial F noCache .up C70_vc _ _ _ agree _ [] _ 7 _ _ hR hP ⟨trivial, trivial, trivial, trivial⟩ ⟨trivial, trivial, trivial⟩ ?_ ?_ fun r h => by cases h
    · intro orig c' h
      cases h
      exact ⟨trivial, trivial, trivial⟩
    · intro h
      exact absurd (hpre.symm.trans h) (by simp)

/-- The full property fails: if the solver's model has no value for `b`, then `b: true` and the value `∞` are printed, but the value for `b = true` is `1`. -/
theorem C70_not_full : ¬ C70_full := by
  intro hfull
  let _ := unitDoms
  let _ := unitInterp
  obtain ⟨S, F⟩ := faithful_exists (fun _ => rfl) (fun _ => rfl)
  let agree : Model → Prop := fun _ => True
  have hZ : (preciseModel agree (C70_model True)).For C70_st agree (C70_model True) :=
    ⟨trivial, fun r b h => preciseModel_bool h, fun r q h => preciseModel_real h, fun r z h => Option.some.inj h, fun n r x h => Option.some.inj h,
      fun _ _ _ _ _ => trivial, fun _ _ _ _ _ _ _ _ => trivial⟩
  obtain ⟨σ, hD, -⟩ := hfull _ _ S F noCache .up C70_vc _ C70_st _ agree _ [] _ 7 _ _ (C70_refuted F agree _ hZ) (C70_report _)
  have hb : (preciseModel agree (C70_model True)).bool (fun M => M.val 0 .bool) = none := by
    refine (if_neg fun h => ?_).trans (if_neg fun h => ?_)
    · exact h (C70_model False) trivial
    · exact h (C70_model True) trivial trivial
  have hi : (preciseModel agree (C70_model True)).bool (fun M => Pair.isInf (C70_term M)) = none := by
    refine (if_neg fun h => ?_).trans (if_neg fun h => ?_)
    · exact C70_term_fin (M := C70_model True) trivial (h (C70_model True) trivial)
    · exact h (C70_model False) trivial (C70_term_inf (M := C70_model False) id)
  have hpre : (preciseModel agree (C70_model True)).evalEUReal C70_term = some .infinity := by
    unfold SolverModel.evalEUReal SolverModel.evalBool
    rw [hi, preciseModel_real_const (q := 1) trivial fun M _ => C70_term_num M]
    rfl
  have h1 := hD.globals ⟨⟨"b", 0⟩, .bool⟩ true (by
    show _ ∈ [(⟨⟨⟨"b", 0⟩, .bool⟩, some (((preciseModel agree (C70_model True)).bool (fun M => M.val 0 .bool)).getD true)⟩ : (v : Var) × Option (Shown v.ty))]
    rw [hb]
    exact List.mem_cons_self)
  have h1 : (show Prop from σ ⟨⟨"b", 0⟩, .bool⟩) := (show _ ↔ _ from h1).2 rfl
  have h2 : C70_vc.ev σ = ⊤ := hD.pre _ hpre
  have h3 : ∀ p : Prop, [Decidable p] → p → (if p then (((1 : ℚ≥0) : ℝ≥0) : ℝ≥0∞) else ⊤) = ⊤ → False := by
    intro p _ hp h
    rw [if_pos hp] at h
    simp at h
  classical exact h3 _ h1 h2

end Caesar.Smt
