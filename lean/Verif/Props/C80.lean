import Verif.Driver.LowerLocal
import Verif.Driver.RunUnitLemmas
import Verif.Props.C47
import Verif.Props.C61
import Verif.Props.C67
import Verif.Slicing.TransformKeeps

/-!
# C80: the verdict on a verification unit is right, from the encoded procedure to the answers of the SMT solver

This composes slicing, verification condition generation, lowering, the SMT translation of the formula and of the slice variables, and the search for
failing slices. The only thing assumed about the SMT solver is that it answers its own queries truthfully, in terms of SMT models
(`SolverTruthful`). The specification of the verdict is about the statement before slicing.
-/

open scoped ENNReal NNReal
open Relation

namespace Caesar
set_option linter.unusedSectionVars false
open Slicing

namespace Smt
variable [Doms]

/-- Specification: the SMT model satisfies all that is asserted in the search for failing slices, apart from the bound on the number of
enabled statements: the constraints of the translator, the negation of the formula, the constraints on slices, and that statements which are not
selected for failing slices are enabled. -/
def SliceQuery.Counter (q : SliceQuery) (M : Model) : Prop :=
  Respects q.st M ∧ ¬ (show Prop from q.vc M) ∧ (∀ c ∈ q.constraints, (show Prop from c M)) ∧
    ∀ x ∈ q.vars, Selection.failure.enables x.1.selection = false → (show Prop from x.2 M)

open Classical in
/-- Specification: the number of active slice variables which are true in the model. -/
noncomputable def SliceQuery.count (q : SliceQuery) (M : Model) : Nat :=
  (q.vars.filter fun x => Selection.failure.enables x.1.selection && decide (show Prop from x.2 M)).length

/-- Specification: the solver tells the truth about the queries. After `sat`, its model, which need not give a value to all slice variables, is part of
a real model however the other slice variables are chosen, and after `unsat` there is no model. Nothing is known after `unknown`. -/
def SolverTruthful (q : SliceQuery) (ask : Nat → Nat → Reply) : Prop :=
  ∀ step n, match ask step n with
    | .sat P => ∀ A : Ident → Bool, Completes P A →
        ∃ M, q.Counter M ∧ (∀ x ∈ q.vars, ((show Prop from x.2 M) ↔ A x.1.ident = true)) ∧ q.count M ≤ n
    | .unsat => ∀ M, q.Counter M → n < q.count M
    | .unknown _ => True

end Smt

/-- What is assumed about the statement of the unit after calls were replaced, in the symbol table at this point. All variables are declared; there are no
user-written quantifiers if quantifier elimination is on, and no `<=`, `>=`, `==` on `Int`, `Real`, `Bool` with the relational optimisation (see C10); `validate`
is only used where loops are encoded, and distributions are proper (see C01). -/
structure UnitOk [Doms] [Interp] (tcx : TyCtx) (opts : LowerOptions) (S : Stmt) : Prop where
  touched : ∀ v, S.Touched v → v.id ∈ tcx.decls
  occurs : S.All (fun e => ∀ v, e.Occurs v → v.id ∈ tcx.decls) (fun x => x.id ∈ tcx.decls)
  quants : opts.noQelim = false → S.All (fun e => e.freshVars = []) (fun _ => True)
  cmps : opts.optRel = true → S.All (fun e => e.CmpTypes RelCmp) (fun _ => True)
  guarded : S.SGuarded
  dists : S.GoodDists

section
variable [Doms] [Interp]

/-- Specification of the verdict on the statement `S`: after a proof it succeeds in all states; after a counterexample, there is a reported slice, and a
program obtained from `S` by deleting the statements and branches which are not part of it fails in some state. -/
def GoodVerdict (C : SemCtx) (filter : Selection) (tcx : TyCtx) (d : Dir) (S : Stmt) (out : ProveResult × Option SliceModel) : Prop :=
  match out.1 with
  | .proof => ∀ σ, Succeeds d (vcSem C S (postExp d) σ)
  | .counterexample => ∃ sm, out.2 = some sm ∧ ∃ T, Cut S T ∧ (∀ φ σ, (∀ s ∈ (transform filter tcx d S).2.stmts,
      ((.var s.ident : Expr .bool).tv σ ↔ Kept (transform filter tcx d S).2.stmts sm s.ident)) →
        vcSem C (transform filter tcx d S).1 φ σ = vcSem C T φ σ) ∧ ∃ σ, ¬ Succeeds d (vcSem C T (postExp d) σ)
  | .unknown => True

end

/-- C80: for all options and units in which all variables are declared, and all truthful solvers, the verdict is right. -/
def C80_full : Prop :=
  ∀ (_ : Doms) (_ : Interp) (_ : Smt.SmtInterp), Smt.Faithful → ∀ (C : SemCtx), C.Regular → ∀ (O : Smt.Oracle) (c : UnitCtx), c.oracle.Sound →
    ∀ (opts : UnitOptions) (d : Dir) (T S : Stmt) (declared' : List Var), specCall c.procs d T c.declared = some (S, declared') →
    (∀ v, S.Touched v → v.id ∈ c.tcx.decls) → S.All (fun e => ∀ v, e.Occurs v → v.id ∈ c.tcx.decls) (fun x => x.id ∈ c.tcx.decls) →
    S.SGuarded → S.GoodDists → ∀ (ask : Smt.SliceQuery → Nat → Nat → Reply), (∀ q, Smt.SolverTruthful q (ask q)) → ∀ out,
      Runs O c opts ask d T out → GoodVerdict C opts.selection c.tcx d S out

/-! ## Lemmas -/

section
variable [Doms] [Interp] {C : SemCtx}

theorem closed_occurs (D : List Ident) : Closed (fun e => ∀ v, e.Occurs v → v.id ∈ D) (fun x => x.id ∈ D) where
  ite c a b hc ha hb v hv := by
    rcases hv with h | h | h
    · exact hc v h
    · exact ha v h
    · exact hb v h
  var x hx v hv := by cases hv; exact hx
  top v hv := nomatch hv
  bot v hv := nomatch hv
  one v hv := nomatch hv

theorem closed_fresh : Closed (fun e => e.freshVars = []) (fun _ => True) where
  ite c a b hc ha hb := by simp [Expr.freshVars, hc, ha, hb]
  var _ _ := rfl
  top := rfl
  bot := rfl
  one := rfl

theorem closed_cmps : Closed (fun e => e.CmpTypes RelCmp) (fun _ => True) where
  ite c a b hc ha hb := ⟨hc, ha, hb⟩
  var _ _ := trivial
  top := trivial
  bot := trivial
  one := trivial

theorem Stmt.All.mono {P Q : {t : Ty} → Expr t → Prop} {V W : Var → Prop} (h : ∀ {t : Ty} (e : Expr t), P e → Q e) (hV : ∀ x, V x → W x) {S : Stmt} :
    S.All P V → S.All Q W := by
  induction S with
  | seq a b iha ihb => exact fun h1 => ⟨iha h1.1, ihb h1.2⟩
  | varInit x e => exact fun h1 => ⟨hV _ h1.1, h e h1.2⟩
  | assign x e => exact fun h1 => ⟨hV _ h1.1, h e h1.2⟩
  | sample b x d =>
    intro h1
    cases d with
    | flip p => exact ⟨hV _ h1.1, h p h1.2⟩
    | _ => exact ⟨hV _ h1.1, trivial⟩
  | havoc d xs => exact fun h1 x hx => hV x (h1 x hx)
  | assert d e | assume d e | compare d e | tick e | weigh e => exact fun h1 => h e h1
  | demonic a b iha ihb | angelic a b iha ihb | additive a b iha ihb => exact fun h1 => ⟨iha h1.1, ihb h1.2⟩
  | ite c a b iha ihb => exact fun h1 => ⟨h c h1.1, iha h1.2.1, ihb h1.2.2⟩
  | annot an s ih => exact fun h1 => ih h1
  | _ => exact fun _ => trivial

/-- The conditions hold for the statement with slice variables. -/
theorem UnitOk.sliced {tcx : TyCtx} {opts : LowerOptions} {S : Stmt} (h : UnitOk tcx opts S) (filter : Selection) (d : Dir) :
    (transform filter tcx d S).1.All (fun e => ∀ v, e.Occurs v → v.id ∈ (transform filter tcx d S).2.tcx.decls)
      (fun x => x.id ∈ (transform filter tcx d S).2.tcx.decls) ∧
    (opts.noQelim = false → (transform filter tcx d S).1.All (fun e => e.freshVars = []) (fun _ => True)) ∧
    (opts.optRel = true → (transform filter tcx d S).1.All (fun e => e.CmpTypes RelCmp) (fun _ => True)) ∧
    (transform filter tcx d S).1.SGuarded ∧ (transform filter tcx d S).1.GoodDists ∧
    (∀ s ∈ (transform filter tcx d S).2.stmts, s.ident ∈ (transform filter tcx d S).2.tcx.decls ∧ s.ident ∉ tcx.decls) := by
  have k : Keeps S { tcx := tcx, dir := d } (visit filter {} { tcx := tcx, dir := d } S) := visit_keeps filter S {} { tcx := tcx, dir := d }
  have hs : ∀ s ∈ (transform filter tcx d S).2.stmts, s.ident ∈ (transform filter tcx d S).2.tcx.decls ∧ s.ident ∉ tcx.decls := fun s hs =>
    ⟨(k.declared s hs).elim (fun h => nomatch h) id, (k.grows.fresh s hs).elim (fun h => nomatch h) id⟩
  have hD : ∀ x ∈ tcx.decls, x ∈ (transform filter tcx d S).2.tcx.decls := k.grows.decls
  refine ⟨k.all _ _ (closed_occurs _) (fun s h v hv => ?_) (h.occurs.mono (fun e he v hv => hD _ (he v hv)) fun x hx => hD _ hx),
    fun hq => k.all _ _ closed_fresh (fun _ _ => rfl) (h.quants hq), fun hr => k.all _ _ closed_cmps (fun _ _ => trivial) (h.cmps hr),
    k.guarded h.guarded, k.dists h.dists, hs⟩
  cases hv
  exact (hs s h).1

theorem terminal_clean (d : Dir) (K : Lang) : (terminal d).Clean K := by cases d <;> exact topLit_clean rfl

/-- The variables in the verification condition are declared, and so on. -/
theorem vc_conditions {tcx : TyCtx} {opts : LowerOptions} {d : Dir} {S : Stmt} {e : Expr .eureal} (he : coreVc d S = .ok e)
    (hd : S.All (fun e => ∀ v, e.Occurs v → v.id ∈ tcx.decls) (fun x => x.id ∈ tcx.decls))
    (hq : opts.noQelim = false → S.All (fun e => e.freshVars = []) (fun _ => True))
    (hr : opts.optRel = true → S.All (fun e => e.CmpTypes RelCmp) (fun _ => True)) :
    (∀ v, e.Occurs v → v.id ∈ tcx.decls) ∧ (opts.noQelim = false → e.freshVars = []) ∧ (opts.optRel = true → e.CmpTypes RelCmp) := by
  have hS1 : S.All (fun e => e.Clean ⟨True, fun _ => True, tcx.decls, fun _ => True⟩) (fun x => x.id ∈ tcx.decls) :=
    hd.and (fun e h _ => (Expr.clean_iff _ (fun _ => trivial) e).2 ⟨fun _ => trivial, cmpTypes_true e, h⟩) hd
  refine ⟨((Expr.clean_iff _ (fun _ => trivial) e).1 (vcgen_clean he hS1 (terminal_clean d _))).2.2, fun h => ?_, fun h => ?_⟩
  · have h2 := (Expr.clean_iff _ (fun _ => trivial) e).1 (vcgen_clean (K := ⟨False, fun _ => True, tcx.decls, fun _ => True⟩) he
      (hd.and (fun e h h' => (Expr.clean_iff _ (fun _ => trivial) e).2 ⟨fun hf => hf h', cmpTypes_true e, h⟩) (hq h)) (terminal_clean d _))
    by_contra hf
    exact h2.1 hf
  · exact ((Expr.clean_iff _ (fun _ => trivial) e).1 (vcgen_clean (K := ⟨True, RelCmp, tcx.decls, fun _ => True⟩) he
      (hd.and (fun e h h' => (Expr.clean_iff _ (fun _ => trivial) e).2 ⟨fun _ => trivial, h', h⟩) (hr h)) (terminal_clean d _))).2.1

theorem holdsAt_iff (C : SemCtx) {d : Dir} {S : Stmt} {e : Expr .eureal} (he : coreVc d S = .ok e) (hg : S.SGuarded) (hd : S.GoodDists) (σ : Env) :
    HoldsAt d e σ ↔ Succeeds d (vcSem C S (postExp d) σ) := by
  have hsem := congrFun (vcgen_sound C he (hg.validateOk _) hd) σ
  rw [show (terminal d).ev = postExp d by cases d <;> [rfl; exact terminal_ev .up]] at hsem
  cases d with
  | down => exact iff_of_eq (congrArg (fun x : ℝ≥0∞ => x = ⊤) hsem)
  | up => exact iff_of_eq (congrArg (fun x : ℝ≥0∞ => x = 0) hsem)

/-- The formula of the unit: for each assignment of the variables of the statement and the slice variables. -/
theorem formula_spec (C : SemCtx) (c : UnitCtx) (ho : c.oracle.Sound) (opts : UnitOptions) (d : Dir) {T S : Stmt} {declared' : List Var}
    (hS : specCall c.procs d T c.declared = some (S, declared')) (hok : UnitOk c.tcx opts.lower S) :
    (∀ n, c.formula opts n d T = none) ∧ (¬ S.Core) ∨ S.Core ∧ ∃ N, ∀ n ≥ N, ∃ b, c.formula opts n d T = some (b, (transform opts.selection c.tcx d S).2) ∧
      ∀ σ : Env, Succeeds d (vcSem C (transform opts.selection c.tcx d S).1 (postExp d) σ) ↔
        ∀ τ : Env, (∀ v : Var, v.id ∈ (transform opts.selection c.tcx d S).2.tcx.decls → τ v = σ v) → b.tv τ := by
  obtain ⟨h1, h2, h3, h4, h5, h6⟩ := hok.sliced opts.selection d
  have hform : ∀ n, c.formula opts n d T = (coreVc d (transform opts.selection c.tcx d S).1).toOption.bind fun e =>
      (lowerQuant c.oracle c.span c.span' c.span'' opts.lower n d e ((transform opts.selection c.tcx d S).2.tcx, c.queries)).bind fun x =>
        some (x.1, (transform opts.selection c.tcx d S).2) := by
    intro n
    unfold UnitCtx.formula UnitCtx.sliced
    rw [hS]
    rfl
  have hcore : (transform opts.selection c.tcx d S).1.Core ↔ S.Core := (visit_keeps opts.selection S {} { tcx := c.tcx, dir := d }).core
  cases he : coreVc d (transform opts.selection c.tcx d S).1 with
  | error x =>
    refine .inl ⟨fun n => by rw [hform, he]; rfl, fun h => ?_⟩
    obtain ⟨e, h⟩ := core_vcgen (hcore.2 h) (terminal d)
    cases he.symm.trans h
  | ok e =>
    obtain ⟨g1, g2, g3⟩ := vc_conditions he h1 h2 h3
    obtain ⟨N, hN⟩ := lowering_local ho c.span c.span' c.span'' opts.lower d e ((transform opts.selection c.tcx d S).2.tcx, c.queries) g1 g2 g3
    refine .inr ⟨hcore.1 (vcgen_core he), N, fun n hn => ?_⟩
    obtain ⟨b, s', hl, hb⟩ := hN n hn
    refine ⟨b, by rw [hform, he]; show (lowerQuant _ _ _ _ _ _ _ _ _).bind _ = _; rw [hl]; rfl, fun σ => ?_⟩
    rw [← holdsAt_iff C he h4 h5]
    exact hb σ

variable [Smt.SmtInterp]

/-- Counting slice variables in an SMT model and in a slice. -/
theorem count_eq {q : Smt.SliceQuery} {stmts : List SliceStmt} (hq : q.vars.map Prod.fst = stmts) {M : Smt.Model} {A : Ident → Bool}
    (h : ∀ x ∈ q.vars, ((show Prop from x.2 M) ↔ A x.1.ident = true)) : q.count M = enabledCount (activeVars .failure stmts) A := by
  classical
  subst hq
  unfold Smt.SliceQuery.count enabledCount activeVars
  rw [List.filter_map, List.length_map, List.filter_filter, List.filter_map, List.length_map]
  refine congrArg List.length (List.filter_congr fun x hx => ?_)
  have := h x hx
  by_cases hA : A x.1.ident = true <;> simp_all

/-- The truth about SMT models is the truth about slices. -/
theorem truthful_slices (F : Smt.Faithful) (C : SemCtx) (O : Smt.Oracle) {filter : Selection} {tcx : TyCtx} {d : Dir} {S : Stmt} {b : Expr .bool}
    (hD : ∀ s ∈ (transform filter tcx d S).2.stmts, s.ident ∈ (transform filter tcx d S).2.tcx.decls)
    (hb : ∀ σ : Env, Succeeds d (vcSem C (transform filter tcx d S).1 (postExp d) σ) ↔
        ∀ τ : Env, (∀ v : Var, v.id ∈ (transform filter tcx d S).2.tcx.decls → τ v = σ v) → b.tv τ)
    (hfin : Smt.FinSub b) {q : Smt.SliceQuery}
    (hq : Smt.mkQuery O b (transform filter tcx d S).2.stmts (transform filter tcx d S).2.constraints = some q) {ask : Nat → Nat → Reply}
    (ht : Smt.SolverTruthful q ask) : TruthfulFor C filter tcx d S ask := by
  obtain ⟨hv, hM, hσ⟩ := Smt.mkQuery_spec F O hfin (fun x hx => by
    rcases visit_constraint_form filter S {} { tcx := tcx, dir := d } x hx with h | ⟨s, -, s', -, h⟩
    · cases h
    · exact ⟨_, _, h⟩) hq
  have hmem : ∀ s ∈ (transform filter tcx d S).2.stmts, ∃ x ∈ q.vars, x.1 = s := fun s hs => by
    rw [← hv] at hs
    exact List.mem_map.1 hs
  have hmem' : ∀ x ∈ q.vars, x.1 ∈ (transform filter tcx d S).2.stmts := fun x hx => hv ▸ List.mem_map.2 ⟨x, hx, rfl⟩
  intro step n
  have := ht step n
  revert this
  cases ask step n with
  | unknown P => exact fun _ => trivial
  | sat P =>
    intro h A hA
    obtain ⟨M, ⟨m1, m2, m3, m4⟩, hx, hn⟩ := h A hA
    obtain ⟨σ, s1, s2, s3⟩ := hσ M m1
    refine ⟨⟨σ, fun s hs => ?_, s3.1 m3, fun s hs he => ?_, fun h => m2 (s1.2 ((hb σ).1 h σ fun _ _ => rfl))⟩, ?_⟩
    · obtain ⟨x, hxv, rfl⟩ := hmem s hs
      exact (s2 x hxv).symm.trans (hx x hxv)
    · obtain ⟨x, hxv, rfl⟩ := hmem s hs
      exact (hx x hxv).1 (m4 x hxv he)
    · rw [← count_eq hv hx]
      exact hn
  | unsat =>
    rintro h A ⟨σ, a1, a2, a3, a4⟩
    rw [hb σ] at a4
    push Not at a4
    obtain ⟨τ, hτ, hbτ⟩ := a4
    have hvar : ∀ s ∈ (transform filter tcx d S).2.stmts, ((.var s.ident : Expr .bool).tv τ ↔ (.var s.ident : Expr .bool).tv σ) := fun s hs =>
      iff_of_eq (hτ ⟨s.ident, .bool⟩ (hD s hs))
    obtain ⟨M, m1, s1, s2, s3⟩ := hM τ
    have hx : ∀ x ∈ q.vars, ((show Prop from x.2 M) ↔ A x.1.ident = true) := fun x hx =>
      (s2 x hx).trans ((hvar _ (hmem' x hx)).trans (a1 _ (hmem' x hx)))
    rw [← count_eq hv hx]
    refine h M ⟨m1, fun h => hbτ (s1.1 h), s3.2 fun x hx => ?_, fun x hx' he => (hx x hx').2 (a3 _ (hmem' x hx') he)⟩
    exact (constraints_congr hvar hx).2 (a2 x hx)

/-- States can be changed on the slice variables. -/
theorem succeeds_any {tcx : TyCtx} {opts : LowerOptions} {d : Dir} {S : Stmt} (hok : UnitOk tcx opts S) (hcore : S.Core) {filter : Selection}
    (h : ∀ σ, (∀ s ∈ (transform filter tcx d S).2.stmts, (.var s.ident : Expr .bool).tv σ) → Succeeds d (vcSem C S (postExp d) σ)) (σ : Env) :
    Succeeds d (vcSem C S (postExp d) σ) := by
  classical
  obtain ⟨e, he⟩ := core_vcgen hcore (terminal d)
  have hocc := (vc_conditions he hok.occurs hok.quants hok.cmps).1
  have hfresh := (hok.sliced filter d).2.2.2.2.2
  let σ' : Env := fun v => match v with
    | ⟨i, .bool⟩ => ((∃ s ∈ (transform filter tcx d S).2.stmts, s.ident = i) ∨ (show Prop from σ ⟨i, .bool⟩) : Prop)
    | v => σ v
  rw [← holdsAt_iff C he hok.guarded hok.dists]
  have heq : e.ev σ = e.ev σ' := by
    refine Expr.eval_congr e fun v hv => ?_
    have := hocc v hv.occurs
    obtain ⟨i, t⟩ := v
    cases t with
    | bool =>
      refine propext ⟨fun h => .inr h, fun h => h.resolve_left ?_⟩
      rintro ⟨s, hs, rfl⟩
      exact (hfresh s hs).2 this
    | _ => rfl
  rw [holdsAt_congr heq, holdsAt_iff C he hok.guarded hok.dists]
  refine h σ' fun s hs => ?_
  exact .inl ⟨s, hs, rfl⟩

theorem runUnit_some {O : Smt.Oracle} {c : UnitCtx} {opts : UnitOptions} {ask : Smt.SliceQuery → Nat → Nat → Reply} {n fuel : Nat} {d : Dir} {T : Stmt} {out}
    (h : runUnit O c opts ask n fuel d T = some out) : ∃ b st q, c.formula opts n d T = some (b, st) ∧ Smt.mkQuery O b st.stmts st.constraints = some q ∧
      sliceFailing (failingOptions opts.sliceErrorFirst opts.sliceErrorInconsistent) st.stmts (ask q) fuel = some out := by
  obtain ⟨⟨b, st⟩, h1, h⟩ := Option.bind_eq_some_iff.1 h
  obtain ⟨q, h2, h⟩ := Option.bind_eq_some_iff.1 h
  exact ⟨b, st, q, h1, h2, h⟩

/-- A unit that ends has a verification condition, and the search was done with truthful answers about slices. -/
theorem runs_truthful (F : Smt.Faithful) (C : SemCtx) (O : Smt.Oracle) (c : UnitCtx) (ho : c.oracle.Sound) (opts : UnitOptions) (d : Dir) {T S : Stmt}
    {declared' : List Var} (hS : specCall c.procs d T c.declared = some (S, declared')) (hok : UnitOk c.tcx opts.lower S)
    (hfin : ∀ n b st, c.formula opts n d T = some (b, st) → Smt.FinSub b) (ask : Smt.SliceQuery → Nat → Nat → Reply)
    (ht : ∀ q, Smt.SolverTruthful q (ask q)) {out} (h : Runs O c opts ask d T out) :
    S.Core ∧ ∃ q fuel, TruthfulFor C opts.selection c.tcx d S (ask q) ∧
      sliceFailing (failingOptions opts.sliceErrorFirst opts.sliceErrorInconsistent) (transform opts.selection c.tcx d S).2.stmts (ask q) fuel = some (some out) := by
  obtain ⟨N, hN⟩ := h
  rcases formula_spec C c ho opts d hS hok with ⟨hf, -⟩ | ⟨hcore, N', hN'⟩
  · obtain ⟨fuel, h⟩ := hN N (le_refl N)
    obtain ⟨b, st, q, h1, -, -⟩ := runUnit_some h
    cases (hf N).symm.trans h1
  · refine ⟨hcore, ?_⟩
    obtain ⟨fuel, h⟩ := hN (max N N') (le_max_left _ _)
    obtain ⟨b, st, q, h1, h2, h3⟩ := runUnit_some h
    obtain ⟨b', hb1, hb2⟩ := hN' (max N N') (le_max_right _ _)
    rw [h1] at hb1
    cases hb1
    exact ⟨q, fuel, truthful_slices F C O (fun s hs => ((hok.sliced opts.selection d).2.2.2.2.2 s hs).1) hb2 (hfin _ _ _ h1) h2 (ht q), h3⟩

/-- The bound on the recursion does not matter once it is large enough. -/
theorem lowerQuant_stable (o : Oracle) (span span' span'' : Nat) (opts : LowerOptions) (d : Dir) (e : Expr .eureal) (s : UState) :
    ∃ N, ∀ n ≥ N, lowerQuant o span span' span'' opts n d e s = lowerQuant o span span' span'' opts N d e s := by
  have hopt : ∀ b, ∃ N, ∀ n ≥ N, optBool opts n b = optBool opts N b := by
    intro b
    by_cases h : opts.noBoolify = true
    · exact ⟨0, fun n _ => by unfold optBool boolifyStep; rw [if_pos h, if_pos h]⟩
    · obtain ⟨b', N, hN⟩ := C07_terminates (parensStep opts b)
      exact ⟨N, fun n hn => by unfold optBool boolifyStep; rw [if_neg h, if_neg h, hN n hn, hN N (Nat.le_refl N)]⟩
  have hl : ∀ n, lowerQuant o span span' span'' opts n d e s = (unfoldStep o span opts e s).bind fun x =>
      (qelimStep span' span'' opts d x.1 x.2).bind fun y => (optBool opts n (intoBoolVc d y.1)).map (·, y.2) := fun n => rfl
  cases hu : unfoldStep o span opts e s with
  | none => exact ⟨0, fun n _ => by rw [hl, hl, hu]; rfl⟩
  | some x =>
    cases hq : qelimStep span' span'' opts d x.1 x.2 with
    | none => exact ⟨0, fun n _ => by rw [hl, hl, hu, Option.bind_some, Option.bind_some, hq]; rfl⟩
    | some y =>
      obtain ⟨N, hN⟩ := hopt (intoBoolVc d y.1)
      refine ⟨N, fun n hn => ?_⟩
      rw [hl, hl, hu, Option.bind_some, Option.bind_some, hq, Option.bind_some, Option.bind_some, hN n hn]

theorem runUnit_stable (O : Smt.Oracle) (c : UnitCtx) (opts : UnitOptions) (ask : Smt.SliceQuery → Nat → Nat → Reply) (d : Dir) (T : Stmt) :
    ∃ N, ∀ n ≥ N, ∀ fuel, runUnit O c opts ask n fuel d T = runUnit O c opts ask N fuel d T := by
  have hf : ∃ N, ∀ n ≥ N, c.formula opts n d T = c.formula opts N d T := by
    have hl : ∀ n, c.formula opts n d T = (c.sliced opts d T).bind fun x => (coreVc d x.1).toOption.bind fun e =>
      (lowerQuant c.oracle c.span c.span' c.span'' opts.lower n d e (x.2.tcx, c.queries)).bind fun y => some (y.1, x.2) := fun n => rfl
    cases h1 : c.sliced opts d T with
    | none => exact ⟨0, fun n _ => by rw [hl, hl, h1]; rfl⟩
    | some x =>
      cases h2 : (coreVc d x.1).toOption with
      | none => exact ⟨0, fun n _ => by rw [hl, hl, h1, Option.bind_some, Option.bind_some, h2]; rfl⟩
      | some e =>
        obtain ⟨N, hN⟩ := lowerQuant_stable c.oracle c.span c.span' c.span'' opts.lower d e (x.2.tcx, c.queries)
        refine ⟨N, fun n hn => ?_⟩
        rw [hl, hl, h1, Option.bind_some, Option.bind_some, h2, Option.bind_some, Option.bind_some, hN n hn]
  obtain ⟨N, hN⟩ := hf
  exact ⟨N, fun n hn fuel => by unfold runUnit; rw [hN n hn]⟩

/-! ## What holds -/

/-- C80, if the options for incomplete searches are not used, no subtraction in the formula has an infinite subtrahend (see C12), and for the
fragment of C10: the verdict is right. -/
theorem C80_verdict_partial (F : Smt.Faithful) (hC : C.Regular) (O : Smt.Oracle) (c : UnitCtx) (ho : c.oracle.Sound) (opts : UnitOptions)
    (hi : opts.sliceErrorInconsistent = false) (d : Dir) (T S : Stmt)
    (declared' : List Var) (hS : specCall c.procs d T c.declared = some (S, declared')) (hok : UnitOk c.tcx opts.lower S)
    (hfin : ∀ n b st, c.formula opts n d T = some (b, st) → Smt.FinSub b) (ask : Smt.SliceQuery → Nat → Nat → Reply)
    (ht : ∀ q, Smt.SolverTruthful q (ask q)) (out : ProveResult × Option SliceModel) (h : Runs O c opts ask d T out) :
    GoodVerdict C opts.selection c.tcx d S out := by
  obtain ⟨hcore, q, fuel, htr, hs⟩ := runs_truthful F C O c ho opts d hS hok hfin ask ht h
  obtain ⟨r, sm⟩ := out
  cases r with
  | unknown => trivial
  | proof =>
    rw [hi] at hs
    exact succeeds_any hok hcore (C67_proof_partial hC _ _ _ _ hok.touched _ htr _ _ _ hs)
  | counterexample =>
    obtain ⟨sm', rfl, -⟩ := C67_slice _ _ _ _ _ htr _ _ _ hs
    obtain ⟨T', h1, h2, h3⟩ := C67_program hC _ _ _ _ hok.touched _ htr _ _ _ hs
    exact ⟨sm', rfl, T', h1, h2, h3⟩

/-- C80: a counterexample is right for all options, also with models that the solver is not sure of. -/
theorem C80_counterexample_partial (F : Smt.Faithful) (hC : C.Regular) (O : Smt.Oracle) (c : UnitCtx) (ho : c.oracle.Sound) (opts : UnitOptions)
    (d : Dir) (T S : Stmt)
    (declared' : List Var) (hS : specCall c.procs d T c.declared = some (S, declared')) (hok : UnitOk c.tcx opts.lower S)
    (hfin : ∀ n b st, c.formula opts n d T = some (b, st) → Smt.FinSub b) (ask : Smt.SliceQuery → Nat → Nat → Reply)
    (ht : ∀ q, Smt.SolverTruthful q (ask q)) (sm : Option SliceModel) (h : Runs O c opts ask d T (.counterexample, sm)) :
    GoodVerdict C opts.selection c.tcx d S (.counterexample, sm) := by
  obtain ⟨hcore, q, fuel, htr, hs⟩ := runs_truthful F C O c ho opts d hS hok hfin ask ht h
  obtain ⟨sm', rfl, -⟩ := C67_slice _ _ _ _ _ htr _ _ _ hs
  obtain ⟨T', h1, h2, h3⟩ := C67_program hC _ _ _ _ hok.touched _ htr _ _ _ hs
  exact ⟨sm', rfl, T', h1, h2, h3⟩

/-- C80: without `@slice_error`, and if branches restore the direction, a counterexample is one of the program itself. -/
theorem C80_original_partial (F : Smt.Faithful) (hC : C.Regular) (O : Smt.Oracle) (c : UnitCtx) (ho : c.oracle.Sound) (opts : UnitOptions)
    (d d' : Dir) (T S : Stmt)
    (declared' : List Var) (hS : specCall c.procs d T c.declared = some (S, declared')) (hok : UnitOk c.tcx opts.lower S)
    (hdir : monoVisit d S = some d') (hbr : S.BranchesReturn d) (hann : ∀ s ∈ (transform opts.selection c.tcx d S).2.stmts, s.selection.inError = false)
    (hfin : ∀ n b st, c.formula opts n d T = some (b, st) → Smt.FinSub b) (ask : Smt.SliceQuery → Nat → Nat → Reply)
    (ht : ∀ q, Smt.SolverTruthful q (ask q)) (sm : Option SliceModel) (h : Runs O c opts ask d T (.counterexample, sm)) :
    ∃ σ, ¬ Succeeds d (vcSem C S (postExp d) σ) := by
  obtain ⟨hcore, q, fuel, htr, hs⟩ := runs_truthful F C O c ho opts d hS hok hfin ask ht h
  exact C67_original_partial hC _ _ _ _ _ hok.touched hdir hbr hann _ htr _ _ _ hs

/-- C80, if the solver is always sure and its models have values for all active slice variables: then there is a verdict, it is right, and with the default
for the search the reported slice is smallest. -/
theorem C80_sure_partial (F : Smt.Faithful) (hC : C.Regular) (O : Smt.Oracle) (c : UnitCtx) (ho : c.oracle.Sound) (opts : UnitOptions)
    (d : Dir) (T S : Stmt) (declared' : List Var) (hS : specCall c.procs d T c.declared = some (S, declared')) (hcore : S.Core)
    (hok : UnitOk c.tcx opts.lower S)
    (hfin : ∀ n b st, c.formula opts n d T = some (b, st) → Smt.FinSub b ∧ Smt.mkQuery O b st.stmts st.constraints ≠ none)
    (ask : Smt.SliceQuery → Nat → Nat → Reply) (ht : ∀ q, Smt.SolverTruthful q (ask q))
    (hu : ∀ n b st q, c.formula opts n d T = some (b, st) → Smt.mkQuery O b st.stmts st.constraints = some q →
      ∀ step k, (∀ P, ask q step k ≠ .unknown P) ∧ ∀ P, ask q step k = .sat P → ∀ i ∈ activeVars .failure st.stmts, P i ≠ none) :
    ∃ out, Runs O c opts ask d T out ∧ out.1 ≠ .unknown ∧ GoodVerdict C opts.selection c.tcx d S out ∧
      (opts.sliceErrorFirst = false → ∀ sm, out.2 = some sm → ∀ A : Ident → Bool, SliceFails C opts.selection c.tcx d S (fun i => A i = true) →
        sm.results.length ≤ enabledCount (activeVars .failure (transform opts.selection c.tcx d S).2.stmts) A) := by
  rcases formula_spec C c ho opts d hS hok with ⟨-, hf⟩ | ⟨-, N, hN⟩
  · exact absurd hcore hf
  obtain ⟨N', hN'⟩ := runUnit_stable O c opts ask d T
  obtain ⟨n, hn, hn'⟩ : ∃ n, n ≥ N ∧ n ≥ N' := ⟨max N N', le_max_left _ _, le_max_right _ _⟩
  obtain ⟨b, hb1, hb2⟩ := hN n hn
  obtain ⟨hfs, hq⟩ := hfin _ _ _ hb1
  obtain ⟨q, hq⟩ := Option.ne_none_iff_exists'.1 hq
  have hu := hu n _ _ q hb1 hq
  have htr := truthful_slices F C O (fun s hs => ((hok.sliced opts.selection d).2.2.2.2.2 s hs).1) hb2 hfs hq (ht q)
  obtain ⟨fuel, out, h1, h2⟩ := C67_sure_partial hC opts.selection c.tcx d S hok.touched (ask q) htr (fun step k => (hu step k).1)
    (fun step k => (hu step k).2) (failingOptions opts.sliceErrorFirst opts.sliceErrorInconsistent)
  have hrun : runUnit O c opts ask n fuel d T = some (some out) := by
    unfold runUnit
    rw [hb1]
    show (Smt.mkQuery _ _ _ _).bind _ = _
    rw [hq]
    exact h1
  replace hrun : Runs O c opts ask d T out := ⟨N', fun m hm => ⟨fuel, by rw [hN' m hm, ← hN' n hn']; exact hrun⟩⟩
  obtain ⟨r, sm⟩ := out
  cases r with
  | unknown =>
    obtain ⟨step, k, P, h⟩ := h2
    exact absurd h ((hu step k).1 P)
  | proof =>
    refine ⟨_, hrun, (fun h => nomatch h), succeeds_any hok hcore h2, fun _ sm' e A _ => ?_⟩
    obtain ⟨r, -, h4⟩ := sliceFailing_some h1
    cases r with
    | unsat => cases h4; cases e
    | sat P => cases h4
    | unknown P => cases h4
  | counterexample =>
    obtain ⟨sm', rfl, h3, h4⟩ := h2
    obtain ⟨T', g1, g2, g3⟩ := C67_program hC _ _ _ _ hok.touched _ htr _ _ _ h1
    refine ⟨_, hrun, (fun h => nomatch h), ⟨sm', rfl, T', g1, g2, g3⟩, fun hf sm'' e A hA => ?_⟩
    cases e
    exact h4 (fun step k => (hu step k).1) (by rw [hf]; rfl) A hA

/-! ## Whole programs -/

/-- The unit of a procedure ends with the verdict that it verifies, with a truthful solver. -/
def UnitVerified (O : Smt.Oracle) (opts : UnitOptions) (procs' : ProcTable) (p' : Proc) : Prop :=
  ∀ d T, encodeProcVerify p' = some (d, T) → ∃ (c : UnitCtx) (S : Stmt) (declared' : List Var), c.procs = procs' ∧ c.oracle.Sound ∧
    specCall procs' d T c.declared = some (S, declared') ∧
    (∀ v, S.Touched v → v.id ∈ c.tcx.decls) ∧ S.All (fun e => ∀ v, e.Occurs v → v.id ∈ c.tcx.decls) (fun x => x.id ∈ c.tcx.decls) ∧
    (opts.lower.noQelim = false → S.All (fun e => e.freshVars = []) (fun _ => True)) ∧
    (opts.lower.optRel = true → S.All (fun e => e.CmpTypes RelCmp) (fun _ => True)) ∧
    (∀ n b st, c.formula opts n d T = some (b, st) → Smt.FinSub b) ∧
    ∃ ask : Smt.SliceQuery → Nat → Nat → Reply, (∀ q, Smt.SolverTruthful q (ask q)) ∧ ∃ sm, Runs O c opts ask d T (.proof, sm)

theorem vcVerified_of_unit (F : Smt.Faithful) (O : Smt.Oracle) (opts : UnitOptions) (hi : opts.sliceErrorInconsistent = false)
    {P : List Proc} {d : Dir} {cal : Ident → Option CalculusType} {ext : ProcSem} {sccs : List (List Ident)} {procs' : ProcTable}
    (ho : ProgramOk P d cal ext) (hc : Checked P d cal sccs procs') {f : Ident} {p' : Proc} (hf : procs' f = some p')
    (hv : UnitVerified O opts procs' p') : VcVerified procs' p' := by
  intro d' T hT
  obtain ⟨c, S, decl', rfl, hos, hS, h1, h2, h3, h4, hfin, ask, ht, sm, hrun⟩ := hv d' T hT
  obtain ⟨p, hp, hpp⟩ := hc.encoded.inv hf
  have hpP := ((table_iff ho.names).1 hp).1
  obtain ⟨b', hb1, hb2, hb3⟩ := hc.encoded.2 f p hp
  rw [hb1] at hf
  obtain rfl := Option.some.inj hf
  cases hB : p.body with
  | none =>
    obtain rfl := hb2 hB
    exact nomatch hT
  | some B =>
    obtain ⟨B', hE, rfl⟩ := hb3 B hB
    obtain ⟨hg, hgd⟩ := task_shape hE rfl (ho.noValidate p hpP B hB) (ho.dists p hpP B hB) hT
    have hok : UnitOk c.tcx opts.lower S := ⟨h1, h2, h3, h4, (specCall_guarded hg hS).sguarded, specCall_goodDists hgd hS⟩
    let C : SemCtx := callCtx .lfp c.procs (fun _ φ => φ)
    have hC : C.Regular := callCtx_regular fun _ _ _ h => h
    have hver := C80_verdict_partial F hC O c hos opts hi d' T S decl' hS hok hfin ask ht _ hrun
    obtain ⟨hcore, -⟩ := runs_truthful F C O c hos opts d' hS hok hfin ask ht hrun
    obtain ⟨e, he⟩ := core_vcgen hcore (terminal d')
    refine ⟨c.declared, S, decl', e, hS, he, ?_⟩
    have hh : ∀ σ, HoldsAt d' e σ := fun σ => (holdsAt_iff C he hok.guarded hok.dists σ).2 (hver σ)
    cases d' with
    | down => exact hh
    | up => exact hh

/-- C80 for programs: if all checks pass, and the units of all procedures end with the verdict that they verify, then each annotated procedure which only
reaches annotated procedures satisfies its specification in its calculus. -/
theorem C80_program_partial (F : Smt.Faithful) (O : Smt.Oracle) (opts : UnitOptions) (hi : opts.sliceErrorInconsistent = false)
    (P : List Proc) (d : Dir) (cal : Ident → Option CalculusType) (ext : ProcSem) (sccs : List (List Ident)) (procs' : ProcTable)
    (ho : ProgramOk P d cal ext) (hc : Checked P d cal sccs procs')
    (hv : ∀ f p', procs' f = some p' → UnitVerified O opts procs' p') (p : Proc) (hp : p ∈ P) (c : CalculusType)
    (hcal : cal p.name = some c)
    (hann : ∀ q ∈ P, q.body ≠ none → ReflTransGen (Calls (bodies P)) p.name q.name → cal q.name ≠ none) :
    p.Meets (progSem c (table P) ext p.name) :=
  C58_partial P d cal ext sccs procs' ho hc (fun _ _ hf => vcVerified_of_unit F O opts hi ho hc hf (hv _ _ hf)) p hp c hcal hann

open Classical in
/-- C80 from the source program to the exit code of the process. The front end without errors has checked the calculi and encoded the loops; for each procedure
with a body there is a unit in the loop, whose flag is the one of the approximation analysis, and whose proof comes from a run with a truthful solver. If the exit
code is 0, each annotated procedure which only reaches annotated procedures satisfies its specification in its calculus. -/
theorem C80_exit_partial (F : Smt.Faithful) (O : Smt.Oracle) (opts : UnitOptions) (hi : opts.sliceErrorInconsistent = false)
    (P : List Proc) (d : Dir) (cal : Ident → Option CalculusType) (ext : ProcSem) (sccs : List (List Ident)) (procs' : ProcTable)
    (ho : ProgramOk P d cal ext) (hs : IsSccs (callGraph (bodies P)) sccs) (front : Except Driver.CaesarError Bool) (units : List Driver.UnitRun)
    (hfront : front = .ok false → (∀ p ∈ P, ∀ B, p.body = some B → checkProc (cal p.name) p.dir
      (decide (∃ b ∈ findRecursive (callGraph (bodies P)) sccs, b.recursive = p.name)) (B.callees.map cal) = .ok ()) ∧ LoopsEncoded d (table P) procs')
    (hunits : ∀ p ∈ P, ∀ B, p.body = some B → ∃ u ∈ units, u.soundProofs = (procSoundness d (cal p.name) B).soundProofs ∧
      ∀ p', procs' p.name = some p' → u.solve = .ok .proof → UnitVerified O opts procs' p')
    (hexit : Driver.exitCode (Driver.verifyFilesMain front false units) = 0) (p : Proc) (hp : p ∈ P) (c : CalculusType)
    (hcal : cal p.name = some c)
    (hann : ∀ q ∈ P, q.body ≠ none → ReflTransGen (Calls (bodies P)) p.name q.name → cal q.name ≠ none) :
    p.Meets (progSem c (table P) ext p.name) := by
  obtain ⟨hf, hall⟩ := (Driver.C47_exit_code _ _ _).1 hexit
  replace hall := hall.resolve_left (fun h => nomatch h)
  obtain ⟨h1, h2⟩ := hfront hf
  have hc : Checked P d cal sccs procs' := ⟨hs, h1, h2, fun q hq B hB => by
    obtain ⟨u, hu, h3, -⟩ := hunits q hq B hB
    rw [← h3]
    exact (hall u hu).2.2.2⟩
  refine C80_program_partial F O opts hi P d cal ext sccs procs' ho hc (fun f p' hf' => ?_) p hp c hcal hann
  obtain ⟨q, hq, -⟩ := h2.inv hf'
  obtain ⟨hqP, rfl⟩ := (table_iff ho.names).1 hq
  cases hB : q.body with
  | none =>
    obtain ⟨q', g1, g2, -⟩ := h2.2 _ q hq
    rw [hf'] at g1
    cases g1
    obtain rfl := g2 hB
    intro d' T hT
    exact nomatch hT
  | some B =>
    obtain ⟨u, hu, -, h4⟩ := hunits q hqP B hB
    exact h4 p' hf' (hall u hu).2.2.1

/-! ## A perfect solver exists -/

namespace Smt

open Classical in
/-- A solver which knows all models. -/
noncomputable def perfect (q : SliceQuery) (_ n : Nat) : Reply :=
  if h : ∃ M, q.Counter M ∧ q.count M ≤ n then
    if ∀ x ∈ q.vars, ∀ y ∈ q.vars, x.1.ident = y.1.ident → ((show Prop from x.2 h.choose) ↔ (show Prop from y.2 h.choose)) then
      .sat fun i => some (decide (∃ x ∈ q.vars, x.1.ident = i ∧ (show Prop from x.2 h.choose)))
    else .unknown none
  else .unsat

theorem perfect_truthful (q : SliceQuery) : SolverTruthful q (perfect q) := by
  intro step n
  by_cases h : ∃ M, q.Counter M ∧ q.count M ≤ n
  · by_cases hcon : ∀ x ∈ q.vars, ∀ y ∈ q.vars, x.1.ident = y.1.ident → ((show Prop from x.2 h.choose) ↔ (show Prop from y.2 h.choose))
    · have e : perfect q step n = _ := (dif_pos h).trans (if_pos hcon)
      rw [e]
      intro A hA
      classical
      refine ⟨h.choose, h.choose_spec.1, fun x hx => ?_, h.choose_spec.2⟩
      rw [hA x.1.ident _ rfl, decide_eq_true_iff]
      exact ⟨fun hM => ⟨x, hx, rfl, hM⟩, fun ⟨y, hy, e, hM⟩ => (hcon y hy x hx e).1 hM⟩
    · have e : perfect q step n = _ := (dif_pos h).trans (if_neg hcon)
      rw [e]
      trivial
  · have e : perfect q step n = _ := dif_neg h
    rw [e]
    intro M hM
    by_contra hn
    exact h ⟨M, hM, Nat.le_of_not_lt hn⟩

theorem perfect_total (q : SliceQuery) (step n : Nat) (P : PModel) (h : perfect q step n = .sat P) (i : Ident) : P i ≠ none := by
  unfold perfect at h
  split at h
  · split at h
    · cases h
      exact fun h => nomatch h
    · cases h
  · cases h

/-- It is always sure about the queries of units. -/
theorem perfect_sure (F : Faithful) (O : Oracle) {b : Expr .bool} (hfin : FinSub b) {stmts : List SliceStmt} {cs : List (Expr .bool)}
    (hcs : ∀ c ∈ cs, ∃ i j : Ident, c = .bin .or (.var i) (.var j)) {q : SliceQuery} (h : mkQuery O b stmts cs = some q) (step n : Nat) (P : Option PModel) :
    perfect q step n ≠ .unknown P := by
  obtain ⟨-, -, hσ⟩ := mkQuery_spec F O hfin hcs h
  unfold perfect
  split
  · rename_i hM
    rw [if_pos]
    · exact fun h => nomatch h
    · intro x hx y hy e
      obtain ⟨σ, -, hv, -⟩ := hσ _ hM.choose_spec.1.1
      rw [hv x hx, hv y hy, e]
  · exact fun h => nomatch h

end Smt

/-- C80: with the perfect solver, there always is a verdict, it is right, and the reported slice is smallest. -/
theorem C80_decides_partial (F : Smt.Faithful) (hC : C.Regular) (O : Smt.Oracle) (c : UnitCtx) (ho : c.oracle.Sound) (opts : UnitOptions)
    (d : Dir) (T S : Stmt) (declared' : List Var) (hS : specCall c.procs d T c.declared = some (S, declared')) (hcore : S.Core)
    (hok : UnitOk c.tcx opts.lower S)
    (hfin : ∀ n b st, c.formula opts n d T = some (b, st) → Smt.FinSub b ∧ Smt.mkQuery O b st.stmts st.constraints ≠ none) :
    ∃ out, Runs O c opts Smt.perfect d T out ∧ out.1 ≠ .unknown ∧ GoodVerdict C opts.selection c.tcx d S out ∧
      (opts.sliceErrorFirst = false → ∀ sm, out.2 = some sm → ∀ A : Ident → Bool, SliceFails C opts.selection c.tcx d S (fun i => A i = true) →
        sm.results.length ≤ enabledCount (activeVars .failure (transform opts.selection c.tcx d S).2.stmts) A) := by
  refine C80_sure_partial F hC O c ho opts d T S declared' hS hcore hok hfin Smt.perfect Smt.perfect_truthful fun n b st q hb hq step k =>
    ⟨Smt.perfect_sure F O (hfin _ _ _ hb).1 (fun x hx => ?_) hq step k, fun P hP i _ => Smt.perfect_total q step k P hP i⟩
  have hst : st = (transform opts.selection c.tcx d S).2 := by
    unfold UnitCtx.formula UnitCtx.sliced at hb
    rw [hS] at hb
    obtain ⟨x, hx, hb⟩ := Option.bind_eq_some_iff.1 hb
    cases hx
    obtain ⟨e, -, hb⟩ := Option.bind_eq_some_iff.1 hb
    obtain ⟨y, -, hb⟩ := Option.bind_eq_some_iff.1 hb
    cases hb
    rfl
  subst hst
  rcases visit_constraint_form opts.selection S {} { tcx := c.tcx, dir := d } x hx with h | ⟨s, -, s', -, h⟩
  · cases h
  · exact ⟨_, _, h⟩

end

/-! ## Counterexample -/

/-- `assert ?(0 <= x)` for `x: Int`. -/
def c80W : Stmt := .assert .down (.embed (.rel (.le rfl) (.cast .uintInt (.lit (.uint 0))) (.var ⟨"x", 0⟩ : Expr .int)))

/-- A context in which the given variables are declared. -/
def c80C (xs : List Ident) : UnitCtx := ⟨fun _ => none, ⟨xs, fun _ => none⟩, [], fun _ _ => false, 0, 0, 0, 0⟩

/-- `--opt-rel --no-slice-error`. -/
def c80O : UnitOptions := { lower := { optRel := true }, noSliceError := true }

/-- `true && true`. -/
def c80F : Expr .bool := .bin .and (.boolLit true) (.boolLit true)

theorem c80_formula (n : Nat) : (c80C [⟨"x", 0⟩]).formula c80O (n + 20) .down c80W = some (c80F, (transform c80O.selection (c80C [⟨"x", 0⟩]).tcx .down c80W).2) := by with_unfolding_all rfl

/-- With the relational optimisation, `assert ?(0 <= x)` is reported to verify. -/
theorem C80_not_full : ¬ C80_full := by
  intro h
  let _ := unitDoms
  let _ := unitInterp
  obtain ⟨I, F⟩ := Smt.faithful_exists (fun _ => rfl) (fun _ => rfl)
  let C : SemCtx := ⟨.lfp, fun l _ _ φ σ => ⨅ σ' ∈ {σ' | Agree l σ σ'}, φ σ'⟩
  have hq : ∃ vc, Smt.mkQuery Smt.noCache c80F [] [] = some ⟨vc, .new, [], []⟩ ∧ ∀ M, (show Prop from vc M) := by
    unfold c80F Expr.boolLit Smt.mkQuery
    simp only [Smt.trans, Smt.cached_no, Smt.transVars, Smt.transAll]
    exact ⟨_, rfl, fun M => ⟨rfl, rfl⟩⟩
  obtain ⟨vc, hq, hvc⟩ := hq
  have hp : Smt.perfect ⟨vc, .new, [], []⟩ = fun _ _ => .unsat := by
    funext step n
    exact dif_neg fun ⟨M, hM, _⟩ => hM.2.1 (hvc M)
  have hrun : Runs Smt.noCache (c80C [⟨"x", 0⟩]) c80O Smt.perfect .down c80W (.proof, none) := by
    refine ⟨20, fun n hn => ⟨5, ?_⟩⟩
    obtain ⟨m, rfl⟩ := Nat.exists_eq_add_of_le' hn
    unfold runUnit
    rw [c80_formula]
    simp only [Option.bind_eq_bind, Option.bind_some]
    show (Smt.mkQuery Smt.noCache c80F [] []).bind _ = _
    rw [hq]
    show sliceFailing _ _ (Smt.perfect _) _ = _
    rw [hp]
    rfl
  have := h unitDoms unitInterp I F C (regular_havoc _) Smt.noCache (c80C [⟨"x", 0⟩]) sound_unknown c80O .down c80W c80W [] rfl
    (fun v hv => hv.elim) (fun v hv => (show False ∨ v = _ from hv).elim (fun h => h.elim) fun h => by rw [h]; exact List.mem_singleton_self _) trivial trivial
    Smt.perfect Smt.perfect_truthful _ hrun
  have h2 := this (zeroEnv.upd ⟨⟨"x", 0⟩, .int⟩ (-1 : ℤ))
  have h3 : (Expr.embed (.rel (.le rfl) (.cast .uintInt (.lit (.uint 0))) (.var ⟨"x", 0⟩ : Expr .int))).ev (zeroEnv.upd ⟨⟨"x", 0⟩, .int⟩ (-1 : ℤ)) = ⊤ :=
    top_le_iff.1 ((le_of_eq (show ⊤ = min _ (⊤ : ENNReal) from h2.symm)).trans (min_le_left _ _))
  have h4 : ¬ (Expr.rel (.le rfl) (.cast .uintInt (.lit (.uint 0))) (.var ⟨"x", 0⟩ : Expr .int)).tv (zeroEnv.upd ⟨⟨"x", 0⟩, .int⟩ (-1 : ℤ)) := fun h5 =>
    absurd (show ((0 : ℕ) : ℤ) ≤ (-1 : ℤ) from (Env.upd_same zeroEnv ⟨⟨"x", 0⟩, .int⟩ (-1 : ℤ)) ▸ h5) (by decide)
  have h5 := (Expr.eval_embed _ _).symm.trans h3
  rw [if_neg (show ¬ holds (Expr.eval _ _) from h4)] at h5
  exact absurd (show (0 : ENNReal) = ⊤ from h5) (by simp)

/-! ## Examples -/

/-- `--no-boolify --no-qelim --strict`. -/
def c80O' : UnitOptions := { lower := ⟨true, true, true, false⟩ }

theorem c80_formula' (n : Nat) : (c80C []).formula c80O' n .down c67A = some (.rel .eq (.lit .infty) (.bin (.inf rfl) (.ite (.var c67v0) (Expr.botLit .eureal rfl) (.lit .infty))
  (.lit .infty)), (transform c80O'.selection (c80C []).tcx .down c67A).2) := rfl

/-- The same, without slicing. -/
def c80N : UnitOptions := { c80O' with noSliceError := true }

section
variable [Doms] [Interp] [Smt.SmtInterp]

/-- Non-vacuity of the theorems about units: `assert 0` gets a verdict, it is that there is a counterexample, and `assert 0` is the reported slice. -/
example (F : Smt.Faithful) (C : SemCtx) (hC : C.Regular) (σ : Env) : ∃ sm, Runs Smt.noCache (c80C []) c80O' Smt.perfect .down c67A (.counterexample, some sm) ∧
    GoodVerdict C c80O'.selection (c80C []).tcx .down c67A (.counterexample, some sm) ∧ sm.results.length ≤ 1 := by
  have hok : UnitOk (c80C []).tcx c80O'.lower c67A := ⟨fun v hv => hv.elim, fun v hv => hv.elim, (fun h => nomatch h), (fun h => nomatch h), trivial, trivial⟩
  obtain ⟨⟨r, sm⟩, h1, h2, h3, h4⟩ := C80_decides_partial F hC Smt.noCache (c80C []) sound_unknown c80O' .down c67A c67A [] rfl trivial hok (fun n b st h => by
    rw [c80_formula'] at h
    cases h
    constructor
    · simp only [Smt.FinSub]
      repeat' (first | exact trivial | exact fun _ => trivial | constructor)
    · simp only [Smt.trans, Smt.cached_no, Smt.mkQuery, Expr.botLit]
      exact fun h => nomatch h)
  cases r with
  | unknown => exact absurd rfl h2
  | proof =>
    have h5 : min ((Expr.botLit .eureal rfl).ev σ) ⊤ = (⊤ : ENNReal) := h3 σ
    rw [show (Expr.botLit .eureal rfl).ev σ = 0 from Expr.eval_botLit _ _] at h5
    exact absurd h5 (by simp)
  | counterexample =>
    obtain ⟨sm', rfl, h5⟩ := h3
    exact ⟨sm', h1, ⟨sm', rfl, h5⟩, h4 rfl sm' rfl (fun _ => true) ((c67A_fails C σ _).2 rfl)⟩

/-- The units of the program of C58 verify. -/
theorem c80_verified (F : Smt.Faithful) {f : Ident} {p' : Proc} (h : table c58P' f = some p') : UnitVerified Smt.noCache c80N (table c58P') p' := by
  intro d T hT
  obtain ⟨rfl, T', e, h1, h2, h3, h4, h5, h6, h7⟩ := c58_tasks h hT
  let C : SemCtx := ⟨.lfp, fun l _ _ φ σ => ⨅ σ' ∈ {σ' | Agree l σ σ'}, φ σ'⟩
  have hC : C.Regular := regular_havoc _
  let c : UnitCtx := ⟨table c58P', TyCtx.new, [], fun _ _ => false, 0, 0, 0, 0⟩
  have seq : ∀ {a b : Stmt}, monoVisit .down a = some .down → a.BranchesReturn .down → b.BranchesReturn .down → (a.seq b).BranchesReturn .down :=
    fun h1 h2 h3 => ⟨h2, fun d' h => by rw [h1] at h; cases h; exact h3⟩
  have key : (∀ v, ¬ T'.Touched v) ∧ monoVisit .down T' = some .down ∧ T'.BranchesReturn .down ∧ T'.Guarded ∧ T'.GoodDists ∧ coreVc .down (transform c80N.selection TyCtx.new .down T').1 = coreVc .down T' ∧
      (transform c80N.selection TyCtx.new .down T').2 = { tcx := TyCtx.new, dir := .down } := by
    rcases c58P'_cases h with ⟨rfl, rfl⟩ | ⟨rfl, rfl⟩
    · obtain ⟨-, rfl⟩ := Prod.mk.inj (Option.some.inj hT)
      obtain ⟨rfl, -⟩ := Prod.mk.inj (Option.some.inj h1)
      refine ⟨?_, rfl, ?_, ?_, ?_, rfl, rfl⟩
      · intro v hv
        repeat' (first | exact hv.elim | exact List.not_mem_nil hv | rcases hv with hv | hv)
      · exact seq rfl trivial (seq rfl (seq rfl trivial (seq rfl trivial (seq rfl trivial trivial))) (seq rfl trivial trivial))
      · exact ⟨trivial, ⟨trivial, trivial, trivial, trivial⟩, trivial, trivial⟩
      · exact ⟨trivial, ⟨trivial, trivial, trivial, trivial⟩, trivial, trivial⟩
    · obtain ⟨-, rfl⟩ := Prod.mk.inj (Option.some.inj hT)
      obtain ⟨rfl, -⟩ := Prod.mk.inj (Option.some.inj h1)
      refine ⟨?_, rfl, ?_, ?_, ?_, rfl, rfl⟩
      · intro v hv
        repeat' (first | exact hv.elim | exact List.not_mem_nil hv | rcases hv with hv | hv)
      · exact seq rfl trivial (seq rfl (seq rfl trivial (seq rfl trivial (seq rfl trivial (seq rfl trivial (seq rfl
          ⟨seq rfl trivial (seq rfl trivial (seq rfl trivial trivial)), trivial, rfl, rfl⟩ trivial))))) (seq rfl trivial trivial))
      · exact ⟨trivial, transform_guarded (c := Expr.boolLit true) (b := .skip) trivial 1 lit1 .down, trivial, trivial⟩
      · exact ⟨trivial, transform_goodDists (c := Expr.boolLit true) (b := .skip) trivial 1 lit1 .down, trivial, trivial⟩
  obtain ⟨k1, m1, m2, k2, k3, k4, k5⟩ := key
  have hf : ∀ n, c.formula c80N n .down T = some (intoBoolVc .down e, { tcx := TyCtx.new, dir := .down }) := by
    intro n
    unfold UnitCtx.formula UnitCtx.sliced
    rw [h1]
    show (coreVc .down (transform c80N.selection TyCtx.new .down T').1).toOption.bind (fun e =>
      (lowerQuant (fun _ _ => false) 0 0 0 ⟨true, true, true, false⟩ n .down e ((transform c80N.selection TyCtx.new .down T').2.tcx, 0)).bind fun x =>
        some (x.1, (transform c80N.selection TyCtx.new .down T').2)) = _
    rw [k4, k5, h2]
    show (lowerQuant (fun _ _ => false) 0 0 0 ⟨true, true, true, false⟩ n .down e (TyCtx.new, 0)).bind _ = _
    rw [h5]
    rfl
  have hok : UnitOk c.tcx c80N.lower T' := ⟨fun v hv => (k1 v hv).elim, h4, (fun h => nomatch h), (fun h => nomatch h), k2.sguarded, k3⟩
  have hfin : ∀ n b st, c.formula c80N n .down T = some (b, st) → Smt.FinSub b ∧ Smt.mkQuery Smt.noCache b st.stmts st.constraints ≠ none := by
    intro n b st hb
    rw [hf] at hb
    cases hb
    obtain ⟨r, st, hr⟩ := h7 ‹_›
    refine ⟨h6, ?_⟩
    show (Smt.trans Smt.noCache (intoBoolVc .down e) .new).bind _ ≠ none
    rw [hr]
    exact fun h => nomatch h
  have hcore : T'.Core := vcgen_core h2
  obtain ⟨⟨r, sm⟩, g1, g2, g3, -⟩ := C80_decides_partial F hC Smt.noCache c sound_unknown c80N .down T T' [] h1 hcore hok hfin
  have hs : ∀ σ, Succeeds .down (vcSem C T' (postExp .down) σ) := fun σ => (holdsAt_iff C h2 hok.guarded hok.dists σ).1 (h3 σ)
  cases r with
  | unknown => exact absurd rfl g2
  | counterexample =>
    obtain ⟨σ, hσ⟩ := C80_original_partial F hC Smt.noCache c sound_unknown c80N .down .down T T' [] h1 hok m1 m2
      (fun s hs => by rw [show (transform c80N.selection c.tcx .down T').2 = _ from k5] at hs; cases hs) (fun n b st h => (hfin n b st h).1) Smt.perfect Smt.perfect_truthful sm g1
    exact absurd (hs σ) hσ
  | proof =>
    exact ⟨c, T', [], rfl, sound_unknown, h1, hok.touched, hok.occurs, hok.quants, hok.cmps, fun n b st h => (hfin n b st h).1, _, Smt.perfect_truthful, sm, g1⟩

/-- Non-vacuity of `C80_program_partial`: with `@wlp` on both procedures, the program with a call and a loop is checked, its units verify, and the
theorem applies to `f`. -/
example (F : Smt.Faithful) : c58F.Meets (progSem .wlp (table c58P) (fun _ φ => φ) c58F.name) :=
  C80_program_partial F Smt.noCache c80N rfl c58P .down (fun _ => some .wlp) (fun _ φ => φ) _ (table c58P') (c58_ok _)
    (c58_checked _ (fun c c' h1 h2 => Option.some.inj (h2.symm.trans h1)) rfl) (fun _ _ h => c80_verified F h) c58F (List.mem_cons_self ..) .wlp rfl
    (fun _ _ _ _ h => nomatch h)

/-- Non-vacuity of `C80_exit_partial`: the same program, with the two units of the loop. -/
example (F : Smt.Faithful) : c58F.Meets (progSem .wlp (table c58P) (fun _ φ => φ) c58F.name) :=
  have hc := c58_checked (fun _ => some .wlp) (fun _ _ h1 h2 => Option.some.inj (h2.symm.trans h1)) rfl
  C80_exit_partial F Smt.noCache c80N rfl c58P .down (fun _ => some .wlp) (fun _ φ => φ) _ (table c58P') (c58_ok _) hc.isSccs (.ok false)
    [⟨.ok (), .ok (), .ok .proof, true⟩, ⟨.ok (), .ok (), .ok .proof, true⟩] (fun _ => ⟨hc.calculus, hc.encoded⟩)
    (fun p hp B hB => ⟨_, List.mem_cons_self .., (hc.sound p hp B hB).symm, fun _ h _ => c80_verified F h⟩) rfl c58F (List.mem_cons_self ..) .wlp rfl
    (fun _ _ _ _ h => nomatch h)

end

/-- The options select the statements as documented: a reward is subject to slicing only with `--slice-ticks`, and then it is for errors in coprocs and for verification in procs. -/
theorem C80_ticks (opts : UnitOptions) (tcx : TyCtx) (d : Dir) (e : Expr .eureal) : (transform opts.selection tcx d (.tick e)).2.stmts ≠ [] ↔
    opts.sliceTicks = true ∧ (d = .up ∧ opts.noSliceError = false ∨ d = .down ∧ opts.sliceVerify = true) := by
  obtain ⟨l, n, t, s, v, f, i⟩ := opts
  cases n <;> cases t <;> cases s <;> cases v <;> cases d <;> simp [UnitOptions.selection, transform, visit, sliceLeaf, prepareSelection, shouldSlice, makeSelection, Selection.enables, Selection.or,
    Selection.failure, Selection.verified, extensiveEffect, addSlice]

/-- Sampling is subject to slicing only with `--slice-sampling`, and in a statement with an annotation for errors or for verification. -/
theorem C80_sampling (opts : UnitOptions) (tcx : TyCtx) (d : Dir) (k : Nat) (x : Ident) {t : Ty} (D : DistCall t) :
    (transform opts.selection tcx d (.annot (.slicing k) (.sample false x D))).2.stmts ≠ [] ↔
    opts.sliceSampling = true ∧ (k = 3 ∧ opts.noSliceError = false ∨ k = 2 ∧ opts.sliceVerify = true) := by
  obtain ⟨l, n, t, s, v, f, i⟩ := opts
  cases n <;> cases t <;> cases s <;> cases v <;> (rcases k with _ | _ | _ | _ | k) <;> simp [UnitOptions.selection, transform, visit, sliceLeaf, prepareSelection, shouldSlice, makeSelection, Selection.enables, Selection.or,
    Selection.failure, Selection.verified, addSlice, pushAnnotation]

/-- Non-vacuity of `C80_ticks` and `C80_sampling`: both cases occur. -/
example : (transform ({ sliceTicks := true } : UnitOptions).selection ⟨[], fun _ => none⟩ .up (.tick Expr.inftyLit)).2.stmts ≠ [] ∧
    ¬ (transform ({ sliceTicks := true } : UnitOptions).selection ⟨[], fun _ => none⟩ .down (.tick Expr.inftyLit)).2.stmts ≠ [] ∧
    (transform ({ sliceSampling := true } : UnitOptions).selection ⟨[], fun _ => none⟩ .up (.annot (.slicing 3) (.sample false ⟨"x", 0⟩ (.ber 1 2)))).2.stmts ≠ [] :=
  ⟨(C80_ticks _ _ _ _).2 ⟨rfl, .inl ⟨rfl, rfl⟩⟩, (fun h => ((C80_ticks _ _ _ _).1 h).2.elim (fun h => (nomatch h.1)) (fun h => (nomatch h.2))),
    (C80_sampling _ _ _ _ _ _).2 ⟨rfl, .inl ⟨rfl, rfl⟩⟩⟩

end Caesar
