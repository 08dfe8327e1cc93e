import Verif.Smt.Funcs
import Verif.Smt.TranslateMain

/-!
# The assertions about functions hold
-/

open scoped ENNReal NNReal

namespace Caesar.Smt
set_option linter.unusedSectionVars false

variable [Doms]

/-- Specification: no infimum or supremum of extended reals. -/
def NoExt : {t : Ty} → Expr t → Prop
  | _, .var _ => True
  | _, .lit _ => True
  | _, .call _ args => ∀ i, NoExt (args i)
  | _, .ite c a b => NoExt c ∧ NoExt a ∧ NoExt b
  | _, .bin _ a b => NoExt a ∧ NoExt b
  | _, .rel _ a b => NoExt a ∧ NoExt b
  | _, .un _ a => NoExt a
  | _, .embed a => NoExt a
  | _, .iverson a => NoExt a
  | _, .cast _ a => NoExt a
  | t, .quant _ _ _ a => t ≠ .eureal ∧ NoExt a
  | _, .subst _ e a => NoExt e ∧ NoExt a

/-! ## Translation without infima and suprema adds no constraints -/

theorem getLocal_global {v : Var} {st st' : TState} {n : Nat} (h : TState.getLocal v st = some (n, st')) : st'.global = st.global := by
  unfold TState.getLocal at h
  split at h
  · cases h; rfl
  · split at h
    · cases h
    · simp only [Option.bind_eq_bind, Option.bind_eq_some_iff] at h
      obtain ⟨l, _, h⟩ := h
      cases h; rfl

theorem getLocals_global {vs : List Var} {st st' : TState} (h : TState.getLocals vs st = some st') : st'.global = st.global := by
  induction vs generalizing st with
  | nil => cases h; rfl
  | cons v vs ih =>
    simp only [TState.getLocals, Option.bind_eq_bind, Option.bind_eq_some_iff, Prod.exists] at h
    obtain ⟨n, st1, h1, h⟩ := h
    exact (ih h).trans (getLocal_global h1)

theorem mkScope_global {vs : List Var} {st st' : TState} {bs : List Symb} (h : TState.mkScope vs st = some (bs, st')) : st'.global = st.global := by
  induction vs generalizing st bs with
  | nil => cases h; rfl
  | cons v vs ih =>
    simp only [TState.mkScope, Option.bind_eq_bind, Option.bind_eq_some_iff, Prod.exists] at h
    obtain ⟨n, st1, h1, bs', st2, h2, h⟩ := h
    cases h
    exact (ih h2).trans (getLocal_global h1)

theorem freshAll_global {vs : List Var} {st st' : TState} (h : TState.freshAll vs st = some st') : st'.global = st.global := by
  induction vs generalizing st with
  | nil => cases h; rfl
  | cons v vs ih =>
    simp only [TState.freshAll, Option.bind_eq_bind, Option.bind_eq_some_iff] at h
    obtain ⟨l, _, h⟩ := h
    exact (ih h : _ = { st with locals := l }.global)

theorem enter_global {t : Ty} {a : Expr t} {vs : List Var} {st st' : TState} {bs : List Symb} (h : TState.enter a vs st = some (bs, st')) : st'.global = st.global := by
  simp only [TState.enter, Option.bind_eq_bind, Option.bind_eq_some_iff, Prod.exists] at h
  obtain ⟨free, _, st0, h0, st1, h1, bs', st2, h2, h⟩ := h
  cases h
  have h0 := getLocals_global h0
  have h1 : st1.global = st0.push.global := freshAll_global h1
  exact (mkScope_global h2).trans (h1.trans (h0 : st0.push.global = _))

theorem leave_global {st st' : TState} (h : TState.leave st = some st') : st'.global = st.global := by
  simp only [TState.leave, TState.pop, Option.bind_eq_bind, Option.bind_eq_some_iff] at h
  obtain ⟨l, _, h⟩ := h
  cases h; rfl

theorem cached_global {O : Oracle} {t : Ty} {e : Expr t} {act : TState → Option (Term t × TState)}
    (hact : ∀ st r st', act st = some (r, st') → st'.global = st.global) {st st' : TState} {r : Term t}
    (h : TState.cached O e act st = some (r, st')) : st'.global = st.global := by
  unfold TState.cached at h
  split at h
  · exact hact _ _ _ h
  · split at h
    · cases h; rfl
    · simp only [Option.bind_eq_bind, Option.bind_eq_some_iff, Prod.exists] at h
      obtain ⟨r', st1, h1, h⟩ := h
      cases h
      have := hact _ _ _ h1
      split
      · unfold TState.remember; split <;> exact this
      · exact this

theorem mapFin_global {n : Nat} {ty : Fin n → Ty} {f : (i : Fin n) → TState → Option (Term (ty i) × TState)}
    (hf : ∀ i st r st', f i st = some (r, st') → st'.global = st.global) {st st' : TState} {rs : (i : Fin n) → Term (ty i)}
    (h : mapFin (α := fun i => Term (ty i)) f st = some (rs, st')) : st'.global = st.global := by
  induction n generalizing st with
  | zero => cases h; rfl
  | succ n ih =>
    unfold mapFin at h
    simp only [Option.bind_eq_bind, Option.bind_eq_some_iff, Prod.exists] at h
    obtain ⟨r0, st1, h0, rs', st2, hr, h⟩ := h
    cases h
    exact (ih (fun i => hf i.succ) hr).trans (hf 0 _ _ _ h0)

theorem trans_global [SmtInterp] (O : Oracle) {t : Ty} (e : Expr t) (hn : NoExt e) : ∀ {st st' : TState} {r : Term t},
    trans O e st = some (r, st') → st'.global = st.global := by
  induction e with
  | var x =>
    intro st st' r h
    refine cached_global (fun st r st' h => ?_) h
    simp only [Option.bind_eq_bind, Option.bind_eq_some_iff, Prod.exists] at h
    obtain ⟨n, st1, h1, h⟩ := h
    cases h
    exact getLocal_global h1
  | lit l =>
    intro st st' r h
    refine cached_global (fun st r st' h => ?_) h
    simp only [Option.bind_eq_bind, Option.bind_eq_some_iff] at h
    obtain ⟨v, h1, h⟩ := h
    cases h; rfl
  | call f args ih =>
    intro st st' r h
    refine cached_global (fun st r st' h => ?_) h
    simp only [Option.bind_eq_bind, Option.bind_eq_some_iff, Prod.exists] at h
    obtain ⟨_, _, rs, st1, h1, h⟩ := h
    cases h
    exact mapFin_global (fun i st r st' h => ih i (hn i) h) h1
  | ite c a b ihc iha ihb =>
    intro st st' r h
    refine cached_global (fun st r st' h => ?_) h
    simp only [Option.bind_eq_bind, Option.bind_eq_some_iff, Prod.exists] at h
    obtain ⟨rc, st1, h1, ra, st2, h2, rb, st3, h3, h⟩ := h
    cases h
    exact (ihb hn.2.2 h3).trans ((iha hn.2.1 h2).trans (ihc hn.1 h1))
  | bin op a b iha ihb =>
    intro st st' r h
    refine cached_global (fun st r st' h => ?_) h
    simp only [Option.bind_eq_bind, Option.bind_eq_some_iff, Prod.exists] at h
    obtain ⟨ra, st1, h1, rb, st2, h2, f, hf, h⟩ := h
    cases h
    exact (ihb hn.2 h2).trans (iha hn.1 h1)
  | rel op a b iha ihb =>
    intro st st' r h
    refine cached_global (fun st r st' h => ?_) h
    simp only [Option.bind_eq_bind, Option.bind_eq_some_iff, Prod.exists] at h
    obtain ⟨ra, st1, h1, rb, st2, h2, f, hf, h⟩ := h
    cases h
    exact (ihb hn.2 h2).trans (iha hn.1 h1)
  | un op a iha =>
    intro st st' r h
    refine cached_global (fun st r st' h => ?_) h
    simp only [Option.bind_eq_bind, Option.bind_eq_some_iff, Prod.exists] at h
    obtain ⟨ra, st1, h1, f, hf, h⟩ := h
    cases h
    exact iha hn h1
  | embed a iha =>
    intro st st' r h
    refine cached_global (fun st r st' h => ?_) h
    simp only [Option.bind_eq_bind, Option.bind_eq_some_iff, Prod.exists] at h
    obtain ⟨ra, st1, h1, h⟩ := h
    cases h
    exact iha hn h1
  | iverson a iha =>
    intro st st' r h
    refine cached_global (fun st r st' h => ?_) h
    simp only [Option.bind_eq_bind, Option.bind_eq_some_iff, Prod.exists] at h
    obtain ⟨ra, st1, h1, h⟩ := h
    cases h
    exact iha hn h1
  | cast c a iha =>
    intro st st' r h
    refine cached_global (fun st r st' h => ?_) h
    simp only [Option.bind_eq_bind, Option.bind_eq_some_iff, Prod.exists] at h
    obtain ⟨ra, st1, h1, h⟩ := h
    cases h
    exact iha hn h1
  | @quant t op hl vs a iha =>
    intro st st' r h
    cases t <;> try cases hl
    · refine cached_global (fun st r st' h => ?_) h
      simp only [Option.bind_eq_bind, Option.bind_eq_some_iff, Prod.exists] at h
      obtain ⟨bs, st1, h1, ra, st2, h2, st3, h3, h⟩ := h
      have : st'.global = st3.global := by cases op <;> cases h <;> rfl
      exact this.trans ((leave_global h3).trans ((iha hn.2 h2).trans (enter_global h1)))
    · exact absurd rfl hn.1
  | subst x e a _ _ =>
    intro st st' r h
    cases h

/-! ## Values -/

theorem dRep_inj {t : Ty} {v w : DVal t} {x : t.den} (hv : DRep t v x) (hw : DRep t w x) : v = w := by
  cases t with
  | bool => exact propext (Iff.trans hv (Iff.symm hw))
  | uint => exact Eq.trans hv (Eq.symm hw)
  | int => exact Eq.trans hv (Eq.symm hw)
  | ureal => exact Eq.trans hv (Eq.symm hw)
  | real => exact Eq.trans hv (Eq.symm hw)
  | eureal =>
    obtain ⟨⟩ | r := v <;> obtain ⟨⟩ | q := w
    · rfl
    · exact absurd ((Eq.symm hv).trans hw.2) ENNReal.ofReal_ne_top.symm
    · exact absurd ((Eq.symm hw).trans hv.2) ENNReal.ofReal_ne_top.symm
    · exact congrArg Data.real ((ENNReal.ofReal_eq_ofReal_iff hv.1 hw.1).1 (hv.2.symm.trans hw.2))
  | list s => exact hv.elim
  | dom n => exact Eq.trans hv (Eq.symm hw)

theorem inv_dataToPair [Data.Junk] {d : Data} (h : (dataToPair d).Valid) : Invariant.inv (dataToPair d) := by
  refine ⟨h, fun hi => ?_⟩
  obtain ⟨⟩ | r := d
  · have h1 : dataToPair Data.inf = Pair.infinity := Pair.branch_pos _ _ trivial
    rw [h1]; rfl
  · have h1 : dataToPair (Data.real r) = Pair.fromUReal r := Pair.branch_neg _ _ (fun h => h)
    rw [h1] at hi
    exact hi.elim

/-- The invariant holds of a value computed by a function. -/
theorem inv_of_call [SmtInterp] {O : Oracle} {t : Ty} {f : Func t} {args : (i : Fin f.args.length) → Expr (f.args.get i)} {st st' : TState} {r : Term t}
    (h : trans O (.call f args) st = some (r, st')) {M : Model} {x : t.den} (hx : Rep t (r M) x) : inv t (r M) := by
  cases t with
  | uint => have hx : (show ℤ from r M) = ((show ℕ from x) : ℤ) := hx; exact (hx.symm ▸ Int.natCast_nonneg _ : (show ℤ from r M) ≥ 0)
  | ureal => have hx : (show ℝ from r M) = ((show ℝ≥0 from x) : ℝ) := hx; exact (hx.symm ▸ NNReal.coe_nonneg _ : (show ℝ from r M) ≥ 0)
  | eureal =>
    simp only [trans, TState.cached, if_true, Option.bind_eq_bind, Option.bind_eq_some_iff, Prod.exists] at h
    obtain ⟨_, _, as, st1, _, h⟩ := h
    cases h
    exact inv_dataToPair (Pair.repr_iff.1 hx).1
  | _ => trivial

/-- Types without a constraint on their SMT values. -/
def Free : Ty → Prop
  | .uint => False
  | .ureal => False
  | .eureal => False
  | _ => True

theorem inv_free {t : Ty} (h : Free t) (v : SVal t) : inv t v := by
  cases t <;> first | exact h.elim | trivial

/-! ## Assertions -/

variable [Interp]

/-- The state of the translator between assertions. -/
structure Top (st : TState) : Prop where
  inv : Inv st
  global : st.global = []
  quants : st.quants = []

theorem Top.clear {st : TState} (h : Top st) (fuel : Bool) : Top (if fuel then st.clearCache else st) := by
  cases fuel
  · exact h
  · refine ⟨⟨h.inv.below, h.inv.inj, h.inv.noList, h.inv.qbelow, h.inv.gbelow, h.inv.absorb, ?_⟩, h.global, h.quants⟩
    intro c hc
    have : (st.cache.map fun _ => ([] : List ((t : Ty) × Expr t × Term t))).headD [] = [] := by cases st.cache <;> rfl
    have hc : c ∈ (st.cache.map fun _ => ([] : List ((t : Ty) × Expr t × Term t))).headD [] := hc
    rw [this] at hc
    cases hc

theorem Good.clear {st : TState} {t : Ty} {e : Expr t} {r : Term t} (h : Good st e r) (fuel : Bool) : Good (if fuel then st.clearCache else st) e r := by
  cases fuel <;> exact h

theorem Top.trans {H : SmtInterp} (F : @Faithful _ _ H) {O : Oracle} {t : Ty} {e : Expr t} (hfs : FinSub e) (hn : NoExt e) {st st' : TState} {r : Term t}
    (hT : Top st) (h : @Smt.trans _ H O _ e st = some (r, st')) : Top st' ∧ Post e st r st' := by
  have hP := @trans_post _ _ H F O t e hfs st st' r hT.inv h
  exact ⟨⟨hP.inv, (trans_global O e hn h).trans hT.global, hP.step.quants.trans hT.quants⟩, hP⟩

theorem Top.scope [SmtInterp] {vs : List Var} {st st' : TState} {bs : List Symb} (hT : Top st) (h : st.mkScope vs = some (bs, st')) :
    Top st' ∧ Step (· ∈ vs) st st' ∧ ∀ s ∈ bs, ∃ v ∈ vs, v.ty = s.2 := by
  obtain ⟨hI, hs, hg, _, _, hb⟩ := mkScope_spec h hT.inv 0 (Nat.zero_le _) fun _ _ _ _ => Nat.zero_le _
  exact ⟨⟨hI, hg.trans hT.global, hs.quants.trans hT.quants⟩, hs, fun s hs => by
    obtain ⟨_, v, hv, _, ht⟩ := hb s hs
    exact ⟨v, hv, ht⟩⟩

/-- In a well-formed SMT model, a term represents the value of its expression in some state, the same for all terms. -/
theorem Top.state [SmtInterp] {st : TState} (hT : Top st) {M : Model} (hM : WF M) :
    ∃ σ, ∀ {t : Ty} {e : Expr t} {r : Term t}, Good st e r → Rep t (r M) (e.eval σ) := by
  obtain ⟨σ, hσ⟩ := hT.inv.exists_rel fun v n _ => hM n v.ty
  refine ⟨σ, fun hg => hg.2.2 M σ ?_ hσ ?_⟩
  · intro A hA
    rw [hT.global] at hA
    cases hA
  · rw [hT.quants]
    intro s hs
    cases hs

theorem finSub_call (d : FuncDecl) : FinSub d.call := fun _ => trivial
theorem noExt_call (d : FuncDecl) : NoExt d.call := fun _ => trivial

theorem equation_spec {O : Oracle} {H B : SmtInterp} (FH : @Faithful _ _ H) (FB : @Faithful _ _ B) {fuel total : Bool} {d : FuncDecl} {head body : Expr d.out}
    (htot : total = true → ∀ v ∈ d.inputs, Free v.ty) (hh : FinSub head ∧ NoExt head) (hb : FinSub body ∧ NoExt body) (heq : ∀ σ, head.eval σ = body.eval σ)
    {st st' : TState} {A : Fact} (hT : Top st) (h : equation O H B fuel total d head body st = some (A, st')) : Top st' ∧ ∀ M, WF M → A M := by
  simp only [equation, Option.bind_eq_bind, Option.bind_eq_some_iff, Prod.exists] at h
  obtain ⟨rh, st1, h1, rb, st2, h2, bs, st3, h3, h⟩ := h
  cases h
  let _ := H
  obtain ⟨hT1, hP1⟩ := (hT.clear fuel).trans FH hh.1 hh.2 h1
  obtain ⟨hT2, hP2⟩ := (hT1.clear fuel).trans FB hb.1 hb.2 h2
  obtain ⟨hT3, hs3, hbs⟩ := hT2.scope h3
  refine ⟨hT3.clear fuel, fun M hM N hN => ?_⟩
  have hN : invOn bs N := by
    cases total with
    | false => exact hN rfl
    | true =>
      intro s hs
      obtain ⟨v, hv, ht⟩ := hbs s hs
      exact inv_free (ht ▸ htot rfl v hv) _
  obtain ⟨σ, hσ⟩ := hT3.state (hM.over hN)
  have g1 := hσ (((hP1.good.clear fuel).mono hP2.step).mono hs3)
  have g2 := hσ (hP2.good.mono hs3)
  rw [heq σ] at g1
  exact dRep_inj (toDyn_rep g1) (toDyn_rep g2)

theorem returnInvariant_spec {O : Oracle} {H : SmtInterp} (F : @Faithful _ _ H) {fuel : Bool} {d : FuncDecl} {st st' : TState} {A : Fact} (hT : Top st)
    (h : returnInvariant O H fuel d st = some (A, st')) : Top st' ∧ ∀ M, WF M → A M := by
  simp only [returnInvariant, Option.bind_eq_bind, Option.bind_eq_some_iff, Prod.exists] at h
  obtain ⟨bs, st1, h1, rh, st2, h2, h⟩ := h
  cases h
  let _ := H
  obtain ⟨hT1, _, _⟩ := (hT.clear fuel).scope h1
  obtain ⟨hT2, hP2⟩ := hT1.trans F (finSub_call d) (noExt_call d) h2
  refine ⟨hT2.clear fuel, fun M hM N hN => ?_⟩
  obtain ⟨σ, hσ⟩ := hT2.state (hM.over hN)
  exact inv_of_call h2 (hσ hP2.good)

/-- What is shown for a list of assertions. -/
def Holds (r : Option (List Fact × TState)) : Prop := ∀ fs st', r = some (fs, st') → Top st' ∧ ∀ A ∈ fs, ∀ M, WF M → A M

theorem forFuels_spec {f : Nat → TState → Option (Fact × TState)} (hf : ∀ n st st' A, Top st → f n st = some (A, st') → Top st' ∧ ∀ M, WF M → A M)
    (ns : List Nat) : ∀ st, Top st → Holds (forFuels f ns st) := by
  induction ns with
  | nil =>
    intro st hT fs st' h
    cases h
    exact ⟨hT, fun A hA => by cases hA⟩
  | cons n ns ih =>
    intro st hT fs st' h
    simp only [forFuels, Option.bind_eq_bind, Option.bind_eq_some_iff, Prod.exists] at h
    obtain ⟨A, st1, h1, as, st2, h2, h⟩ := h
    cases h
    obtain ⟨hT1, hA⟩ := hf n _ _ _ hT h1
    obtain ⟨hT2, has⟩ := ih _ hT1 _ _ h2
    exact ⟨hT2, fun B hB => by
      rcases List.mem_cons.1 hB with rfl | hB
      · exact hA
      · exact has B hB⟩

theorem forAllFuel_spec {f : Nat → TState → Option (Fact × TState)} (hf : ∀ n st st' A, Top st → f n st = some (A, st') → Top st' ∧ ∀ M, WF M → A M)
    {st st' : TState} {A : Fact} (hT : Top st) (h : forAllFuel f st = some (A, st')) : Top st' ∧ ∀ M, WF M → A M := by
  unfold forAllFuel at h
  split at h
  next hs =>
    cases h
    exact ⟨(hf 0 _ _ _ hT (Option.some_get (hs 0)).symm).1, fun M hM n => (hf n _ _ _ hT (Option.some_get (hs n)).symm).2 M hM⟩
  next => cases h

/-- Specification: the encoding can be used for the function. With the strengthened encoding, the parameters must have types
without constraints. -/
structure FuncOk (E : Encoder) (d : FuncDecl) : Prop where
  inputs : E.total = true → ∀ v ∈ d.inputs, Free v.ty
  body : ∀ b, d.body = some b → FinSub b ∧ NoExt b
  defn : ∀ b, d.body = some b → ∀ σ, d.call.eval σ = b.eval σ

/-- Specification: user-written assertions. -/
structure PropOk (e : Expr .bool) : Prop where
  body : FinSub e ∧ NoExt e
  holds : ∀ σ, (show Prop from e.eval σ)

def SpecOk (E : Encoder) : DomainSpec → Prop
  | .func d => FuncOk E d
  | .prop e => PropOk e

theorem single_spec {f : TState → Option (Fact × TState)} (hf : ∀ st st' A, Top st → f st = some (A, st') → Top st' ∧ ∀ M, WF M → A M)
    (st : TState) (hT : Top st) : Holds (single f st) := by
  intro fs st' h
  simp only [single, Option.bind_eq_bind, Option.bind_eq_some_iff, Prod.exists] at h
  obtain ⟨A, st1, h1, h⟩ := h
  cases h
  obtain ⟨hT1, hA⟩ := hf _ _ _ hT h1
  exact ⟨hT1, fun B hB => by obtain rfl := List.mem_singleton.1 hB; exact hA⟩

theorem given_spec {f : TState → Option (List Fact × TState)} (b : Bool) (hf : ∀ st, Top st → Holds (f st)) (st : TState) (hT : Top st) :
    Holds (given b f st) := by
  cases b
  · intro fs st' h
    cases h
    exact ⟨hT, fun A hA => by cases hA⟩
  · exact hf st hT

theorem basicFacts_spec {O : Oracle} {H : SmtInterp} (F : @Faithful _ _ H) {E : Encoder} {d : FuncDecl} (hd : FuncOk E d) {st : TState} (hT : Top st) :
    Holds (basicFacts O H E.total d st) := by
  intro fs st' h
  simp only [basicFacts, Option.bind_eq_bind, Option.bind_eq_some_iff, Prod.exists] at h
  obtain ⟨as, st1, h1, A, st2, h2, h⟩ := h
  cases h
  have hd1 : Top st1 ∧ ∀ A ∈ as, ∀ M, WF M → A M := by
    unfold basicDefinition at h1
    cases hb : d.body with
    | none =>
      rw [hb] at h1
      cases h1
      exact ⟨hT, fun A hA => by cases hA⟩
    | some b =>
      rw [hb] at h1
      exact single_spec (fun _ _ _ hT h => equation_spec F F hd.inputs ⟨finSub_call d, noExt_call d⟩ (hd.body b hb) (hd.defn b hb) hT h) _ hT _ _ h1
  obtain ⟨hT2, hA⟩ := returnInvariant_spec F hd1.1 h2
  refine ⟨hT2, fun B hB => ?_⟩
  rcases List.mem_append.1 hB with hB | hB
  · exact hd1.2 B hB
  · obtain rfl := List.mem_singleton.1 hB
    exact hA

section fuel
variable {O : Oracle} {W : World} {E : Encoder} (F : ∀ n, @Faithful _ _ (W.at E n)) {o : FuelOptions} {d : FuncDecl} {b : Expr d.out} (hd : FuncOk E d)
  (ho : o.total = E.total) (hb : d.body = some b)
include F hd ho hb

theorem fuelDefinition_spec (n : Nat) (st st' : TState) (A : Fact) (hT : Top st) (h : fuelDefinition O W E o d b n st = some (A, st')) :
    Top st' ∧ ∀ M, WF M → A M :=
  equation_spec (F _) (F _) (fun h => hd.inputs (ho ▸ h)) ⟨finSub_call d, noExt_call d⟩ (hd.body b hb) (hd.defn b hb) hT h

omit ho in
theorem fuelComputation_spec (n : Nat) (st st' : TState) (A : Fact) (hT : Top st) (h : fuelComputation O W E d b n st = some (A, st')) :
    Top st' ∧ ∀ M, WF M → A M :=
  equation_spec (F _) (F _) (fun h => by cases h) ⟨finSub_call d, noExt_call d⟩ (hd.body b hb) (hd.defn b hb) hT h

omit hd ho hb in
theorem fuelSynonym_spec (n : Nat) (st st' : TState) (A : Fact) (hT : Top st) (h : fuelSynonym O W E d n st = some (A, st')) :
    Top st' ∧ ∀ M, WF M → A M :=
  equation_spec (F _) (F _) (fun h => by cases h) ⟨finSub_call d, noExt_call d⟩ ⟨finSub_call d, noExt_call d⟩ (fun _ => rfl) hT h

omit hd ho hb in
theorem fuelReturn_spec (n : Nat) (st st' : TState) (A : Fact) (hT : Top st) (h : fuelReturn O W E d n st = some (A, st')) :
    Top st' ∧ ∀ M, WF M → A M := returnInvariant_spec (F _) hT h

theorem monoFacts_spec {st : TState} (hT : Top st) : Holds (monoFacts O W E o d b st) := by
  intro fs st' h
  simp only [monoFacts, Option.bind_eq_bind, Option.bind_eq_some_iff, Prod.exists] at h
  obtain ⟨ds, st1, h1, rs, st2, h2, ss, st3, h3, cs, st4, h4, h⟩ := h
  cases h
  obtain ⟨T1, f1⟩ := forFuels_spec (fuelDefinition_spec F hd ho hb) _ _ hT _ _ h1
  obtain ⟨T2, f2⟩ := forFuels_spec (fuelReturn_spec F) _ _ T1 _ _ h2
  have h3 := given_spec _ (forFuels_spec (fuelSynonym_spec F) _) _ T2 _ _ h3
  have h4 := given_spec _ (forFuels_spec (fuelComputation_spec F hd hb) _) _ h3.1 _ _ h4
  refine ⟨h4.1, fun A hA => ?_⟩
  simp only [List.mem_append] at hA
  rcases hA with ((hA | hA) | hA) | hA
  · exact f1 A hA
  · exact f2 A hA
  · exact h3.2 A hA
  · exact h4.2 A hA

theorem paramFacts_spec {st : TState} (hT : Top st) : Holds (paramFacts O W E o d b st) := by
  intro fs st' h
  simp only [paramFacts, Option.bind_eq_bind, Option.bind_eq_some_iff, Prod.exists] at h
  obtain ⟨df, st1, h1, ss, st2, h2, rf, st3, h3, cs, st4, h4, h⟩ := h
  cases h
  obtain ⟨T1, f1⟩ := forAllFuel_spec (fuelDefinition_spec F hd ho hb) hT h1
  have h2 := given_spec _ (single_spec fun _ _ _ => forAllFuel_spec (fuelSynonym_spec F)) _ T1 _ _ h2
  obtain ⟨T3, f3⟩ := forAllFuel_spec (fuelReturn_spec F) h2.1 h3
  have h4 := given_spec _ (single_spec fun _ _ _ => forAllFuel_spec (fuelComputation_spec F hd hb)) _ T3 _ _ h4
  refine ⟨h4.1, fun A hA => ?_⟩
  rcases List.mem_cons.1 hA with rfl | hA
  · exact f1
  · rcases List.mem_append.1 hA with hA | hA
    · exact h2.2 A hA
    · rcases List.mem_cons.1 hA with rfl | hA
      · exact f3
      · exact h4.2 A hA

end fuel

theorem funcFacts_spec {O : Oracle} {W : World} {E : Encoder} (F : ∀ n, @Faithful _ _ (W.at E n)) {d : FuncDecl} (hd : FuncOk E d) {st : TState} (hT : Top st) :
    Holds (funcFacts O W E d st) := by
  unfold funcFacts
  split
  · cases E with
    | basic t => intro fs st' h; cases h
    | fuelMono o =>
      cases hb : d.body with
      | none => intro fs st' h; cases h
      | some b => exact monoFacts_spec F hd rfl hb hT
    | fuelParam o =>
      cases hb : d.body with
      | none => intro fs st' h; cases h
      | some b => exact paramFacts_spec F hd rfl hb hT
    | recFun => intro fs st' h; cases h
  · exact basicFacts_spec (F _) hd hT

theorem domainFacts_spec {O : Oracle} {W : World} {E : Encoder} (F : ∀ n, @Faithful _ _ (W.at E n)) {ds : List DomainSpec} (hds : ∀ d ∈ ds, SpecOk E d) :
    ∀ st, Top st → Holds (domainFacts O W E ds st) := by
  induction ds with
  | nil =>
    intro st hT fs st' h
    cases h
    exact ⟨hT, fun A hA => by cases hA⟩
  | cons d ds ih =>
    have ih := ih fun d hd => hds d (.tail _ hd)
    have hd := hds d (.head _)
    intro st hT fs st' h
    cases d with
    | func d =>
      simp only [domainFacts, Option.bind_eq_bind, Option.bind_eq_some_iff, Prod.exists] at h
      obtain ⟨as, st1, h1, bs, st2, h2, h⟩ := h
      cases h
      obtain ⟨T1, f1⟩ := funcFacts_spec F hd hT _ _ h1
      obtain ⟨T2, f2⟩ := ih _ T1 _ _ h2
      exact ⟨T2, fun A hA => (List.mem_append.1 hA).elim (f1 A) (f2 A)⟩
    | prop e =>
      simp only [domainFacts, Option.bind_eq_bind, Option.bind_eq_some_iff, Prod.exists] at h
      obtain ⟨r, st1, h1, bs, st2, h2, h⟩ := h
      cases h
      let _ := W.at E E.fuel
      obtain ⟨T1, hP⟩ := hT.trans (F _) hd.body.1 hd.body.2 h1
      obtain ⟨T2, f2⟩ := ih _ T1 _ _ h2
      refine ⟨T2, fun A hA => ?_⟩
      rcases List.mem_cons.1 hA with rfl | hA
      · intro M hM
        obtain ⟨σ, hσ⟩ := T1.state hM
        exact (hσ hP.good : _ ↔ _).2 (hd.holds σ)
      · exact f2 A hA

end Caesar.Smt
