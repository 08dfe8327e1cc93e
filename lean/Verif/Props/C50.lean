import Verif.Smt.TranslateMain
import Verif.Witness

/-!
# C50: the SMT translation is faithful

`Rep` (`Smt/TranslateOps.lean`) says which SMT values represent which values of HeyLo, `inv` (`Smt/Translate.lean`) is the
invariant asserted for SMT variables, and `Faithful` says that the SMT model interprets function symbols, and the division
by zero, as the semantics does. `TState.global` are the constraints of the infima and suprema, asserted next to the
translated formula.
-/

open scoped ENNReal NNReal

namespace Caesar.Smt
set_option linter.unusedSectionVars false

/-- Specification: the SMT model satisfies the constraints which were created with the term: those of infima and suprema, and
the invariants of the variables. -/
def Respects [Doms] (st : TState) (M : Model) : Prop :=
  (∀ A ∈ st.global, A M) ∧ ∀ v n, st.locals.get v = some n → inv v.ty (M.val n v.ty)

/-- Specification: the SMT model gives variables the representations of their values. -/
def Models [Doms] (st : TState) (M : Model) (σ : Env) : Prop :=
  ∀ v n, st.locals.get v = some n → Rep v.ty (M.val n v.ty) (σ v)

/-- The full property. -/
def C50_full : Prop := ∀ (_ : Doms) (_ : Interp) (_ : SmtInterp) (_ : Faithful) (O : Oracle) (t : Ty) (e : Expr t) (r : Term t) (st : TState),
  trans O e .new = some (r, st) → ∀ M σ, Respects st M → Models st M σ → Rep t (r M) (e.eval σ)

theorem inv_new [Doms] [Interp] [SmtInterp] : Inv TState.new where
  below v n h := by cases h
  inj v w n h := by cases h
  noList v n h := by cases h
  qbelow s hs := by cases hs
  gbelow A hA := by cases hA
  absorb A hA := by cases hA
  cache c hc := by cases hc

/-- The property, if no subtraction has an infinite subtrahend. (Subtraction of an infinite value is wrong, see `C12_sub_not_full`.) -/
theorem C50_translation_partial [Doms] [Interp] [SmtInterp] (F : Faithful) (O : Oracle) {t : Ty} (e : Expr t) (hfin : FinSub e) {r : Term t} {st : TState}
    (h : trans O e .new = some (r, st)) (M : Model) (σ : Env) (hM : Respects st M) (hσ : Models st M σ) : Rep t (r M) (e.eval σ) := by
  have hP := trans_post F O e hfin inv_new h
  refine hP.good.2.2 M σ hM.1 (fun v n hn => ⟨hM.2 v n hn, hσ v n hn⟩) ?_
  rw [hP.step.quants]
  intro s hs
  cases hs

/-- Each state is given by an SMT model: the constraints of infima and suprema do not exclude any state. -/
theorem C50_states_partial [Doms] [Interp] [SmtInterp] (F : Faithful) (O : Oracle) {t : Ty} (e : Expr t) (hfin : FinSub e) {r : Term t} {st : TState}
    (h : trans O e .new = some (r, st)) (σ : Env) : ∃ M, Respects st M ∧ Models st M σ := by
  have hP := trans_post F O e hfin inv_new h
  have hex : ∀ n t, ∃ x : SVal t, inv t x ∧ ∀ v, st.locals.get v = some n → ∀ h : v.ty = t, Rep t x (h ▸ σ v) := by
    intro n t
    by_cases h : ∃ v, st.locals.get v = some n ∧ v.ty = t
    · obtain ⟨v, hn, rfl⟩ := h
      obtain ⟨x, hx, hr⟩ := rep_inv (hP.inv.noList v n hn) (σ v)
      refine ⟨x, hx, fun w hwn h => ?_⟩
      obtain rfl := hP.inv.inj v w n hn hwn
      exact hr
    · obtain ⟨x, hx⟩ := inv_exists t
      exact ⟨x, hx, fun v hn ht => absurd ⟨v, hn, ht⟩ h⟩
  choose f hf hr using hex
  obtain ⟨M, hv, _, hS⟩ := hP.cons ⟨f, fun _ _ => Pair.zero⟩ (fun n t => hf n t) fun A hA => by cases hA
  refine ⟨M, ⟨hS, fun v n _ => ?_⟩, fun v n hn => ?_⟩
  · rw [hv]; exact hf n v.ty
  · rw [hv]; exact hr n v.ty v hn rfl

/-- Each SMT model gives a state. -/
theorem C50_models_partial [Doms] [Interp] [SmtInterp] (F : Faithful) (O : Oracle) {t : Ty} (e : Expr t) (hfin : FinSub e) {r : Term t} {st : TState}
    (h : trans O e .new = some (r, st)) (M : Model) (hM : Respects st M) : ∃ σ, Models st M σ := by
  obtain ⟨σ, hσ⟩ := (trans_post F O e hfin inv_new h).inv.exists_rel hM.2
  exact ⟨σ, fun v n hn => (hσ v n hn).2⟩

/-- A formula is valid if and only if its translation holds in all SMT models which respect the constraints: the solver's
answer about the negated term is the answer to the question. -/
theorem C50_validity_partial [Doms] [Interp] [SmtInterp] (F : Faithful) (O : Oracle) (e : Expr .bool) (hfin : FinSub e) {r : Term .bool} {st : TState}
    (h : trans O e .new = some (r, st)) : (∀ M, Respects st M → (show Prop from r M)) ↔ ∀ σ, (show Prop from e.eval σ) := by
  constructor
  · intro hall σ
    obtain ⟨M, hM, hσ⟩ := C50_states_partial F O e hfin h σ
    exact (C50_translation_partial F O e hfin h M σ hM hσ : _ ↔ _).1 (hall M hM)
  · intro hall M hM
    obtain ⟨σ, hσ⟩ := C50_models_partial F O e hfin h M hM
    exact (C50_translation_partial F O e hfin h M σ hM hσ : _ ↔ _).2 (hall σ)

/-! ## The hypotheses can be met -/

theorem dRep_unique [Doms] {t : Ty} {v : DVal t} {x y : t.den} (hx : DRep t v x) (hy : DRep t v y) : x = y := by
  cases t with
  | bool => exact propext (Iff.trans (Iff.symm hx) hy)
  | uint => exact Int.ofNat.inj ((Eq.symm hx).trans hy)
  | int => exact (Eq.symm hx).trans hy
  | ureal => exact NNReal.coe_injective ((Eq.symm hx).trans hy)
  | real => exact (Eq.symm hx).trans hy
  | eureal =>
    obtain ⟨⟩ | r := v
    · exact Eq.trans hx (Eq.symm hy)
    · exact Eq.trans hx.2 (Eq.symm hy.2)
  | list s => exact hx.elim
  | dom n => exact (Eq.symm hx).trans hy

theorem dRep_exists [Doms] {t : Ty} (ht : ∀ s, t ≠ .list s) (x : t.den) : ∃ v : DVal t, DRep t v x := by
  cases t with
  | bool => exact ⟨x, Iff.rfl⟩
  | uint => exact ⟨((show ℕ from x) : ℤ), rfl⟩
  | int => exact ⟨x, rfl⟩
  | ureal => exact ⟨((show ℝ≥0 from x) : ℝ), rfl⟩
  | real => exact ⟨x, rfl⟩
  | eureal =>
    by_cases h : x = (⊤ : ℝ≥0∞)
    · exact ⟨Data.inf, h⟩
    · exact ⟨Data.real (ENNReal.toReal x), ENNReal.toReal_nonneg, (ENNReal.ofReal_toReal h).symm⟩
  | list s => exact (ht s rfl).elim
  | dom n => exact ⟨x, rfl⟩

/-- Every interpretation in which the types agree on `x / 0` and `x % 0` is that of an SMT model. -/
theorem faithful_exists [Doms] [Interp] (hdiv : ∀ x : ℝ≥0, Interp.divR0 (x : ℝ) = (Interp.divU0 x : ℝ≥0))
    (hmod : ∀ n : ℕ, Interp.modZ0 (n : ℤ) = (Interp.modN0 n : ℕ)) : ∃ _ : SmtInterp, Faithful := by
  classical
  have hex : ∀ {t : Ty} (f : Func t) (as : (i : Fin f.args.length) → DVal (f.args.get i)), ∃ v : DVal t, (∀ s, t ≠ .list s) →
      ∀ xs : (i : Fin f.args.length) → (f.args.get i).den, (∀ i, DRep _ (as i) (xs i)) → DRep t v (Interp.func f xs) := by
    intro t f as
    by_cases ht : ∃ s, t = .list s
    · obtain ⟨s, rfl⟩ := ht
      exact ⟨(), fun h => (h s rfl).elim⟩
    · have ht : ∀ s, t ≠ .list s := fun s hs => ht ⟨s, hs⟩
      by_cases h : ∃ xs : (i : Fin f.args.length) → (f.args.get i).den, ∀ i, DRep _ (as i) (xs i)
      · obtain ⟨xs, hxs⟩ := h
        obtain ⟨v, hv⟩ := dRep_exists ht (Interp.func f xs)
        refine ⟨v, fun _ ys hys => ?_⟩
        rw [show ys = xs from funext fun i => dRep_unique (hys i) (hxs i)]
        exact hv
      · obtain ⟨v, _⟩ := dRep_exists ht t.default
        exact ⟨v, fun _ xs hxs => absurd ⟨xs, hxs⟩ h⟩
  choose g hg using @hex
  let S : SmtInterp := { junk := 0, func := fun f as => g f as, div0 := Interp.divR0, mod0 := Interp.modZ0 }
  exact ⟨S, ⟨fun ht f as xs h => hg f as ht xs h, hdiv, fun _ => rfl, hmod, fun _ => rfl⟩⟩

/-- No use of the cache. -/
def noCache [Doms] : Oracle := ⟨fun _ _ _ => none, fun _ _ _ => false⟩

/-- `x <= inf y: UInt. (y + x)`, with an operand under a quantifier that becomes a Skolem function. -/
def C50_example : Expr .bool :=
  .rel (.le rfl) (.var ⟨"x", 0⟩) (.quant (t := .eureal) .inf rfl [⟨false, ⟨⟨"y", 0⟩, .uint⟩⟩]
    (.bin (.add rfl) (.cast .uintEUReal (.var ⟨"y", 0⟩)) (.var ⟨"x", 0⟩)))

theorem cached_no [Doms] {t : Ty} (e : Expr t) (act : TState → Option (Term t × TState)) (st : TState) : TState.cached noCache e act st = act st := by
  unfold TState.cached
  split
  · rfl
  · show (do let (r, st) ← act st; some (r, st)) = _
    cases act st <;> rfl

theorem C50_example_trans [Doms] [SmtInterp] : ∃ (r : Term .bool) (st : TState),
    trans noCache C50_example .new = some (r, st) ∧ st.global.length = 1 := by
  unfold C50_example
  simp only [trans, cached_no]
  exact ⟨_, _, rfl, rfl⟩

/-- The theorems apply to it: its only constraint is that of the infimum, and it is valid. -/
example : ∃ (_ : Doms) (_ : Interp) (_ : SmtInterp) (_ : Faithful) (r : Term .bool) (st : TState),
    trans noCache C50_example .new = some (r, st) ∧ FinSub C50_example ∧ st.global.length = 1 ∧ ∀ M, Respects st M → (show Prop from r M) := by
  let _ := unitDoms
  let _ := unitInterp
  obtain ⟨S, F⟩ := faithful_exists (fun _ => rfl) (fun _ => rfl)
  have hfin : FinSub C50_example := ⟨trivial, trivial, trivial, fun _ => trivial⟩
  obtain ⟨r, st, h, hl⟩ := C50_example_trans
  refine ⟨_, _, S, F, r, st, h, hfin, hl, (C50_validity_partial F noCache C50_example hfin h).2 fun σ => ?_⟩
  have key : ∀ x : ℝ≥0∞, x ≤ ⨅ n : ℕ, ((n : ℝ≥0∞) + x) := fun x => le_iInf fun n => le_add_self
  exact key (σ ⟨⟨"x", 0⟩, .eureal⟩)

/-- `5 - ∞`. -/
def C50_counter : Expr .eureal := .bin (.sub rfl) (.lit (.efrac 5)) (.lit .infty)

/-- The full property fails: the translation of `5 - ∞` is `4`. -/
theorem C50_not_full : ¬ C50_full := by
  intro h
  let _ := unitDoms
  let _ := unitInterp
  obtain ⟨S, F⟩ := faithful_exists (fun _ => rfl) (fun _ => rfl)
  have ht : ∃ r : Term .eureal, trans noCache C50_counter .new = some (r, .new) ∧ ∀ M, r M = (Pair.fromUReal (((5 : ℚ≥0) : ℚ) : ℝ)).sub Pair.infinity := by
    unfold C50_counter
    simp only [trans, cached_no, sLit, sBin, sSub]
    exact ⟨_, rfl, fun _ => rfl⟩
  obtain ⟨r, ht, hr⟩ := ht
  have h1 := h _ _ S F noCache _ _ _ _ ht ⟨fun _ t => (inv_exists t).choose, fun _ _ => Pair.zero⟩ zeroEnv
    ⟨fun A hA => (by cases hA), fun v n hn => by cases hn⟩ (fun v n hn => by cases hn)
  rw [hr] at h1
  have h2 : ((Pair.fromUReal (((5 : ℚ≥0) : ℚ) : ℝ)).sub Pair.infinity).Repr (((5 : ℚ≥0) : ℝ≥0) - ⊤) := h1
  rw [Pair.repr_iff, ENNReal.sub_top] at h2
  have h2 := h2.2
  rw [Pair.abs_fin (show ¬ ((Pair.fromUReal (((5 : ℚ≥0) : ℚ) : ℝ)).sub Pair.infinity).isInf from fun h => h.1)] at h2
  have h3 : ((Pair.fromUReal (((5 : ℚ≥0) : ℚ) : ℝ)).sub Pair.infinity).num = 4 := by
    show realMonus (((5 : ℚ≥0) : ℚ) : ℝ) 1 = 4
    unfold realMonus smtIte
    rw [if_pos (by norm_num)]
    norm_num
  rw [h3, ENNReal.ofReal_eq_zero] at h2
  norm_num at h2

/-- Another failure: an SMT model may choose a negative value for the division of an `UReal` by zero, which represents no
value. (No interpretation is faithful to that model, so the theorems above do not speak about it.) -/
theorem C50_division_not_full [Doms] [SmtInterp] (h : SmtInterp.div0 1 = -1) :
    ∃ (r : Term .ureal) (st : TState), trans noCache (.bin (.div rfl) (.lit (.ufrac 1)) (.lit (.ufrac 0))) .new = some (r, st) ∧
      ∀ M (x : ℝ≥0), ¬ Rep .ureal (r M) x := by
  have ht : ∃ (r : Term .ureal) (st : TState), trans noCache (.bin (.div rfl) (.lit (.ufrac 1)) (.lit (.ufrac 0))) .new = some (r, st) ∧
      ∀ M, r M = realDiv (((1 : ℚ≥0) : ℚ) : ℝ) (((0 : ℚ≥0) : ℚ) : ℝ) := by
    simp only [trans, cached_no]
    exact ⟨_, _, rfl, fun _ => rfl⟩
  obtain ⟨r, st, ht, hr⟩ := ht
  refine ⟨r, st, ht, fun M x hx => ?_⟩
  rw [hr] at hx
  have hx : realDiv (((1 : ℚ≥0) : ℚ) : ℝ) (((0 : ℚ≥0) : ℚ) : ℝ) = x := hx
  unfold realDiv at hx
  rw [if_pos (by norm_num), show (((1 : ℚ≥0) : ℚ) : ℝ) = 1 by norm_num, h] at hx
  exact absurd (hx.trans_ge (NNReal.coe_nonneg x)) (by norm_num)

end Caesar.Smt
