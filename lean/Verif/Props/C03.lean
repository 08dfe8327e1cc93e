import Verif.VcgenSound
import Verif.Witness

/-!
# C03: programs without negation are monotone

The full property (`C03_full`) is false: because of the fallback of `validate` (C02) two posts with the same value
but different shape get different conditions (`C03_not_full`). The partial theorem assumes that the posts of
`validate` have the shape for which the code is right (nothing to check for statements without `validate`).
-/

open scoped ENNReal NNReal

namespace Caesar
set_option linter.unusedSectionVars false

/-- The full property. -/
def C03_full : Prop :=
  ∀ (_ : Doms) (_ : Interp) (S : Stmt), S.NoNeg → ∀ post₁ post₂ e₁ e₂ : Expr .eureal,
    vcgen S post₁ = .ok e₁ → vcgen S post₂ = .ok e₂ → (∀ σ : Env, post₁.ev σ ≤ post₂.ev σ) →
      ∀ σ : Env, e₁.ev σ ≤ e₂.ev σ

section
variable [Doms] [Interp]

/-- A larger post gives a larger verification condition. -/
theorem C03_vcgen_monotone_partial {S : Stmt} (hS : S.NoNeg) {post₁ post₂ e₁ e₂ : Expr .eureal}
    (h₁ : vcgen S post₁ = .ok e₁) (h₂ : vcgen S post₂ = .ok e₂)
    (v₁ : ValidateOk S post₁) (v₂ : ValidateOk S post₂)
    (h : ∀ σ : Env, post₁.ev σ ≤ post₂.ev σ) (σ : Env) : e₁.ev σ ≤ e₂.ev σ := by
  classical
  induction S generalizing post₁ post₂ e₁ e₂ σ with
  | skip | varDecl | label => cases h₁; cases h₂; exact h σ
  | varInit | assign => cases h₁; cases h₂; exact h _
  | call => cases h₁
  | «while» => cases h₁
  | negate => exact hS.elim
  | sample b x d =>
    obtain ⟨tbl, ht, h₁⟩ := bind_ok h₁
    obtain ⟨tbl', ht', h₂⟩ := bind_ok h₂
    rw [ht] at ht'
    cases ht'
    rw [expectation_ev h₁, expectation_ev h₂]
    apply List.sum_le_sum
    intro p _
    exact mul_le_mul_right (h _) _
  | seq a b iha ihb =>
    obtain ⟨p₁, hb₁, ha₁⟩ := bind_ok h₁
    obtain ⟨p₂, hb₂, ha₂⟩ := bind_ok h₂
    exact iha hS.1 ha₁ ha₂ (v₁.2 _ hb₁) (v₂.2 _ hb₂) (fun σ => ihb hS.2 hb₁ hb₂ v₁.1 v₂.1 h σ) σ
  | havoc d xs =>
    have e1 := congrFun (vcgen_sound ⟨.lfp, fun _ _ _ φ => φ⟩ h₁ v₁ trivial) σ
    have e2 := congrFun (vcgen_sound ⟨.lfp, fun _ _ _ φ => φ⟩ h₂ v₂ trivial) σ
    rw [e1, e2]
    exact vcSem_mono _ (fun _ _ _ _ _ h => h) hS h σ
  | assert | assume | compare | validate | tick | weigh =>
    have e1 := congrFun (vcgen_sound ⟨.lfp, fun _ _ _ φ => φ⟩ h₁ v₁ trivial) σ
    have e2 := congrFun (vcgen_sound ⟨.lfp, fun _ _ _ φ => φ⟩ h₂ v₂ trivial) σ
    rw [e1, e2]
    exact vcSem_mono _ (fun _ _ _ _ _ h => h) hS h σ
  | demonic a b iha ihb =>
    obtain ⟨p₁, ha₁, h₁⟩ := bind_ok h₁
    obtain ⟨q₁, hb₁, h₁⟩ := bind_ok h₁
    obtain ⟨p₂, ha₂, h₂⟩ := bind_ok h₂
    obtain ⟨q₂, hb₂, h₂⟩ := bind_ok h₂
    cases h₁; cases h₂
    rw [Expr.ev_inf, Expr.ev_inf]
    exact min_le_min (iha hS.1 ha₁ ha₂ v₁.1 v₂.1 h σ) (ihb hS.2 hb₁ hb₂ v₁.2 v₂.2 h σ)
  | angelic a b iha ihb =>
    obtain ⟨p₁, ha₁, h₁⟩ := bind_ok h₁
    obtain ⟨q₁, hb₁, h₁⟩ := bind_ok h₁
    obtain ⟨p₂, ha₂, h₂⟩ := bind_ok h₂
    obtain ⟨q₂, hb₂, h₂⟩ := bind_ok h₂
    cases h₁; cases h₂
    rw [Expr.ev_sup, Expr.ev_sup]
    exact max_le_max (iha hS.1 ha₁ ha₂ v₁.1 v₂.1 h σ) (ihb hS.2 hb₁ hb₂ v₁.2 v₂.2 h σ)
  | additive a b iha ihb =>
    obtain ⟨p₁, ha₁, h₁⟩ := bind_ok h₁
    obtain ⟨q₁, hb₁, h₁⟩ := bind_ok h₁
    obtain ⟨p₂, ha₂, h₂⟩ := bind_ok h₂
    obtain ⟨q₂, hb₂, h₂⟩ := bind_ok h₂
    cases h₁; cases h₂
    rw [Expr.ev_add, Expr.ev_add]
    exact add_le_add (iha hS.1 ha₁ ha₂ v₁.1 v₂.1 h σ) (ihb hS.2 hb₁ hb₂ v₁.2 v₂.2 h σ)
  | ite c a b iha ihb =>
    obtain ⟨p₁, ha₁, h₁⟩ := bind_ok h₁
    obtain ⟨q₁, hb₁, h₁⟩ := bind_ok h₁
    obtain ⟨p₂, ha₂, h₂⟩ := bind_ok h₂
    obtain ⟨q₂, hb₂, h₂⟩ := bind_ok h₂
    cases h₁; cases h₂
    rw [Expr.ev_ite, Expr.ev_ite]
    split
    · exact iha hS.1 ha₁ ha₂ v₁.1 v₂.1 h σ
    · exact ihb hS.2 hb₁ hb₂ v₁.2 v₂.2 h σ
  | annot an s ih =>
    cases an with
    | slicing k => exact ih hS h₁ h₂ v₁ v₂ h σ
    | _ => cases h₁

/-- Statements without `negate` and `validate` have monotone verification conditions. -/
theorem C03_vcgen_monotone_no_validate {S : Stmt} (hS : S.NoNeg) (hV : S.NoValidate)
    {post₁ post₂ e₁ e₂ : Expr .eureal} (h₁ : vcgen S post₁ = .ok e₁) (h₂ : vcgen S post₂ = .ok e₂)
    (h : ∀ σ : Env, post₁.ev σ ≤ post₂.ev σ) (σ : Env) : e₁.ev σ ≤ e₂.ev σ :=
  C03_vcgen_monotone_partial hS h₁ h₂ (validateOk_of_noValidate hV _) (validateOk_of_noValidate hV _) h σ

/-- The documented semantics is monotone for all statements without negations, including loops (least or greatest
fixed points), calls to monotone procedures, `validate` and all distributions. -/
theorem C03_semantics_monotone (C : SemCtx) (hC : ∀ l f a, Monotone (C.call l f a)) {S : Stmt} (hS : S.NoNeg) :
    Monotone (vcSem C S) := vcSem_mono C hC hS

/-- Non-vacuity: `while x ≤ 3 { x = unif(1,6); validate; assume 1 }` has no negations. -/
example : Stmt.NoNeg (.while (.rel (.le rfl) (.var ⟨"x", 0⟩) (Expr.uintLit 3))
    (.seq (.sample false ⟨"x", 0⟩ (.unif 1 6)) (.seq (.validate .down) (.assume .down (.lit (.efrac 1)))))) :=
  ⟨trivial, trivial, trivial⟩

/-- Non-vacuity of `C03_vcgen_monotone_partial`: `validate; assume 1` for all posts. -/
example (post : Expr .eureal) : ValidateOk (.seq (.validate .down) (.assume .down (.lit (.efrac 1)))) post := by
  refine ⟨trivial, fun p' h => ?_⟩
  cases h
  exact Or.inl ⟨_, _, rfl⟩

/-- With a negation monotonicity fails: the hypothesis `NoNeg` is needed. -/
theorem C03_negation_needed : ∃ post₁ post₂ e₁ e₂ : Expr .eureal,
    vcgen (.negate .down) post₁ = .ok e₁ ∧ vcgen (.negate .down) post₂ = .ok e₂ ∧
    (∀ σ : Env, post₁.ev σ ≤ post₂.ev σ) ∧ ∀ σ : Env, ¬ e₁.ev σ ≤ e₂.ev σ := by
  refine ⟨.lit (.efrac 0), Expr.inftyLit, _, _, rfl, rfl, fun σ => ?_, fun σ => ?_⟩
  · exact le_top
  · have h2 : (Expr.lit (.efrac 0)).ev σ = 0 := by rw [Expr.ev_efrac]; simp
    have h3 : Expr.inftyLit.ev σ = ⊤ := Expr.ev_infty σ
    rw [Expr.ev_not, Expr.ev_not, h2, h3]
    simp

end

/-- `validate` applied to `1` and to `∞ → 1` (which is `1`). -/
theorem C03_not_full : ¬ C03_full := by
  intro h
  let _ := unitDoms
  let _ := unitInterp
  have h2 : ∀ σ : Env, (Expr.lit (.efrac 1)).ev σ = 1 := by
    intro σ; rw [Expr.ev_efrac]; simp
  have h3 : ∀ σ : Env, Expr.inftyLit.ev σ = ⊤ := Expr.ev_infty
  have h1 := h unitDoms unitInterp (.validate .down) trivial (.lit (.efrac 1))
    (.bin (.impl rfl) Expr.inftyLit (.lit (.efrac 1))) _ _ rfl rfl
    (fun σ => by rw [Expr.ev_impl, h2, h3]; simp) zeroEnv
  rw [Expr.ev_not, Expr.ev_not, Expr.ev_compare, h2, h3] at h1
  simp at h1

end Caesar
