import Verif.VcgenSound
import Verif.Witness

/-!
# C02: `validate` and `covalidate` have their documented semantics

Documentation (`website/docs/heyvl/statements.md:208-218`): `validate` is `conegate; conegate`, i.e. `∞` where the
post is `∞` and `0` elsewhere; `covalidate` is `negate; negate`, i.e. `0` where the post is `0`, `∞` elsewhere.

The code (`src/vc/vcgen.rs:126-155`) swaps the two double negations unless the post is syntactically an
implication (co-implication): the full property is false (`C02_not_full`). Proved: the shapes on which it is right
(`_partial`; missing: all other posts) and exactly what happens on the others.
-/

open scoped ENNReal NNReal

namespace Caesar
set_option linter.unusedSectionVars false

/-- The full property. -/
def C02_full : Prop :=
  ∀ (_ : Doms) (_ : Interp) (post : Expr .eureal) (σ : Env),
    (∀ e, vcgen (.validate .down) post = .ok e →
      (post.ev σ = ⊤ → e.ev σ = ⊤) ∧ (post.ev σ ≠ ⊤ → e.ev σ = 0)) ∧
    (∀ e, vcgen (.validate .up) post = .ok e →
      (post.ev σ = 0 → e.ev σ = 0) ∧ (post.ev σ ≠ 0 → e.ev σ = ⊤))

section
variable [Doms] [Interp]

/-- `validate` of an implication. -/
theorem C02_validate_impl_partial (l r e : Expr .eureal)
    (h : vcgen (.validate .down) (.bin (.impl rfl) l r) = .ok e) (σ : Env) :
    ((Expr.bin (.impl rfl) l r).ev σ = ⊤ → e.ev σ = ⊤) ∧ ((Expr.bin (.impl rfl) l r).ev σ ≠ ⊤ → e.ev σ = 0) := by
  rw [validate_down_ok h (Or.inl ⟨_, _, rfl⟩) σ]
  constructor
  · intro h; rw [if_pos h]
  · intro h; rw [if_neg h]

/-- `covalidate` of a co-implication. -/
theorem C02_covalidate_coimpl_partial (l r e : Expr .eureal)
    (h : vcgen (.validate .up) (.bin (.coimpl rfl) l r) = .ok e) (σ : Env) :
    ((Expr.bin (.coimpl rfl) l r).ev σ = 0 → e.ev σ = 0) ∧
      ((Expr.bin (.coimpl rfl) l r).ev σ ≠ 0 → e.ev σ = ⊤) := by
  rw [validate_up_ok h (Or.inl ⟨_, _, rfl⟩) σ]
  constructor
  · intro h; rw [if_pos h]
  · intro h; rw [if_neg h]

example : ∃ e, vcgen (.validate .down) (.bin (.impl rfl) Expr.inftyLit (.lit (.efrac 1))) = .ok e := ⟨_, rfl⟩
example : ∃ e, vcgen (.validate .up) (.bin (.coimpl rfl) (.lit (.efrac 1)) Expr.inftyLit) = .ok e := ⟨_, rfl⟩

/-- For every post which is not syntactically an implication, the generated condition is the one documented for
`covalidate`. -/
theorem C02_validate_fallback (post e : Expr .eureal) (hp : ∀ l r, post ≠ .bin (.impl rfl) l r)
    (h : vcgen (.validate .down) post = .ok e) (σ : Env) :
    (post.ev σ = 0 → e.ev σ = 0) ∧ (post.ev σ ≠ 0 → e.ev σ = ⊤) := by
  rcases validate_down_ev post h σ with ⟨⟨l, r, h1⟩, _⟩ | h1
  · exact absurd h1 (hp l r)
  · rw [h1]
    constructor
    · intro h; rw [if_pos h]
    · intro h; rw [if_neg h]

/-- Dually for `covalidate`. -/
theorem C02_covalidate_fallback (post e : Expr .eureal) (hp : ∀ l r, post ≠ .bin (.coimpl rfl) l r)
    (h : vcgen (.validate .up) post = .ok e) (σ : Env) :
    (post.ev σ = ⊤ → e.ev σ = ⊤) ∧ (post.ev σ ≠ ⊤ → e.ev σ = 0) := by
  rcases validate_up_ev post h σ with ⟨⟨l, r, h1⟩, _⟩ | h1
  · exact absurd h1 (hp l r)
  · rw [h1]
    constructor
    · intro h; rw [if_pos h]
    · intro h; rw [if_neg h]

/-- The documented semantics of the specification is the double (co)negation of the documentation. -/
theorem C02_spec_is_double_negation (C : SemCtx) (φ : Exp) :
    vcSem C (.validate .down) φ = vcSem C (.seq (.negate .up) (.negate .up)) φ ∧
    vcSem C (.validate .up) φ = vcSem C (.seq (.negate .down) (.negate .down)) φ := by
  constructor
  · funext σ
    by_cases h : φ σ = ⊤ <;> simp [vcSem, h]
  · funext σ
    by_cases h : φ σ = 0 <;> simp [vcSem, h]

end

/-- `validate` of the variable-free post `1` gives `∞`. -/
theorem C02_not_full : ¬ C02_full := by
  intro h
  let _ := unitDoms
  let _ := unitInterp
  have h1 := (h unitDoms unitInterp (.lit (.efrac 1)) zeroEnv).1 _ rfl
  have h2 : (Expr.lit (.efrac 1)).ev zeroEnv = 1 := by
    rw [Expr.ev_efrac]; simp
  rw [Expr.ev_not, Expr.ev_not, h2] at h1
  simp at h1

end Caesar
