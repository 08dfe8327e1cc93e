import Verif.ProofRules.OstTheory
import Verif.ProofRules.Frame

/-!
# Statements that behave like sub-probability kernels

Purely probabilistic statements, also with angelic choices, ticks and observations, have an affine transformer below
them that is exact at any given postexpectation (choose the better branch).
-/

open scoped ENNReal NNReal

namespace Caesar
set_option linter.unusedSectionVars false

variable [Doms] [Interp]

/-- Statements built from assignments, sampling from (sub-)probability distributions, conditionals, angelic choices,
`tick`, `weigh` by factors at most one, and `assert`/`assume` of Boolean conditions. -/
def Stmt.Stochastic : Stmt → Prop
  | .skip => True
  | .varDecl _ => True
  | .varInit _ _ => True
  | .assign _ _ => True
  | .label _ => True
  | .sample _ _ d => ∀ σ, ∑' a, d.pmf σ a ≤ 1
  | .seq a b => a.Stochastic ∧ b.Stochastic
  | .ite _ a b => a.Stochastic ∧ b.Stochastic
  | .angelic a b => a.Stochastic ∧ b.Stochastic
  | .annot _ s => s.Stochastic
  | .tick _ => True
  | .weigh e => ∀ σ, e.ev σ ≤ 1
  | .assert .down (.embed _) => True
  | .assume .down (.embed _) => True
  | _ => False

theorem probT_upd (x : Var) (f : Env → x.ty.den) : ProbT (fun (X : Exp) σ => X (σ.upd x (f σ))) where
  mono _ _ h σ := h _
  sum _ _ := rfl
  add _ _ _ := rfl
  smul _ _ _ := rfl
  one _ := le_rfl

theorem probT_sample (x : Ident) {t : Ty} (d : DistCall t) (h : ∀ σ, ∑' a, d.pmf σ a ≤ 1) :
    ProbT (fun (X : Exp) σ => d.expect σ (fun a => X (σ.upd ⟨x, t⟩ a))) where
  mono _ _ hXY σ := ENNReal.tsum_le_tsum fun a => mul_le_mul_right (hXY _) _
  sum X σ := by
    show ∑' a, d.pmf σ a * ∑' k, X k _ = ∑' k, ∑' a, d.pmf σ a * X k _
    rw [ENNReal.tsum_comm]
    exact tsum_congr fun a => ENNReal.tsum_mul_left.symm
  add X Y σ := by
    show ∑' a, d.pmf σ a * (X _ + Y _) = ∑' a, d.pmf σ a * X _ + ∑' a, d.pmf σ a * Y _
    rw [← ENNReal.tsum_add]
    exact tsum_congr fun a => mul_add _ _ _
  smul c X σ := by
    show ∑' a, d.pmf σ a * (c * X _) = c * ∑' a, d.pmf σ a * X _
    rw [← ENNReal.tsum_mul_left]
    exact tsum_congr fun a => mul_left_comm _ _ _
  one σ := by
    show ∑' a, d.pmf σ a * 1 ≤ 1
    simpa using h σ

theorem probT_weigh (w : Exp) (h : ∀ σ, w σ ≤ 1) : ProbT (fun (X : Exp) σ => w σ * X σ) where
  mono _ _ hXY σ := mul_le_mul_right (hXY σ) _
  sum X σ := ENNReal.tsum_mul_left.symm
  add X Y σ := mul_add _ _ _
  smul c X σ := mul_left_comm _ _ _
  one σ := by rw [mul_one]; exact h σ

/-- For every postexpectation, resolving the angelic choices optimally gives an affine transformer. -/
theorem Stmt.Stochastic.affine {C : SemCtx} {S : Stmt} (h : S.Stochastic) (φ : Exp) :
    ∃ (L : Exp → Exp) (t : Exp), ProbT L ∧ (∀ X σ, L X σ + t σ ≤ vcSem C S X σ) ∧ ∀ σ, L φ σ + t σ = vcSem C S φ σ := by
  classical
  induction S generalizing φ with
  | skip | varDecl | label =>
    exact ⟨fun X => X, fun _ => 0, ProbT.id, fun X σ => (add_zero _).le, fun σ => add_zero _⟩
  | varInit x e | assign x e =>
    exact ⟨_, fun _ => 0, probT_upd x fun σ => e.eval σ, fun X σ => (add_zero _).le, fun σ => add_zero _⟩
  | sample b x d =>
    exact ⟨_, fun _ => 0, probT_sample x d h, fun X σ => (add_zero _).le, fun σ => add_zero _⟩
  | tick e => exact ⟨fun X => X, e.ev, ProbT.id, fun X σ => le_rfl, fun σ => rfl⟩
  | weigh e => exact ⟨_, fun _ => 0, probT_weigh e.ev h, fun X σ => (add_zero _).le, fun σ => add_zero _⟩
  | annot an s ih => exact ih h φ
  | seq a b iha ihb =>
    obtain ⟨La, ta, ha, ha1, ha2⟩ := iha h.1 (vcSem C b φ)
    obtain ⟨Lb, tb, hb, hb1, hb2⟩ := ihb h.2 φ
    refine ⟨fun X => La (Lb X), fun σ => La tb σ + ta σ, ha.comp hb, fun X σ => ?_, fun σ => ?_⟩
    · show La (Lb X) σ + (La tb σ + ta σ) ≤ vcSem C a (vcSem C b X) σ
      rw [← add_assoc, ← ha.add]
      exact (add_le_add (ha.mono (fun τ => hb1 X τ) σ) le_rfl).trans (ha1 _ σ)
    · show La (Lb φ) σ + (La tb σ + ta σ) = vcSem C a (vcSem C b φ) σ
      rw [← add_assoc, ← ha.add, ← ha2 σ, show (fun τ => Lb φ τ + tb τ) = vcSem C b φ from funext hb2]
  | ite c a b iha ihb =>
    obtain ⟨La, ta, ha, ha1, ha2⟩ := iha h.1 φ
    obtain ⟨Lb, tb, hb, hb1, hb2⟩ := ihb h.2 φ
    refine ⟨fun X σ => if c.tv σ then La X σ else Lb X σ, fun σ => if c.tv σ then ta σ else tb σ, ha.ite hb _,
      fun X σ => ?_, fun σ => ?_⟩
    · show (if c.tv σ then La X σ else Lb X σ) + (if c.tv σ then ta σ else tb σ)
        ≤ if c.tv σ then vcSem C a X σ else vcSem C b X σ
      by_cases hc : c.tv σ
      · rw [if_pos hc, if_pos hc, if_pos hc]; exact ha1 X σ
      · rw [if_neg hc, if_neg hc, if_neg hc]; exact hb1 X σ
    · show (if c.tv σ then La φ σ else Lb φ σ) + (if c.tv σ then ta σ else tb σ)
        = if c.tv σ then vcSem C a φ σ else vcSem C b φ σ
      by_cases hc : c.tv σ
      · rw [if_pos hc, if_pos hc, if_pos hc]; exact ha2 σ
      · rw [if_neg hc, if_neg hc, if_neg hc]; exact hb2 σ
  | angelic a b iha ihb =>
    obtain ⟨La, ta, ha, ha1, ha2⟩ := iha h.1 φ
    obtain ⟨Lb, tb, hb, hb1, hb2⟩ := ihb h.2 φ
    obtain ⟨G, hG⟩ : ∃ G : Env → Prop, ∀ σ, G σ ↔ vcSem C b φ σ ≤ vcSem C a φ σ := ⟨_, fun _ => Iff.rfl⟩
    refine ⟨fun X σ => if G σ then La X σ else Lb X σ, fun σ => if G σ then ta σ else tb σ, ha.ite hb _,
      fun X σ => ?_, fun σ => ?_⟩
    · show (if G σ then La X σ else Lb X σ) + (if G σ then ta σ else tb σ) ≤ max (vcSem C a X σ) (vcSem C b X σ)
      by_cases hc : G σ
      · rw [if_pos hc, if_pos hc]; exact (ha1 X σ).trans (le_max_left _ _)
      · rw [if_neg hc, if_neg hc]; exact (hb1 X σ).trans (le_max_right _ _)
    · show (if G σ then La φ σ else Lb φ σ) + (if G σ then ta σ else tb σ) = max (vcSem C a φ σ) (vcSem C b φ σ)
      by_cases hc : G σ
      · rw [if_pos hc, if_pos hc, max_eq_left ((hG σ).1 hc)]; exact ha2 σ
      · rw [if_neg hc, if_neg hc, max_eq_right (le_of_not_ge fun h => hc ((hG σ).2 h))]; exact hb2 σ
  | assert d e =>
    cases d with
    | up => exact h.elim
    | down =>
      cases e with
      | embed b =>
        have key : ∀ (X : Exp) σ, (if b.tv σ then X σ else 0) + 0 = vcSem C (.assert .down (.embed b)) X σ := by
          intro X σ
          show _ = min ((Expr.embed b).ev σ) (X σ)
          rw [Expr.ev_embed, add_zero]
          by_cases hc : b.tv σ
          · rw [if_pos hc, if_pos hc, min_eq_right le_top]
          · rw [if_neg hc, if_neg hc, min_eq_left zero_le]
        exact ⟨_, fun _ => 0, ProbT.id.ite ProbT.nothing b.tv, fun X σ => (key X σ).le, fun σ => key φ σ⟩
      | _ => exact h.elim
  | assume d e =>
    cases d with
    | up => exact h.elim
    | down =>
      cases e with
      | embed b =>
        have key : ∀ (X : Exp) σ, (if b.tv σ then X σ else 0) + (if b.tv σ then 0 else ⊤)
            = vcSem C (.assume .down (.embed b)) X σ := by
          intro X σ
          show _ = if (Expr.embed b).ev σ ≤ X σ then ⊤ else X σ
          rw [Expr.ev_embed]
          by_cases hc : b.tv σ
          · rw [if_pos hc, if_pos hc, if_pos hc, add_zero]
            split
            next h' => exact top_le_iff.1 h'
            next => rfl
          · rw [if_neg hc, if_neg hc, if_neg hc, if_pos zero_le, zero_add]
        exact ⟨_, _, ProbT.id.ite ProbT.nothing b.tv, fun X σ => (key X σ).le, fun σ => key φ σ⟩
      | _ => exact h.elim
  | _ => exact h.elim

theorem Stmt.Stochastic.noNeg {S : Stmt} (h : S.Stochastic) : S.NoNeg := by
  induction S with
  | seq a b iha ihb | ite c a b iha ihb | angelic a b iha ihb => exact ⟨iha h.1, ihb h.2⟩
  | annot an s ih => exact ih h
  | demonic | additive | «while» | negate => exact h.elim
  | _ => trivial

theorem Stmt.Stochastic.noHavoc {S : Stmt} (h : S.Stochastic) (v : Var) : ¬ S.Havocs v := by
  induction S with
  | seq a b iha ihb | ite c a b iha ihb | angelic a b iha ihb => exact fun h' => h'.elim (iha h.1) (ihb h.2)
  | annot an s ih => exact ih h
  | demonic | additive | «while» | havoc => exact h.elim
  | _ => exact fun h => h

end Caesar
