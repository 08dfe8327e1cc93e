import Verif.Spec
import Verif.Vcgen
import Mathlib.Data.Nat.Choose.Vandermonde
import Mathlib.Algebra.BigOperators.NatAntidiagonal
import Mathlib.Data.Nat.Choose.Sum

/-!
# Helper lemmas: verification condition generation and distributions
-/

open scoped ENNReal NNReal

namespace Caesar
variable [Doms] [Interp]
set_option linter.unusedSectionVars false

/-! ## Quantification over a list of variables -/

theorem agree_nil {σ σ' : Env} : Agree [] σ σ' ↔ σ' = σ := by
  constructor
  · intro h; funext v; exact h v (by simp)
  · rintro rfl v _; rfl

theorem agree_cons {v : Var} {vs : List Var} {σ σ' : Env} :
    Agree (v :: vs) σ σ' ↔ ∃ a, Agree vs (σ.upd v a) σ' := by
  constructor
  · intro h
    refine ⟨σ' v, fun w hw => ?_⟩
    by_cases hv : w = v
    · subst hv; simp
    · rw [Env.upd_ne _ hv]; exact h w (by simp [hv, hw])
  · rintro ⟨a, h⟩ w hw
    simp only [List.mem_cons, not_or] at hw
    rw [h w hw.2, Env.upd_ne _ hw.1]

theorem quantVars_inf (vs : List Var) (f : Exp) (σ : Env) (op : QOp) (hop : op = .inf ∨ op = .forall) :
    quantVars op .eureal vs f σ = ⨅ σ' ∈ {σ' | Agree vs σ σ'}, f σ' := by
  induction vs generalizing σ with
  | nil => simp [agree_nil]; rfl
  | cons v vs ih =>
    have h1 : quantVars op .eureal (v :: vs) f σ
        = iInf (fun a : v.ty.den => (show ℝ≥0∞ from quantVars op .eureal vs f (σ.upd v a))) := by
      rcases hop with rfl | rfl <;> rfl
    rw [h1]
    apply le_antisymm (α := ℝ≥0∞)
    · refine le_iInf₂ fun σ' h => ?_
      obtain ⟨a, ha⟩ := agree_cons.1 h
      refine (iInf_le _ a).trans ?_
      rw [ih]
      exact iInf₂_le σ' ha
    · refine le_iInf fun a => ?_
      rw [ih]
      exact le_iInf₂ fun σ' h => iInf₂_le σ' (agree_cons.2 ⟨a, h⟩)

theorem quantVars_sup (vs : List Var) (f : Exp) (σ : Env) (op : QOp) (hop : op = .sup ∨ op = .exists) :
    quantVars op .eureal vs f σ = ⨆ σ' ∈ {σ' | Agree vs σ σ'}, f σ' := by
  induction vs generalizing σ with
  | nil => simp [agree_nil]; rfl
  | cons v vs ih =>
    have h1 : quantVars op .eureal (v :: vs) f σ
        = iSup (fun a : v.ty.den => (show ℝ≥0∞ from quantVars op .eureal vs f (σ.upd v a))) := by
      rcases hop with rfl | rfl <;> rfl
    rw [h1]
    apply le_antisymm (α := ℝ≥0∞)
    · refine iSup_le fun a => ?_
      rw [ih]
      exact iSup₂_le fun σ' h => le_iSup₂ (f := fun σ' _ => f σ') σ' (agree_cons.2 ⟨a, h⟩)
    · refine iSup₂_le fun σ' h => ?_
      obtain ⟨a, ha⟩ := agree_cons.1 h
      refine le_trans ?_ (le_iSup _ a)
      rw [ih]
      exact le_iSup₂ (f := fun σ' _ => f σ') σ' ha

/-! ## Distributions -/

theorem foldl_add_ev (es : List (Expr .eureal)) (e : Expr .eureal) (σ : Env) :
    (es.foldl (fun a b => .bin (.add rfl) a b) e).ev σ = e.ev σ + (es.map (·.ev σ)).sum := by
  induction es generalizing e with
  | nil => simp
  | cons e' es ih => simp [ih, Expr.ev_add, add_assoc]

theorem expectation_ev {t : Ty} {d : Dist t} {x : Ident} {post e : Expr .eureal}
    (h : d.expectation x post = .ok e) (σ : Env) :
    e.ev σ = (d.map fun p => p.1.ev σ * post.ev (σ.upd ⟨x, t⟩ (p.2.eval σ))).sum := by
  unfold Dist.expectation at h
  cases d with
  | nil => simp at h
  | cons p d =>
    simp only [List.map_cons, Except.ok.injEq] at h
    subst h
    rw [foldl_add_ev]
    simp [Expr.ev_mul, Expr.ev_subst, Function.comp_def]

theorem fromOdds_sum {t : Ty} {pairs : List (Nat × Expr t)} {d : Dist t}
    (h : Dist.fromOdds pairs = .ok d) (f : t.den → ℝ≥0∞) (σ : Env) :
    (d.map fun p => p.1.ev σ * f (p.2.eval σ)).sum
      = (pairs.map fun p => (p.1 : ℝ≥0∞) / ((pairs.map Prod.fst).sum : ℕ) * f (p.2.eval σ)).sum := by
  unfold Dist.fromOdds at h
  simp only at h
  split at h
  · cases h
  next hne =>
    simp only [Except.ok.injEq] at h
    subst h
    rw [List.map_map]
    by_cases hp : pairs = []
    · simp [hp]
    have htot : (pairs.map Prod.fst).sum ≠ 0 := fun h0 => hne ⟨h0, hp⟩
    congr 1
    apply List.map_congr_left
    intro p _
    simp only [Function.comp, Expr.ev_efrac]
    congr 1
    rw [NNRat.cast_div, ENNReal.coe_div (by exact_mod_cast htot), NNRat.cast_natCast,
      NNRat.cast_natCast, ENNReal.coe_natCast, ENNReal.coe_natCast]

theorem list_sum_range' (a n : ℕ) (f : ℕ → ℝ≥0∞) :
    ((List.range' a n).map f).sum = ∑ k ∈ Finset.Ico a (a + n), f k := by
  induction n generalizing a with
  | zero => simp
  | succ n ih =>
    rw [List.range'_succ, List.map_cons, List.sum_cons, ih,
      Finset.sum_eq_sum_Ico_succ_bot (by omega : a < a + (n+1))]
    rw [show a + 1 + n = a + (n + 1) by omega]

theorem list_sum_range'_nat (a n : ℕ) (f : ℕ → ℕ) :
    ((List.range' a n).map f).sum = ∑ k ∈ Finset.Ico a (a + n), f k := by
  induction n generalizing a with
  | zero => simp
  | succ n ih =>
    rw [List.range'_succ, List.map_cons, List.sum_cons, ih,
      Finset.sum_eq_sum_Ico_succ_bot (by omega : a < a + (n+1))]
    rw [show a + 1 + n = a + (n + 1) by omega]

end Caesar
