import Verif.Smt.Concrete
import Verif.Smt.EURealLemmas

/-!
# C46: concrete extended reals compute like extended reals
-/

open scoped ENNReal NNReal

namespace Caesar.Smt

namespace Concrete

/-- The extended real which a concrete value stands for. -/
noncomputable def value : Concrete → ℝ≥0∞
  | .real r => ENNReal.ofReal r
  | .infinity => ⊤

/-- Concrete values are nonnegative (`ConcreteEUReal` is "a concrete extended unsigned real"). -/
def Nonneg : Concrete → Prop
  | .real r => 0 ≤ r
  | .infinity => True

/-- `to_symbolic` (`z3rro/src/eureal/concrete.rs:26-36`). -/
def toSymbolic : Concrete → Pair
  | .real r => Pair.fromUReal r
  | .infinity => Pair.infinity

end Concrete

open Concrete

private theorem cast_nonneg {r : ℚ} (h : 0 ≤ r) : (0 : ℝ) ≤ r := by exact_mod_cast h

theorem C46_add {a b : Concrete} (ha : a.Nonneg) (hb : b.Nonneg) :
    (a.add b).Nonneg ∧ (a.add b).value = a.value + b.value := by
  cases a with
  | infinity => cases b <;> exact ⟨trivial, (top_add _).symm⟩
  | real a =>
    cases b with
    | infinity => exact ⟨trivial, (add_top _).symm⟩
    | real b =>
      refine ⟨add_nonneg (α := ℚ) ha hb, ?_⟩
      show ENNReal.ofReal ((a + b : ℚ) : ℝ) = ENNReal.ofReal a + ENNReal.ofReal b
      rw [Rat.cast_add, ENNReal.ofReal_add (cast_nonneg ha) (cast_nonneg hb)]

theorem value_pos {a : ℚ} (ha : 0 ≤ a) (h : a ≠ 0) : ENNReal.ofReal (a : ℝ) ≠ 0 := by
  have : (0 : ℝ) < a := by exact_mod_cast lt_of_le_of_ne ha (Ne.symm h)
  exact (ENNReal.ofReal_pos.2 this).ne'

theorem value_zero : (Concrete.real 0).value = 0 := by
  show ENNReal.ofReal ((0 : ℚ) : ℝ) = 0
  rw [Rat.cast_zero, ENNReal.ofReal_zero]

/-- Multiplication, with `0 * ∞ = 0`. -/
theorem C46_mul {a b : Concrete} (ha : a.Nonneg) (hb : b.Nonneg) :
    (a.mul b).Nonneg ∧ (a.mul b).value = a.value * b.value := by
  cases a with
  | infinity =>
    cases b with
    | infinity => exact ⟨trivial, ENNReal.top_mul_top.symm⟩
    | real b =>
      show (if b = 0 then Concrete.real 0 else .infinity).Nonneg ∧
        (if b = 0 then Concrete.real 0 else .infinity).value = ⊤ * ENNReal.ofReal b
      by_cases h : b = 0
      · rw [if_pos h, h, value_zero]
        exact ⟨le_refl (0 : ℚ), by rw [Rat.cast_zero, ENNReal.ofReal_zero, mul_zero]⟩
      · rw [if_neg h, ENNReal.top_mul (value_pos hb h)]
        exact ⟨trivial, rfl⟩
  | real a =>
    by_cases h : a = 0
    · subst h
      have e : Concrete.mul (.real 0) b = .real 0 := by cases b <;> rfl
      rw [e, value_zero, zero_mul]
      exact ⟨le_refl (0 : ℚ), rfl⟩
    · cases b with
      | infinity =>
        have e : Concrete.mul (.real a) .infinity = .infinity := if_neg h
        rw [e]
        exact ⟨trivial, (ENNReal.mul_top (value_pos ha h)).symm⟩
      | real b =>
        have e : Concrete.mul (.real a) (.real b) = if b = 0 then .real 0 else .real (a * b) := if_neg h
        rw [e]
        by_cases hb0 : b = 0
        · rw [if_pos hb0, hb0, value_zero, mul_zero]
          exact ⟨le_refl (0 : ℚ), rfl⟩
        · rw [if_neg hb0]
          refine ⟨mul_nonneg (α := ℚ) ha hb, ?_⟩
          show ENNReal.ofReal ((a * b : ℚ) : ℝ) = ENNReal.ofReal a * ENNReal.ofReal b
          rw [Rat.cast_mul, ENNReal.ofReal_mul (cast_nonneg ha)]

/-- Subtraction is undefined exactly if the subtrahend is infinite, and otherwise truncated subtraction. -/
theorem C46_sub {a b : Concrete} (ha : a.Nonneg) (hb : b.Nonneg) :
    (b.value = ⊤ → a.sub b = none) ∧
    (b.value ≠ ⊤ → ∃ c, a.sub b = some c ∧ c.Nonneg ∧ c.value = a.value - b.value) := by
  cases b with
  | infinity => exact ⟨fun _ => by cases a <;> rfl, fun h => (h rfl).elim⟩
  | real b =>
    refine ⟨fun h => (ENNReal.ofReal_ne_top h).elim, fun _ => ?_⟩
    cases a with
    | infinity => exact ⟨.infinity, rfl, trivial, (ENNReal.top_sub ENNReal.ofReal_ne_top).symm⟩
    | real a =>
      by_cases h : a ≥ b
      · refine ⟨.real (a - b), if_pos h, sub_nonneg.2 h, ?_⟩
        show ENNReal.ofReal ((a - b : ℚ) : ℝ) = ENNReal.ofReal a - ENNReal.ofReal b
        rw [Rat.cast_sub, ENNReal.ofReal_sub _ (cast_nonneg hb)]
      · refine ⟨.real 0, if_neg h, le_refl (0 : ℚ), ?_⟩
        rw [value_zero]
        refine (tsub_eq_zero_of_le (ENNReal.ofReal_le_ofReal ?_)).symm
        exact_mod_cast (not_le.1 h).le

/-- The order. -/
theorem C46_le {a b : Concrete} (ha : a.Nonneg) (hb : b.Nonneg) : a.le b = true ↔ a.value ≤ b.value := by
  cases a with
  | infinity =>
    cases b with
    | infinity => exact ⟨fun _ => le_rfl, fun _ => rfl⟩
    | real b => exact ⟨fun h => (Bool.noConfusion h), fun h => (ENNReal.ofReal_ne_top (top_le_iff.1 h)).elim⟩
  | real a =>
    cases b with
    | infinity => exact ⟨fun _ => le_top, fun _ => rfl⟩
    | real b =>
      show decide (a ≤ b) = true ↔ ENNReal.ofReal a ≤ ENNReal.ofReal b
      rw [decide_eq_true_iff, ENNReal.ofReal_le_ofReal_iff (cast_nonneg hb)]
      exact Rat.cast_le.symm

/-- Equality, and the constant one. -/
theorem C46_eq {a b : Concrete} (ha : a.Nonneg) (hb : b.Nonneg) : a = b ↔ a.value = b.value := by
  refine ⟨fun h => h ▸ rfl, fun h => ?_⟩
  have h1 := (C46_le ha hb).2 h.le
  have h2 := (C46_le hb ha).2 h.ge
  cases a <;> cases b
  · rename_i a b
    exact congrArg _ (le_antisymm (of_decide_eq_true h1) (of_decide_eq_true h2))
  · exact Bool.noConfusion h2
  · exact Bool.noConfusion h1
  · rfl

theorem C46_one : Concrete.one.value = 1 ∧ (∀ a : Concrete, a.Nonneg → (a.isOne = true ↔ a.value = 1)) := by
  have h1 : Concrete.one.value = 1 := by
    show ENNReal.ofReal ((1 : ℚ) : ℝ) = 1
    rw [Rat.cast_one, ENNReal.ofReal_one]
  refine ⟨h1, fun a ha => ?_⟩
  rw [← h1, ← C46_eq ha (show Concrete.one.Nonneg from zero_le_one (α := ℚ))]
  cases a with
  | infinity => exact ⟨fun h => Bool.noConfusion h, fun h => by cases h⟩
  | real a =>
    show decide (a = 1) = true ↔ Concrete.real a = .real 1
    rw [decide_eq_true_iff, Concrete.real.injEq]

/-- The symbolic form of a concrete value is the same number. -/
theorem C46_symbolic {a : Concrete} (ha : a.Nonneg) : 0 ≤ a.toSymbolic.num ∧ a.toSymbolic.abs = a.value := by
  cases a with
  | infinity => exact ⟨zero_le_one (α := ℝ), Pair.abs_inf trivial⟩
  | real a => exact ⟨cast_nonneg ha, Pair.abs_fin id⟩

example : (Concrete.real 5).Nonneg ∧ Concrete.infinity.Nonneg ∧ (Concrete.real 5).sub (.real 7) = some (.real 0) :=
  ⟨show (0 : ℚ) ≤ 5 by norm_num, trivial, by decide⟩

end Caesar.Smt
