import Verif.Smt.Accessed
import Mathlib.Data.List.Basic
import Mathlib.Tactic.Ring
import Mathlib.Algebra.Order.Field.Basic

/-!
# Model of `PrettyRational` (`z3rro/src/util.rs:171-242`)

The texts of rational numbers in counterexamples and in the results of Storm.
-/

namespace Caesar.Smt

/-- The state after the loop: the remainder, the digits behind the point, the map from the remainders to the lengths, and `approx`. -/
structure Expansion where
  rem : ℕ
  frac : List Char
  map : List (ℕ × ℕ)
  approx : Bool

/-- The loop (`z3rro/src/util.rs:201-213`) for the denominator `q`. The limit is `DECIMAL_EXPANSION_LIMIT` (`z3rro/src/util.rs:179`). -/
def expandLoop (q rem : ℕ) (frac : List Char) (map : List (ℕ × ℕ)) : Expansion :=
  if rem = 0 ∨ (map.lookup rem).isSome then ⟨rem, frac, map, false⟩
  else if map.length ≥ 5 then ⟨rem, frac, map, true⟩
  else expandLoop q (rem * 10 % q) (frac ++ natText (rem * 10 / q)) (map ++ [(rem, frac.length)])
termination_by 5 - map.length
decreasing_by simp only [List.length_append, List.length_singleton]; omega

/-- `Display for BigRational` of the crate `num`, used in `z3rro/src/util.rs:237`. -/
def bigRationalText (r : ℚ) : List Char :=
  (if r < 0 then ['-'] else []) ++ natText r.num.natAbs ++ (if r.den = 1 then [] else '/' :: natText r.den)

/-- COMBINING OVERLINE (`z3rro/src/util.rs:230`). -/
def overline : Char := Char.ofNat 0x305

/-- `Display for PrettyRational` (`z3rro/src/util.rs:188-242`). -/
def prettyRational (r : ℚ) : List Char :=
  let sign := if r < 0 then ['-'] else []
  let x := expandLoop r.den (r.num.natAbs % r.den) [] []
  let int := natText (r.num.natAbs / r.den)
  if x.frac = [] then sign ++ int
  else
    let index := (x.map.lookup x.rem).getD 0
    let decimals :=
      if x.rem = 0 ∨ x.approx then '.' :: x.frac ++ (if x.approx then ['.', '.', '.'] else [])
      else '.' :: x.frac.take index ++ (x.frac.drop index).flatMap fun c => [c, overline]
    sign ++ int ++ decimals ++ (if x.rem ≠ 0 ∨ x.approx then [' ', '('] ++ bigRationalText r ++ [')'] else [])

/-! ## Specification -/

/-- A decimal number: a sign, an integer, digits, digits that are repeated forever, and possibly an ellipsis and a fraction. -/
structure Decimal where
  neg : Bool
  int : ℕ
  fixed : List ℕ
  repeated : List ℕ
  ellipsis : Bool
  fraction : Bool

/-- How it is written for the number `r`. The repeated digits have a line above. -/
def Decimal.text (s : Decimal) (r : ℚ) : List Char :=
  (if s.neg then ['-'] else []) ++ natText s.int ++ (if s.fixed = [] ∧ s.repeated = [] then [] else ['.']) ++ s.fixed.map digitChar ++
    (s.repeated.flatMap fun d => [digitChar d, overline]) ++ (if s.ellipsis then ['.', '.', '.'] else []) ++
    (if s.fraction then [' ', '('] ++ bigRationalText r ++ [')'] else [])

/-- The `i`-th digit behind the point. -/
def Decimal.digit (s : Decimal) (i : ℕ) : ℕ :=
  if i < s.fixed.length then s.fixed.getD i 0 else s.repeated.getD ((i - s.fixed.length) % s.repeated.length) 0

/-- The number with `n` digits behind the point, without the point. -/
def Decimal.upTo (s : Decimal) : ℕ → ℕ
  | 0 => s.int
  | n + 1 => 10 * s.upTo n + s.digit n

/-- The decimal has the correct sign, and its digits up to `n` are those of the number: cutting the number off there leaves less than one unit of the last digit. -/
def Decimal.Correct (s : Decimal) (r : ℚ) (n : ℕ) : Prop :=
  (s.neg ↔ r < 0) ∧ (s.upTo n : ℚ) ≤ |r| * 10 ^ n ∧ |r| * 10 ^ n < s.upTo n + 1

/-! ## Lemmas -/

/-- The remainders of the long division. -/
def remAt (q r0 : ℕ) : ℕ → ℕ
  | 0 => r0
  | i + 1 => remAt q r0 i * 10 % q

/-- Its digits. -/
def digitAt (q r0 i : ℕ) : ℕ := remAt q r0 i * 10 / q

theorem remAt_lt {q r0 : ℕ} (hq : 0 < q) (h : r0 < q) (i : ℕ) : remAt q r0 i < q := by
  cases i with
  | zero => exact h
  | succ i => exact Nat.mod_lt _ hq

theorem digitAt_lt {q r0 : ℕ} (hq : 0 < q) (h : r0 < q) (i : ℕ) : digitAt q r0 i < 10 := by
  unfold digitAt
  rw [Nat.div_lt_iff_lt_mul hq]
  have := remAt_lt hq h i
  omega

/-- The digits up to `n`. -/
def digitsAt (q r0 n : ℕ) : List ℕ := (List.range n).map (digitAt q r0)

theorem natText_digit {d : ℕ} (h : d < 10) : natText d = [digitChar d] := by rw [natText, if_pos h]

theorem lookup_map {q r0 x : ℕ} : ∀ n : ℕ, ((List.range n).map fun i => (remAt q r0 i, i)).lookup x = none ∧ (∀ i < n, remAt q r0 i ≠ x) ∨
    ∃ i < n, ((List.range n).map fun i => (remAt q r0 i, i)).lookup x = some i ∧ remAt q r0 i = x := by
  intro n
  induction n with
  | zero => exact .inl ⟨rfl, by simp⟩
  | succ n ih =>
    rw [List.range_succ, List.map_append, List.lookup_append]
    rcases ih with ⟨h1, h2⟩ | ⟨i, hi, h1, h2⟩
    · by_cases hx : remAt q r0 n = x
      · exact .inr ⟨n, by omega, by rw [h1]; simp [hx], hx⟩
      · refine .inl ⟨by rw [h1]; simp [show (x == remAt q r0 n) = false by simpa using Ne.symm hx], fun i hi => ?_⟩
        rcases Nat.lt_succ_iff_lt_or_eq.1 hi with h | rfl
        · exact h2 i h
        · exact hx
    · exact .inr ⟨i, by omega, by rw [h1]; rfl, h2⟩

/-- The result of the loop. -/
theorem expandLoop_spec {q r0 : ℕ} (hq : 0 < q) (h : r0 < q) (n : ℕ) (hn : n ≤ 5) :
    ∃ k ≤ 5, ∃ approx, expandLoop q (remAt q r0 n) ((digitsAt q r0 n).map digitChar) ((List.range n).map fun i => (remAt q r0 i, i)) =
        ⟨remAt q r0 k, (digitsAt q r0 k).map digitChar, (List.range k).map fun i => (remAt q r0 i, i), approx⟩ ∧
      (approx = false → remAt q r0 k = 0 ∨ ∃ j < k, remAt q r0 j = remAt q r0 k) ∧ (approx = true → k = 5 ∧ remAt q r0 k ≠ 0) := by
  induction hm : 5 - n generalizing n with
  | zero =>
    have : n = 5 := by omega
    subst this
    rw [expandLoop]
    split
    · next hs =>
      refine ⟨5, le_refl _, false, rfl, fun _ => ?_, by simp⟩
      rcases hs with hs | hs
      · exact .inl hs
      · rcases lookup_map (q := q) (r0 := r0) (x := remAt q r0 5) 5 with ⟨h1, _⟩ | ⟨i, hi, _, h2⟩
        · rw [h1] at hs; cases hs
        · exact .inr ⟨i, hi, h2⟩
    · next hs =>
      rw [if_pos (by simp)]
      exact ⟨5, le_refl _, true, rfl, by simp, fun _ => ⟨rfl, fun h0 => hs (.inl h0)⟩⟩
  | succ m ih =>
    rw [expandLoop]
    split
    · next hs =>
      refine ⟨n, hn, false, rfl, fun _ => ?_, by simp⟩
      rcases hs with hs | hs
      · exact .inl hs
      · rcases lookup_map (q := q) (r0 := r0) (x := remAt q r0 n) n with ⟨h1, _⟩ | ⟨i, hi, _, h2⟩
        · rw [h1] at hs; cases hs
        · exact .inr ⟨i, hi, h2⟩
    · rw [if_neg (by simp; omega)]
      have := ih (n + 1) (by omega) (by omega)
      have e1 : (digitsAt q r0 (n + 1)).map digitChar = (digitsAt q r0 n).map digitChar ++ natText (remAt q r0 n * 10 / q) := by
        rw [show remAt q r0 n * 10 / q = digitAt q r0 n from rfl, natText_digit (digitAt_lt hq h n)]
        simp [digitsAt, List.range_succ, digitAt]
      have e2 : ((List.range (n + 1)).map fun i => (remAt q r0 i, i)) =
          ((List.range n).map fun i => (remAt q r0 i, i)) ++ [(remAt q r0 n, ((digitsAt q r0 n).map digitChar).length)] := by
        simp [digitsAt, List.range_succ]
      rw [e1, e2] at this
      exact this

/-- The long division. -/
theorem long_division (N q : ℕ) (hq : 0 < q) (n : ℕ) :
    N * 10 ^ (n + 1) / q = 10 * (N * 10 ^ n / q) + digitAt q (N % q) n ∧ N * 10 ^ n % q = remAt q (N % q) n := by
  have hmod : ∀ n, N * 10 ^ n % q = remAt q (N % q) n := by
    intro n
    induction n with
    | zero => simp [remAt]
    | succ n ih =>
      rw [remAt, ← ih, pow_succ, ← mul_assoc, Nat.mod_mul_mod]
  refine ⟨?_, hmod n⟩
  unfold digitAt
  rw [← hmod n, pow_succ, ← mul_assoc]
  generalize N * 10 ^ n = M
  have h1 := Nat.div_add_mod M q
  have h2 : M * 10 = q * (10 * (M / q)) + M % q * 10 := by
    calc M * 10 = (q * (M / q) + M % q) * 10 := by rw [h1]
      _ = _ := by ring
  rw [h2, Nat.mul_add_div hq]

/-- A decimal with the digits of the long division is correct. -/
theorem correct_of_digits {r : ℚ} {s : Decimal} (hn : s.neg ↔ r < 0) (hi : s.int = r.num.natAbs / r.den) (n : ℕ)
    (hd : ∀ i < n, s.digit i = digitAt r.den (r.num.natAbs % r.den) i) : s.Correct r n := by
  have hq : 0 < r.den := r.pos
  have hup : s.upTo n = r.num.natAbs * 10 ^ n / r.den := by
    induction n with
    | zero => simp [Decimal.upTo, hi]
    | succ n ih =>
      rw [Decimal.upTo, ih (fun i h => hd i (by omega)), hd n (by omega), (long_division _ _ hq n).1]
  have habs : |r| = (r.num.natAbs : ℚ) / r.den := by
    rw [← Rat.num_div_den |r|]
    simp
  have hq' : (0 : ℚ) < r.den := by exact_mod_cast hq
  refine ⟨hn, ?_, ?_⟩
  · rw [hup, habs, div_mul_eq_mul_div, le_div_iff₀ hq']
    exact_mod_cast Nat.div_mul_le_self _ _
  · rw [hup, habs, div_mul_eq_mul_div, div_lt_iff₀ hq']
    exact_mod_cast Nat.lt_div_mul_add hq |>.trans_eq (by ring)

theorem remAt_add {q r0 j k : ℕ} (h : remAt q r0 j = remAt q r0 k) (i : ℕ) : remAt q r0 (j + i) = remAt q r0 (k + i) := by
  induction i with
  | zero => exact h
  | succ i ih => rw [← add_assoc, ← add_assoc, remAt, remAt, ih]

theorem remAt_zero {q r0 k : ℕ} (h : remAt q r0 k = 0) (i : ℕ) : remAt q r0 (k + i) = 0 := by
  induction i with
  | zero => exact h
  | succ i ih => rw [← add_assoc, remAt, ih]; simp

theorem remAt_periodic {q r0 j p : ℕ} (h : remAt q r0 j = remAt q r0 (j + p)) (hp : 0 < p) (i : ℕ) : remAt q r0 (j + i) = remAt q r0 (j + i % p) := by
  induction i using Nat.strongRecOn with
  | ind i ih =>
    by_cases hi : i < p
    · rw [Nat.mod_eq_of_lt hi]
    · have h1 := remAt_add h (i - p)
      rw [show j + p + (i - p) = j + i by omega] at h1
      rw [← h1, ih (i - p) (by omega), Nat.mod_eq_sub_mod (by omega : p ≤ i)]

end Caesar.Smt
