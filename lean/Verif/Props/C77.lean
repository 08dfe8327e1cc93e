import Verif.Smt.PrettyRational
import Verif.Props.C71
import Mathlib.Tactic.FieldSimp
import Mathlib.Tactic.NormNum

/-!
# C77: The texts of rational numbers

Values in counterexamples, and those of Storm, are printed as decimals. The decimal denotes the number.
-/

namespace Caesar.Smt

theorem digitsAt_digit {q r0 k i : ℕ} (h : i < k) : (digitsAt q r0 k).getD i 0 = digitAt q r0 i := by
  simp [digitsAt, List.getD, h]

theorem digitsAt_lt {q r0 k d : ℕ} (hq : 0 < q) (h : r0 < q) (hd : d ∈ digitsAt q r0 k) : d < 10 := by
  obtain ⟨i, _, rfl⟩ := List.mem_map.1 hd
  exact digitAt_lt hq h i

/-- What a reader can rely on. -/
structure Denotes (s : Decimal) (r : ℚ) : Prop where
  digits : ∀ d ∈ s.fixed ++ s.repeated, d < 10
  correct : ∀ n, (s.ellipsis → n ≤ s.fixed.length) → s.Correct r n
  ellipsis : s.ellipsis → s.fixed.length = 5 ∧ s.repeated = []
  fraction : s.fraction ↔ s.ellipsis ∨ s.repeated ≠ []
  exact : s.fraction = false → |r| * 10 ^ s.fixed.length = s.upTo s.fixed.length

theorem pretty_cases (r : ℚ) : ∃ s, prettyRational r = s.text r ∧ Denotes s r ∧
    (s.fraction = false ∨ remAt r.den (r.num.natAbs % r.den) 5 ≠ 0) := by
  have hq : 0 < r.den := r.pos
  set q := r.den with hqd
  set N := r.num.natAbs with hN
  have h0 : N % q < q := Nat.mod_lt _ hq
  obtain ⟨k, hk, approx, hx, hf, ht⟩ := expandLoop_spec hq h0 0 (by omega)
  simp only [remAt, digitsAt, List.range_zero, List.map_nil] at hx
  have exact0 : ∀ s : Decimal, (s.neg ↔ r < 0) → s.int = N / q → s.fixed.length = k → remAt q (N % q) k = 0 → (∀ i < k, s.digit i = digitAt q (N % q) i) →
      |r| * 10 ^ s.fixed.length = s.upTo s.fixed.length := by
    intro s hn hi hl hr hd
    have hup : ∀ n ≤ k, s.upTo n = N * 10 ^ n / q := by
      intro n hn
      induction n with
      | zero => simp [Decimal.upTo, hi]
      | succ n ih => rw [Decimal.upTo, ih (by omega), hd n (by omega), (long_division _ _ hq n).1]
    rw [hl, hup k (le_refl _)]
    have habs : |r| = (N : ℚ) / q := by
      rw [← Rat.num_div_den |r|]
      simp [hN, hqd]
    have hq' : (q : ℚ) ≠ 0 := by exact_mod_cast hq.ne'
    rw [habs, div_mul_eq_mul_div, div_eq_iff hq']
    have h1 := Nat.div_add_mod (N * 10 ^ k) q
    rw [(long_division N q hq k).2, hr, add_zero] at h1
    rw [mul_comm]
    exact_mod_cast (by rw [mul_comm]; exact h1.symm.trans (mul_comm _ _) : 10 ^ k * N = N * 10 ^ k / q * q)
  cases approx with
  | true =>
    obtain ⟨rfl, hr⟩ := ht rfl
    refine ⟨⟨r < 0, N / q, digitsAt q (N % q) 5, [], true, true⟩, ?_, ⟨?_, ?_, ?_, by simp, by simp⟩, .inr hr⟩
    · simp only [prettyRational, ← hqd, ← hN, hx]
      simp [Decimal.text, digitsAt, hr, List.range_succ]
    · intro d hd; exact digitsAt_lt hq h0 (by simpa using hd)
    · intro n hn
      refine correct_of_digits (by simp) rfl n fun i hi => ?_
      have hl : (digitsAt q (N % q) 5).length = 5 := by simp [digitsAt]
      have : n ≤ 5 := by have := hn rfl; simpa [hl] using this
      simp only [Decimal.digit, hl]
      rw [if_pos (by omega)]
      exact digitsAt_digit (by omega)
    · intro _; simp [digitsAt]
  | false =>
    have hlen : (digitsAt q (N % q) k).length = k := by simp [digitsAt]
    by_cases hr : remAt q (N % q) k = 0
    · have hdig : ∀ i, (⟨decide (r < 0), N / q, digitsAt q (N % q) k, [], false, false⟩ : Decimal).digit i = digitAt q (N % q) i := by
        intro i
        simp only [Decimal.digit, hlen]
        split
        · exact digitsAt_digit (by omega)
        · have := remAt_zero hr (i - k)
          rw [show k + (i - k) = i by omega] at this
          simp [digitAt, this]
      refine ⟨⟨r < 0, N / q, digitsAt q (N % q) k, [], false, false⟩, ?_, ⟨?_, ?_, by simp, by simp, ?_⟩, .inl rfl⟩
      · simp only [prettyRational, ← hqd, ← hN, hx]
        rcases Nat.eq_zero_or_pos k with rfl | hk0
        · simp [Decimal.text, digitsAt]
        · have : (List.range k).map (digitAt q (N % q)) ≠ [] := by
            intro h
            have := congrArg List.length h
            simp at this
            omega
          simp [Decimal.text, digitsAt, hr, show k ≠ 0 by omega]
      · intro d hd; exact digitsAt_lt hq h0 (by simpa using hd)
      · intro n _; exact correct_of_digits (by simp) rfl n fun i _ => hdig i
      · intro _; exact exact0 _ (by simp) rfl hlen hr fun i _ => hdig i
    · obtain ⟨j, hj, hlk, hjk⟩ : ∃ j < k, ((List.range k).map fun i => (remAt q (N % q) i, i)).lookup (remAt q (N % q) k) = some j ∧
          remAt q (N % q) j = remAt q (N % q) k := by
        rcases hf rfl with h | ⟨j, hj, h⟩
        · exact absurd h hr
        · rcases lookup_map (q := q) (r0 := N % q) (x := remAt q (N % q) k) k with ⟨_, h2⟩ | ⟨i, hi, h1, h2⟩
          · exact absurd h (h2 j hj)
          · exact ⟨i, hi, h1, h2⟩
      have hk0 : k ≠ 0 := by omega
      have hrep : (digitsAt q (N % q) k).drop j ≠ [] := by
        intro h
        have := congrArg List.length h
        simp [hlen] at this
        omega
      have htl : ((digitsAt q (N % q) k).take j).length = j := by simp [hlen]; omega
      have hdl : ((digitsAt q (N % q) k).drop j).length = k - j := by simp [hlen]
      have hper : remAt q (N % q) j = remAt q (N % q) (j + (k - j)) := by rw [show j + (k - j) = k by omega]; exact hjk
      have hdig : ∀ i, (⟨decide (r < 0), N / q, (digitsAt q (N % q) k).take j, (digitsAt q (N % q) k).drop j, false, true⟩ : Decimal).digit i =
          digitAt q (N % q) i := by
        intro i
        simp only [Decimal.digit, htl, hdl]
        split
        · next hi =>
          rw [← digitsAt_digit (k := k) (by omega : i < k)]
          simp [List.getD, List.getElem?_take, hi]
        · next hi =>
          have hm : (i - j) % (k - j) < k - j := Nat.mod_lt _ (by omega)
          have h1 : ((digitsAt q (N % q) k).drop j).getD ((i - j) % (k - j)) 0 = digitAt q (N % q) (j + (i - j) % (k - j)) := by
            rw [← digitsAt_digit (k := k) (by omega : j + (i - j) % (k - j) < k)]
            simp [List.getD, List.getElem?_drop]
          have h2 := remAt_periodic hper (by omega) (i - j)
          rw [show j + (i - j) = i by omega] at h2
          rw [h1, digitAt, digitAt, h2]
      refine ⟨⟨r < 0, N / q, (digitsAt q (N % q) k).take j, (digitsAt q (N % q) k).drop j, false, true⟩, ?_, ⟨?_, ?_, by simp, ?_, by simp⟩, .inr ?_⟩
      · simp only [prettyRational, ← hqd, ← hN, hx, hlk]
        have e1 : (digitsAt q (N % q) k).map digitChar ≠ [] := by
          intro h
          have := congrArg List.length h
          simp [hlen] at this
          omega
        simp only [digitsAt] at e1 hrep ⊢
        simp only [Decimal.text, e1, hrep, hr, if_false, and_false, ne_eq, not_false_eq_true, true_or, if_true, Bool.false_eq_true, or_false, Option.getD_some,
          decide_eq_true_eq, ← List.map_take, ← List.map_drop, List.flatMap_map]
        simp [show ¬ k ≤ j by omega]
      · intro d hd
        rw [List.take_append_drop] at hd
        exact digitsAt_lt hq h0 hd
      · intro n _; exact correct_of_digits (by simp) rfl n fun i _ => hdig i
      · simpa using hrep
      · intro h5
        have h1 := remAt_periodic hper (by omega) (5 * (k - j))
        rw [Nat.mul_mod_left, add_zero, hjk] at h1
        have h2 := remAt_zero h5 (j + 5 * (k - j) - 5)
        rw [show 5 + (j + 5 * (k - j) - 5) = j + 5 * (k - j) by omega, h1] at h2
        exact hr h2

/-- **C77**: the text of every rational number is a decimal that denotes the number: all digits before and behind the point that are shown, and all
digits that the overlined ones stand for, are the digits of the number; the sign is shown; a decimal that is neither periodic nor cut off is exact;
otherwise the fraction follows in parentheses. Only after five digits it may be cut off. -/
theorem C77_decimal (r : ℚ) : ∃ s, prettyRational r = s.text r ∧ Denotes s r := by
  obtain ⟨s, h1, h2, _⟩ := pretty_cases r
  exact ⟨s, h1, h2⟩

/-- The fraction in parentheses determines the number. -/
theorem C77_fraction (r s : ℚ) (h : bigRationalText r = bigRationalText s) : r = s := by
  have hslash : ∀ n, '/' ∉ natText n := by
    intro n hn
    obtain ⟨d, hd, h⟩ := natText_dig n _ hn
    revert h
    revert d
    decide
  have hminus : ∀ n, '-' ∉ natText n := by
    intro n hn
    obtain ⟨d, hd, h⟩ := natText_dig n _ hn
    exact (digitChar_spec d hd).2.2.2.2.2.2.1 h.symm
  have inj : ∀ a b, natText a = natText b → a = b := by
    intro a b h
    have := parseBigInt_natText a
    rw [h, parseBigInt_natText b] at this
    simpa using this.symm
  have key : ∀ r : ℚ, '-' ∈ bigRationalText r ↔ r < 0 := by
    intro r
    unfold bigRationalText
    by_cases hr : r < 0
    · simp [hr]
    · by_cases hd : r.den = 1 <;> simp [hr, hd, hminus]
  have hsign : r < 0 ↔ s < 0 := by rw [← key, ← key, h]
  have hsplit : ∀ (a b : ℕ) (u v : List Char), (u = [] ∨ u.head? = some '/') → (v = [] ∨ v.head? = some '/') →
      natText a ++ u = natText b ++ v → natText a = natText b ∧ u = v := by
    intro a b u v hu hv h
    have tw : ∀ (a : ℕ) (u : List Char), (u = [] ∨ u.head? = some '/') → (natText a ++ u).takeWhile (· != '/') = natText a := by
      intro a u hu
      rw [List.takeWhile_append_of_pos]
      · rcases hu with rfl | hu
        · simp
        · cases u with
          | nil => simp at hu
          | cons c u =>
            simp only [List.head?_cons, Option.some.injEq] at hu
            subst hu
            simp
      · intro c hc
        have : c ≠ '/' := fun h => hslash a (h ▸ hc)
        simpa using this
    have h1 := tw a u hu
    rw [h, tw b v hv] at h1
    refine ⟨h1.symm, ?_⟩
    rw [h1] at h
    exact List.append_cancel_left h
  unfold bigRationalText at h
  rw [List.append_assoc, List.append_assoc] at h
  have h' : natText r.num.natAbs ++ (if r.den = 1 then [] else '/' :: natText r.den) =
      natText s.num.natAbs ++ (if s.den = 1 then [] else '/' :: natText s.den) := by
    by_cases hr : r < 0
    · rw [if_pos hr, if_pos (hsign.1 hr)] at h
      exact List.append_cancel_left h
    · rw [if_neg hr, if_neg (fun h => hr (hsign.2 h))] at h
      exact h
  obtain ⟨hn, hd⟩ := hsplit _ _ _ _ (by split <;> simp) (by split <;> simp) h'
  have hn := inj _ _ hn
  have hden : r.den = s.den := by
    by_cases h1 : r.den = 1 <;> by_cases h2 : s.den = 1
    · rw [h1, h2]
    · simp [h1, h2] at hd
    · simp [h1, h2] at hd
    · simp only [h1, h2, if_false, List.cons.injEq, true_and] at hd
      exact inj _ _ hd
  have hnum : r.num = s.num := by
    have hr := @Rat.num_neg r
    have hs := @Rat.num_neg s
    by_cases h : r < 0
    · have h1 := hr.2 h
      have h2 := hs.2 (hsign.1 h)
      omega
    · have h1 : ¬ r.num < 0 := fun x => h (hr.1 x)
      have h2 : ¬ s.num < 0 := fun x => h (hsign.2 (hs.1 x))
      omega
  exact Rat.ext hnum hden

/-- The documentation: numbers with a finite decimal are formatted exactly, and only the others are followed by the fraction. -/
def C77_full : Prop :=
  ∀ (r : ℚ) (n : ℕ), (∃ m : ℤ, r * 10 ^ n = m) → ∃ s, prettyRational r = s.text r ∧ Denotes s r ∧ s.fraction = false

theorem text_no_paren (s : Decimal) (r : ℚ) (h : Denotes s r) (hf : s.fraction = false) : '(' ∉ s.text r := by
  have hdig : ∀ d ∈ s.fixed ++ s.repeated, '(' ≠ digitChar d := fun d hd he => (digitChar_spec d (h.digits d hd)).2.2.2.2.2.2.2.2 he.symm
  have hnat : '(' ∉ natText s.int := by
    intro hc
    obtain ⟨d, hd, he⟩ := natText_dig _ _ hc
    exact (digitChar_spec d hd).2.2.2.2.2.2.2.2 he.symm
  have hov : '(' ≠ overline := by decide
  have h1 : '(' ∉ (if s.neg then ['-'] else [] : List Char) := by split <;> decide
  have h2 : '(' ∉ (if s.fixed = [] ∧ s.repeated = [] then [] else ['.'] : List Char) := by split <;> decide
  have h3 : '(' ∉ (if s.ellipsis then ['.', '.', '.'] else [] : List Char) := by split <;> decide
  unfold Decimal.text
  simp only [List.mem_append, hf, Bool.false_eq_true, if_false, List.mem_map, List.mem_flatMap, not_or]
  refine ⟨⟨⟨⟨⟨⟨h1, hnat⟩, h2⟩, ?_⟩, ?_⟩, h3⟩, by simp⟩
  · rintro ⟨d, hd, he⟩
    exact hdig d (List.mem_append_left _ hd) he.symm
  · rintro ⟨d, hd, he⟩
    rcases List.mem_cons.1 he with he | he
    · exact hdig d (List.mem_append_right _ hd) he
    · exact hov (List.mem_singleton.1 he)

/-- `1 / 128 = 0.0078125`. -/
def oneOver128 : ℚ := ⟨1, 128, by decide, by decide⟩

theorem pretty_128 : prettyRational oneOver128 = "0.00781... (1/128)".toList := by
  have hneg : ¬ oneOver128 < 0 := by decide
  have h : expandLoop 128 1 [] [] = ⟨32, "00781".toList, [(1, 0), (10, 1), (100, 2), (104, 3), (16, 4)], true⟩ := by
    rw [expandLoop]; simp [List.lookup]
    rw [expandLoop]; simp [List.lookup]
    rw [expandLoop]; simp [List.lookup]
    rw [expandLoop]; simp [List.lookup]
    rw [expandLoop]; simp [List.lookup]
    rw [expandLoop]; simp [List.lookup, natText, digitChar]
  have h' : expandLoop oneOver128.den (oneOver128.num.natAbs % oneOver128.den) [] [] = ⟨32, "00781".toList, [(1, 0), (10, 1), (100, 2), (104, 3), (16, 4)], true⟩ := h
  unfold prettyRational
  simp only [h', if_neg hneg, bigRationalText]
  simp [oneOver128, natText, digitChar]

/-- The expansion ends after five digits, also if the decimal is finite: `1/128` is printed as `0.00781... (1/128)`. -/
theorem C77_not_full : ¬ C77_full := by
  intro h
  obtain ⟨s, h1, h2, h3⟩ := h oneOver128 7 ⟨78125, by rw [show oneOver128 = 1 / 128 by rw [← Rat.num_div_den oneOver128]; norm_num [oneOver128]]; norm_num⟩
  refine text_no_paren s oneOver128 h2 h3 ?_
  rw [← h1, pretty_128]
  decide

/-- Numbers with at most five digits behind the point are printed exactly, without the fraction. Missing: more digits. -/
theorem C77_terminating_partial (r : ℚ) (h : ∃ m : ℤ, r * 10 ^ 5 = m) :
    '(' ∉ prettyRational r ∧ ∃ s, prettyRational r = s.text r ∧ Denotes s r ∧ s.fraction = false := by
  obtain ⟨s, h1, h2, h3⟩ := pretty_cases r
  have hf : s.fraction = false := by
    refine h3.resolve_right fun hne => hne ?_
    obtain ⟨m, hm⟩ := h
    rw [← (long_division r.num.natAbs r.den r.pos 5).2]
    apply Nat.mod_eq_zero_of_dvd
    have hz : (r.den : ℤ) ∣ r.num * 10 ^ 5 := by
      refine ⟨m, ?_⟩
      have hd : (r.den : ℚ) ≠ 0 := by exact_mod_cast r.den_nz
      have : (r.num : ℚ) * 10 ^ 5 = r.den * m := by
        rw [← hm]
        nth_rw 3 [← Rat.num_div_den r]
        field_simp
      exact_mod_cast this
    have := Int.natAbs_dvd_natAbs.2 hz
    rw [Int.natAbs_mul] at this
    simpa using this
  exact ⟨h1 ▸ text_no_paren s r h2 hf, s, h1, h2, hf⟩

/-! ## Examples -/

/-- `-1/6`. -/
def minusSixth : ℚ := ⟨-1, 6, by decide, by decide⟩

example : prettyRational minusSixth = ['-', '0', '.', '1', '6', overline] ++ " (-1/6)".toList := by
  have hneg : minusSixth < 0 := by decide
  have h : expandLoop 6 1 [] [] = ⟨4, "16".toList, [(1, 0), (4, 1)], false⟩ := by
    rw [expandLoop]; simp [List.lookup]
    rw [expandLoop]; simp [List.lookup]
    rw [expandLoop]; simp [List.lookup, natText, digitChar]
  have h' : expandLoop minusSixth.den (minusSixth.num.natAbs % minusSixth.den) [] [] = ⟨4, "16".toList, [(1, 0), (4, 1)], false⟩ := h
  unfold prettyRational
  simp only [h', if_pos hneg, bigRationalText]
  simp [minusSixth, natText, digitChar, List.lookup]

example : '(' ∉ prettyRational (5 / 8) := (C77_terminating_partial (5 / 8) ⟨62500, by norm_num⟩).1

end Caesar.Smt
