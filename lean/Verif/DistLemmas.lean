import Verif.VcgenLemmas
import Mathlib.Tactic.FieldSimp
import Mathlib.Tactic.Ring

/-!
# Helper lemmas: each built-in distribution
-/

open scoped ENNReal NNReal

namespace Caesar
variable [Doms] [Interp]
set_option linter.unusedSectionVars false

/-- Value of a table of probabilities. -/
noncomputable def Dist.mean {t : Ty} (d : Dist t) (σ : Env) (f : t.den → ℝ≥0∞) : ℝ≥0∞ :=
  (d.map fun p => p.1.ev σ * f (p.2.eval σ)).sum

theorem tsum_prop (f : Prop → ℝ≥0∞) : ∑' p, f p = f True + f False := by
  rw [tsum_fintype]; simp

theorem eval_boolLit_true (σ : Env) : (Expr.boolLit true).eval σ = True := eq_true rfl
theorem eval_boolLit_false (σ : Env) : (Expr.boolLit false).eval σ = False := eq_false Bool.false_ne_true
theorem eval_uintLit (n : ℕ) (σ : Env) : (Expr.uintLit n).eval σ = n := rfl

theorem ber_mean {pa pb : ℕ} {d} (h : (DistCall.ber pa pb).apply = .ok d) (σ : Env)
    (f : Prop → ℝ≥0∞) : d.mean σ f = (DistCall.ber pa pb).expect σ f := by
  unfold Dist.mean
  rw [fromOdds_sum h f σ]
  have : (DistCall.ber pa pb).expect σ f = ∑' p : Prop, (DistCall.ber pa pb).pmf σ p * f p := rfl
  rw [this, tsum_prop]
  simp [DistCall.pmf, eval_boolLit_true, eval_boolLit_false]

theorem flip_mean {p : Expr .ureal} {d} (h : (DistCall.flip p).apply = .ok d) (σ : Env)
    (f : Prop → ℝ≥0∞) : d.mean σ f = (DistCall.flip p).expect σ f := by
  unfold Dist.mean
  have : (DistCall.flip p).expect σ f = ∑' q : Prop, (DistCall.flip p).pmf σ q * f q := rfl
  rw [this, tsum_prop]
  simp only [DistCall.apply, Except.ok.injEq] at h
  subst h
  simp only [List.map_cons, List.map_nil, List.sum_cons, List.sum_nil, add_zero, Expr.ev_cast_ureal,
    eval_boolLit_true, eval_boolLit_false]
  congr 1
  · simp [DistCall.pmf]
  · simp only [DistCall.pmf, if_false]
    congr 1
    have h1 : ∀ q : ℝ≥0, ENNReal.ofNNReal (((1 : ℕ) : ℝ≥0) - q) = 1 - ENNReal.ofNNReal q := by
      intro q; rw [Nat.cast_one]; exact ENNReal.coe_sub
    exact h1 _

theorem tsum_nat_eq_sum (s : Finset ℕ) (f : ℕ → ℝ≥0∞) (h : ∀ k, k ∉ s → f k = 0) :
    ∑' k, f k = ∑ k ∈ s, f k := tsum_eq_sum (by simpa using h)

theorem unif_mean {a b : ℕ} {d} (h : (DistCall.unif a b).apply = .ok d) (σ : Env)
    (f : ℕ → ℝ≥0∞) : d.mean σ f = (DistCall.unif a b).expect σ f := by
  unfold Dist.mean
  rw [fromOdds_sum h f σ]
  have : (DistCall.unif a b).expect σ f = ∑' r : ℕ, (DistCall.unif a b).pmf σ r * f r := rfl
  rw [this, tsum_nat_eq_sum (Finset.Ico a (a + (b + 1 - a)))]
  · simp only [List.map_map, Function.comp_def, eval_uintLit]
    rw [list_sum_range']
    apply Finset.sum_congr rfl
    intro k hk
    have hk' : a ≤ k ∧ k ≤ b := by simp at hk; omega
    simp [DistCall.pmf, hk']
  · intro k hk
    have hk' : ¬ (a ≤ k ∧ k ≤ b) := by simp at hk; omega
    simp [DistCall.pmf, hk']

theorem vandermonde_range (m n k : ℕ) :
    ∑ r ∈ Finset.range (k + 1), m.choose r * n.choose (k - r) = (m + n).choose k := by
  rw [Nat.add_choose_eq, Finset.Nat.sum_antidiagonal_eq_sum_range_succ (fun i j => m.choose i * n.choose j)]

theorem hyper_total {N K n : ℕ} (h : K ≤ N) :
    ∑ k ∈ Finset.Ico (n + K - N) (n + K - N + (min n K + 1 - (n + K - N))),
      K.choose k * (N - K).choose (n - k) = N.choose n := by
  have h1 := vandermonde_range K (N - K) n
  rw [show K + (N - K) = N by omega] at h1
  rw [← h1]
  apply Finset.sum_subset
  · intro k hk; simp at hk ⊢; omega
  · intro k hk hk'
    simp at hk hk'
    by_cases hK : K < k
    · simp [Nat.choose_eq_zero_of_lt hK]
    · have : N - K < n - k := by omega
      simp [Nat.choose_eq_zero_of_lt this]

theorem hyper_mean {N K n : ℕ} {d} (h : (DistCall.hyper N K n).apply = .ok d) (hne : d ≠ [])
    (σ : Env) (f : ℕ → ℝ≥0∞) : d.mean σ f = (DistCall.hyper N K n).expect σ f := by
  unfold Dist.mean
  simp only [DistCall.apply] at h
  split at h
  · cases h
  next hks =>
  have hK : K ≤ N := by
    by_contra hK
    apply hks
    refine ⟨?_, by omega⟩
    intro h0
    rw [h0] at h
    simp [Dist.fromOdds] at h
    exact hne h
  rw [fromOdds_sum h f σ]
  have : (DistCall.hyper N K n).expect σ f = ∑' r : ℕ, (DistCall.hyper N K n).pmf σ r * f r := rfl
  rw [this, tsum_nat_eq_sum (Finset.Ico (n + K - N) (n + K - N + (min n K + 1 - (n + K - N))))]
  · simp only [List.map_map, Function.comp_def, eval_uintLit]
    rw [list_sum_range', list_sum_range'_nat, hyper_total hK]
    apply Finset.sum_congr rfl
    intro k hk
    have hk' : k ≤ n := by simp at hk; omega
    simp [DistCall.pmf, hk']
  · intro k hk
    simp at hk
    simp only [DistCall.pmf]
    split
    next hkn =>
      by_cases hK' : K < k
      · simp [Nat.choose_eq_zero_of_lt hK']
      · have : N - K < n - k := by omega
        simp [Nat.choose_eq_zero_of_lt this]
    · simp

/-- The parameters for which the exponent `pb - pa` used by the code happens not to matter. -/
def binomOk (n pa pb : ℕ) : Prop := pa + pb ≠ 0 ∧ (n = 0 ∨ pa = 0 ∨ pb = 1)

theorem list_sum_range (n : ℕ) (f : ℕ → ℝ≥0∞) :
    ((List.range n).map f).sum = ∑ k ∈ Finset.range n, f k := by
  rw [List.range_eq_range', list_sum_range', Finset.range_eq_Ico]; simp

theorem list_sum_range_nat (n : ℕ) (f : ℕ → ℕ) :
    ((List.range n).map f).sum = ∑ k ∈ Finset.range n, f k := by
  rw [List.range_eq_range', list_sum_range'_nat, Finset.range_eq_Ico]; simp

theorem binom_weight {n pa pb k : ℕ} (hle : pa ≤ pb) (hok : binomOk n pa pb) (hk : k ≤ n) :
    ((n.choose k * pa ^ k * pb ^ (pb - pa) : ℕ) : ℝ≥0∞)
      / ((∑ j ∈ Finset.range (n + 1), n.choose j * pa ^ j * pb ^ (pb - pa) : ℕ) : ℝ≥0∞)
    = (n.choose k : ℝ≥0∞) * ((pa : ℝ≥0∞) / (pa + pb)) ^ k * ((pb : ℝ≥0∞) / (pa + pb)) ^ (n - k) := by
  obtain ⟨h0, hcase⟩ := hok
  have hpb : pb ≠ 0 := by omega
  have hc : pb ^ (pb - pa) ≠ 0 := pow_ne_zero _ hpb
  have htot : (∑ j ∈ Finset.range (n + 1), n.choose j * pa ^ j * pb ^ (pb - pa))
      = (pa + 1) ^ n * pb ^ (pb - pa) := by
    rw [← Finset.sum_mul, add_pow]
    congr 1
    apply Finset.sum_congr rfl
    intro j _; simp [mul_comm]
  rw [htot]
  have hcc : ((pb ^ (pb - pa) : ℕ) : ℝ≥0∞) ≠ 0 := by exact_mod_cast hc
  have hct : ((pb ^ (pb - pa) : ℕ) : ℝ≥0∞) ≠ ⊤ := ENNReal.natCast_ne_top _
  have hcancel : ((n.choose k * pa ^ k * pb ^ (pb - pa) : ℕ) : ℝ≥0∞)
      / (((pa + 1) ^ n * pb ^ (pb - pa) : ℕ) : ℝ≥0∞)
      = ((n.choose k * pa ^ k : ℕ) : ℝ≥0∞) / (((pa + 1) ^ n : ℕ) : ℝ≥0∞) := by
    rw [Nat.cast_mul (n.choose k * pa ^ k), Nat.cast_mul ((pa + 1) ^ n)]
    exact ENNReal.mul_div_mul_right _ _ hcc hct
  rw [hcancel]
  rcases hcase with rfl | rfl | rfl
  · obtain rfl : k = 0 := by omega
    simp
  · cases k with
    | zero => simp [ENNReal.div_self (a := (pb : ℝ≥0∞)) (by exact_mod_cast hpb) (ENNReal.natCast_ne_top _)]
    | succ k => simp
  · have hp0 : ((pa : ℝ≥0∞) + 1) ≠ 0 := by simp
    have hpt : ((pa : ℝ≥0∞) + 1) ≠ ⊤ := by simp
    push_cast
    simp only [ENNReal.div_eq_inv_mul, mul_pow, mul_one, ← ENNReal.inv_pow]
    have : ((pa : ℝ≥0∞) + 1) ^ n = ((pa : ℝ≥0∞) + 1) ^ k * ((pa : ℝ≥0∞) + 1) ^ (n - k) := by
      rw [← pow_add]; congr 1; omega
    rw [this, ENNReal.mul_inv (Or.inl (pow_ne_zero _ hp0)) (Or.inl (ENNReal.pow_ne_top hpt))]
    ring

theorem binom_mean {n pa pb : ℕ} {d} (hok : binomOk n pa pb)
    (h : (DistCall.binom n pa pb).apply = .ok d) (σ : Env)
    (f : ℕ → ℝ≥0∞) : d.mean σ f = (DistCall.binom n pa pb).expect σ f := by
  unfold Dist.mean
  simp only [DistCall.apply] at h
  split at h
  · cases h
  next hle =>
  rw [fromOdds_sum h f σ]
  have : (DistCall.binom n pa pb).expect σ f = ∑' r : ℕ, (DistCall.binom n pa pb).pmf σ r * f r := rfl
  rw [this, tsum_nat_eq_sum (Finset.range (n + 1))]
  · simp only [List.map_map, Function.comp_def, eval_uintLit]
    rw [list_sum_range, list_sum_range_nat]
    apply Finset.sum_congr rfl
    intro k hk
    congr 1
    exact binom_weight (by omega) hok (by simp at hk; omega)
  · intro k hk
    have : n < k := by simp at hk; omega
    simp [DistCall.pmf, Nat.choose_eq_zero_of_lt this]

/-- A distribution call whose table is the documented one: everything except `binom` with parameters for which
the wrong exponent matters. -/
def DistCall.Good : {t : Ty} → DistCall t → Prop
  | _, .binom n pa pb => binomOk n pa pb
  | _, _ => True

theorem apply_mean {t : Ty} {d : DistCall t} {tbl} (hg : d.Good) (h : d.apply = .ok tbl)
    (hne : tbl ≠ []) (σ : Env) (f : t.den → ℝ≥0∞) : tbl.mean σ f = d.expect σ f := by
  cases d with
  | ber => exact ber_mean h σ f
  | flip => exact flip_mean h σ f
  | unif => exact unif_mean h σ f
  | binom => exact binom_mean hg h σ f
  | hyper => exact hyper_mean h hne σ f

theorem expectation_ne_nil {t : Ty} {d : Dist t} {x : Ident} {post e : Expr .eureal}
    (h : d.expectation x post = .ok e) : d ≠ [] := by
  rintro rfl; simp [Dist.expectation] at h

theorem sample_ev {b : Bool} {x : Ident} {t : Ty} {d : DistCall t} (hg : d.Good) {post e : Expr .eureal}
    (h : vcgen (.sample b x d) post = .ok e) (σ : Env) :
    e.ev σ = d.expect σ (fun a => post.ev (σ.upd ⟨x, t⟩ a)) := by
  simp only [vcgen, bind, Except.bind] at h
  split at h
  · cases h
  next tbl htbl =>
    rw [expectation_ev h, ← apply_mean hg htbl (expectation_ne_nil h)]
    rfl

end Caesar
