import Mathlib.Topology.Algebra.InfiniteSum.ENNReal
import Mathlib.Algebra.BigOperators.Intervals

/-!
# The optional stopping theorem for expectation transformers (proofs)

Stated for transformers `W` on `Ω → [0, ∞]` that behave like integration against sub-probability measures.
Nothing here refers to the model of the code.
-/

open scoped ENNReal NNReal Topology
open Filter

namespace Caesar

variable {Ω : Type}

/-- Countably additive, homogeneous and bounded by one: expectations with respect to a sub-probability kernel. -/
structure ProbT (W : (Ω → ℝ≥0∞) → Ω → ℝ≥0∞) : Prop where
  mono : Monotone W
  sum : ∀ (X : ℕ → Ω → ℝ≥0∞) σ, W (fun τ => ∑' k, X k τ) σ = ∑' k, W (X k) σ
  add : ∀ (X Y : Ω → ℝ≥0∞) σ, W (fun τ => X τ + Y τ) σ = W X σ + W Y σ
  smul : ∀ (a : ℝ≥0∞) (X : Ω → ℝ≥0∞) σ, W (fun τ => a * X τ) σ = a * W X σ
  one : ∀ σ, W (fun _ => 1) σ ≤ 1

theorem ProbT.zero {W : (Ω → ℝ≥0∞) → Ω → ℝ≥0∞} (h : ProbT W) (σ : Ω) : W (fun _ => 0) σ = 0 := by
  have := h.smul 0 (fun _ => 0) σ
  simpa using this

theorem ProbT.finset_sum {W : (Ω → ℝ≥0∞) → Ω → ℝ≥0∞} (h : ProbT W) (X : ℕ → Ω → ℝ≥0∞) (n : ℕ) (σ : Ω) :
    W (fun τ => ∑ k ∈ Finset.range n, X k τ) σ = ∑ k ∈ Finset.range n, W (X k) σ := by
  induction n with
  | zero => simp only [Finset.range_zero, Finset.sum_empty]; exact h.zero σ
  | succ n ih =>
    simp only [Finset.sum_range_succ]
    rw [h.add, ih]

theorem ProbT.id : ProbT (fun X : Ω → ℝ≥0∞ => X) :=
  ⟨fun _ _ h => h, fun _ _ => rfl, fun _ _ _ => rfl, fun _ _ _ => rfl, fun _ => le_rfl⟩

theorem ProbT.comp {V W : (Ω → ℝ≥0∞) → Ω → ℝ≥0∞} (hV : ProbT V) (hW : ProbT W) : ProbT (fun X => V (W X)) where
  mono _ _ h := hV.mono (hW.mono h)
  sum X σ := by rw [show W (fun τ => ∑' k, X k τ) = fun τ => ∑' k, W (X k) τ from funext (hW.sum X), hV.sum]
  add X Y σ := by rw [show W (fun τ => X τ + Y τ) = fun τ => W X τ + W Y τ from funext (hW.add X Y), hV.add]
  smul a X σ := by rw [show W (fun τ => a * X τ) = fun τ => a * W X τ from funext (hW.smul a X), hV.smul]
  one σ := (hV.mono (fun τ => hW.one τ) σ).trans (hV.one σ)

theorem ProbT.iterate {W : (Ω → ℝ≥0∞) → Ω → ℝ≥0∞} (h : ProbT W) (n : ℕ) : ProbT (fun X => W^[n] X) := by
  induction n with
  | zero => exact ProbT.id
  | succ n ih =>
    have := h.comp ih
    simpa only [Function.iterate_succ_apply'] using this

open Classical in
theorem ProbT.ite {V W : (Ω → ℝ≥0∞) → Ω → ℝ≥0∞} (hV : ProbT V) (hW : ProbT W) (G : Ω → Prop) :
    ProbT (fun X σ => if G σ then V X σ else W X σ) where
  mono X Y h σ := by
    show (if G σ then V X σ else W X σ) ≤ if G σ then V Y σ else W Y σ
    split
    · exact hV.mono h σ
    · exact hW.mono h σ
  sum X σ := by
    by_cases hg : G σ
    · simp only [if_pos hg]; exact hV.sum X σ
    · simp only [if_neg hg]; exact hW.sum X σ
  add X Y σ := by
    by_cases hg : G σ
    · simp only [if_pos hg]; exact hV.add X Y σ
    · simp only [if_neg hg]; exact hW.add X Y σ
  smul a X σ := by
    by_cases hg : G σ
    · simp only [if_pos hg]; exact hV.smul a X σ
    · simp only [if_neg hg]; exact hW.smul a X σ
  one σ := by
    by_cases hg : G σ
    · simp only [if_pos hg]; exact hV.one σ
    · simp only [if_neg hg]; exact hW.one σ

theorem ProbT.nothing : ProbT (fun (_ : Ω → ℝ≥0∞) (_ : Ω) => 0) where
  mono _ _ _ := le_rfl
  sum _ _ := tsum_zero.symm
  add _ _ _ := (add_zero 0).symm
  smul _ _ _ := (mul_zero _).symm
  one _ := zero_le

/-- Dominated convergence to zero. -/
theorem ProbT.vanish {W : (Ω → ℝ≥0∞) → Ω → ℝ≥0∞} (hW : ProbT W) {I : Ω → ℝ≥0∞} {u : ℕ → Ω → ℝ≥0∞}
    (hu1 : ∀ σ, u 0 σ ≤ 1) (hanti : ∀ k σ, u (k + 1) σ ≤ u k σ) (hu0 : ∀ σ, Tendsto (fun k => u k σ) atTop (𝓝 0))
    {σ : Ω} (hfin : W I σ ≠ ⊤) : Tendsto (fun j => W (fun τ => I τ * u j τ) σ) atTop (𝓝 0) := by
  let v : ℕ → Ω → ℝ≥0∞ := fun k τ => u k τ - u (k + 1) τ
  have hv : ∀ k τ, u k τ = u (k + 1) τ + v k τ := fun k τ => (add_tsub_cancel_of_le (hanti k τ)).symm
  have hpart : ∀ n j τ, u j τ = u (n + j) τ + ∑ k ∈ Finset.range n, v (k + j) τ := by
    intro n j τ
    induction n with
    | zero => simp
    | succ n ih =>
      rw [Finset.sum_range_succ, ih, hv (n + j) τ, show n + 1 + j = n + j + 1 by omega]
      ring
  have htail : ∀ j τ, u j τ ≤ ∑' k, v (k + j) τ := by
    intro j τ
    have h1 : Tendsto (fun n => u (n + j) τ + ∑' k, v (k + j) τ) atTop (𝓝 (0 + ∑' k, v (k + j) τ)) :=
      ((tendsto_add_atTop_iff_nat j).2 (hu0 τ)).add_const _
    rw [zero_add] at h1
    refine ge_of_tendsto' h1 fun n => ?_
    rw [hpart n j τ]
    exact add_le_add le_rfl (ENNReal.sum_le_tsum _)
  have htot : ∀ τ, ∑' k, v k τ ≤ 1 := by
    intro τ
    refine ENNReal.tsum_le_of_sum_range_le fun n => ?_
    have := hpart n 0 τ
    simp only [add_zero] at this
    exact (le_trans (by rw [this]; exact le_add_self) (hu1 τ))
  have hsum : ∑' k, W (fun τ => I τ * v k τ) σ ≠ ⊤ := by
    rw [← hW.sum]
    refine ne_top_of_le_ne_top hfin (hW.mono (fun τ => ?_) σ)
    show ∑' k, I τ * v k τ ≤ I τ
    rw [ENNReal.tsum_mul_left]
    exact mul_le_of_le_one_right' (htot τ)
  have hlim := ENNReal.tendsto_sum_nat_add _ hsum
  refine tendsto_of_tendsto_of_tendsto_of_le_of_le tendsto_const_nhds hlim (fun _ => zero_le) fun j => ?_
  show W (fun τ => I τ * u j τ) σ ≤ ∑' k, W (fun τ => I τ * v (k + j) τ) σ
  rw [← hW.sum (fun k τ => I τ * v (k + j) τ)]
  refine hW.mono (fun τ => ?_) σ
  show I τ * u j τ ≤ ∑' k, I τ * v (k + j) τ
  rw [ENNReal.tsum_mul_left]
  exact mul_le_mul_right (htail j τ) _

/-- Distance of two values, as in the encoding: `ite(a <= b, b - a, a - b)`. -/
noncomputable def dist' (a b : ℝ≥0∞) : ℝ≥0∞ := open Classical in if a ≤ b then b - a else a - b

theorem le_add_dist' (a b : ℝ≥0∞) : b ≤ a + dist' a b := by
  unfold dist'
  split
  next h => exact le_add_tsub
  next h => exact (not_le.1 h).le.trans le_self_add

/-- **Optional stopping**, for affine transformers `X ↦ W X + t`. -/
theorem optional_stopping {W : (Ω → ℝ≥0∞) → Ω → ℝ≥0∞} {t : Ω → ℝ≥0∞} (hW : ProbT W) {G : Ω → Prop} {f I P : Ω → ℝ≥0∞} {c : ℝ≥0∞}
    (hc : c ≠ ⊤) (hI : ∀ σ, I σ ≠ ⊤) (hP : ∀ σ, P σ ≠ ⊤) (hinv : ∀ σ, G σ → I σ ≤ W I σ + t σ)
    (hexit : ∀ σ, ¬ G σ → I σ ≤ f σ) (hpast : ∀ σ, G σ → W (fun τ => P τ + 1) σ ≤ P σ)
    (hdiff : ∀ σ, G σ → W (fun τ => dist' (I σ) (I τ)) σ ≤ c) {F : Ω → ℝ≥0∞}
    (hFG : ∀ σ, G σ → W F σ + t σ ≤ F σ) (hFE : ∀ σ, ¬ G σ → f σ ≤ F σ) : I ≤ F := by
  classical
  let T : (Ω → ℝ≥0∞) → Ω → ℝ≥0∞ := fun X σ => if G σ then W X σ else 0
  have hT : ProbT T := hW.ite ProbT.nothing G
  have hTpos : ∀ X σ, G σ → T X σ = W X σ := fun X σ h => if_pos h
  have hTneg : ∀ X σ, ¬ G σ → T X σ = 0 := fun X σ h => if_neg h
  let u : ℕ → Ω → ℝ≥0∞ := fun j => T^[j] (fun _ => 1)
  have hus : ∀ j, u (j + 1) = T (u j) := fun j => Function.iterate_succ_apply' T j _
  have hu1 : ∀ j σ, u j σ ≤ 1 := fun j σ => (hT.iterate j).one σ
  have hanti : ∀ k σ, u (k + 1) σ ≤ u k σ := by
    intro k σ
    show T^[k + 1] _ σ ≤ T^[k] _ σ
    rw [Function.iterate_succ_apply]
    exact (hT.iterate k).mono (fun τ => hT.one τ) σ
  -- the expected number of iterations is finite
  have hbound : ∀ n σ, ∑ k ∈ Finset.range n, u (k + 1) σ ≤ P σ := by
    intro n
    induction n with
    | zero => intro σ; simp
    | succ n ih =>
      intro σ
      have h1 : ∑ k ∈ Finset.range (n + 1), u (k + 1) σ
          = T (fun τ => ∑ k ∈ Finset.range n, u (k + 1) τ + 1) σ := by
        rw [hT.add, hT.finset_sum, Finset.sum_range_succ' (fun k => u (k + 1) σ)]
        simp only [hus]
        rfl
      rw [h1]
      by_cases hg : G σ
      · rw [hTpos _ _ hg]
        exact (hW.mono (fun τ => add_le_add (ih τ) le_rfl) σ).trans (hpast σ hg)
      · rw [hTneg _ _ hg]; exact zero_le
  have hsum : ∀ σ, ∑' k, u k σ ≠ ⊤ := by
    intro σ
    have h1 : ∑' k, u (k + 1) σ ≤ P σ := ENNReal.tsum_le_of_sum_range_le fun n => hbound n σ
    rw [tsum_eq_zero_add' ENNReal.summable]
    exact ENNReal.add_ne_top.2 ⟨ne_top_of_le_ne_top ENNReal.one_ne_top (hu1 0 σ), ne_top_of_le_ne_top (hP σ) h1⟩
  have hu0 : ∀ σ, Tendsto (fun k => u k σ) atTop (𝓝 0) := fun σ =>
    ENNReal.tendsto_atTop_zero_of_tsum_ne_top (hsum σ)
  -- growth of `I`
  have hstep : ∀ j σ, T (fun τ => I τ * u j τ) σ ≤ I σ * u (j + 1) σ + c := by
    intro j σ
    by_cases hg : G σ
    · rw [hus, hTpos _ _ hg, hTpos _ _ hg]
      have h1 : W (fun τ => I τ * u j τ) σ ≤ W (fun τ => I σ * u j τ + dist' (I σ) (I τ)) σ := by
        refine hW.mono (fun τ => ?_) σ
        refine (mul_le_mul_left (le_add_dist' (I σ) (I τ)) (u j τ)).trans ?_
        rw [add_mul]
        exact add_le_add le_rfl (mul_le_of_le_one_right' (hu1 j τ))
      refine h1.trans ?_
      rw [hW.add, hW.smul]
      exact add_le_add le_rfl (hdiff σ hg)
    · rw [hTneg _ _ hg]; exact zero_le
  have hgrow : ∀ j σ, T^[j] I σ ≤ I σ * u j σ + c * ∑ k ∈ Finset.range j, u k σ := by
    intro j
    induction j with
    | zero => intro σ; simp [u]
    | succ j ih =>
      intro σ
      rw [Function.iterate_succ_apply']
      by_cases hg : G σ
      · have h1 : T (T^[j] I) σ ≤ T (fun τ => I τ * u j τ + c * ∑ k ∈ Finset.range j, u k τ) σ := hT.mono ih σ
        refine h1.trans ?_
        rw [hT.add, hT.smul, hT.finset_sum, Finset.sum_range_succ' (fun k => u k σ), mul_add]
        have h2 := hstep j σ
        have h3 : u 0 σ = 1 := rfl
        rw [h3, mul_one]
        simp only [← hus]
        calc T (fun τ => I τ * u j τ) σ + c * ∑ k ∈ Finset.range j, u (k + 1) σ
            ≤ (I σ * u (j + 1) σ + c) + c * ∑ k ∈ Finset.range j, u (k + 1) σ := add_le_add h2 le_rfl
          _ = _ := by ring
      · rw [hTneg _ _ hg]; exact zero_le
  have hfinite : ∀ j σ, T^[j] I σ ≠ ⊤ := by
    intro j σ
    refine ne_top_of_le_ne_top ?_ (hgrow j σ)
    refine ENNReal.add_ne_top.2 ⟨?_, ?_⟩
    · exact ne_top_of_le_ne_top (hI σ) (mul_le_of_le_one_right' (hu1 j σ))
    · exact ENNReal.mul_ne_top hc (ne_top_of_le_ne_top (hsum σ) (ENNReal.sum_le_tsum _))
  have hsplit : ∀ m j σ, T^[m + j] I σ ≤ T^[m] (fun τ => I τ * u j τ) σ + c * ∑' k, u (k + m) σ := by
    intro m j σ
    rw [Function.iterate_add_apply]
    refine ((hT.iterate m).mono (hgrow j) σ).trans ?_
    rw [(hT.iterate m).add, (hT.iterate m).smul, (hT.iterate m).finset_sum]
    refine add_le_add le_rfl ?_
    gcongr
    refine le_trans (le_of_eq (Finset.sum_congr rfl fun k _ => ?_)) (ENNReal.sum_le_tsum (Finset.range j))
    show T^[m] (T^[k] _) σ = T^[k + m] _ σ
    rw [← Function.iterate_add_apply, Nat.add_comm]
  have hvanish : ∀ σ (ε : ℝ≥0∞), 0 < ε → ∃ n, T^[n] I σ ≤ ε := by
    intro σ ε hε
    have h1 : Tendsto (fun m => c * ∑' k, u (k + m) σ) atTop (𝓝 (c * 0)) :=
      ENNReal.Tendsto.const_mul (ENNReal.tendsto_sum_nat_add _ (hsum σ)) (Or.inr hc)
    rw [mul_zero] at h1
    have hε2 : 0 < ε / 2 := ENNReal.half_pos hε.ne'
    obtain ⟨m, hm⟩ := (h1.eventually (ge_mem_nhds hε2)).exists
    have h2 := (hT.iterate m).vanish (I := I) (u := u) (fun σ => hu1 0 σ) hanti hu0 (hfinite m σ)
    obtain ⟨j, hj⟩ := (h2.eventually (ge_mem_nhds hε2)).exists
    refine ⟨m + j, (hsplit m j σ).trans ((add_le_add hj hm).trans ?_)⟩
    rw [ENNReal.add_halves]
  -- the lower bound
  have hlow : ∀ n σ, I σ ≤ F σ + T^[n] I σ := by
    intro n
    induction n with
    | zero => intro σ; exact le_add_self
    | succ n ih =>
      intro σ
      by_cases hg : G σ
      · rw [Function.iterate_succ_apply', hTpos _ _ hg]
        refine (hinv σ hg).trans ((add_le_add (hW.mono ih σ) le_rfl).trans ?_)
        rw [hW.add, add_right_comm]
        exact add_le_add (hFG σ hg) le_rfl
      · exact (hexit σ hg).trans ((hFE σ hg).trans le_self_add)
  intro σ
  refine ENNReal.le_of_forall_pos_le_add fun ε hε _ => ?_
  obtain ⟨n, hn⟩ := hvanish σ ε (by exact_mod_cast hε)
  exact (hlow n σ).trans (add_le_add le_rfl hn)

end Caesar
