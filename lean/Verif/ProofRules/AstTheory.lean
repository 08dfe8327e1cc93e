import Verif.ProofRules.OstTheory

/-!
# Almost-sure termination by a variant that does not increase in expectation (proofs)

The theorem behind McIver, Morgan, Kaminski, Katoen: A new proof rule for almost-sure termination (POPL 2018), for
sub-probability kernels.
-/

open scoped ENNReal NNReal

namespace Caesar
set_option linter.unusedSectionVars false

variable {Ω : Type}

/-- `F` is any pre-fixed point of the termination probability: at least one outside of the guard, and at least its
expected value inside. -/
theorem ast_rule {W : (Ω → ℝ≥0∞) → Ω → ℝ≥0∞} (hW : ProbT W) {G I : Ω → Prop} {V : Ω → ℝ≥0} {p d : ℝ≥0 → ℝ≥0}
    (hp0 : ∀ x, 0 < p x) (hd0 : ∀ x, 0 < d x) (hp : Antitone p) (hd : Antitone d) [DecidablePred I]
    (hI : ∀ σ, I σ → G σ → 1 ≤ W (fun τ => if I τ then 1 else 0) σ)
    (hG : ∀ σ, I σ → G σ → 0 < V σ)
    (hV : ∀ σ, I σ → G σ → W (fun τ => (V τ : ℝ≥0∞)) σ ≤ (V σ : ℝ≥0∞))
    (hP : ∀ σ, I σ → G σ → (p (V σ) : ℝ≥0∞) ≤ W (fun τ => if V τ ≤ V σ - d (V σ) then 1 else 0) σ)
    {F : Ω → ℝ≥0∞} (hFG : ∀ σ, G σ → W F σ ≤ F σ) (hFE : ∀ σ, ¬ G σ → 1 ≤ F σ) (σ : Ω) (hσ : I σ) : 1 ≤ F σ := by
  classical
  -- the probability of not terminating, on the invariant
  let U : Ω → ℝ≥0∞ := fun τ => if I τ then 1 - F τ else 0
  have hU1 : ∀ τ, U τ ≤ 1 := fun τ => by
    show (if I τ then 1 - F τ else 0) ≤ 1
    split
    · exact tsub_le_self
    · exact zero_le
  have hUG : ∀ τ, ¬ G τ → U τ = 0 := fun τ hg => by
    show (if I τ then 1 - F τ else 0) = 0
    rw [tsub_eq_zero_of_le (hFE τ hg), ite_self]
  have hUI : ∀ τ, ¬ I τ → U τ = 0 := fun τ h => if_neg h
  have hUW : ∀ τ, I τ → G τ → U τ ≤ W U τ := by
    intro τ hi hg
    show (if I τ then 1 - F τ else 0) ≤ _
    rw [if_pos hi, tsub_le_iff_right]
    refine (hI τ hi hg).trans ?_
    have h1 : (fun τ => if I τ then (1 : ℝ≥0∞) else 0) ≤ fun τ => U τ + F τ := by
      intro τ
      show (if I τ then (1 : ℝ≥0∞) else 0) ≤ (if I τ then 1 - F τ else 0) + F τ
      split
      · exact le_tsub_add
      · exact zero_le
    refine (hW.mono h1 τ).trans ?_
    rw [hW.add]
    exact add_le_add le_rfl (hFG τ hg)
  -- it is bounded by `V / H` for every `H > 0`
  have key : ∀ H : ℕ, 0 < H → ∀ τ, U τ ≤ (H : ℝ≥0∞)⁻¹ * V τ := by
    intro H hH
    have hH0 : (H : ℝ≥0∞) ≠ 0 := by exact_mod_cast hH.ne'
    have hHt : (H : ℝ≥0∞) ≠ ⊤ := ENNReal.natCast_ne_top H
    let D : Ω → ℝ≥0∞ := fun τ => U τ - (H : ℝ≥0∞)⁻¹ * V τ
    have hD1 : ∀ τ, D τ ≤ 1 := fun τ => tsub_le_self.trans (hU1 τ)
    have hD0 : ∀ τ, ¬ (I τ ∧ G τ ∧ V τ ≤ H) → D τ = 0 := by
      intro τ h
      show U τ - (H : ℝ≥0∞)⁻¹ * V τ = 0
      by_cases hi : I τ
      · by_cases hg : G τ
        · have hv : (H : ℝ≥0) ≤ V τ := le_of_not_ge fun hv => h ⟨hi, hg, hv⟩
          refine tsub_eq_zero_of_le ((hU1 τ).trans ?_)
          calc (1 : ℝ≥0∞) = (H : ℝ≥0∞)⁻¹ * H := (ENNReal.inv_mul_cancel hH0 hHt).symm
            _ ≤ _ := by
              refine mul_le_mul_right ?_ _
              exact_mod_cast hv
        · rw [hUG τ hg, zero_tsub]
      · rw [hUI τ hi, zero_tsub]
    have hDW : ∀ τ, I τ → G τ → D τ ≤ W D τ := by
      intro τ hi hg
      show U τ - (H : ℝ≥0∞)⁻¹ * V τ ≤ _
      rw [tsub_le_iff_right]
      refine (hUW τ hi hg).trans ?_
      have h1 : U ≤ fun τ => D τ + (H : ℝ≥0∞)⁻¹ * V τ := fun τ => le_tsub_add
      refine (hW.mono h1 τ).trans ?_
      rw [hW.add, hW.smul]
      exact add_le_add le_rfl (mul_le_mul_right (hV τ hi hg) _)
    let m : ℝ≥0∞ := ⨆ τ, D τ
    have hm1 : m ≤ 1 := iSup_le hD1
    have hmt : m ≠ ⊤ := ne_top_of_le_ne_top ENNReal.one_ne_top hm1
    have hDm : ∀ τ, D τ ≤ m := fun τ => le_iSup D τ
    -- if the region is empty there is nothing to show
    by_cases hex : ∃ τ, I τ ∧ G τ ∧ V τ ≤ H
    swap
    · intro τ
      have h1 : D τ = 0 := hD0 τ fun h => hex ⟨τ, h⟩
      exact tsub_eq_zero_iff_le.1 h1
    set ε : ℝ≥0∞ := (p H : ℝ≥0∞) with hε
    have hε0 : ε ≠ 0 := by
      rw [hε]
      exact_mod_cast (hp0 H).ne'
    have hε1 : ε ≤ 1 := by
      obtain ⟨τ, hi, hg, hv⟩ := hex
      have h1 : ε ≤ (p (V τ) : ℝ≥0∞) := by
        rw [hε]
        exact_mod_cast hp hv
      refine h1.trans ((hP τ hi hg).trans ((hW.mono (fun τ' => ?_) τ).trans (hW.one τ)))
      show (if V τ' ≤ V τ - d (V τ) then (1 : ℝ≥0∞) else 0) ≤ 1
      split
      · exact le_rfl
      · exact zero_le
    have hεk : ∀ k : ℕ, m * ε ^ k ≤ m := fun k => mul_le_of_le_one_right' (pow_le_one' hε1 k)
    have step : ∀ k : ℕ, ∀ τ, I τ → G τ → V τ ≤ H → V τ ≤ k * d H → D τ + m * ε ^ k ≤ m := by
      intro k
      induction k with
      | zero =>
        intro τ hi hg _ hv
        rw [Nat.cast_zero, zero_mul] at hv
        exact absurd (hG τ hi hg) (not_lt.2 hv)
      | succ k ih =>
        intro τ hi hg hH' hv
        have hd' : d H ≤ d (V τ) := hd hH'
        have hle : V τ - d (V τ) ≤ k * d H := by
          rw [tsub_le_iff_right]
          refine hv.trans ?_
          rw [Nat.cast_succ, add_mul, one_mul]
          exact add_le_add le_rfl hd'
        have hpt : (fun τ' => D τ' + m * ε ^ k * (if V τ' ≤ V τ - d (V τ) then 1 else 0)) ≤ fun _ => m * 1 := by
          intro τ'
          show D τ' + m * ε ^ k * (if V τ' ≤ V τ - d (V τ) then 1 else 0) ≤ m * 1
          rw [mul_one]
          by_cases ha : V τ' ≤ V τ - d (V τ)
          · rw [if_pos ha, mul_one]
            by_cases hr : I τ' ∧ G τ' ∧ V τ' ≤ H
            · exact ih τ' hr.1 hr.2.1 hr.2.2 (ha.trans hle)
            · rw [hD0 τ' hr, zero_add]
              exact hεk k
          · rw [if_neg ha, mul_zero, add_zero]
            exact hDm τ'
        have h1 := hW.mono hpt τ
        rw [hW.add, hW.smul, hW.smul] at h1
        have h2 : ε ≤ W (fun τ' => if V τ' ≤ V τ - d (V τ) then 1 else 0) τ := by
          refine le_trans ?_ (hP τ hi hg)
          rw [hε]
          exact_mod_cast hp hH'
        calc D τ + m * ε ^ (k + 1) = D τ + m * ε ^ k * ε := by rw [pow_succ, mul_assoc]
          _ ≤ W D τ + m * ε ^ k * W (fun τ' => if V τ' ≤ V τ - d (V τ) then 1 else 0) τ :=
            add_le_add (hDW τ hi hg) (mul_le_mul_right h2 _)
          _ ≤ m * W (fun _ => 1) τ := h1
          _ ≤ m * 1 := mul_le_mul_right (hW.one τ) _
          _ = m := mul_one m
    obtain ⟨N, hN⟩ : ∃ N : ℕ, (H : ℝ≥0) ≤ N * d H := by
      obtain ⟨N, hN⟩ := Archimedean.arch (H : ℝ≥0) (hd0 H)
      exact ⟨N, by rwa [nsmul_eq_mul] at hN⟩
    have hall : m ≤ m - m * ε ^ N := by
      refine iSup_le fun τ => ?_
      by_cases hr : I τ ∧ G τ ∧ V τ ≤ H
      · exact ENNReal.le_sub_of_add_le_right (ne_top_of_le_ne_top hmt (hεk N)) (step N τ hr.1 hr.2.1 hr.2.2 (hr.2.2.trans hN))
      · rw [hD0 τ hr]
        exact zero_le
    have hm0 : m = 0 := by
      by_contra hm
      exact absurd hall (not_le.2 (ENNReal.sub_lt_self hmt hm (mul_ne_zero hm (pow_ne_zero N hε0))))
    intro τ
    refine tsub_eq_zero_iff_le.1 (le_zero_iff.1 ?_)
    exact (hDm τ).trans hm0.le
  have hU0 : U σ = 0 := by
    by_contra h
    obtain ⟨n, hn⟩ := ENNReal.exists_nat_mul_gt h (ENNReal.coe_ne_top (r := V σ))
    have hn0 : 0 < n := Nat.pos_of_ne_zero fun h0 => by
      rw [h0, Nat.cast_zero, zero_mul] at hn
      exact absurd hn not_lt_zero
    have h1 := mul_le_mul_right (key n hn0 σ) (n : ℝ≥0∞)
    rw [← mul_assoc, ENNReal.mul_inv_cancel (by exact_mod_cast hn0.ne') (ENNReal.natCast_ne_top n), one_mul] at h1
    exact absurd hn (not_lt.2 h1)
  have h1 : U σ = 1 - F σ := if_pos hσ
  rw [h1] at hU0
  exact tsub_eq_zero_iff_le.1 hU0

open Classical in
/-- Loops over kernels are kernels: the least fixed point sums up, over the number of iterations, the value at the exit. -/
theorem ProbT.lfp {W : (Ω → ℝ≥0∞) → Ω → ℝ≥0∞} (hW : ProbT W) (G : Ω → Prop) :
    ProbT (fun X => sInf {Y : Ω → ℝ≥0∞ | (fun σ => if G σ then W Y σ else X σ) ≤ Y}) := by
  -- one guarded iteration, and stopping
  let A : (Ω → ℝ≥0∞) → Ω → ℝ≥0∞ := fun X σ => if G σ then W X σ else 0
  let E : (Ω → ℝ≥0∞) → Ω → ℝ≥0∞ := fun X σ => if G σ then 0 else X σ
  have hA : ProbT A := hW.ite ProbT.nothing G
  have hE : ProbT E := ProbT.nothing.ite ProbT.id G
  have hAE : ∀ X Y σ, A Y σ + E X σ = if G σ then W Y σ else X σ := by
    intro X Y σ
    show (if G σ then W Y σ else 0) + (if G σ then 0 else X σ) = _
    by_cases hg : G σ
    · simp only [if_pos hg, add_zero]
    · simp only [if_neg hg, zero_add]
  have hT : ∀ n : ℕ, ProbT fun X => A^[n] (E X) := fun n => (hA.iterate n).comp hE
  have key : (fun X => sInf {Y : Ω → ℝ≥0∞ | (fun σ => if G σ then W Y σ else X σ) ≤ Y})
      = fun X σ => ∑' n : ℕ, A^[n] (E X) σ := by
    funext X
    refine le_antisymm (sInf_le fun σ => ?_) (le_sInf fun Y hY => ?_)
    · show (if G σ then W (fun σ => ∑' n : ℕ, A^[n] (E X) σ) σ else X σ) ≤ ∑' n : ℕ, A^[n] (E X) σ
      rw [← hAE X]
      have h1 : A (fun σ => ∑' n : ℕ, A^[n] (E X) σ) σ = ∑' n : ℕ, A^[n + 1] (E X) σ := by
        rw [hA.sum]
        exact tsum_congr fun n => by rw [Function.iterate_succ_apply']
      rw [h1, add_comm]
      exact (tsum_eq_zero_add' ENNReal.summable (f := fun n : ℕ => A^[n] (E X) σ)).symm.le
    · intro σ
      show ∑' n : ℕ, A^[n] (E X) σ ≤ Y σ
      rw [ENNReal.tsum_eq_iSup_nat]
      refine iSup_le fun n => ?_
      induction n generalizing σ with
      | zero => simp
      | succ n ih =>
        rw [Finset.sum_range_succ']
        have h2 : ∑ k ∈ Finset.range n, A^[k + 1] (E X) σ = A (fun τ => ∑ k ∈ Finset.range n, A^[k] (E X) τ) σ := by
          rw [hA.finset_sum]
          exact Finset.sum_congr rfl fun k _ => by rw [Function.iterate_succ_apply']
        rw [h2]
        refine le_trans ?_ (hY σ)
        show _ ≤ if G σ then W Y σ else X σ
        rw [← hAE X]
        exact add_le_add (hA.mono (fun τ => ih τ) σ) le_rfl
  rw [key]
  exact
    { mono := fun X Y h σ => ENNReal.tsum_le_tsum fun n => (hT n).mono h σ
      sum := fun X σ => by
        rw [ENNReal.tsum_comm]
        exact tsum_congr fun n => (hT n).sum X σ
      add := fun X Y σ => by
        rw [← ENNReal.tsum_add]
        exact tsum_congr fun n => (hT n).add X Y σ
      smul := fun a X σ => by
        rw [← ENNReal.tsum_mul_left]
        exact tsum_congr fun n => (hT n).smul a X σ
      one := fun σ => by
        have h1 := congrFun (congrFun key fun _ => 1) σ
        rw [← h1]
        refine (sInf_le (a := fun _ => (1 : ℝ≥0∞)) ?_ : sInf {Y : Ω → ℝ≥0∞ | _} ≤ _) σ
        intro τ
        show (if G τ then W (fun _ => 1) τ else 1) ≤ 1
        split
        · exact hW.one τ
        · exact le_rfl }

end Caesar
