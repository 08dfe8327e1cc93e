import Verif.DistLemmas

/-!
# C44: built-in distributions are the documented ones

Full property (`C44_full`): whenever `x = d(...)` has a verification condition, it is the expected value of the
postexpectation under the documented distribution. It is false for `binom` (`C44_binom_wrong`), hence
`_partial`: missing are exactly the parameters of `binom` with `n ≠ 0`, `pa ≠ 0`, `pb ≠ 1`, for which the exponent
`pb - pa` written in `src/intrinsic/distributions.rs:258` instead of `n - k` matters.
-/

open scoped ENNReal NNReal

namespace Caesar

set_option linter.unusedSectionVars false

/-- `flip(p)` documents its argument as a probability. -/
def DistCall.ProbArg [Doms] [Interp] : {t : Ty} → DistCall t → Env → Prop
  | _, .flip p, σ => ENNReal.ofNNReal (p.eval σ) ≤ 1
  | _, _, _ => True

/-- The full property. -/
def C44_full : Prop :=
  ∀ (_ : Doms) (_ : Interp) (b : Bool) (x : Ident) (t : Ty) (d : DistCall t) (post e : Expr .eureal),
    vcgen (.sample b x d) post = .ok e →
      ∀ σ : Env, e.ev σ = ∑' a : t.den, d.pmf σ a * post.ev (σ.upd ⟨x, t⟩ a)

section
variable [Doms] [Interp]

/-- The verification condition of sampling is the expected value under the documented distribution.
`d.Good` only restricts the parameters of `binom`. -/
theorem C44_sample_expected_value_partial {b : Bool} {x : Ident} {t : Ty} (d : DistCall t) (hd : d.Good)
    {post e : Expr .eureal} (h : vcgen (.sample b x d) post = .ok e) (σ : Env) :
    e.ev σ = ∑' a : t.den, d.pmf σ a * post.ev (σ.upd ⟨x, t⟩ a) :=
  sample_ev hd h σ

/-- Every distribution other than `binom` is covered by `C44_sample_expected_value_partial`, and so is a fair
`binom(n, 1, 1)`. -/
example (n pa pb N K m : ℕ) (p : Expr .ureal) : (DistCall.ber pa pb).Good ∧ (DistCall.flip p).Good ∧
    (DistCall.unif pa pb).Good ∧ (DistCall.hyper N K m).Good ∧ (DistCall.binom n 1 1).Good := by
  simp [DistCall.Good, binomOk]

/-- The hypotheses of `C44_sample_expected_value_partial` are met by `x = unif(1, 6)`. -/
example : ∃ e, vcgen (.sample false ⟨"x", 0⟩ (.unif 1 6)) (.cast .uintEUReal (.var ⟨"x", 0⟩)) = .ok e :=
  ⟨_, rfl⟩

/-- When the table exists, the weights computed by the code sum to 1 (for `flip`, if `p` is a probability). -/
theorem C44_weights_sum_to_one {t : Ty} (d : DistCall t) {tbl : Dist t} (h : d.apply = .ok tbl) (hne : tbl ≠ [])
    (σ : Env) (hp : d.ProbArg σ) :
    (tbl.map fun entry => entry.1.ev σ).sum = 1 := by
  have odds : ∀ {t : Ty} {pairs : List (ℕ × Expr t)} {tbl : Dist t}, Dist.fromOdds pairs = .ok tbl →
      tbl ≠ [] → (tbl.map fun entry => entry.1.ev σ).sum = 1 := by
    intro t pairs tbl h hne
    have h1 := fromOdds_sum h (fun _ => 1) σ
    simp only [mul_one] at h1
    rw [h1]
    unfold Dist.fromOdds at h
    simp only at h
    split at h
    · cases h
    next hne' =>
      have hp : pairs ≠ [] := by
        rintro rfl; simp at h; exact hne h
      have htot : (pairs.map Prod.fst).sum ≠ 0 := fun h0 => hne' ⟨h0, hp⟩
      have h2 : ∀ (l : List (ℕ × Expr t)) (c : ℝ≥0∞),
          (l.map fun p => (p.1 : ℝ≥0∞) / c).sum = ((l.map Prod.fst).sum : ℕ) / c := by
        intro l c
        induction l with
        | nil => simp
        | cons a l ih => simp [ih, ENNReal.add_div]
      rw [h2]
      exact ENNReal.div_self (by exact_mod_cast htot) (ENNReal.natCast_ne_top _)
  cases d with
  | ber => exact odds h hne
  | flip p =>
    have h1 : tbl.mean σ (fun _ => 1) = ∑' q : Prop, (DistCall.flip p).pmf σ q * 1 :=
      flip_mean h σ (fun _ => 1)
    rw [tsum_prop] at h1
    simp only [Dist.mean, mul_one] at h1
    rw [h1]
    simp only [DistCall.pmf, if_true, if_false]
    exact add_tsub_cancel_of_le hp
  | unif => exact odds h hne
  | binom =>
    simp only [DistCall.apply] at h
    split at h
    · cases h
    · exact odds h hne
  | hyper =>
    simp only [DistCall.apply] at h
    split at h
    · cases h
    · exact odds h hne

/-- The documented probabilities sum to 1 as well, on the parameters covered above. -/
theorem C44_pmf_sum_to_one {t : Ty} (d : DistCall t) (hd : d.Good) {tbl : Dist t} (h : d.apply = .ok tbl)
    (hne : tbl ≠ []) (σ : Env)
    (hp : d.ProbArg σ) :
    ∑' a : t.den, d.pmf σ a = 1 := by
  have h1 := C44_weights_sum_to_one d h hne σ hp
  have h2 := apply_mean hd h hne σ (fun _ => 1)
  simp only [Dist.mean, mul_one, DistCall.expect] at h2
  rw [← h2, h1]

example : ∃ tbl, (DistCall.hyper 5 3 2).apply = .ok tbl ∧ tbl ≠ [] := ⟨_, rfl, by simp⟩

/-- Where the documentation promises a constant zero expectation (`ber(0, 0)`), the code panics. -/
theorem C44_ber_zero_panics (b : Bool) (x : Ident) (post : Expr .eureal) :
    vcgen (.sample b x (.ber 0 0)) post = .error .zeroOdds := rfl

/-- An empty uniform distribution makes the code panic. -/
theorem C44_unif_empty_panics (b : Bool) (x : Ident) (lo hi : ℕ) (h : hi < lo) (post : Expr .eureal) :
    vcgen (.sample b x (.unif lo hi)) post = .error .emptyDist := by
  have : hi + 1 - lo = 0 := by omega
  simp [vcgen, DistCall.apply, this, Dist.fromOdds, bind, Except.bind, Dist.expectation]

/-- `binom` panics whenever success is more likely than failure. -/
theorem C44_binom_panics (b : Bool) (x : Ident) (n pa pb : ℕ) (h : pb < pa) (post : Expr .eureal) :
    vcgen (.sample b x (.binom n pa pb)) post = .error .underflow := by
  simp [vcgen, DistCall.apply, h, bind, Except.bind]

end

/-- The post `[x = 0]` used in the witness. -/
def C44_post : Expr .eureal := .iverson (.rel .eq (.var ⟨"x", 0⟩) (Expr.uintLit 0))

/-- `binom(1, 1, 2)`: failure has documented probability 2/3, the generated condition uses 1/2. -/
theorem C44_binom_wrong : ¬ C44_full := by
  intro h
  let D : Doms := ⟨fun _ => Unit, fun _ => ⟨()⟩⟩
  let I : Interp := ⟨fun {t} _ _ => t.default, id, id, id, id⟩
  let σ : Env := fun v => v.ty.default
  have h1 : ∃ e, vcgen (.sample false ⟨"x", 0⟩ (.binom 1 1 2)) C44_post = .ok e := ⟨_, rfl⟩
  obtain ⟨e, he⟩ := h1
  have hspec := h D I false ⟨"x", 0⟩ .uint (.binom 1 1 2) C44_post e he σ
  have hp : ∀ n : ℕ, C44_post.ev (σ.upd ⟨⟨"x", 0⟩, .uint⟩ n) = if n = 0 then 1 else 0 := by
    intro n
    simp only [C44_post, Expr.ev_iverson, Expr.tv_eq_rel, Expr.eval_var, Env.upd_same, eval_uintLit]
    exact ite_inst
  have hcode : e.ev σ = 1 / 2 := by
    have hap : (DistCall.binom 1 1 2).apply = .ok
        [(.lit (.efrac (2 / 4)), Expr.uintLit 0), (.lit (.efrac (2 / 4)), Expr.uintLit 1)] := by
      simp [DistCall.apply, Dist.fromOdds, List.range_succ]
    simp only [vcgen, hap, bind, Except.bind] at he
    rw [expectation_ev he]
    simp only [List.map_cons, List.map_nil, List.sum_cons, List.sum_nil, eval_uintLit, Expr.ev_efrac]
    rw [hp 0, hp 1]
    have : ((2 / 4 : ℚ≥0) : ℝ≥0) = 1 / 2 := by
      rw [NNRat.cast_div]; norm_num
    rw [this, ENNReal.coe_div (by norm_num)]; simp
  have hs : (∑' a : Ty.uint.den, (DistCall.binom 1 1 2).pmf σ a * C44_post.ev (σ.upd ⟨⟨"x", 0⟩, .uint⟩ a))
      = 2 / 3 := by
    have h0 : (∑' a : ℕ, (DistCall.binom 1 1 2).pmf σ a * C44_post.ev (σ.upd ⟨⟨"x", 0⟩, .uint⟩ a))
        = ∑ a ∈ Finset.range 1, (DistCall.binom 1 1 2).pmf σ a *
            C44_post.ev (σ.upd ⟨⟨"x", 0⟩, .uint⟩ a) := by
      apply tsum_nat_eq_sum
      intro k hk
      have : k ≠ 0 := by simpa using hk
      rw [hp k, if_neg this, mul_zero]
    refine h0.trans ?_
    rw [Finset.sum_range_one, hp 0]
    simp [DistCall.pmf]
    norm_num
  rw [hcode, hs] at hspec
  have h2 : (1 / 2 : ℝ≥0∞).toReal = (2 / 3 : ℝ≥0∞).toReal := by rw [hspec]
  rw [ENNReal.toReal_div, ENNReal.toReal_div] at h2
  norm_num at h2

end Caesar
