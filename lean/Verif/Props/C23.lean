import Verif.ProofRules.Past
import Verif.Props.C52

/-!
# C23: `@past`

Specification (`website/docs/proof-rules/past.md`): if the generated procedures verify, the invariant decreases in
expectation by at least `eps` in every iteration, and the expected number of iterations is finite. The expected number
of iterations is the least-fixed-point value, at postexpectation `0`, of the loop with a `tick 1` in front of its body.
Model: `pastProcs` (`Verif/ProofRules/Past.lean`).

The full property `C23_full` is false: the third condition is checked in a `proc`, so it says that the invariant
decreases by *at most* `eps` (`C23_checked`); `@past(1, 1/2, 1) while true {}` is accepted (`C23_not_full`).
`C23_partial` proves the property if the third condition holds in the documented direction, the invariant is finite
and `eps` is positive, which the code does not check either.
-/

open scoped ENNReal NNReal

namespace Caesar
set_option linter.unusedSectionVars false

section
variable [Doms] [Interp]

/-- The expected number of iterations of `while c { body }`. -/
noncomputable def expectedIterations (C : SemCtx) (c : Expr .bool) (body : Stmt) : Exp :=
  vcSem C (.while c (.seq (.tick oneSpec) body)) fun _ => 0

/-- In every state in which the loop continues, the invariant decreases in expectation by at least `eps`. -/
def DecreasesBy (C : SemCtx) (a : PastArgs) (c : Expr .bool) (body : Stmt) : Prop :=
  ∀ σ, c.tv σ → vcSem C body a.inv.ev σ + ((a.eps : ℝ≥0) : ℝ≥0∞) ≤ a.inv.ev σ

end

/-- The full property. -/
def C23_full : Prop :=
  ∀ (_ : Doms) (_ : Interp) (C : SemCtx), C.Regular → C.loop = .lfp →
    ∀ (sp : Spans) (a : PastArgs) (c : Expr .bool) (body : Stmt) (ps : List Proc), sp.Ok → body.NoNeg →
      a.Fresh sp c body → pastProcs sp a c body = some ps → (∀ p ∈ ps, p.Verified C) →
      DecreasesBy C a c body ∧ ∀ σ, expectedIterations C c body σ ≠ ⊤

section
variable [Doms] [Interp]
variable {C : SemCtx} {sp : Spans} {a : PastArgs} {c : Expr .bool} {body : Stmt} {ps : List Proc}

/-- What the generated procedures establish. -/
theorem C23_checked (hC : C.Regular) (hsp : sp.Ok) (hb : body.NoNeg) (hf : a.Fresh sp c body)
    (hps : pastProcs sp a c body = some ps) (h : ∀ p ∈ ps, p.Verified C) :
    a.eps < a.k ∧ (∀ σ, ¬ c.tv σ → a.inv.ev σ ≤ ((a.k : ℝ≥0) : ℝ≥0∞)) ∧
      (∀ σ, c.tv σ → ((a.k : ℝ≥0) : ℝ≥0∞) ≤ a.inv.ev σ) ∧
      ∀ σ, c.tv σ → a.inv.ev σ ≤ vcSem C body a.inv.ev σ + ((a.eps : ℝ≥0) : ℝ≥0∞) := by
  unfold pastProcs at hps
  split at hps
  next => exact nomatch hps
  next hlt =>
    cases hps
    exact ⟨not_le.1 hlt, fun σ hg => past_cond1 (h (pastProc1 sp a c) (by simp)) σ hg, fun σ hg => past_cond2 (h (pastProc2 sp a c) (by simp)) σ hg,
      fun σ hg => tsub_le_iff_right.1 (past_cond3 hC hsp hb hf (h (pastProc3 sp a c body) (by simp)) σ hg)⟩

/-- With the third condition in the documented direction, the expected number of iterations is at most
`max 1 (1/eps) * I`. -/
theorem C23_bound (hC : C.Regular) (hl : C.loop = .lfp) (hb : body.Scalable)
    (heps : 0 < a.eps) (hdec : DecreasesBy C a c body) (σ : Env) :
    expectedIterations C c body σ ≤ max 1 ((a.eps : ℝ≥0) : ℝ≥0∞)⁻¹ * a.inv.ev σ := by
  classical
  set e : ℝ≥0∞ := ((a.eps : ℝ≥0) : ℝ≥0∞) with he
  have he0 : e ≠ 0 := by
    rw [he, Ne, ENNReal.coe_eq_zero, NNRat.cast_eq_zero]
    exact heps.ne'
  have het : e ≠ ⊤ := ENNReal.coe_ne_top
  set r : ℝ≥0∞ := max 1 e⁻¹ with hr
  have hrt : r ≠ ⊤ := (max_lt ENNReal.one_lt_top (ENNReal.inv_lt_top.2 (pos_iff_ne_zero.2 he0))).ne
  have hre : 1 ≤ r * e := by
    rw [← ENNReal.inv_mul_cancel he0 het]
    exact mul_le_mul_left (le_max_right _ _) _
  unfold expectedIterations
  rw [vcSem_while, hl]
  refine (sInf_le (show loopFun C c (.seq (.tick oneSpec) body) (fun _ => 0) (fun τ => r * a.inv.ev τ)
    ≤ (fun τ => r * a.inv.ev τ) from fun τ => ?_) : fixpoint .lfp _ ≤ fun τ => r * a.inv.ev τ) σ
  unfold loopFun
  split
  next hg =>
    show vcSem C body (fun τ => r * a.inv.ev τ) τ + oneSpec.ev τ ≤ r * a.inv.ev τ
    rw [oneSpec_ev]
    calc vcSem C body (fun τ => r * a.inv.ev τ) τ + 1
        ≤ r * vcSem C body a.inv.ev τ + r * e := add_le_add (hb.scale hC.mono (le_max_left _ _) hrt _ τ) hre
      _ = r * (vcSem C body a.inv.ev τ + e) := (mul_add _ _ _).symm
      _ ≤ r * a.inv.ev τ := mul_le_mul_right (hdec τ hg) _
  next => exact zero_le

/-- The rule is sound if the third condition is checked in the documented direction. Missing for the full property:
the code checks the opposite inequality, and neither `0 < eps` nor that the invariant is finite. -/
theorem C23_partial (hC : C.Regular) (hl : C.loop = .lfp) (hsp : sp.Ok) (hb : body.Scalable) (hf : a.Fresh sp c body)
    (hps : pastProcs sp a c body = some ps) (h : ∀ p ∈ ps, p.Verified C)
    (hdoc : ∀ σ, c.tv σ → vcSem C body a.inv.ev σ ≤ a.inv.ev σ - ((a.eps : ℝ≥0) : ℝ≥0∞))
    (heps : 0 < a.eps) (hfin : ∀ σ, a.inv.ev σ ≠ ⊤) :
    DecreasesBy C a c body ∧ ∀ σ, expectedIterations C c body σ ≠ ⊤ := by
  obtain ⟨hlt, _, h2, _⟩ := C23_checked hC hsp hb.noNeg hf hps h
  have hdec : DecreasesBy C a c body := fun σ hg => by
    have hle : ((a.eps : ℝ≥0) : ℝ≥0∞) ≤ a.inv.ev σ :=
      (ENNReal.coe_le_coe.2 (NNRat.cast_le.2 hlt.le)).trans (h2 σ hg)
    refine (add_le_add (hdoc σ hg) le_rfl).trans (tsub_add_cancel_of_le hle).le
  refine ⟨hdec, fun σ => ne_top_of_le_ne_top ?_ (C23_bound hC hl hb heps hdec σ)⟩
  refine ENNReal.mul_ne_top (max_lt ENNReal.one_lt_top (ENNReal.inv_lt_top.2 ?_)).ne (hfin σ)
  rw [ENNReal.coe_pos, NNRat.cast_pos]
  exact heps

end

/-! ## Counterexample -/

/-- `@past(1, 1/2, 1) while true {}` -/
def c23Args : PastArgs := ⟨oneSpec, 1 / 2, 1⟩

theorem c23_fresh (sp : Spans) : c23Args.Fresh sp (Expr.boolLit true) .skip :=
  ⟨fun _ _ h => h, fun _ _ h => h, fun _ _ h => h, fun _ _ h => h, trivial, trivial⟩

theorem C23_not_full : ¬ C23_full := by
  classical
  intro h
  let _ := unitDoms
  let _ := unitInterp
  let C : SemCtx := ⟨.lfp, fun l _ _ φ σ => ⨅ σ' ∈ {σ' | Agree l σ σ'}, φ σ'⟩
  have hC : C.Regular := regular_havoc .lfp
  have hG : ∀ σ, (Expr.boolLit true).tv σ := fun _ => rfl
  have hk : (((1 : ℚ≥0) : ℝ≥0) : ℝ≥0∞) = 1 := by simp
  have hps : pastProcs c52Spans c23Args (Expr.boolLit true) .skip
      = some [pastProc1 c52Spans c23Args (Expr.boolLit true), pastProc2 c52Spans c23Args (Expr.boolLit true),
        pastProc3 c52Spans c23Args (Expr.boolLit true) .skip] := by
    unfold pastProcs
    rw [if_neg]
    show ¬ (1 : ℚ≥0) ≤ 1 / 2
    rw [not_le]
    exact NNRat.coe_lt_coe.1 (by push_cast; norm_num)
  have hver : ∀ p ∈ [pastProc1 c52Spans c23Args (Expr.boolLit true), pastProc2 c52Spans c23Args (Expr.boolLit true),
        pastProc3 c52Spans c23Args (Expr.boolLit true) .skip], p.Verified C := by
    intro p hp
    simp only [List.mem_cons, List.not_mem_nil, or_false] at hp
    rcases hp with rfl | rfl | rfl
    · refine (assert_verified rfl rfl rfl).2 fun σ => ?_
      rw [Expr.tv_le_rel]
      show (notGuard (Expr.boolLit true)).ev σ * c23Args.inv.ev σ ≤ _
      rw [notGuard_ev, if_pos (hG σ), zero_mul]
      exact zero_le
    · refine (assert_verified rfl rfl rfl).2 fun σ => ?_
      rw [Expr.tv_le_rel]
      show (Expr.iverson (Expr.boolLit true)).ev σ * (((1 : ℚ≥0) : ℝ≥0) : ℝ≥0∞)
        ≤ (Expr.iverson (Expr.boolLit true)).ev σ * oneSpec.ev σ + (notGuard (Expr.boolLit true)).ev σ
      rw [hk, oneSpec_ev]
      exact le_self_add
    · refine verified_of_down rfl rfl fun σ => ?_
      show (⨅ e ∈ [c23Args.decrease c52Spans (Expr.boolLit true)], Expr.ev e σ) ≤
        loopFun C (Expr.boolLit true) .skip _ (vcSem C (heyConst oneSpec .down) _) σ
      rw [iInf_one, heyConst_sem]
      unfold loopFun PastArgs.decrease
      rw [if_pos (hG σ), Expr.ev_mul, Expr.ev_iverson, if_pos (hG σ), one_mul, Expr.ev_sub]
      exact tsub_le_self
  have h1 := (h unitDoms unitInterp C hC rfl c52Spans c23Args (Expr.boolLit true) .skip _ c52Spans_ok trivial
    (c23_fresh _) hps hver).2 zeroEnv
  refine h1 ?_
  unfold expectedIterations
  rw [vcSem_while]
  refine top_le_iff.1 ((le_sInf fun X hX => ?_ : (fun _ => ⊤ : Exp) ≤ fixpoint .lfp _) zeroEnv)
  intro σ
  have h2 : ∀ σ, X σ + 1 ≤ X σ := fun σ => by
    have := hX σ
    unfold loopFun at this
    rw [if_pos (hG σ)] at this
    have h3 : vcSem C (.seq (.tick oneSpec) .skip) X σ = X σ + 1 := by
      show X σ + oneSpec.ev σ = _
      rw [oneSpec_ev]
    rwa [h3] at this
  by_contra hne
  have hlt : X σ ≠ ⊤ := fun h => hne (h ▸ le_rfl)
  exact absurd (h2 σ) (not_le.2 (ENNReal.lt_add_right hlt one_ne_zero))

/-! ## The hypotheses are met -/

section
variable [Doms] [Interp]

def c23A : Ident := ⟨"a", 0⟩

/-- `@past([a] + [a], 1, 2) while a { a = ber(1, 1) }` -/
def c23CoinArgs : PastArgs := ⟨.bin (.add rfl) (.iverson (.var c23A)) (.iverson (.var c23A)), 1, 2⟩

def c23CoinBody : Stmt := .sample false c23A (.ber 1 1)

open Classical in
theorem c23Coin_inv (σ : Env) : c23CoinArgs.inv.ev σ = if σ.bool c23A then 2 else 0 := by
  unfold c23CoinArgs
  rw [Expr.ev_add, Expr.ev_iverson]
  show (if σ.bool c23A then (1 : ℝ≥0∞) else 0) + (if σ.bool c23A then 1 else 0) = _
  split
  · exact one_add_one_eq_two
  · exact add_zero 0

theorem c23Coin_body (C : SemCtx) (X : Exp) (σ : Env) :
    vcSem C c23CoinBody X σ = 2⁻¹ * X (σ.setBool c23A True) + 2⁻¹ * X (σ.setBool c23A False) :=
  c52_ber σ fun p => X (σ.setBool c23A p)

theorem c23Coin_wp (C : SemCtx) (σ : Env) : vcSem C c23CoinBody c23CoinArgs.inv.ev σ = 1 := by
  rw [c23Coin_body, c23Coin_inv, c23Coin_inv, Env.bool_setBool_same, Env.bool_setBool_same, if_pos trivial,
    if_neg fun h => h, mul_zero, add_zero, ENNReal.inv_mul_cancel two_ne_zero ENNReal.ofNat_ne_top]

/-- A loop to which `C23_partial` applies. -/
example {C : SemCtx} (hC : C.Regular) (hl : C.loop = .lfp) (σ : Env) :
    expectedIterations C (.var c23A) c23CoinBody σ ≠ ⊤ := by
  classical
  have hk : (((2 : ℚ≥0) : ℝ≥0) : ℝ≥0∞) = 2 := by simp
  have he : (((1 : ℚ≥0) : ℝ≥0) : ℝ≥0∞) = 1 := by simp
  have hfresh : c23CoinArgs.Fresh c52Spans (.var c23A) c23CoinBody := by
    have key : ∀ v, c52Spans.IsInit v → v ≠ ⟨c23A, .bool⟩ := by
      rintro v hv rfl
      exact absurd (c52_isInit hv) (by decide)
    exact ⟨fun v hv h => h.elim (key v hv) (key v hv), fun v hv h => key v hv h, fun _ _ h => h,
      fun v hv h => key v hv h, ⟨trivial, trivial⟩, trivial⟩
  have hps : pastProcs c52Spans c23CoinArgs (.var c23A) c23CoinBody
      = some [pastProc1 c52Spans c23CoinArgs (.var c23A), pastProc2 c52Spans c23CoinArgs (.var c23A),
        pastProc3 c52Spans c23CoinArgs (.var c23A) c23CoinBody] := by
    unfold pastProcs
    rw [if_neg]
    show ¬ (2 : ℚ≥0) ≤ 1
    rw [not_le]
    exact NNRat.coe_lt_coe.1 (by push_cast; norm_num)
  have hg : ∀ σ : Env, (Expr.var c23A : Expr .bool).tv σ = σ.bool c23A := fun σ => rfl
  refine (C23_partial hC hl c52Spans_ok (body := c23CoinBody) trivial hfresh hps ?_ (fun σ hg => ?_) ?_ fun σ => ?_).2 σ
  · intro p hp
    simp only [List.mem_cons, List.not_mem_nil, or_false] at hp
    rcases hp with rfl | rfl | rfl
    · refine (assert_verified rfl rfl rfl).2 fun σ => ?_
      rw [Expr.tv_le_rel]
      show (notGuard (.var c23A)).ev σ * c23CoinArgs.inv.ev σ ≤ _
      rw [notGuard_ev, c23Coin_inv, hg]
      split
      · rw [zero_mul]; exact zero_le
      · rw [mul_zero]; exact zero_le
    · refine (assert_verified rfl rfl rfl).2 fun σ => ?_
      rw [Expr.tv_le_rel]
      show (Expr.iverson (.var c23A)).ev σ * (((2 : ℚ≥0) : ℝ≥0) : ℝ≥0∞)
        ≤ (Expr.iverson (.var c23A)).ev σ * c23CoinArgs.inv.ev σ + (notGuard (.var c23A)).ev σ
      rw [hk, c23Coin_inv, Expr.ev_iverson, hg]
      split
      · exact le_self_add
      · rw [zero_mul]; exact zero_le
    · refine verified_of_down rfl rfl fun σ => ?_
      have hnot : ∀ x ∈ loopVars c23CoinBody, ¬ c52Spans.IsInit x := fun x hx => loopVars_notInit hfresh.toOst hx
      have hin : (c23CoinArgs.initInv c52Spans).ev σ = c23CoinArgs.inv.ev (σ.inits c52Spans (loopVars c23CoinBody)) := by
        refine toInitExpr_ev hfresh.noSubst.1 (fun v hv hi => hfresh.inv v hi hv) fun x hx => ?_
        have : x = ⟨c23A, .bool⟩ := hx.elim id id
        exact (inits_mem c52Spans hnot (by subst this; decide) σ).symm
      rw [vcSem_block_append, initAssigns_sem]
      show (⨅ e ∈ [c23CoinArgs.decrease c52Spans (.var c23A)], Expr.ev e σ) ≤
        loopFun C (.var c23A) c23CoinBody _ (vcSem C (heyConst c23CoinArgs.inv .down) _) _
      rw [iInf_one, heyConst_sem]
      unfold PastArgs.decrease
      rw [Expr.ev_mul, Expr.ev_sub, hin, uconst_ev, show c23CoinArgs.eps = 1 from rfl, he, Expr.ev_iverson]
      generalize σ.inits c52Spans (loopVars c23CoinBody) = τ
      refine le_trans (b := c23CoinArgs.inv.ev τ - 1) ?_ ?_
      · split
        · rw [one_mul]
        · rw [zero_mul]; exact zero_le
      · unfold loopFun
        rw [c23Coin_inv, c23Coin_wp, hg]
        split
        · rw [← one_add_one_eq_two, ENNReal.add_sub_cancel_right ENNReal.one_ne_top]
        · rw [zero_tsub]; exact zero_le
  · rw [c23Coin_wp, c23Coin_inv, if_pos (show σ.bool c23A from hg)]
    show 1 ≤ 2 - (((1 : ℚ≥0) : ℝ≥0) : ℝ≥0∞)
    rw [he, ← one_add_one_eq_two, ENNReal.add_sub_cancel_right ENNReal.one_ne_top]
  · show (0 : ℚ≥0) < 1
    exact one_pos
  · rw [c23Coin_inv]
    split
    · exact ENNReal.ofNat_ne_top
    · exact ENNReal.zero_ne_top

end

end Caesar
