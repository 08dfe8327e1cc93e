import Verif.ProofRules.Ost

/-!
# The `@past` encoding

Models `src/proof_rules/past.rs:117-317`, and its meaning (proofs).
-/

open scoped ENNReal NNReal

namespace Caesar
set_option linter.unusedSectionVars false

/-- The arguments of `@past(inv, eps, k)` (`src/proof_rules/past.rs:30-57`). `eps` and `k` must be literals of type
`UReal` (`literal_only`); they are represented by their values. -/
structure PastArgs where
  inv : Expr .eureal
  eps : ℚ≥0
  k : ℚ≥0

/-- `cast(EUReal, eps)`, `cast(EUReal, k)` (`src/proof_rules/past.rs:142-143`). -/
def uconst (q : ℚ≥0) : Expr .eureal := .cast .urealEUReal (.lit (.ufrac q))

/-- `[!guard]` (`src/proof_rules/past.rs:194-198,250-255`). -/
def notGuard (c : Expr .bool) : Expr .eureal := .iverson (.un (.not rfl) c)

/-- `?([!guard] * inv <= k)` (`src/proof_rules/past.rs:184-203`). -/
def PastArgs.exitBound (a : PastArgs) (c : Expr .bool) : Expr .eureal :=
  .embed (.rel (.le rfl) (.bin (.mul rfl) (notGuard c) a.inv) (uconst a.k))

/-- `[guard] * k <= (([guard] * invariant) + [!guard])` (`src/proof_rules/past.rs:227-257`). The code asserts this
Boolean expression without `?(·)`; here the embedding is inserted, which is how the Boolean is treated by the default
pipeline. -/
def PastArgs.guardBound (a : PastArgs) (c : Expr .bool) : Expr .eureal :=
  .embed (.rel (.le rfl) (.bin (.mul rfl) (.iverson c) (uconst a.k))
    (.bin (.add rfl) (.bin (.mul rfl) (.iverson c) a.inv) (notGuard c)))

/-- `init_inv` (`src/proof_rules/past.rs:182`). -/
def PastArgs.initInv (a : PastArgs) (sp : Spans) : Expr .eureal := toInitExpr sp a.inv a.inv.freeVars

/-- `[guard] * (init_inv - eps)` (`src/proof_rules/past.rs:292-297`). The guard is not renamed. -/
def PastArgs.decrease (a : PastArgs) (sp : Spans) (c : Expr .bool) : Expr .eureal :=
  .bin (.mul rfl) (.iverson c) (.bin (.sub rfl) (a.initInv sp) (uconst a.eps))

/-- `condition_1` (`src/proof_rules/past.rs:205-225`). -/
def pastProc1 (sp : Spans) (a : PastArgs) (c : Expr .bool) : Proc where
  name := ⟨"condition_1", 0⟩
  dir := .down
  inputs := paramsFrom sp (a.exitBound c).freeVars
  outputs := []
  spec := []
  body := some (Stmt.block [.assert .down (a.exitBound c)])

/-- `condition_2` (`src/proof_rules/past.rs:259-279`). -/
def pastProc2 (sp : Spans) (a : PastArgs) (c : Expr .bool) : Proc where
  name := ⟨"condition_2", 0⟩
  dir := .down
  inputs := paramsFrom sp (a.guardBound c).freeVars
  outputs := []
  spec := []
  body := some (Stmt.block [.assert .down (a.guardBound c)])

/-- Condition 3, `past` (`src/proof_rules/past.rs:281-311`). -/
def pastProc3 (sp : Spans) (a : PastArgs) (c : Expr .bool) (body : Stmt) : Proc where
  name := ⟨"past", 0⟩
  dir := .down
  inputs := paramsFrom sp ((loopVars body).map (initVar sp))
  outputs := loopVars body
  spec := [.requires (a.decrease sp c), .ensures zeroSpec]
  body := some (Stmt.block (initAssigns sp (loopVars body) ++ [encodeIter c body (heyConst a.inv .down)]))

/-- The procedures generated by `PASTAnnotation::transform` on `while c { body }`; an error if `eps >= k`
(`src/proof_rules/past.rs:131-139,313-316`). The loop itself is replaced by an empty block. -/
def pastProcs (sp : Spans) (a : PastArgs) (c : Expr .bool) (body : Stmt) : Option (List Proc) :=
  if a.k ≤ a.eps then none else some [pastProc1 sp a c, pastProc2 sp a c, pastProc3 sp a c body]

section
variable [Doms] [Interp]

/-- The variables `init_x` do not occur in the loop and its annotation. -/
structure PastArgs.Fresh (sp : Spans) (a : PastArgs) (c : Expr .bool) (body : Stmt) : Prop where
  inv : ∀ v, sp.IsInit v → ¬ a.inv.Free v
  guard : ∀ v, sp.IsInit v → ¬ c.Free v
  reads : ∀ v, sp.IsInit v → ¬ body.Reads v
  touched : ∀ v, sp.IsInit v → ¬ body.Touched v
  noSubst : a.inv.NoSubst ∧ c.NoSubst

/-- For reusing the lemmas about `@ost`. -/
def PastArgs.toOst (a : PastArgs) : OstArgs := ⟨a.inv, oneSpec, 0, zeroSpec⟩

variable {C : SemCtx} {sp : Spans} {a : PastArgs} {c : Expr .bool} {body : Stmt}

theorem PastArgs.Fresh.toOst (hf : a.Fresh sp c body) : a.toOst.Fresh sp c body :=
  ⟨hf.inv, fun _ _ h => h, fun _ _ h => h, hf.guard, hf.reads, hf.touched, hf.noSubst.1, trivial, trivial, hf.noSubst.2⟩

theorem uconst_ev (q : ℚ≥0) (σ : Env) : (uconst q).ev σ = ((q : ℝ≥0) : ℝ≥0∞) := rfl

open Classical in
theorem notGuard_ev (σ : Env) : (notGuard c).ev σ = if c.tv σ then 0 else 1 := by
  unfold notGuard
  rw [Expr.ev_iverson]
  by_cases h : c.tv σ
  · rw [if_pos h, if_neg fun h' => (Expr.tv_not _ _ _).1 h' h]
  · rw [if_neg h, if_pos ((Expr.tv_not _ _ _).2 h)]

theorem assert_verified {p : Proc} {b : Expr .bool} (hd : p.dir = .down) (hs : p.spec = [])
    (hB : p.body = some (Stmt.block [.assert .down (.embed b)])) : p.Verified C ↔ ∀ σ, b.tv σ := by
  classical
  have hens : p.ensures = [] := by simp [Proc.ensures, hs]
  have hreq : p.requires = [] := by simp [Proc.requires, hs]
  have hval : ∀ σ, vcSem C (Stmt.block [.assert .down (.embed b)]) (fun τ => ⨅ e ∈ p.ensures, Expr.ev e τ) σ
      = if b.tv σ then ⊤ else 0 := by
    intro σ
    show min ((Expr.embed b).ev σ) (⨅ e ∈ p.ensures, Expr.ev e σ) = _
    rw [hens, Expr.ev_embed]
    simp
  constructor
  · intro h σ
    have h1 := verified_down hB hd h σ
    rw [hval, hreq] at h1
    by_contra hb
    rw [if_neg hb] at h1
    simp at h1
  · intro h
    refine verified_of_down hB hd fun σ => ?_
    rw [hval, if_pos (h σ)]
    exact le_top

theorem past_cond1 (h : (pastProc1 sp a c).Verified C) (σ : Env) (hg : ¬ c.tv σ) :
    a.inv.ev σ ≤ ((a.k : ℝ≥0) : ℝ≥0∞) := by
  classical
  have h1 := (assert_verified rfl rfl rfl).1 h σ
  rw [Expr.tv_le_rel] at h1
  have h2 : (notGuard c).ev σ * a.inv.ev σ ≤ ((a.k : ℝ≥0) : ℝ≥0∞) := h1
  rwa [notGuard_ev, if_neg hg, one_mul] at h2

theorem past_cond2 (h : (pastProc2 sp a c).Verified C) (σ : Env) (hg : c.tv σ) :
    ((a.k : ℝ≥0) : ℝ≥0∞) ≤ a.inv.ev σ := by
  classical
  have h1 := (assert_verified rfl rfl rfl).1 h σ
  rw [Expr.tv_le_rel] at h1
  have h2 : (Expr.iverson c).ev σ * ((a.k : ℝ≥0) : ℝ≥0∞) ≤ (Expr.iverson c).ev σ * a.inv.ev σ + (notGuard c).ev σ := h1
  rwa [notGuard_ev, Expr.ev_iverson, if_pos hg, if_pos hg, one_mul, one_mul, add_zero] at h2

/-- What the third procedure checks: `I` decreases by *at most* `eps`. -/
theorem past_cond3 (hC : C.Regular) (hsp : sp.Ok) (hb : body.NoNeg) (hf : a.Fresh sp c body)
    (h : (pastProc3 sp a c body).Verified C) (σ : Env) (hg : c.tv σ) :
    a.inv.ev σ - ((a.eps : ℝ≥0) : ℝ≥0∞) ≤ vcSem C body a.inv.ev σ := by
  classical
  have h1 := verified_down rfl rfl h (σ.sync sp)
  have h2 : (⨅ e ∈ (pastProc3 sp a c body).requires, Expr.ev e (σ.sync sp)) = a.inv.ev σ - ((a.eps : ℝ≥0) : ℝ≥0∞) := by
    refine (iInf_one _ _).trans ?_
    unfold PastArgs.decrease
    rw [Expr.ev_mul, Expr.ev_iverson, Expr.ev_sub, uconst_ev,
      if_pos ((tv_agreeOff hf.guard (sync_agreeOff σ)).2 hg), one_mul,
      show (a.initInv sp).ev (σ.sync sp) = a.inv.ev σ from initInv_sync hsp hf.toOst σ]
  rw [h2, inits_sync hsp hf.toOst] at h1
  have h3 : vcSem C (Stmt.block [encodeIter c body (heyConst a.inv .down)])
      (fun τ => ⨅ e ∈ (pastProc3 sp a c body).ensures, Expr.ev e τ) (σ.sync sp)
      = loopFun C c body (fun _ => 0) a.inv.ev (σ.sync sp) := by
    show loopFun C c body _ (vcSem C (heyConst a.inv .down) _) _ = _
    rw [heyConst_sem]
    congr 1
    funext τ
    exact (iInf_one zeroSpec τ).trans (zeroSpec_ev τ)
  rw [h3, loopFun_sync hC hb hf.guard hf.reads (fun _ _ _ => rfl)
    (show Ignores sp.IsInit a.inv.ev from inv_ignores hf.toOst)] at h1
  unfold loopFun at h1
  rwa [if_pos hg] at h1

/-! ## Bodies whose expected values at most scale -/

/-- Statements for which scaling the postexpectation by a factor at least one scales the value by at most this factor:
no calls, comparisons, negations and validations, and `assume` only of Boolean conditions. -/
def Stmt.Scalable : Stmt → Prop
  | .call _ _ _ _ => False
  | .compare _ _ => False
  | .negate _ => False
  | .validate _ => False
  | .assume _ (.embed _) => True
  | .assume _ _ => False
  | .seq a b => a.Scalable ∧ b.Scalable
  | .demonic a b => a.Scalable ∧ b.Scalable
  | .angelic a b => a.Scalable ∧ b.Scalable
  | .additive a b => a.Scalable ∧ b.Scalable
  | .ite _ a b => a.Scalable ∧ b.Scalable
  | .while _ s => s.Scalable
  | .annot _ s => s.Scalable
  | _ => True

theorem Stmt.Scalable.noNeg {S : Stmt} (h : S.Scalable) : S.NoNeg := by
  induction S with
  | seq a b iha ihb | demonic a b iha ihb | angelic a b iha ihb | additive a b iha ihb | ite c a b iha ihb =>
    exact ⟨iha h.1, ihb h.2⟩
  | «while» c s ih | annot an s ih => exact ih h
  | negate d => exact h
  | _ => trivial

theorem le_scale {r x : ℝ≥0∞} (hr : 1 ≤ r) : x ≤ r * x := le_mul_of_one_le_left' hr

theorem Stmt.Scalable.scale {C : SemCtx} (hC : ∀ l f as, Monotone (C.call l f as)) {S : Stmt} (h : S.Scalable)
    {r : ℝ≥0∞} (hr : 1 ≤ r) (hr' : r ≠ ⊤) (φ : Exp) :
    vcSem C S (fun σ => r * φ σ) ≤ fun σ => r * vcSem C S φ σ := by
  classical
  have hr0 : r ≠ 0 := (zero_lt_one.trans_le hr).ne'
  induction S generalizing φ with
  | skip | varDecl | label => exact le_rfl
  | varInit x e | assign x e => exact le_rfl
  | sample b x d =>
    intro σ
    refine le_of_eq ?_
    show ∑' v, d.pmf σ v * (r * φ _) = r * ∑' v, d.pmf σ v * φ _
    rw [← ENNReal.tsum_mul_left]
    exact tsum_congr fun _ => mul_left_comm _ _ _
  | seq a b iha ihb =>
    refine le_trans (vcSem_mono C hC h.1.noNeg (ihb h.2 φ)) (iha h.1 _)
  | havoc d xs =>
    intro σ
    refine le_of_eq ?_
    cases d with
    | down =>
      show (⨅ σ' ∈ {σ' | Agree xs σ σ'}, r * φ σ') = r * ⨅ σ' ∈ {σ' | Agree xs σ σ'}, φ σ'
      rw [ENNReal.mul_iInf_of_ne hr0 hr']
      exact iInf_congr fun _ => (ENNReal.mul_iInf_of_ne hr0 hr').symm
    | up =>
      show (⨆ σ' ∈ {σ' | Agree xs σ σ'}, r * φ σ') = r * ⨆ σ' ∈ {σ' | Agree xs σ σ'}, φ σ'
      rw [ENNReal.mul_iSup]
      exact iSup_congr fun _ => (ENNReal.mul_iSup ..).symm
  | assert d e =>
    intro σ
    cases d with
    | down =>
      show min (e.ev σ) (r * φ σ) ≤ r * min (e.ev σ) (φ σ)
      rcases le_total (e.ev σ) (φ σ) with h1 | h1
      · rw [min_eq_left h1]; exact (min_le_left _ _).trans (le_scale hr)
      · rw [min_eq_right h1]; exact min_le_right _ _
    | up =>
      show max (e.ev σ) (r * φ σ) ≤ r * max (e.ev σ) (φ σ)
      exact max_le ((le_max_left _ _).trans (le_scale hr)) (mul_le_mul_right (le_max_right _ _) _)
  | assume d e =>
    intro σ
    cases e with
    | embed b =>
      cases d with
      | down =>
        show (if (Expr.embed b).ev σ ≤ r * φ σ then (⊤ : ℝ≥0∞) else r * φ σ)
          ≤ r * if (Expr.embed b).ev σ ≤ φ σ then ⊤ else φ σ
        rw [Expr.ev_embed]
        by_cases hb : b.tv σ
        · rw [if_pos hb]
          split
          next h1 =>
            split
            next => rw [ENNReal.mul_top hr0]
            next => exact h1
          next => exact mul_le_mul_right (by split <;> [exact le_top; exact le_rfl]) _
        · rw [if_neg hb, if_pos zero_le, if_pos zero_le, ENNReal.mul_top hr0]
      | up =>
        show (if (Expr.embed b).ev σ ≥ r * φ σ then (0 : ℝ≥0∞) else r * φ σ)
          ≤ r * if (Expr.embed b).ev σ ≥ φ σ then 0 else φ σ
        rw [Expr.ev_embed]
        by_cases hb : b.tv σ
        · rw [if_pos hb, if_pos le_top]; exact zero_le
        · rw [if_neg hb]
          by_cases h0 : φ σ ≤ 0
          · rw [le_zero_iff.1 h0, mul_zero, if_pos le_rfl]; exact zero_le
          · rw [if_neg h0]
            split
            · exact zero_le
            · exact le_rfl
    | _ => cases d <;> exact h.elim
  | tick e =>
    intro σ
    show r * φ σ + e.ev σ ≤ r * (φ σ + e.ev σ)
    rw [mul_add]
    exact add_le_add le_rfl (le_scale hr)
  | weigh e => exact fun σ => (mul_left_comm _ _ _).le
  | demonic a b iha ihb =>
    intro σ
    show min _ _ ≤ r * min (vcSem C a φ σ) (vcSem C b φ σ)
    rcases le_total (vcSem C a φ σ) (vcSem C b φ σ) with h1 | h1
    · rw [min_eq_left h1]; exact (min_le_left _ _).trans (iha h.1 φ σ)
    · rw [min_eq_right h1]; exact (min_le_right _ _).trans (ihb h.2 φ σ)
  | angelic a b iha ihb =>
    intro σ
    show max _ _ ≤ r * max (vcSem C a φ σ) (vcSem C b φ σ)
    exact max_le ((iha h.1 φ σ).trans (mul_le_mul_right (le_max_left _ _) _))
      ((ihb h.2 φ σ).trans (mul_le_mul_right (le_max_right _ _) _))
  | additive a b iha ihb =>
    intro σ
    show _ + _ ≤ r * (vcSem C a φ σ + vcSem C b φ σ)
    rw [mul_add]
    exact add_le_add (iha h.1 φ σ) (ihb h.2 φ σ)
  | ite c a b iha ihb =>
    intro σ
    show (if c.tv σ then _ else _) ≤ r * if c.tv σ then vcSem C a φ σ else vcSem C b φ σ
    by_cases hc : c.tv σ
    · rw [if_pos hc, if_pos hc]; exact iha h.1 φ σ
    · rw [if_neg hc, if_neg hc]; exact ihb h.2 φ σ
  | «while» c s ih =>
    rw [vcSem_while, vcSem_while]
    have hmono : ∀ ψ, Monotone (loopFun C c s ψ) := fun ψ => loopFun_mono (vcSem_mono C hC (Stmt.Scalable.noNeg (S := s) h)) c ψ
    have hsc : ∀ X : Exp, loopFun C c s (fun σ => r * φ σ) (fun σ => r * X σ) ≤ fun σ => r * loopFun C c s φ X σ := by
      intro X σ
      show loopFun C c s (fun σ => r * φ σ) (fun σ => r * X σ) σ ≤ r * loopFun C c s φ X σ
      unfold loopFun
      by_cases hc : c.tv σ
      · rw [if_pos hc, if_pos hc]; exact ih h X σ
      · rw [if_neg hc, if_neg hc]
    have hcan : ∀ x : ℝ≥0∞, r * (r⁻¹ * x) = x := fun x => by
      rw [← mul_assoc, ENNReal.mul_inv_cancel hr0 hr', one_mul]
    cases C.loop with
    | lfp =>
      refine sInf_le (show loopFun C c s (fun σ => r * φ σ) (fun σ => r * fixpoint .lfp (loopFun C c s φ) σ) ≤ _ from ?_)
      exact (hsc _).trans fun σ => mul_le_mul_right (lfp_prefixed (hmono φ) σ) _
    | gfp =>
      set Y := fixpoint .gfp (loopFun C c s fun σ => r * φ σ) with hY
      have hpost : (fun σ => r⁻¹ * Y σ : Exp) ≤ fixpoint .gfp (loopFun C c s φ) := by
        refine le_sSup (show (fun σ => r⁻¹ * Y σ : Exp) ≤ loopFun C c s φ (fun σ => r⁻¹ * Y σ) from fun σ => ?_)
        have h1 : Y σ ≤ loopFun C c s (fun σ => r * φ σ) Y σ := gfp_postfixed (hmono _) σ
        have h2 := hsc (fun σ => r⁻¹ * Y σ) σ
        simp only [hcan] at h2
        calc r⁻¹ * Y σ ≤ r⁻¹ * (r * loopFun C c s φ (fun σ => r⁻¹ * Y σ) σ) := mul_le_mul_right (h1.trans h2) _
          _ = _ := by rw [← mul_assoc, ENNReal.inv_mul_cancel hr0 hr', one_mul]
      intro σ
      rw [← hcan (Y σ)]
      exact mul_le_mul_right (hpost σ) _
  | annot an s ih => exact ih h φ
  | _ => exact h.elim

end

end Caesar
