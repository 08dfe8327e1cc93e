import Verif.ProofRules.Omega
import Verif.Witness

/-!
# C22: `@omega_invariant`

Specification: the value of the encoded loop is a lower bound of the least fixed point of the loop function in
procedures, and an upper bound of the greatest fixed point in coprocedures
(`website/docs/proof-rules/omega-invariants.md`).
Model: `transformOmega` (`Verif/ProofRules/Omega.lean`) followed by `vcgen`.

The full property `C22_full` is false, for two reasons.
* The side conditions `I_0 ≤ Φ(0)` and `I_{n+1} ≤ Φ(I_n)` are checked in the *current* state only: the variables
  modified by the loop are not havocked (`src/proof_rules/omega.rs:184-203`). `C22_program_not_full` is a program that
  is verified for this reason although its value is `0`.
* In coprocedures `I_0` is compared with `Φ(0)` instead of `Φ(∞)` (`src/proof_rules/omega.rs:172-182`), so even side
  conditions that hold in all states prove nothing (`C22_up_not_full`).

The partial theorems assume that the side conditions hold in a set of states closed under loop iterations, and in
coprocedures additionally `Φ(∞) ≤ I_0`.
-/

open scoped ENNReal NNReal

namespace Caesar
set_option linter.unusedSectionVars false

/-- Semantics with respect to which `@omega_invariant` should be sound (`src/proof_rules/omega.rs:116-125`). -/
def Dir.omegaSem : Dir → LoopSem
  | .down => .lfp
  | .up => .gfp

/-- The full property. The variable `n` is not used in the loop or by the postexpectation. -/
def C22_full : Prop :=
  ∀ (_ : Doms) (_ : Interp) (d : Dir) (C : SemCtx), C.Regular → C.loop = d.omegaSem →
    ∀ (n : Ident) (I : Expr .eureal) (c : Expr .bool) (body : Stmt) (post e : Expr .eureal),
      body.NoNeg → body.NoValidate → body.GoodDists → ¬ c.Free ⟨n, .uint⟩ → ¬ body.Touched ⟨n, .uint⟩ →
      ¬ body.Reads ⟨n, .uint⟩ → ¬ post.Free ⟨n, .uint⟩ → vcgen (transformOmega d n I c body) post = .ok e →
      d.Le e.ev (vcSem C (.while c body) post.ev)

section
variable [Doms] [Interp]

/-- The set of states `R` is not left by iterations of the loop: what the body makes of an expectation in a state in
`R` only depends on the values of the expectation in `R`. -/
def ClosedUnder (C : SemCtx) (c : Expr .bool) (body : Stmt) (R : Env → Prop) : Prop :=
  ∀ X Y : Exp, (∀ σ', R σ' → X σ' = Y σ') → ∀ σ, R σ → c.tv σ → vcSem C body X σ = vcSem C body Y σ

theorem closedUnder_true (C : SemCtx) (c : Expr .bool) (body : Stmt) : ClosedUnder C c body fun _ => True :=
  fun X Y h σ _ _ => by rw [funext fun σ' => h σ' trivial]

/-- States that only differ in variables the body may change from a given state. -/
theorem closedUnder_touched {C : SemCtx} (hC : C.Regular) (c : Expr .bool) (body : Stmt) (σ₀ : Env) :
    ClosedUnder C c body (AgreeOff (fun v => body.Touched v) σ₀) :=
  fun _ _ h _ hσ _ => vcSem_frame hC (M := fun v => body.Touched v) (fun _ hv => hv) fun σ' hs => h σ' (hσ.trans hs)

theorem loopFun_closed {C : SemCtx} {c : Expr .bool} {body : Stmt} {R : Env → Prop} (hR : ClosedUnder C c body R)
    {φ X Y : Exp} (h : ∀ σ', R σ' → X σ' = Y σ') {σ : Env} (hσ : R σ) :
    loopFun C c body φ X σ = loopFun C c body φ Y σ := by
  classical
  unfold loopFun
  by_cases hc : c.tv σ
  · rw [if_pos hc, if_pos hc]; exact hR X Y h σ hσ hc
  · rw [if_neg hc, if_neg hc]

theorem omega_lower {Φ : Exp → Exp} (hΦ : Monotone Φ) {R : Env → Prop}
    (hR : ∀ X Y : Exp, (∀ σ', R σ' → X σ' = Y σ') → ∀ σ, R σ → Φ X σ = Φ Y σ) {I : ℕ → Exp}
    (h : ∀ σ, R σ → OmegaLower Φ I σ) (k : ℕ) : ∀ σ, R σ → I k σ ≤ fixpoint .lfp Φ σ := by
  classical
  have hF := lfp_prefixed hΦ
  set F := fixpoint .lfp Φ
  induction k with
  | zero =>
    intro σ hσ
    exact (h σ hσ).1.trans ((hΦ (show (fun _ => 0 : Exp) ≤ F from fun _ => zero_le) σ).trans (hF σ))
  | succ k ih =>
    intro σ hσ
    let X : Exp := fun σ' => if R σ' then I k σ' else 0
    have hX : ∀ σ', R σ' → I k σ' = X σ' := fun σ' hs => (if_pos hs).symm
    have hXF : X ≤ F := by
      intro σ'
      by_cases hs : R σ'
      · rw [← hX σ' hs]; exact ih σ' hs
      · show (if R σ' then I k σ' else 0) ≤ _
        rw [if_neg hs]; exact zero_le
    refine ((h σ hσ).2 k).trans ?_
    rw [hR _ _ hX σ hσ]
    exact (hΦ hXF σ).trans (hF σ)

theorem omega_upper {Φ : Exp → Exp} (hΦ : Monotone Φ) {R : Env → Prop}
    (hR : ∀ X Y : Exp, (∀ σ', R σ' → X σ' = Y σ') → ∀ σ, R σ → Φ X σ = Φ Y σ) {I : ℕ → Exp}
    (h0 : ∀ σ, R σ → Φ (fun _ => ⊤) σ ≤ I 0 σ) (h : ∀ σ, R σ → OmegaUpper Φ I σ) (k : ℕ) :
    ∀ σ, R σ → fixpoint .gfp Φ σ ≤ I k σ := by
  classical
  have hF := gfp_postfixed hΦ
  set F := fixpoint .gfp Φ
  induction k with
  | zero =>
    intro σ hσ
    exact (hF σ).trans ((hΦ (show F ≤ (fun _ => ⊤ : Exp) from fun _ => le_top) σ).trans (h0 σ hσ))
  | succ k ih =>
    intro σ hσ
    let X : Exp := fun σ' => if R σ' then I k σ' else ⊤
    have hX : ∀ σ', R σ' → I k σ' = X σ' := fun σ' hs => (if_pos hs).symm
    have hXF : F ≤ X := by
      intro σ'
      by_cases hs : R σ'
      · rw [← hX σ' hs]; exact ih σ' hs
      · show _ ≤ (if R σ' then I k σ' else ⊤)
        rw [if_neg hs]; exact le_top
    refine le_trans ?_ ((h σ hσ).2 k)
    rw [hR _ _ hX σ hσ]
    exact (hF σ).trans (hΦ hXF σ)

variable {C : SemCtx} {n : Ident} {I : Expr .eureal} {c : Expr .bool} {body : Stmt} {post e : Expr .eureal}

theorem omegaPost_ignores (hp : ¬ post.Free ⟨n, .uint⟩) : Ignores (· = ⟨n, .uint⟩) post.ev :=
  fun _ _ h => ev_agreeOff (fun v hv => by subst hv; exact hp) h

/-- **Procedures.** If the generated side conditions hold in all states of a set that the loop does not leave, the
verification condition of the encoded loop is a lower bound of the least fixed point. Missing: the encoding checks the
side conditions only in the current state. -/
theorem C22_lower_partial (hC : C.Regular) (hl : C.loop = .lfp) (hb : body.NoNeg) (hv : body.NoValidate)
    (hg : body.GoodDists) (hc : ¬ c.Free ⟨n, .uint⟩) (ht : ¬ body.Touched ⟨n, .uint⟩) (hr : ¬ body.Reads ⟨n, .uint⟩)
    (hp : ¬ post.Free ⟨n, .uint⟩) {R : Env → Prop} (hR : ClosedUnder C c body R)
    (hside : ∀ σ, R σ → vcSem C (omegaConds .down n I c body) post.ev σ = ⊤)
    (hvc : vcgen (transformOmega .down n I c body) post = .ok e) {σ : Env} (hσ : R σ) :
    e.ev σ ≤ vcSem C (.while c body) post.ev σ := by
  classical
  rw [vcgen_sound C hvc (transformOmega_validateOk (fun p => validateOk_of_noValidate hv p) _ _ _ _)
    (transformOmega_goodDists hg _ _ _), transformOmega_down hC hb hc ht hr (omegaPost_ignores hp)]
  split
  · refine iSup_le fun k => ?_
    rw [vcSem_while, hl]
    refine omega_lower (loopFun_mono (vcSem_mono C hC.mono hb) c post.ev) (R := R)
      (fun X Y h σ hσ => loopFun_closed hR h hσ) (fun σ hσ => ?_) k σ hσ
    have h1 := hside σ hσ
    rw [omegaConds_down hC hb hc ht hr (omegaPost_ignores hp)] at h1
    by_contra hn
    rw [if_neg hn] at h1
    exact ENNReal.zero_ne_top h1
  · exact zero_le

/-- The same for a procedure that consists of the loop: if its verification condition is nowhere `0` (for example
because its precondition is positive everywhere), it is a lower bound. -/
theorem C22_positive_partial (hC : C.Regular) (hl : C.loop = .lfp) (hb : body.NoNeg) (hv : body.NoValidate)
    (hg : body.GoodDists) (hc : ¬ c.Free ⟨n, .uint⟩) (ht : ¬ body.Touched ⟨n, .uint⟩) (hr : ¬ body.Reads ⟨n, .uint⟩)
    (hp : ¬ post.Free ⟨n, .uint⟩) (hvc : vcgen (transformOmega .down n I c body) post = .ok e)
    (hpos : ∀ σ, e.ev σ ≠ 0) (σ : Env) : e.ev σ ≤ vcSem C (.while c body) post.ev σ := by
  classical
  refine C22_lower_partial hC hl hb hv hg hc ht hr hp (closedUnder_true C c body) (fun σ _ => ?_) hvc trivial
  have h := hpos σ
  rw [vcgen_sound C hvc (transformOmega_validateOk (fun p => validateOk_of_noValidate hv p) _ _ _ _)
    (transformOmega_goodDists hg _ _ _), transformOmega_down hC hb hc ht hr (omegaPost_ignores hp)] at h
  rw [omegaConds_down hC hb hc ht hr (omegaPost_ignores hp)]
  split
  · rfl
  next hn => exact absurd (if_neg hn) h

/-- **Coprocedures.** As `C22_lower_partial`, but with `Φ(∞) ≤ I_0` in addition, which is not checked by the
encoding. -/
theorem C22_upper_partial (hC : C.Regular) (hl : C.loop = .gfp) (hb : body.NoNeg) (hv : body.NoValidate)
    (hg : body.GoodDists) (hc : ¬ c.Free ⟨n, .uint⟩) (ht : ¬ body.Touched ⟨n, .uint⟩) (hr : ¬ body.Reads ⟨n, .uint⟩)
    (hp : ¬ post.Free ⟨n, .uint⟩) {R : Env → Prop} (hR : ClosedUnder C c body R)
    (h0 : ∀ σ, R σ → loopFun C c body post.ev (fun _ => ⊤) σ ≤ omegaAt n I 0 σ)
    (hside : ∀ σ, R σ → vcSem C (omegaConds .up n I c body) post.ev σ = 0)
    (hvc : vcgen (transformOmega .up n I c body) post = .ok e) {σ : Env} (hσ : R σ) :
    vcSem C (.while c body) post.ev σ ≤ e.ev σ := by
  classical
  rw [vcgen_sound C hvc (transformOmega_validateOk (fun p => validateOk_of_noValidate hv p) _ _ _ _)
    (transformOmega_goodDists hg _ _ _), transformOmega_up hC hb hc ht hr (omegaPost_ignores hp)]
  split
  · refine le_iInf fun k => ?_
    rw [vcSem_while, hl]
    refine omega_upper (loopFun_mono (vcSem_mono C hC.mono hb) c post.ev) (R := R)
      (fun X Y h σ hσ => loopFun_closed hR h hσ) h0 (fun σ hσ => ?_) k σ hσ
    have h1 := hside σ hσ
    rw [omegaConds_up hC hb hc ht hr (omegaPost_ignores hp)] at h1
    by_contra hn
    rw [if_neg hn] at h1
    exact ENNReal.zero_ne_top h1.symm
  · exact le_top

end

/-! ## Counterexample in procedures -/

def c22X : Ident := ⟨"x", 0⟩
def c22N : Ident := ⟨"n", 0⟩

/-- The literal `1` cast to `EUReal`. -/
def c22One : Expr .eureal := .cast .uintEUReal (Expr.uintLit 1)

/-- `I_n = ite(x == 0 && n == 0, 0, 1)` -/
def c22I : Expr .eureal :=
  .ite (.bin .and (.rel (s := .uint) .eq (.var c22X) (Expr.uintLit 0))
    (.rel (s := .uint) .eq (.var c22N) (Expr.uintLit 0))) zeroSpec c22One

/-- `x = 1` -/
def c22Body : Stmt := .assign ⟨c22X, .uint⟩ (Expr.uintLit 1)

/-- `x = 0; @omega_invariant(n, ite(x == 0 && n == 0, 0, 1)) while true { x = 1 }`, encoded. -/
def c22Encoded : Stmt :=
  .seq (.assign ⟨c22X, .uint⟩ (Expr.uintLit 0)) (transformOmega .down c22N c22I (Expr.boolLit true) c22Body)

/-- `x = 0; while true { x = 1 }` -/
def c22Program : Stmt :=
  .seq (.assign ⟨c22X, .uint⟩ (Expr.uintLit 0)) (.while (Expr.boolLit true) c22Body)

section
variable [Doms] [Interp]

theorem c22One_ev (σ : Env) : c22One.ev σ = 1 := by
  show ((1 : ℕ) : ℝ≥0∞) = 1
  exact Nat.cast_one

/-- The value of an unsigned integer variable. -/
def Env.nat (σ : Env) (x : Ident) : ℕ := σ ⟨x, .uint⟩

theorem Env.nat_setNat_same (σ : Env) (n : Ident) (k : ℕ) : (σ.setNat n k).nat n = k := Env.setNat_same σ n k

theorem Env.nat_setNat_ne (σ : Env) {n x : Ident} (k : ℕ) (h : x ≠ n) : (σ.setNat n k).nat x = σ.nat x :=
  Env.setNat_ne σ k (fun h' => h (congrArg Var.id h'))

theorem Env.nat_upd_same (σ : Env) (n : Ident) (k : ℕ) : (σ.upd ⟨n, .uint⟩ k).nat n = k := Env.setNat_same σ n k

open Classical in
theorem c22I_at (k : ℕ) (σ : Env) :
    omegaAt c22N c22I k σ = if σ.nat c22X = 0 ∧ k = 0 then 0 else 1 := by
  have h : ((σ.setNat c22N k).nat c22X = 0 ∧ (σ.setNat c22N k).nat c22N = 0) ↔ (σ.nat c22X = 0 ∧ k = 0) := by
    rw [Env.nat_setNat_same, Env.nat_setNat_ne σ k (by decide)]
  by_cases hx : σ.nat c22X = 0 ∧ k = 0
  · rw [if_pos hx]
    exact (if_pos (h.2 hx)).trans (zeroSpec_ev _)
  · rw [if_neg hx]
    exact (if_neg fun h' => hx (h.1 h')).trans (c22One_ev _)

theorem c22_loop (C : SemCtx) (φ X : Exp) (σ : Env) :
    loopFun C (Expr.boolLit true) c22Body φ X σ = X (σ.setNat c22X 1) := if_pos rfl

theorem c22_sem {C : SemCtx} (hC : C.Regular) {φ : Exp} (hφ : Ignores (· = ⟨c22N, .uint⟩) φ) (σ : Env) :
    vcSem C c22Encoded φ σ = 1 := by
  classical
  show vcSem C (transformOmega .down c22N c22I (Expr.boolLit true) c22Body) φ (σ.setNat c22X 0) = 1
  rw [transformOmega_down hC (c := Expr.boolLit true) (body := c22Body) trivial (fun h => h) (by show ¬ _ = _; decide) (fun h => h) hφ, if_pos]
  · apply le_antisymm
    · refine iSup_le fun k => ?_
      rw [c22I_at]
      split
      · exact zero_le
      · exact le_rfl
    · refine le_trans ?_ (le_iSup _ 1)
      rw [c22I_at, if_neg (fun h => absurd h.2 one_ne_zero)]
  · refine ⟨?_, fun k => ?_⟩
    · rw [c22I_at, if_pos ⟨Env.nat_setNat_same _ _ _, rfl⟩]; exact zero_le
    · rw [c22_loop, c22I_at, c22I_at, if_neg (fun h => absurd h.2 (Nat.succ_ne_zero k)),
        if_neg (fun h => absurd h.1 (by rw [Env.nat_setNat_same]; exact one_ne_zero))]

/-- The diverging loop has value `0`. -/
theorem c22_wp {C : SemCtx} (hl : C.loop = .lfp) (φ : Exp) (σ : Env) : vcSem C c22Program φ σ = 0 := by
  show vcSem C (.while (Expr.boolLit true) c22Body) φ _ = 0
  rw [vcSem_while, hl]
  have h : fixpoint .lfp (loopFun C (Expr.boolLit true) c22Body φ) ≤ (fun _ => 0 : Exp) :=
    sInf_le (show loopFun C (Expr.boolLit true) c22Body φ (fun _ => 0) ≤ fun _ => 0 from fun σ => by
      rw [c22_loop])
  exact le_antisymm (h _) zero_le

end

/-- The procedure `pre 1, post 1, x = 0; @omega_invariant(n, ite(x == 0 && n == 0, 0, 1)) while true { x = 1 }`
verifies: its verification condition is `1` in all states. But the loop does not terminate, its value is `0`. -/
theorem C22_program_not_full (_ : Doms) (_ : Interp) (C : SemCtx) (hC : C.Regular) (hl : C.loop = .lfp) :
    ∃ e, vcgen c22Encoded c22One = .ok e ∧ (∀ σ, 1 ≤ e.ev σ) ∧ ∀ σ, vcSem C c22Program c22One.ev σ = 0 := by
  refine ⟨_, rfl, fun σ => ?_, fun σ => c22_wp hl _ σ⟩
  rw [vcgen_sound C (S := c22Encoded) (post := c22One) rfl
    ⟨transformOmega_validateOk (fun p => validateOk_of_noValidate (S := c22Body) trivial p) _ _ _ _, fun _ _ => trivial⟩
    ⟨trivial, transformOmega_goodDists (body := c22Body) trivial _ _ _⟩,
    c22_sem hC (fun _ _ _ => by rw [c22One_ev, c22One_ev])]

theorem C22_not_full : ¬ C22_full := by
  classical
  intro h
  let _ := unitDoms
  let _ := unitInterp
  let C : SemCtx := ⟨.lfp, fun l _ _ φ σ => ⨅ σ' ∈ {σ' | Agree l σ σ'}, φ σ'⟩
  obtain ⟨e, he⟩ : ∃ e, vcgen (transformOmega .down c22N c22I (Expr.boolLit true) c22Body) c22One = .ok e := ⟨_, rfl⟩
  have h1 := h unitDoms unitInterp .down C (regular_havoc .lfp) rfl c22N c22I (Expr.boolLit true) c22Body c22One e
    trivial trivial trivial (fun h => h) (by show ¬ _ = _; decide) (fun h => h) (fun h => h) he
    (zeroEnv.setNat c22X 0)
  have h2 := c22_sem (regular_havoc .lfp) (φ := c22One.ev) (fun _ _ _ => by rw [c22One_ev, c22One_ev]) zeroEnv
  rw [vcgen_sound C he (transformOmega_validateOk (fun p => validateOk_of_noValidate (S := c22Body) trivial p) _ _ _ _)
    (transformOmega_goodDists (body := c22Body) trivial _ _ _)] at h1
  have h3 : (1 : ℝ≥0∞) ≤ 0 := (h2.symm.le.trans h1).trans (c22_wp (C := C) rfl c22One.ev zeroEnv).le
  exact absurd h3 (by simp)

/-! ## Counterexample in coprocedures -/

/-- `@omega_invariant(n, 0) while true {}` in a coprocedure: the side conditions hold in all states and the
verification condition is `0`, but the greatest fixed point is `∞`. -/
theorem C22_up_not_full (_ : Doms) (_ : Interp) (C : SemCtx) (hC : C.Regular) (hl : C.loop = .gfp) :
    (∀ σ, vcSem C (omegaConds .up c22N zeroSpec (Expr.boolLit true) .skip) c22One.ev σ = 0) ∧
    ∃ e, vcgen (transformOmega .up c22N zeroSpec (Expr.boolLit true) .skip) c22One = .ok e ∧
      ∀ σ, e.ev σ = 0 ∧ vcSem C (.while (Expr.boolLit true) .skip) c22One.ev σ = ⊤ := by
  classical
  have hφ : Ignores (· = ⟨c22N, .uint⟩) c22One.ev := fun _ _ _ => by rw [c22One_ev, c22One_ev]
  have hok : ∀ σ, OmegaUpper (loopFun C (Expr.boolLit true) .skip c22One.ev) (omegaAt c22N zeroSpec) σ := by
    intro σ
    have hl : ∀ X : Exp, loopFun C (Expr.boolLit true) .skip c22One.ev X σ = X σ := fun X => if_pos rfl
    refine ⟨?_, fun k => ?_⟩
    · rw [hl]; exact zero_le
    · rw [hl]
      show zeroSpec.ev _ ≤ zeroSpec.ev _
      rw [zeroSpec_ev, zeroSpec_ev]
  refine ⟨fun σ => ?_, _, rfl, fun σ => ⟨?_, ?_⟩⟩
  · rw [omegaConds_up hC (c := Expr.boolLit true) (body := .skip) trivial (fun h => h) (fun h => h) (fun h => h) hφ, if_pos (hok σ)]
  · rw [vcgen_sound C (S := transformOmega .up c22N zeroSpec (Expr.boolLit true) .skip) (post := c22One) rfl
      (transformOmega_validateOk (fun p => validateOk_of_noValidate (S := .skip) trivial p) _ _ _ _) (transformOmega_goodDists (body := .skip) trivial _ _ _),
      transformOmega_up hC (c := Expr.boolLit true) (body := .skip) trivial (fun h => h) (fun h => h) (fun h => h) hφ, if_pos (hok σ)]
    refine le_antisymm ((iInf_le _ 0).trans ?_) zero_le
    show zeroSpec.ev _ ≤ 0
    rw [zeroSpec_ev]
  · rw [vcSem_while, hl]
    have h : (fun _ => ⊤ : Exp) ≤ fixpoint .gfp (loopFun C (Expr.boolLit true) .skip c22One.ev) :=
      le_sSup (show (fun _ => ⊤ : Exp) ≤ loopFun C (Expr.boolLit true) .skip c22One.ev (fun _ => ⊤) from fun σ => by
        rw [show loopFun C (Expr.boolLit true) .skip c22One.ev (fun _ => ⊤) σ = ⊤ from if_pos rfl])
    exact top_le_iff.1 (h σ)

/-! ## Non-vacuity: a loop for which the side conditions hold in all states -/

/-- `tick 1; x = x - 1` -/
def c22TBody : Stmt :=
  .seq (.tick c22One) (.assign ⟨c22X, .uint⟩ (.bin (t := .uint) (.sub rfl) (.var c22X) (Expr.uintLit 1)))

/-- `0 < x` -/
def c22TGuard : Expr .bool := .rel (s := .uint) (.lt rfl) (Expr.uintLit 0) (.var c22X)

/-- `I_n = ite(x <= n, x, 0)` -/
def c22TI : Expr .eureal :=
  .ite (.rel (s := .uint) (.le rfl) (.var c22X) (.var c22N)) (.cast .uintEUReal (.var c22X)) zeroSpec

section
variable [Doms] [Interp]

open Classical in
theorem c22TI_at (k : ℕ) (σ : Env) :
    omegaAt c22N c22TI k σ = if σ.nat c22X ≤ k then (σ.nat c22X : ℝ≥0∞) else 0 := by
  have h0 : (σ.setNat c22N k).nat c22X = σ.nat c22X := Env.nat_setNat_ne σ k (by decide)
  have h : ((σ.setNat c22N k).nat c22X ≤ (σ.setNat c22N k).nat c22N) ↔ σ.nat c22X ≤ k := by
    rw [Env.nat_setNat_same, h0]
  by_cases hx : σ.nat c22X ≤ k
  · rw [if_pos hx]
    exact (if_pos (h.2 hx)).trans (congrArg (fun m : ℕ => (m : ℝ≥0∞)) h0)
  · rw [if_neg hx]
    exact (if_neg fun h' => hx (h.1 h')).trans (zeroSpec_ev _)

open Classical in
theorem c22T_loop (C : SemCtx) (φ X : Exp) (σ : Env) :
    loopFun C c22TGuard c22TBody φ X σ
      = if 0 < σ.nat c22X then X (σ.setNat c22X (σ.nat c22X - 1)) + 1 else φ σ := by
  have hg : c22TGuard.tv σ ↔ 0 < σ.nat c22X :=
    ⟨fun h => Nat.lt_of_le_of_ne h.1 h.2, fun h => ⟨h.le, h.ne⟩⟩
  by_cases h : 0 < σ.nat c22X
  · rw [if_pos h, ← c22One_ev σ]
    exact if_pos (hg.2 h)
  · rw [if_neg h]
    exact if_neg fun h' => h (hg.1 h')

/-- The hypotheses of `C22_lower_partial` are met by `@omega_invariant(n, ite(x <= n, x, 0)) while 0 < x { tick 1;
x = x - 1 }` with post `0`, and the verification condition is `x`. -/
example {C : SemCtx} (hC : C.Regular) :
    c22TBody.NoNeg ∧ c22TBody.NoValidate ∧ c22TBody.GoodDists ∧ ¬ c22TGuard.Free ⟨c22N, .uint⟩ ∧
    ¬ c22TBody.Touched ⟨c22N, .uint⟩ ∧ ¬ c22TBody.Reads ⟨c22N, .uint⟩ ∧ ¬ zeroSpec.Free ⟨c22N, .uint⟩ ∧
    (∀ σ, vcSem C (omegaConds .down c22N c22TI c22TGuard c22TBody) zeroSpec.ev σ = ⊤) ∧
    ∃ e, vcgen (transformOmega .down c22N c22TI c22TGuard c22TBody) zeroSpec = .ok e ∧
      ∀ σ : Env, e.ev σ = (σ.nat c22X : ℝ≥0∞) := by
  classical
  have hc : ¬ c22TGuard.Free ⟨c22N, .uint⟩ := by
    simp [c22TGuard, Expr.Free, Expr.uintLit, c22N, c22X]
  have ht : ¬ c22TBody.Touched ⟨c22N, .uint⟩ := by
    simp [c22TBody, Stmt.Touched, c22N, c22X]
  have hr : ¬ c22TBody.Reads ⟨c22N, .uint⟩ := by
    simp [c22TBody, Stmt.Reads, Stmt.Inits, Expr.Free, Expr.uintLit, c22One, c22N, c22X]
  have hp : ¬ zeroSpec.Free ⟨c22N, .uint⟩ := fun h => h
  have hok : ∀ σ, OmegaLower (loopFun C c22TGuard c22TBody zeroSpec.ev) (omegaAt c22N c22TI) σ := by
    intro σ
    refine ⟨?_, fun k => ?_⟩
    · rw [c22TI_at]
      split
      next h => rw [Nat.le_zero.1 h, Nat.cast_zero]; exact zero_le
      · exact zero_le
    · rw [c22TI_at, c22T_loop]
      by_cases h0 : 0 < σ.nat c22X
      · rw [if_pos h0, c22TI_at, Env.nat_setNat_same]
        by_cases hk : σ.nat c22X ≤ k + 1
        · rw [if_pos hk, if_pos (by omega)]
          have : σ.nat c22X = (σ.nat c22X - 1) + 1 := by omega
          conv_lhs => rw [this]
          rw [Nat.cast_add, Nat.cast_one]
        · rw [if_neg hk]; exact zero_le
      · have : σ.nat c22X = 0 := by omega
        rw [this, Nat.cast_zero, ite_self]; exact zero_le
  refine ⟨⟨trivial, trivial⟩, ⟨trivial, trivial⟩, ⟨trivial, trivial⟩, hc, ht, hr, hp, fun σ => ?_, _, rfl, fun σ => ?_⟩
  · rw [omegaConds_down hC (body := c22TBody) ⟨trivial, trivial⟩ hc ht hr (omegaPost_ignores hp), if_pos (hok σ)]
  · rw [vcgen_sound C (S := transformOmega .down c22N c22TI c22TGuard c22TBody) (post := zeroSpec) rfl
      (transformOmega_validateOk (fun p => validateOk_of_noValidate (S := c22TBody) ⟨trivial, trivial⟩ p) _ _ _ _)
      (transformOmega_goodDists (body := c22TBody) ⟨trivial, trivial⟩ _ _ _),
      transformOmega_down hC (body := c22TBody) ⟨trivial, trivial⟩ hc ht hr (omegaPost_ignores hp), if_pos (hok σ)]
    apply le_antisymm
    · refine iSup_le fun k => ?_
      rw [c22TI_at]; split
      · exact le_rfl
      · exact zero_le
    · refine le_trans ?_ (le_iSup _ (σ.nat c22X))
      rw [c22TI_at, if_pos le_rfl]

end

end Caesar
