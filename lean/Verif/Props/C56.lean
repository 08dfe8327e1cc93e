import Verif.ProofRules.Ast
import Verif.ProofRules.Tracking
import Verif.Props.C52
import Mathlib.Tactic.FieldSimp

/-!
# C56: the rule for almost-sure termination

Specification: "`while G { Body }` is almost-surely terminating from all initial states satisfying `I`, i.e.
`[I] <= wp[while G { Body }](1)`", for bodies without nondeterminism and functions `prob` and `decrease` into `(0, 1]` and
`(0, ∞)` (`website/docs/proof-rules/ast.md`).
Model: `astProcs`, the six generated (co)procedures, and `astBlock`, what remains of the loop
(`Verif/ProofRules/Ast.lean`). `Proc.Verified` says that the verification task built by `encodeProcVerify` holds in all
states.

* `C56_conditions`: the procedures verify exactly if the documented conditions hold.
* `C56_terminates`: the documented theorem.
* `C56_full`, that the loop may be replaced by `astBlock` when the procedures verify, is false. The generated code checks
  neither that `I` holds before the loop (`C56_not_full`), nor that `prob` is positive (`C56_range_wrong`), nor does it
  forget the values of the modified variables (`C56_block_wrong`, where the analysis reports an exact encoding).
* `C56_block_partial`: what remains true, for initial states in `I` and postexpectations that do not mention the
  variables changed by the loop.
-/

open scoped ENNReal NNReal

namespace Caesar
set_option linter.unusedSectionVars false

section
variable [Doms] [Interp]

/-- The documented ranges of `prob` and `decrease`. -/
def AstArgs.InRange (a : AstArgs) : Prop := ∀ σ, 0 < a.prob.uv σ ∧ a.prob.uv σ ≤ 1 ∧ 0 < a.decrease.uv σ

end

/-- The full property: the loop may be replaced by what the rule generates. -/
def C56_full : Prop :=
  ∀ (_ : Doms) (_ : Interp) (C : SemCtx), C.Regular → C.loop = .lfp →
    ∀ (sp : Spans) (n : AstNames) (a : AstArgs) (c : Expr .bool) (body : Stmt), sp.Ok → body.Kernel →
      a.Fresh sp n c body → a.InRange → (∀ p ∈ astProcs sp n a c body, p.Verified C) →
        ∀ φ σ, vcSem C astBlock φ σ ≤ vcSem C (.while c body) φ σ

section
variable [Doms] [Interp] {C : SemCtx} {sp : Spans} {n : AstNames} {a : AstArgs} {c : Expr .bool} {body : Stmt}

/-- The generated procedures verify exactly if the documented conditions hold. -/
theorem C56_conditions (hC : C.Regular) (hsp : sp.Ok) (hb : body.Kernel) (hf : a.Fresh sp n c body) :
    (∀ p ∈ astProcs sp n a c body, p.Verified C) ↔ AstConditions C a c body :=
  ast_conditions hC hsp hb.noNeg hb.noHavoc hf

/-- The documented theorem: the loop terminates with probability one from all states satisfying the invariant. -/
theorem C56_terminates (hC : C.Regular) (hl : C.loop = .lfp) (hsp : sp.Ok) (hb : body.Kernel) (hf : a.Fresh sp n c body)
    (hr : a.InRange) (h : ∀ p ∈ astProcs sp n a c body, p.Verified C) (σ : Env) (hσ : a.inv.tv σ) :
    vcSem C (.while c body) (fun _ => 1) σ = 1 := by
  classical
  have hc := (C56_conditions hC hsp hb hf).1 h
  have hW : ProbT (vcSem C (.while c body)) := Stmt.Kernel.probT hl (S := .while c body) hb
  refine le_antisymm (hW.one σ) ?_
  have hT : ProbT (vcSem C body) := hb.probT hl
  have hmono : Monotone (loopFun C c body fun _ => 1) := loopFun_mono (vcSem_mono C hC.mono hb.noNeg) c _
  have hF := lfp_prefixed hmono
  rw [vcSem_while, hl]
  -- all states reached from `σ` agree with it on the variables which are not touched
  have hI : ∀ τ, a.inv.tv τ ∧ AgreeOff body.Touched σ τ → c.tv τ →
      1 ≤ vcSem C body (fun τ => if a.inv.tv τ ∧ AgreeOff body.Touched σ τ then 1 else 0) τ := by
    intro τ hτ hg
    refine (hc.inv τ hτ.1 hg).trans (le_of_eq ?_)
    refine vcSem_frame hC (M := body.Touched) (fun _ h => h) fun τ' hτ' => ?_
    have h1 : AgreeOff body.Touched σ τ' := fun v hv => (hτ' v hv).trans (hτ.2 v hv)
    exact if_congr ⟨fun h => ⟨h, h1⟩, fun h => h.1⟩ rfl rfl
  refine ast_rule hT (G := c.tv) (I := fun τ => a.inv.tv τ ∧ AgreeOff body.Touched σ τ) (V := a.variant.uv)
    (p := fun r => a.prob.uv (σ.setU a.fv r)) (d := fun r => a.decrease.uv (σ.setU a.fv r))
    (fun r => (hr _).1) (fun r => (hr _).2.2) (hc.prob σ) (hc.decrease σ) hI (fun τ hτ hg => hc.positive τ hτ.1 hg)
    (fun τ hτ hg => hc.super τ hτ.1 hg) (fun τ hτ hg => ?_) (fun τ hg => ?_) (fun τ hg => ?_) σ ⟨hσ, AgreeOff.refl _ _⟩
  · have h1 := hc.progress τ hτ.1 hg
    rwa [uv_setU_congr hf.probFix hτ.2, uv_setU_congr hf.decreaseFix hτ.2] at h1
  · have h1 := hF τ
    unfold loopFun at h1
    rwa [if_pos hg] at h1
  · have h1 := hF τ
    unfold loopFun at h1
    rwa [if_neg hg] at h1

/-- In states satisfying the invariant, and for postexpectations that do not mention the variables which the loop
changes, the replacement is exact. -/
theorem C56_block_partial (hC : C.Regular) (hl : C.loop = .lfp) (hsp : sp.Ok) (hb : body.Kernel)
    (hf : a.Fresh sp n c body) (hr : a.InRange) (h : ∀ p ∈ astProcs sp n a c body, p.Verified C) {φ : Exp}
    (hφ : Ignores body.Touched φ) (σ : Env) (hσ : a.inv.tv σ) :
    vcSem C astBlock φ σ = vcSem C (.while c body) φ σ := by
  have hW : ProbT (vcSem C (.while c body)) := Stmt.Kernel.probT hl (S := .while c body) hb
  have h1 : vcSem C (.while c body) φ σ = vcSem C (.while c body) (fun _ => φ σ * 1) σ :=
    vcSem_frame hC (S := .while c body) (M := body.Touched) (fun _ hv => hv) fun τ hτ => by
      rw [mul_one]
      exact hφ σ τ hτ
  rw [h1, hW.smul, C56_terminates hC hl hsp hb hf hr h σ hσ, mul_one]
  rfl

end

/-! ## Counterexamples -/

def c56V : Ident := ⟨"v", 0⟩
def c56Names : AstNames := ⟨⟨"a", 2⟩, ⟨"b", 4⟩⟩
def c56One : Expr .ureal := .lit (.ufrac 1)
def c56Zero : Expr .ureal := .lit (.ufrac 0)

section
variable [Doms] [Interp]

theorem c56One_uv (σ : Env) : c56One.uv σ = 1 := NNRat.cast_one

theorem c56Zero_uv (σ : Env) : c56Zero.uv σ = 0 := NNRat.cast_zero

/-- `@ast(inv, 1, v, prob, 1) while true {}` -/
def c56Args (inv : Bool) (prob : Expr .ureal) : AstArgs := ⟨Expr.boolLit inv, c56One, c56V, prob, c56One⟩

theorem c56_fresh (inv : Bool) (q : ℚ≥0) :
    (c56Args inv (.lit (.ufrac q))).Fresh c52Spans c56Names (Expr.boolLit true) .skip :=
  ⟨fun _ _ h => h, fun _ _ h => h, fun _ _ h => h, fun _ _ h => h, fun _ _ h => h, fun _ _ h => h, fun _ _ h => h,
    fun _ _ h => h, ⟨by decide, fun _ _ => ⟨fun h => h, fun h => h⟩⟩, fun _ h => h.elim, fun _ h => h.elim⟩

/-- `while true {}` never terminates. -/
theorem c56_diverges {C : SemCtx} (hl : C.loop = .lfp) (φ : Exp) (σ : Env) :
    vcSem C (.while (Expr.boolLit true) .skip) φ σ = 0 := by
  rw [vcSem_while, hl]
  refine le_antisymm ?_ zero_le
  refine (sInf_le (a := fun _ => (0 : ℝ≥0∞)) ?_ : sInf {X : Exp | _} ≤ _) σ
  intro τ
  exact (if_pos (rfl : true = true)).le

end

/-- `@ast(false, 1, v, 1, 1) while true {}`: nothing checks that the invariant holds before the loop. -/
theorem C56_not_full : ¬ C56_full := by
  intro h
  let _ := unitDoms
  let _ := unitInterp
  let C : SemCtx := ⟨.lfp, fun l _ _ φ σ => ⨅ σ' ∈ {σ' | Agree l σ σ'}, φ σ'⟩
  have hI : ∀ σ, ¬ (c56Args false c56One).inv.tv σ := fun σ h => nomatch (h : false = true)
  have hf := c56_fresh false 1
  have hver := (C56_conditions (regular_havoc .lfp) c52Spans_ok (body := .skip) trivial hf).2
    { prob := fun _ _ _ _ => le_rfl
      decrease := fun _ _ _ _ => le_rfl
      inv := fun σ hi => absurd hi (hI σ)
      positive := fun σ hi => absurd hi (hI σ)
      super := fun σ hi => absurd hi (hI σ)
      progress := fun σ hi => absurd hi (hI σ) }
  have h1 := h unitDoms unitInterp C (regular_havoc .lfp) rfl c52Spans c56Names _ _ .skip c52Spans_ok trivial hf
    (fun σ => by
      have h1 : (c56Args false c56One).prob.uv σ = 1 := c56One_uv σ
      have h2 : (c56Args false c56One).decrease.uv σ = 1 := c56One_uv σ
      exact ⟨h1 ▸ one_pos, h1.le, h2 ▸ one_pos⟩) hver (fun _ => 1) zeroEnv
  rw [c56_diverges rfl] at h1
  exact absurd (le_zero_iff.1 h1) one_ne_zero

/-- `@ast(true, 1, v, 0, 1) while true {}`: nothing checks that the probability is positive. All procedures verify, the
invariant holds, but the loop does not terminate. -/
theorem C56_range_wrong : let _ := unitDoms; let _ := unitInterp;
    ∃ (C : SemCtx) (sp : Spans) (n : AstNames) (a : AstArgs) (c : Expr .bool) (body : Stmt) (σ : Env), C.Regular ∧
      C.loop = .lfp ∧ sp.Ok ∧ body.Kernel ∧ a.Fresh sp n c body ∧ (∀ σ, a.prob.uv σ ≤ 1 ∧ 0 < a.decrease.uv σ) ∧
      (∀ p ∈ astProcs sp n a c body, p.Verified C) ∧ a.inv.tv σ ∧ vcSem C (.while c body) (fun _ => 1) σ = 0 := by
  intro _ _
  let C : SemCtx := ⟨.lfp, fun l _ _ φ σ => ⨅ σ' ∈ {σ' | Agree l σ σ'}, φ σ'⟩
  have hf : (c56Args true c56Zero).Fresh c52Spans c56Names (Expr.boolLit true) .skip := c56_fresh true 0
  have hI : ∀ σ, (c56Args true c56Zero).inv.tv σ := fun σ => (rfl : true = true)
  have hp : ∀ σ, (c56Args true c56Zero).prob.uv σ = 0 := c56Zero_uv
  have hv : ∀ σ, (c56Args true c56Zero).variant.uv σ = 1 := c56One_uv
  have hd : ∀ σ, (c56Args true c56Zero).decrease.uv σ = 1 := c56One_uv
  refine ⟨C, c52Spans, c56Names, c56Args true c56Zero, Expr.boolLit true, .skip, zeroEnv, regular_havoc .lfp, rfl,
    c52Spans_ok, trivial, hf, fun σ => ⟨?_, ?_⟩, (C56_conditions (regular_havoc .lfp) c52Spans_ok (body := .skip) trivial hf).2
    { prob := fun _ _ _ _ => le_rfl
      decrease := fun _ _ _ _ => le_rfl
      inv := fun σ hi _ => (if_pos hi).symm.le
      positive := fun σ _ _ => ?_
      super := fun σ _ _ => le_rfl
      progress := fun σ _ _ => ?_ }, hI _, c56_diverges rfl _ _⟩
  · rw [hp]; exact zero_le_one
  · rw [hd]; exact one_pos
  · rw [hv]; exact one_pos
  · rw [hp, ENNReal.coe_zero]; exact zero_le

def c56X : Ident := ⟨"x", 0⟩

/-- `@ast(true, if x then 1 else 0, v, 1, 1) while x { x = false }` -/
def c56Args2 : AstArgs := ⟨Expr.boolLit true, .ite (.var c56X) c56One c56Zero, c56V, c56One, c56One⟩

def c56Body2 : Stmt := .assign ⟨c56X, .bool⟩ (Expr.boolLit false)

theorem c56_fresh2 : c56Args2.Fresh c52Spans c56Names (.var c56X) c56Body2 := by
  have key : ∀ v, c52Spans.IsInit v → v ≠ ⟨c56X, .bool⟩ := by
    rintro v hv rfl
    exact absurd (c52_isInit hv) (by decide)
  refine ⟨fun _ _ h => h, fun v hv h => ?_, fun _ _ h => h, fun _ _ h => h, fun v hv h => key v hv h, fun v hv h => ?_,
    fun v hv h => key v hv h, fun v hv => (nomatch hv), ⟨by decide, fun _ _ => ⟨fun h => h, fun h => h⟩⟩,
    fun _ h => h.elim, fun _ h => h.elim⟩
  · rcases h with h | h | h
    · exact key v hv h
    · exact h
    · exact h
  · exact h

/-- The loop terminates and sets `x` to `false`, but the empty block that replaces it keeps the old value: with
postexpectation `[x]` the replacement has value one, and the loop zero. The analysis reports an exact encoding. -/
theorem C56_block_wrong : let _ := unitDoms; let _ := unitInterp;
    ∃ (C : SemCtx) (sp : Spans) (n : AstNames) (a : AstArgs) (c : Expr .bool) (body : Stmt) (φ : Exp) (σ : Env),
      C.Regular ∧ C.loop = .lfp ∧ sp.Ok ∧ body.Kernel ∧ a.Fresh sp n c body ∧ a.InRange ∧
      (∀ p ∈ astProcs sp n a c body, p.Verified C) ∧ a.inv.tv σ ∧
      trackApprox .down none (.annot (.ast a.inv a.variant a.fv a.prob a.decrease) (.while c body)) = [.exact] ∧
      vcSem C astBlock φ σ = 1 ∧ vcSem C (.while c body) φ σ = 0 := by
  classical
  intro _ _
  let C : SemCtx := ⟨.lfp, fun l _ _ φ σ => ⨅ σ' ∈ {σ' | Agree l σ σ'}, φ σ'⟩
  let g : Expr .bool := .var c56X
  have hI : ∀ σ, c56Args2.inv.tv σ := fun σ => (rfl : true = true)
  have hp : ∀ σ, c56Args2.prob.uv σ = 1 := c56One_uv
  have hd : ∀ σ, c56Args2.decrease.uv σ = 1 := c56One_uv
  have hoff : ∀ σ : Env, ¬ g.tv (σ.setBool c56X False) := fun σ hg => by
    have h1 : (σ.setBool c56X False).bool c56X = False := Env.bool_setBool_same _ _ _
    exact h1.mp hg
  have hv : ∀ σ, c56Args2.variant.uv σ = if g.tv σ then 1 else 0 := fun σ => by
    have h1 : c56Args2.variant.uv σ = if g.tv σ then c56One.uv σ else c56Zero.uv σ := by
      by_cases hg : g.tv σ
      · rw [if_pos hg]; exact if_pos hg
      · rw [if_neg hg]; exact if_neg hg
    rw [h1, c56One_uv, c56Zero_uv]
  have hbody : ∀ (X : Exp) σ, vcSem C c56Body2 X σ = X (σ.setBool c56X False) := by
    intro X σ
    show X (σ.setBool c56X ((Expr.boolLit false).eval σ)) = _
    rw [eval_boolLit_false]
  have hT : g.tv (zeroEnv.setBool c56X True) := by
    have h2 : (zeroEnv.setBool c56X True).bool c56X = True := Env.bool_setBool_same _ _ _
    exact h2.mpr trivial
  refine ⟨C, c52Spans, c56Names, c56Args2, g, c56Body2, fun σ => if g.tv σ then 1 else 0, zeroEnv.setBool c56X True,
    regular_havoc .lfp, rfl, c52Spans_ok, trivial, c56_fresh2, fun σ => ⟨?_, ?_, ?_⟩,
    (C56_conditions (regular_havoc .lfp) c52Spans_ok (body := c56Body2) trivial c56_fresh2).2
    { prob := fun _ _ _ _ => le_rfl
      decrease := fun _ _ _ _ => le_rfl
      inv := fun σ hi _ => ?_
      positive := fun σ _ hg => ?_
      super := fun σ _ _ => ?_
      progress := fun σ _ hg => ?_ }, hI _, rfl, if_pos hT, ?_⟩
  · rw [hp]; exact one_pos
  · rw [hp]
  · rw [hd]; exact one_pos
  · rw [hbody, if_pos (hI _)]
  · rw [hv, if_pos hg]; exact one_pos
  · rw [hbody, hv, if_neg (hoff σ), ENNReal.coe_zero]; exact zero_le
  · rw [hbody, hp, ENNReal.coe_one]
    refine (if_pos ?_).symm.le
    rw [hv (σ.setBool c56X False), if_neg (hoff σ)]
    exact zero_le
  · rw [vcSem_while]
    refine le_antisymm ?_ zero_le
    refine (sInf_le (a := fun _ => (0 : ℝ≥0∞)) ?_ : sInf {X : Exp | _} ≤ _) _
    intro τ
    show (if g.tv τ then vcSem C c56Body2 (fun _ => 0) τ else if g.tv τ then 1 else 0) ≤ (0 : ℝ≥0∞)
    by_cases hg : g.tv τ
    · rw [if_pos hg, hbody]
    · rw [if_neg hg, if_neg hg]

/-! ## The hypotheses are met: the "escaping spline" of the documentation -/

def c56P : Ident := ⟨"prob_choice", 0⟩

def c56UOne : Expr .ureal := .cast .uintUReal (Expr.uintLit 1)

/-- `var prob_choice: Bool = flip(1 / (x + 1)); if prob_choice { x = 0 } else { x = x + 1 }` -/
def c56Body : Stmt :=
  .seq (.sample true c56P (.flip (.bin (.div rfl) c56UOne
      (.cast .uintUReal (.bin (.add rfl) (.var c56X) (Expr.uintLit 1))))))
    (.ite (.var c56P) (.assign ⟨c56X, .uint⟩ (Expr.uintLit 0))
      (.assign ⟨c56X, .uint⟩ (.bin (.add rfl) (.var c56X) (Expr.uintLit 1))))

/-- `@ast(true, x, v, 1/(v+1), 1)` -/
def c56Spline : AstArgs :=
  ⟨Expr.boolLit true, .cast .uintUReal (.var c56X), c56V, .bin (.div rfl) c56UOne (.bin (.add rfl) (.var c56V) c56UOne), c56UOne⟩

/-- `x != 0` -/
def c56Guard : Expr .bool := .rel .ne (.var c56X) (Expr.uintLit 0)

section
variable [Doms] [Interp]

theorem c56Spline_fresh : c56Spline.Fresh c52Spans c56Names c56Guard c56Body := by
  have key : ∀ v, c52Spans.IsInit v → v ≠ ⟨c56X, .uint⟩ ∧ v ≠ ⟨c56V, .ureal⟩ ∧ v ≠ ⟨c56P, .bool⟩ := by
    intro v hv
    have := c52_isInit hv
    refine ⟨?_, ?_, ?_⟩ <;> (rintro rfl; exact absurd this (by decide))
  have hp : ∀ v, c56Spline.prob.Free v → v = ⟨c56V, .ureal⟩ := fun v h => by
    rcases h with h | h | h
    · exact h.elim
    · exact h
    · exact h.elim
  refine ⟨fun _ _ h => h, fun v hv h => (key v hv).1 h, fun v hv h => (key v hv).2.1 (hp v h), fun _ _ h => h,
    fun v hv h => ?_, fun v hv h => ?_, fun v hv h => ?_, fun v hv h => ?_, ⟨by decide, fun x hx => ⟨fun h => ?_, fun h => h⟩⟩,
    fun v h => Or.inl (hp v h), fun _ h => h.elim⟩
  · rcases h with h | h
    · exact (key v hv).1 h
    · exact h
  · have := key v hv
    simp [c56Body, Stmt.Reads, Expr.Free, DistCall.Reads, Expr.uintLit, c56UOne] at h
    tauto
  · have := key v hv
    simp [c56Body, Stmt.Touched] at h
    tauto
  · obtain rfl : v = ⟨c56P, .bool⟩ := by simpa [c56Body, Stmt.declared] using hv
    exact absurd h (by simp [c56Spline, Expr.Free])
  · have h1 := congrArg Var.id (hp _ h)
    rcases List.mem_cons.1 hx with rfl | hx
    · exact absurd h1 (by decide)
    · obtain rfl := List.mem_singleton.1 hx
      exact absurd h1 (by decide)

theorem c56UOne_uv (σ : Env) : c56UOne.uv σ = 1 := by
  show ((1 : ℕ) : ℝ≥0) = 1
  exact Nat.cast_one

theorem c56Spline_prob (σ : Env) : c56Spline.prob.uv σ = 1 / (σ.getU c56V + 1) := by
  have h1 : c56Spline.prob.uv σ = Ty.div .ureal (c56UOne.uv σ) (σ.getU c56V + c56UOne.uv σ) := rfl
  rw [h1, c56UOne_uv]
  exact if_neg (by positivity)

theorem c56Spline_variant (σ : Env) : c56Spline.variant.uv σ = (σ.nat c56X : ℝ≥0) := rfl

theorem c56Spline_inRange : c56Spline.InRange := fun σ => by
  rw [c56Spline_prob, show c56Spline.decrease.uv σ = 1 from c56UOne_uv σ]
  refine ⟨by positivity, ?_, one_pos⟩
  rw [div_le_one (by positivity)]
  exact le_add_self

/-- The probability of resetting `x`. -/
noncomputable def c56Q (σ : Env) : ℝ≥0 := 1 / ((σ.nat c56X : ℝ≥0) + 1)

theorem c56Q_le (σ : Env) : c56Q σ ≤ 1 := by
  unfold c56Q
  rw [div_le_one (by positivity)]
  exact le_add_self

theorem c56_flip (σ : Env) (f : Prop → ℝ≥0∞) :
    (DistCall.flip (.bin (.div rfl) c56UOne (.cast .uintUReal (.bin (.add rfl) (.var c56X) (Expr.uintLit 1))))).expect σ f
      = c56Q σ * f True + (1 - c56Q σ) * f False := by
  have h0 : (Expr.bin (.div rfl) c56UOne (.cast .uintUReal (.bin (.add rfl) (.var c56X) (Expr.uintLit 1)))).uv σ
      = c56Q σ := by
    have h1 : (Expr.bin (.div rfl) c56UOne (.cast .uintUReal (.bin (.add rfl) (.var c56X) (Expr.uintLit 1)))).uv σ
        = Ty.div .ureal (c56UOne.uv σ) (((σ.nat c56X + 1 : ℕ) : ℝ≥0)) := rfl
    rw [h1, c56UOne_uv]
    refine (if_neg (by positivity)).trans ?_
    unfold c56Q
    rw [Nat.cast_add, Nat.cast_one]
  rw [← h0]
  have h1 : ∀ p : Expr .ureal, (DistCall.flip p).expect σ f = ∑' r : Prop, (DistCall.flip p).pmf σ r * f r := fun _ => rfl
  rw [h1, tsum_prop]
  congr 1
  · exact congrArg (· * f True) (if_pos trivial)
  · exact congrArg (· * f False) (if_neg fun h => h)

theorem c56_kernel : c56Body.Kernel := by
  refine ⟨fun σ => ?_, trivial, trivial⟩
  have h1 := c56_flip σ fun _ => 1
  unfold DistCall.expect at h1
  simp only [mul_one] at h1
  rw [h1]
  exact (add_tsub_cancel_of_le (by exact_mod_cast c56Q_le σ)).le

theorem c56_body (C : SemCtx) (X : Exp) (σ : Env) : vcSem C c56Body X σ
    = c56Q σ * X ((σ.setBool c56P True).setNat c56X 0)
      + (1 - c56Q σ) * X ((σ.setBool c56P False).setNat c56X (σ.nat c56X + 1)) := by
  classical
  show (DistCall.flip (.bin (.div rfl) c56UOne (.cast .uintUReal (.bin (.add rfl) (.var c56X) (Expr.uintLit 1))))).expect σ
    (fun r : Prop => (if (σ.setBool c56P r).bool c56P then X ((σ.setBool c56P r).setNat c56X 0)
      else X ((σ.setBool c56P r).setNat c56X ((σ.setBool c56P r).nat c56X + 1)))) = _
  rw [c56_flip, Env.bool_setBool_same, Env.bool_setBool_same, if_pos trivial, if_neg (fun h => h)]
  have h : (σ.setBool c56P False).nat c56X = σ.nat c56X := Env.nat_setBool _ _ _ _
  rw [h]

theorem c56Spline_conditions (C : SemCtx) : AstConditions C c56Spline c56Guard c56Body := by
  classical
  have hg : ∀ σ, c56Guard.tv σ ↔ σ.nat c56X ≠ 0 := fun σ => Iff.rfl
  have hI : ∀ σ, c56Spline.inv.tv σ := fun σ => (rfl : true = true)
  have hd : ∀ σ, c56Spline.decrease.uv σ = 1 := c56UOne_uv
  have hU : ∀ (σ : Env) r, (σ.setU c56V r).getU c56V = r := fun σ r => Env.setU_same σ c56V r
  have hn1 : ∀ σ : Env, ((σ.setBool c56P True).setNat c56X 0).nat c56X = 0 := fun σ => Env.nat_setNat_same _ _ _
  have hn2 : ∀ (σ : Env) k, ((σ.setBool c56P False).setNat c56X k).nat c56X = k := fun σ k => Env.nat_setNat_same _ _ _
  have hq : ∀ σ, (c56Q σ : ℝ≥0∞) ≤ 1 := fun σ => by exact_mod_cast c56Q_le σ
  refine ⟨fun σ r s hrs => ?_, fun σ r s _ => ?_, fun σ _ _ => ?_, fun σ _ h => ?_, fun σ _ _ => ?_, fun σ _ h => ?_⟩
  · beta_reduce
    rw [c56Spline_prob, c56Spline_prob]
    rw [show (σ.setU c56Spline.fv s).getU c56V = s from hU σ s, show (σ.setU c56Spline.fv r).getU c56V = r from hU σ r]
    exact one_div_le_one_div_of_le (by positivity) (add_le_add hrs le_rfl)
  · beta_reduce
    rw [hd, hd]
  · rw [c56_body, if_pos (hI _), if_pos (hI _), mul_one, mul_one]
    exact (add_tsub_cancel_of_le (hq σ)).symm.le
  · rw [c56Spline_variant]
    exact_mod_cast Nat.pos_of_ne_zero ((hg σ).1 h)
  · rw [c56_body, c56Spline_variant, c56Spline_variant, c56Spline_variant, hn1, hn2, Nat.cast_zero, ENNReal.coe_zero,
      mul_zero, zero_add, ENNReal.sub_mul fun _ _ => ENNReal.coe_ne_top, one_mul, ← ENNReal.coe_mul]
    have h1 : c56Q σ * ((σ.nat c56X + 1 : ℕ) : ℝ≥0) = 1 := by
      unfold c56Q
      rw [Nat.cast_add, Nat.cast_one]
      exact one_div_mul_cancel (by positivity)
    rw [h1, Nat.cast_add, Nat.cast_one, ENNReal.coe_add, ENNReal.coe_one, tsub_le_iff_right]
  · rw [c56_body, c56Spline_prob, hd, c56Spline_variant, c56Spline_variant, hn1, Nat.cast_zero, if_pos zero_le, mul_one,
      show (σ.setU c56Spline.fv (σ.nat c56X)).getU c56V = σ.nat c56X from hU σ _]
    exact le_self_add

/-- All hypotheses of `C56_terminates` hold for the documented example: it terminates with probability one. -/
example {C : SemCtx} (hC : C.Regular) (hl : C.loop = .lfp) (σ : Env) :
    vcSem C (.while c56Guard c56Body) (fun _ => 1) σ = 1 :=
  C56_terminates hC hl c52Spans_ok c56_kernel c56Spline_fresh c56Spline_inRange
    ((C56_conditions hC c52Spans_ok c56_kernel c56Spline_fresh).2 (c56Spline_conditions C)) σ rfl

/-- Also those of `C56_block_partial`. -/
example {C : SemCtx} (hC : C.Regular) (hl : C.loop = .lfp) (y : Ident) (hy : y ≠ c56X) (σ : Env) :
    vcSem C astBlock (fun τ => (τ.nat y : ℝ≥0∞)) σ = vcSem C (.while c56Guard c56Body) (fun τ => (τ.nat y : ℝ≥0∞)) σ :=
  C56_block_partial hC hl c52Spans_ok c56_kernel c56Spline_fresh c56Spline_inRange
    ((C56_conditions hC c52Spans_ok c56_kernel c56Spline_fresh).2 (c56Spline_conditions C))
    (fun τ τ' h => by
      have h1 : τ'.nat y = τ.nat y := h ⟨y, .uint⟩ fun ht => by
        simp [c56Body, Stmt.Touched, hy] at ht
      rw [h1]) σ rfl

end

end Caesar
