import Verif.ProofRules.Ost
import Verif.ProofRules.Stochastic
import Verif.Props.C22
import Verif.DistLemmas
import Mathlib.Tactic.NormNum

/-!
# C52: the optional-stopping rule

Specification: if the generated side conditions verify, the invariant is a lower bound of the least fixed point of the
loop (`website/docs/proof-rules/ost.md`).
Model: `ostProcs`, the six generated (co)procedures, and `ostCall`, what remains of the loop
(`Verif/ProofRules/Ost.lean`). `Proc.Verified` says that the verification task built by `encodeProcVerify` holds in all
states.

The full property `C52_full` is false: the bodies to which the rule is sound are not checked, and with a *demonic*
choice all six conditions can hold although the loop need not terminate (`C52_not_full`).
`C52_stochastic_partial` proves the rule for bodies built from assignments, sampling, conditionals, angelic choices,
ticks, weights at most one, and Boolean assertions and assumptions; what is missing is a sound treatment of the other
statements.
`C52_call_partial` says that then also the statement generated in place of the loop is a lower bound of the loop.
-/

open scoped ENNReal NNReal

namespace Caesar
set_option linter.unusedSectionVars false

/-- The full property. The names with the spans used for `init_x` do not occur in the program. -/
def C52_full : Prop :=
  ∀ (_ : Doms) (_ : Interp) (C : SemCtx), C.Regular → C.loop = .lfp →
    ∀ (sp : Spans) (a : OstArgs) (c : Expr .bool) (body : Stmt), sp.Ok → body.NoNeg → a.Fresh sp c body →
      (∀ p ∈ ostProcs sp a c body, p.Verified C) → ∀ σ, a.inv.ev σ ≤ vcSem C (.while c body) a.post.ev σ

section
variable [Doms] [Interp]

/-- The invariant is a lower bound of the loop, for purely probabilistic bodies. -/
theorem C52_stochastic_partial {C : SemCtx} (hC : C.Regular) (hl : C.loop = .lfp) {sp : Spans} {a : OstArgs}
    {c : Expr .bool} {body : Stmt} (hsp : sp.Ok) (hb : body.Stochastic) (hf : a.Fresh sp c body)
    (h : ∀ p ∈ ostProcs sp a c body, p.Verified C) (σ : Env) :
    a.inv.ev σ ≤ vcSem C (.while c body) a.post.ev σ := by
  classical
  have hc := ost_conditions hC hsp hb.noNeg hf h
  obtain ⟨L, t, hL, hle, heq⟩ := hb.affine (C := C) a.inv.ev
  have hmono : Monotone (loopFun C c body a.post.ev) := loopFun_mono (vcSem_mono C hC.mono hb.noNeg) c _
  have hF := lfp_prefixed hmono
  rw [vcSem_while, hl]
  have hpos : ∀ X τ, c.tv τ → loopFun C c body a.post.ev X τ = vcSem C body X τ := fun X τ hg => if_pos hg
  have hneg : ∀ X τ, ¬ c.tv τ → loopFun C c body a.post.ev X τ = a.post.ev τ := fun X τ hg => if_neg hg
  refine optional_stopping hL (G := c.tv) (f := a.post.ev) (P := a.past.ev) (c := ((a.c : ℝ≥0) : ℝ≥0∞)) (t := t)
    ENNReal.coe_ne_top (fun τ => ne_top_of_le_ne_top (hc.finite τ) (hc.lower τ)) hc.pastFinite ?_ ?_ ?_ ?_ ?_ ?_ σ
  · intro τ hg
    rw [heq, ← hpos _ _ hg]
    exact hc.lower τ
  · exact fun τ hg => (hc.exit τ hg).le
  · exact fun τ hg => (le_self_add.trans (hle _ τ)).trans (hc.past τ hg)
  · exact fun τ _ => (le_self_add.trans (hle _ τ)).trans (hc.diff τ)
  · exact fun τ hg => (hle _ τ).trans ((hpos _ τ hg).symm.le.trans (hF τ))
  · exact fun τ hg => (hneg (fixpoint .lfp (loopFun C c body a.post.ev)) τ hg).symm.le.trans (hF τ)

/-- What replaces the loop is a lower bound of the loop, for all postexpectations. The variables `init_x` have the
values of `x` (they are free in the generated statement), and the postexpectations do not mention the local variables
of the body. -/
theorem C52_call_partial {C : SemCtx} (hC : C.Regular) (hl : C.loop = .lfp) {sp : Spans} {a : OstArgs}
    {c : Expr .bool} {body : Stmt} (hsp : sp.Ok) (hb : body.Stochastic) (hf : a.Fresh sp c body)
    (h : ∀ p ∈ ostProcs sp a c body, p.Verified C) (declared : List Var) {φ : Exp}
    (hpost : Ignores (· ∈ body.declared) a.post.ev) (hφ : Ignores (· ∈ body.declared) φ) {σ : Env}
    (hσ : ∀ x, ¬ sp.IsInit x → σ (initVar sp x) = σ x) :
    vcSem C (ostCall sp a c body declared) φ σ ≤ vcSem C (.while c body) φ σ := by
  classical
  rw [ostCall_sem hf declared φ hσ]
  split
  next hall =>
    refine (C52_stochastic_partial hC hl hsp hb hf h σ).trans ?_
    let ψ : Exp := fun τ => if AgreeOff body.Touched σ τ then a.post.ev τ else 0
    have h1 : vcSem C (.while c body) a.post.ev σ = vcSem C (.while c body) ψ σ :=
      vcSem_frame hC (S := .while c body) (M := body.Touched) (fun _ hv => hv) fun τ hτ => (if_pos hτ).symm
    rw [h1]
    refine vcSem_mono C hC.mono (S := .while c body) hb.noNeg (fun τ => ?_) σ
    show (if AgreeOff body.Touched σ τ then a.post.ev τ else 0) ≤ φ τ
    split
    next hτ =>
      let τ' : Env := fun v => if v ∈ loopVars body then τ v else σ v
      have hag : AgreeOff (· ∈ body.declared) τ τ' := by
        intro v hv
        show (if v ∈ loopVars body then τ v else σ v) = τ v
        split
        next => rfl
        next hm =>
          refine (hτ v fun ht => ?_).symm
          rcases Stmt.touched_cases ht with h1 | h1 | h1
          · exact hm (mem_loopVars.2 ⟨h1, hv⟩)
          · exact hv h1
          · exact hb.noHavoc v h1
      rw [← hpost τ τ' hag, ← hφ τ τ' hag]
      exact hall τ' fun v hv => if_neg hv
    next => exact zero_le
  next => exact zero_le

end

section
variable [Doms]

/-- The value of a Boolean variable. -/
def Env.bool (σ : Env) (x : Ident) : Prop := σ ⟨x, .bool⟩

def Env.setBool (σ : Env) (x : Ident) (p : Prop) : Env := σ.upd ⟨x, .bool⟩ p

theorem Env.bool_setBool_same (σ : Env) (x : Ident) (p : Prop) : (σ.setBool x p).bool x = p := Env.upd_same _ _ _

theorem Env.bool_setBool_ne (σ : Env) {x y : Ident} (p : Prop) (h : y ≠ x) : (σ.setBool x p).bool y = σ.bool y :=
  Env.upd_ne _ (fun h' => h (congrArg Var.id h')) _

theorem Env.nat_setBool (σ : Env) (x y : Ident) (p : Prop) : (σ.setBool x p).nat y = σ.nat y :=
  Env.upd_ne σ (v := ⟨x, .bool⟩) (w := ⟨y, .uint⟩) (fun h => nomatch congrArg Var.ty h) _

theorem Env.bool_setNat (σ : Env) (x y : Ident) (k : ℕ) : (σ.setNat x k).bool y = σ.bool y :=
  Env.upd_ne σ (v := ⟨x, .uint⟩) (w := ⟨y, .bool⟩) (fun h => nomatch congrArg Var.ty h) _

end

/-! ## Counterexample: demonic choice -/

/-- Spans for the examples: `init_x` gets an odd span, the call an even span. -/
def c52Spans : Spans := ⟨fun n => 2 * n + 1, fun n => 2 * n⟩

theorem c52Spans_ok : c52Spans.Ok := ⟨fun m n h => by
  have h : 2 * m + 1 = 2 * n + 1 := h
  omega⟩

theorem c52_isInit {v : Var} (h : c52Spans.IsInit v) : v.id.span % 2 = 1 := by
  obtain ⟨n, hn⟩ := h
  rw [hn]
  show (2 * n + 1) % 2 = 1
  omega

def c52X : Ident := ⟨"x", 0⟩

/-- `@ost(1, [x], 0, 1) while x { if ⊓ { x = false } else { } }` -/
def c52Args : OstArgs := ⟨oneSpec, .iverson (.var c52X), 0, oneSpec⟩

def c52Body : Stmt := .demonic (.assign ⟨c52X, .bool⟩ (Expr.boolLit false)) .skip

theorem c52_fresh : c52Args.Fresh c52Spans (.var c52X) c52Body := by
  have key : ∀ v, c52Spans.IsInit v → v ≠ ⟨c52X, .bool⟩ := by
    rintro v hv rfl
    exact absurd (c52_isInit hv) (by decide)
  exact ⟨fun _ _ h => h, fun v hv h => key v hv h, fun _ _ h => h, fun v hv h => key v hv h,
    fun v hv h => h.elim (fun h => h) (fun h => h), fun v hv h => h.elim (fun h => key v hv h) (fun h => h),
    trivial, trivial, trivial, trivial⟩

theorem C52_not_full : ¬ C52_full := by
  classical
  intro h
  let _ := unitDoms
  let _ := unitInterp
  let C : SemCtx := ⟨.lfp, fun l _ _ φ σ => ⨅ σ' ∈ {σ' | Agree l σ σ'}, φ σ'⟩
  have hC : C.Regular := regular_havoc .lfp
  let g : Expr .bool := .var c52X
  have hoff : ∀ σ : Env, ¬ g.tv (σ.setBool c52X False) := fun σ hg => by
    have h1 : (σ.setBool c52X False).bool c52X = False := Env.bool_setBool_same _ _ _
    exact h1.mp hg
  have hbody : ∀ (X : Exp) σ, vcSem C c52Body X σ = min (X (σ.setBool c52X False)) (X σ) := by
    intro X σ
    show min (X (σ.setBool c52X ((Expr.boolLit false).eval σ))) (X σ) = _
    rw [eval_boolLit_false]
  have hP : ∀ σ, c52Args.past.ev σ = if g.tv σ then 1 else 0 := fun σ => Expr.ev_iverson _ _
  have hI : ∀ σ, c52Args.inv.ev σ = 1 := oneSpec_ev
  have hJ : ∀ σ, c52Args.post.ev σ = 1 := oneSpec_ev
  have hloop : ∀ σ, loopFun C g c52Body c52Args.post.ev c52Args.inv.ev σ = 1 := by
    intro σ
    unfold loopFun
    rw [hbody, hI, hI, hJ, min_self, ite_self]
  have hcond : OstConditions C c52Args g c52Body :=
    { pastFinite := fun σ => by
        rw [hP]; split
        · exact ENNReal.one_ne_top
        · exact ENNReal.zero_ne_top
      past := fun σ hg => by
        rw [hbody, hP, hP, if_neg (hoff σ), if_pos hg, zero_add]
        exact min_le_left _ _
      diff := fun σ => by
        rw [hbody, hI, hI, min_self]
        unfold dist'
        simp
      exit := fun σ _ => by rw [hI, hJ]
      finite := fun σ => by rw [hloop]; exact ENNReal.one_ne_top
      lower := fun σ => by rw [hloop, hI] }
  have hver := ost_verified (sp := c52Spans) hC c52_fresh (fun v hv => by
    rcases hv with hv | hv
    · exact hv.elim
    · obtain rfl : v = ⟨c52X, .bool⟩ := hv
      decide) hcond
  have h1 := h unitDoms unitInterp C hC rfl c52Spans c52Args g c52Body c52Spans_ok ⟨trivial, trivial⟩ c52_fresh hver
    (zeroEnv.setBool c52X True)
  rw [hI, vcSem_while] at h1
  have hT : g.tv (zeroEnv.setBool c52X True) := by
    have h2 : (zeroEnv.setBool c52X True).bool c52X = True := Env.bool_setBool_same _ _ _
    exact h2.mpr trivial
  let Y : Exp := fun σ => if g.tv σ then 0 else 1
  have hY : fixpoint .lfp (loopFun C g c52Body c52Args.post.ev) ≤ Y := by
    refine sInf_le (show loopFun C g c52Body c52Args.post.ev Y ≤ Y from fun σ => ?_)
    unfold loopFun
    rw [hbody, hJ]
    show _ ≤ if g.tv σ then (0 : ℝ≥0∞) else 1
    by_cases hg : g.tv σ
    · rw [if_pos hg, if_pos hg]
      exact (min_le_right _ _).trans (if_pos hg).le
    · rw [if_neg hg, if_neg hg]
  have h3 : (1 : ℝ≥0∞) ≤ 0 := (h1.trans (hY _)).trans (if_pos hT).le
  exact absurd h3 (by simp)

/-! ## The hypotheses are met: the geometric loop of the documentation -/

def c52A : Ident := ⟨"a", 0⟩
def c52B : Ident := ⟨"b", 0⟩
def c52P : Ident := ⟨"p", 0⟩

/-- `var p: Bool = ber(1,1); if p { a = false } else { b = b + 1 }` -/
def c52GeoBody : Stmt :=
  .seq (.sample true c52P (.ber 1 1)) (.ite (.var c52P) (.assign ⟨c52A, .bool⟩ (Expr.boolLit false))
    (.assign ⟨c52B, .uint⟩ (.bin (.add rfl) (.var c52B) (Expr.uintLit 1))))

/-- `@ost(b + [a], 2 * [a], 1, b) while a { … }` -/
def c52GeoArgs : OstArgs :=
  ⟨.bin (.add rfl) (.cast .uintEUReal (.var c52B)) (.iverson (.var c52A)),
    .bin (.add rfl) (.iverson (.var c52A)) (.iverson (.var c52A)), 1, .cast .uintEUReal (.var c52B)⟩

section
variable [Doms] [Interp]

theorem c52Geo_fresh : c52GeoArgs.Fresh c52Spans (.var c52A) c52GeoBody := by
  have key : ∀ v, c52Spans.IsInit v → v ≠ ⟨c52A, .bool⟩ ∧ v ≠ ⟨c52B, .uint⟩ ∧ v ≠ ⟨c52P, .bool⟩ := by
    intro v hv
    have := c52_isInit hv
    refine ⟨?_, ?_, ?_⟩ <;> (rintro rfl; exact absurd this (by decide))
  refine ⟨fun v hv h => ?_, fun v hv h => ?_, fun v hv h => ?_, fun v hv h => ?_, fun v hv h => ?_, fun v hv h => ?_, ?_⟩
  · exact h.elim (key v hv).2.1 (key v hv).1
  · exact h.elim (key v hv).1 (key v hv).1
  · exact (key v hv).2.1 h
  · exact (key v hv).1 h
  · have := key v hv
    simp [c52GeoBody, Stmt.Reads, Expr.Free, DistCall.Reads, Expr.boolLit, Expr.uintLit] at h
    tauto
  · have := key v hv
    simp [c52GeoBody, Stmt.Touched] at h
    tauto
  · simp [c52GeoArgs, Expr.NoSubst]

theorem c52_ber (σ : Env) (f : Prop → ℝ≥0∞) : (DistCall.ber 1 1).expect σ f = 2⁻¹ * f True + 2⁻¹ * f False := by
  have h : ((1 : ℕ) : ℝ≥0∞) / ((1 : ℕ) + (1 : ℕ)) = 2⁻¹ := by
    rw [Nat.cast_one, one_add_one_eq_two, one_div]
  have h1 : (DistCall.ber 1 1).expect σ f = ∑' r : Prop, (DistCall.ber 1 1).pmf σ r * f r := rfl
  rw [h1, tsum_prop]
  congr 1
  · exact congrArg (· * f True) ((if_pos trivial).trans h)
  · exact congrArg (· * f False) ((if_neg fun h => h).trans h)

theorem c52_halves : (2⁻¹ : ℝ≥0∞) + 2⁻¹ = 1 := ENNReal.inv_two_add_inv_two

theorem c52Geo_stochastic : c52GeoBody.Stochastic := by
  refine ⟨fun σ => ?_, trivial, trivial⟩
  have h1 : ∑' a, (DistCall.ber 1 1).pmf σ a = (DistCall.ber 1 1).expect σ (fun _ => 1) := by
    unfold DistCall.expect
    simp
  rw [h1]
  exact le_of_eq ((c52_ber σ fun _ => 1).trans (by rw [mul_one, c52_halves]))

theorem c52Geo_body (C : SemCtx) (X : Exp) (σ : Env) : vcSem C c52GeoBody X σ
    = 2⁻¹ * X ((σ.setBool c52P True).setBool c52A False) + 2⁻¹ * X ((σ.setBool c52P False).setNat c52B (σ.nat c52B + 1)) := by
  classical
  show (DistCall.ber 1 1).expect σ (fun r : Prop => (if (σ.setBool c52P r).bool c52P then
    X ((σ.setBool c52P r).setBool c52A ((Expr.boolLit false).eval (σ.setBool c52P r)))
    else X ((σ.setBool c52P r).setNat c52B ((σ.setBool c52P r).nat c52B + 1)))) = _
  rw [c52_ber, Env.bool_setBool_same, Env.bool_setBool_same, if_pos trivial, if_neg (fun h => h), eval_boolLit_false]
  have h : (σ.setBool c52P False).nat c52B = σ.nat c52B := Env.nat_setBool _ _ _ _
  rw [h]

open Classical in
theorem c52Geo_past (σ : Env) : c52GeoArgs.past.ev σ = if σ.bool c52A then 2 else 0 := by
  unfold c52GeoArgs
  rw [Expr.ev_add, Expr.ev_iverson]
  show (if σ.bool c52A then (1 : ℝ≥0∞) else 0) + (if σ.bool c52A then 1 else 0) = _
  split
  · exact one_add_one_eq_two
  · exact add_zero 0

open Classical in
theorem c52Geo_inv (σ : Env) : c52GeoArgs.inv.ev σ = σ.nat c52B + if σ.bool c52A then 1 else 0 := by
  unfold c52GeoArgs
  rw [Expr.ev_add, Expr.ev_iverson]
  rfl

theorem c52Geo_post (σ : Env) : c52GeoArgs.post.ev σ = σ.nat c52B := rfl

theorem c52Geo_conditions (C : SemCtx) : OstConditions C c52GeoArgs (.var c52A) c52GeoBody := by
  classical
  have ha1 : ∀ σ : Env, ((σ.setBool c52P True).setBool c52A False).bool c52A = False := fun σ => Env.bool_setBool_same _ _ _
  have hb1 : ∀ σ : Env, ((σ.setBool c52P True).setBool c52A False).nat c52B = σ.nat c52B := fun σ =>
    (Env.nat_setBool _ _ _ _).trans (Env.nat_setBool _ _ _ _)
  have ha2 : ∀ σ : Env, ∀ k, ((σ.setBool c52P False).setNat c52B k).bool c52A = σ.bool c52A := fun σ k =>
    (Env.bool_setNat _ _ _ _).trans (Env.bool_setBool_ne _ _ (by decide))
  have hb2 : ∀ σ : Env, ∀ k, ((σ.setBool c52P False).setNat c52B k).nat c52B = k := fun σ k => Env.nat_setNat_same _ _ _
  have hg : ∀ σ : Env, (Expr.var c52A : Expr .bool).tv σ = σ.bool c52A := fun σ => rfl
  have hloop : ∀ σ, loopFun C (.var c52A) c52GeoBody c52GeoArgs.post.ev c52GeoArgs.inv.ev σ = c52GeoArgs.inv.ev σ := by
    intro σ
    unfold loopFun
    rw [c52Geo_body, c52Geo_inv, c52Geo_inv, c52Geo_inv, c52Geo_post, ha1, hb1, ha2, hb2, hg, if_neg (fun h => h)]
    split
    · rw [Nat.cast_add, Nat.cast_one, ← mul_add, add_zero, add_assoc, ← add_assoc, ← two_mul, one_add_one_eq_two, ← mul_one (2 : ℝ≥0∞)]
      rw [mul_one, ← mul_add_one, ← mul_assoc, ENNReal.inv_mul_cancel two_ne_zero ENNReal.ofNat_ne_top, one_mul]
    · rw [add_zero]
  refine ⟨fun σ => ?_, fun σ h => ?_, fun σ => ?_, fun σ h => ?_, fun σ => ?_, fun σ => (hloop σ).symm.le⟩
  · rw [c52Geo_past]
    split
    · exact ENNReal.ofNat_ne_top
    · exact ENNReal.zero_ne_top
  · rw [hg] at h
    rw [c52Geo_body, c52Geo_past, c52Geo_past, c52Geo_past, ha1, ha2, if_neg (fun h => h), if_pos h, ← mul_add]
    rw [zero_add, ← add_assoc, add_comm (1 : ℝ≥0∞) 2, add_assoc, one_add_one_eq_two, mul_add,
      ENNReal.inv_mul_cancel two_ne_zero ENNReal.ofNat_ne_top, one_add_one_eq_two]
  · rw [c52Geo_body]
    have hd1 : dist' (c52GeoArgs.inv.ev σ) (c52GeoArgs.inv.ev ((σ.setBool c52P True).setBool c52A False)) ≤ 1 := by
      rw [c52Geo_inv, c52Geo_inv, ha1, hb1, if_neg (fun h => h), add_zero]
      have h1 : ∀ n x : ℝ≥0∞, n ≠ ⊤ → x ≤ 1 → dist' (n + x) n ≤ 1 := by
        intro n x hn hx
        unfold dist'
        split
        · rw [tsub_eq_zero_of_le le_self_add]; exact zero_le
        · rwa [ENNReal.add_sub_cancel_left hn]
      refine h1 _ _ (ENNReal.natCast_ne_top _) ?_
      split
      · exact le_rfl
      · exact zero_le
    have hd2 : dist' (c52GeoArgs.inv.ev σ) (c52GeoArgs.inv.ev ((σ.setBool c52P False).setNat c52B (σ.nat c52B + 1))) ≤ 1 := by
      rw [c52Geo_inv, c52Geo_inv, ha2, hb2, Nat.cast_add, Nat.cast_one, add_right_comm]
      unfold dist'
      rw [if_pos le_self_add]
      exact tsub_le_iff_left.2 le_rfl
    refine (add_le_add (mul_le_mul_right hd1 _) (mul_le_mul_right hd2 _)).trans ?_
    rw [mul_one, c52_halves]
    simp [c52GeoArgs]
  · rw [hg] at h
    rw [c52Geo_inv, c52Geo_post, if_neg h, add_zero]
  · rw [hloop, c52Geo_inv]
    refine ENNReal.add_ne_top.2 ⟨ENNReal.natCast_ne_top _, ?_⟩
    split
    · exact ENNReal.one_ne_top
    · exact ENNReal.zero_ne_top

theorem c52Geo_verified {C : SemCtx} (hC : C.Regular) :
    ∀ p ∈ ostProcs c52Spans c52GeoArgs (.var c52A) c52GeoBody, p.Verified C :=
  ost_verified hC c52Geo_fresh (fun v hv => by
    have : v = ⟨c52A, .bool⟩ ∨ v = ⟨c52B, .uint⟩ := by
      rcases hv with (hv | hv) | (hv | hv)
      · exact Or.inr hv
      · exact Or.inl hv
      · exact Or.inl hv
      · exact Or.inl hv
    rcases this with rfl | rfl <;> decide) (c52Geo_conditions C)

/-- All hypotheses of `C52_stochastic_partial` hold for the geometric loop: its expected final value of `b`, started
with `a = true`, is at least `b + 1`. -/
example {C : SemCtx} (hC : C.Regular) (hl : C.loop = .lfp) (σ : Env) (hσ : σ.bool c52A) :
    (σ.nat c52B : ℝ≥0∞) + 1 ≤ vcSem C (.while (.var c52A) c52GeoBody) c52GeoArgs.post.ev σ := by
  have h := C52_stochastic_partial hC hl c52Spans_ok c52Geo_stochastic c52Geo_fresh (c52Geo_verified hC) σ
  rwa [c52Geo_inv, if_pos hσ] at h

end

/-- Also those of `C52_call_partial`. -/
example : ∃ (_ : Doms) (_ : Interp) (C : SemCtx) (σ : Env), C.Regular ∧
    vcSem C (ostCall c52Spans c52GeoArgs (.var c52A) c52GeoBody []) c52GeoArgs.post.ev σ = 1 ∧
    vcSem C (ostCall c52Spans c52GeoArgs (.var c52A) c52GeoBody []) c52GeoArgs.post.ev σ
      ≤ vcSem C (.while (.var c52A) c52GeoBody) c52GeoArgs.post.ev σ := by
  classical
  let _ := unitDoms
  let _ := unitInterp
  let C : SemCtx := ⟨.lfp, fun l _ _ φ σ => ⨅ σ' ∈ {σ' | Agree l σ σ'}, φ σ'⟩
  let σ : Env := (zeroEnv.setBool c52A True).sync c52Spans
  have hs : ∀ x, ¬ c52Spans.IsInit x → σ (initVar c52Spans x) = σ x := fun x hx =>
    (sync_init c52Spans_ok _ _).trans (sync_other _ hx).symm
  have hig : Ignores (· ∈ c52GeoBody.declared) c52GeoArgs.post.ev := fun τ τ' h => by
    have : τ'.nat c52B = τ.nat c52B := h ⟨c52B, .uint⟩ (by decide)
    rw [c52Geo_post, c52Geo_post, this]
  refine ⟨unitDoms, unitInterp, C, σ, regular_havoc .lfp, ?_,
    C52_call_partial (regular_havoc .lfp) rfl c52Spans_ok c52Geo_stochastic c52Geo_fresh
      (c52Geo_verified (regular_havoc .lfp)) [] hig hig hs⟩
  rw [ostCall_sem c52Geo_fresh [] _ hs, if_pos fun _ _ => le_rfl, c52Geo_inv]
  have ha : ¬ c52Spans.IsInit ⟨c52A, .bool⟩ := fun h => absurd (c52_isInit h) (by decide)
  have hb : ¬ c52Spans.IsInit ⟨c52B, .uint⟩ := fun h => absurd (c52_isInit h) (by decide)
  have h1 : σ.bool c52A = True := (sync_other (zeroEnv.setBool c52A True) ha).trans (Env.bool_setBool_same _ _ _)
  have h2 : σ.nat c52B = 0 := (sync_other (zeroEnv.setBool c52A True) hb).trans (Env.nat_setBool _ _ _ _)
  rw [h1, h2, if_pos trivial, Nat.cast_zero, zero_add]

end Caesar
