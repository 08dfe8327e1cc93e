import Verif.ProofRules.LoopsSem
import Verif.ProofRules.LoopsSound

/-!
# The `@omega_invariant` encoding

Models `src/proof_rules/omega.rs:127-235`, and its meaning (proofs).
-/

open scoped ENNReal NNReal

namespace Caesar
set_option linter.unusedSectionVars false

/-- `I_{n+1}`, the invariant with `n` replaced by `n + 1` (`src/proof_rules/omega.rs:150-160`). -/
def omegaNext (n : Ident) (I : Expr .eureal) : Expr .eureal :=
  .subst ⟨n, .uint⟩ (.bin (t := .uint) (.add rfl) (.var n) (Expr.uintLit 1)) I

/-- `I_0` (`src/proof_rules/omega.rs:161-162`). -/
def omegaNull (n : Ident) (I : Expr .eureal) : Expr .eureal := .subst ⟨n, .uint⟩ (Expr.uintLit 0) I

/-- `cast(spec_ty, 0)` (`src/proof_rules/omega.rs:177`). -/
def zeroSpec : Expr .eureal := .cast .uintEUReal (Expr.uintLit 0)

/-- First side condition (`src/proof_rules/omega.rs:184-192`): `validate; assume I_0; Φ(0)`. The literal `0` is used in
both directions (`src/proof_rules/omega.rs:172-182`). -/
def omegaCond1 (d : Dir) (n : Ident) (I : Expr .eureal) (c : Expr .bool) (body : Stmt) : Stmt :=
  Stmt.block [.validate d, .assume d (omegaNull n I), encodeIter c body (heyConst zeroSpec d)]

/-- Second side condition (`src/proof_rules/omega.rs:195-203`): `havoc n; validate; assume I_{n+1}; Φ(I_n)`. -/
def omegaCond2 (d : Dir) (n : Ident) (I : Expr .eureal) (c : Expr .bool) (body : Stmt) : Stmt :=
  Stmt.block [.havoc d [⟨n, .uint⟩], .validate d, .assume d (omegaNext n I), encodeIter c body (heyConst I d)]

/-- The choice between the two side conditions (`src/proof_rules/omega.rs:222-228`). -/
def omegaConds (d : Dir) (n : Ident) (I : Expr .eureal) (c : Expr .bool) (body : Stmt) : Stmt :=
  match d with
  | .down => .demonic (omegaCond1 d n I c body) (omegaCond2 d n I c body)
  | .up => .angelic (omegaCond1 d n I c body) (omegaCond2 d n I c body)

/-- `OmegaInvAnnotation::transform` (`src/proof_rules/omega.rs:127-235`) on `while c { body }`. -/
def transformOmega (d : Dir) (n : Ident) (I : Expr .eureal) (c : Expr .bool) (body : Stmt) : Stmt :=
  Stmt.block [.havoc d.toggle [⟨n, .uint⟩], .assert d I, omegaConds d n I c body]

section
variable [Doms] [Interp]

/-- The state with the number `k` stored in `n`. -/
def Env.setNat (σ : Env) (n : Ident) (k : ℕ) : Env := σ.upd ⟨n, .uint⟩ k

theorem Env.setNat_same (σ : Env) (n : Ident) (k : ℕ) : σ.setNat n k ⟨n, .uint⟩ = k := Env.upd_same _ _ _

theorem Env.setNat_ne (σ : Env) {n : Ident} (k : ℕ) {v : Var} (h : v ≠ ⟨n, .uint⟩) : σ.setNat n k v = σ v :=
  Env.upd_ne _ h _

/-- `I_k` in a state: the invariant with `n = k`. -/
noncomputable def omegaAt (n : Ident) (I : Expr .eureal) (k : ℕ) : Exp :=
  fun σ => I.ev (σ.setNat n k)

/-- States that differ at most in the value of `n`. -/
theorem agree_single {n : Ident} {σ σ' : Env} (h : Agree [⟨n, .uint⟩] σ σ') :
    σ' = σ.upd ⟨n, .uint⟩ (σ' ⟨n, .uint⟩) := by
  funext v
  by_cases hv : v = ⟨n, .uint⟩
  · subst hv; simp
  · rw [Env.upd_ne _ hv]; exact h v (by simpa using hv)

theorem agree_upd (n : Ident) (σ : Env) (k : ℕ) :
    Agree [⟨n, .uint⟩] σ (σ.setNat n k) := fun v hv =>
  Env.upd_ne _ (by simpa using hv) _

theorem iInf_agree (n : Ident) (σ : Env) (f : Exp) :
    (⨅ σ' ∈ {σ' | Agree [⟨n, .uint⟩] σ σ'}, f σ') = ⨅ k : ℕ, f (σ.setNat n k) := by
  apply le_antisymm
  · exact le_iInf fun k => iInf₂_le (f := fun σ' (_ : σ' ∈ {σ' | Agree [⟨n, .uint⟩] σ σ'}) => f σ') _ (agree_upd n σ k)
  · refine le_iInf₂ fun σ' hs => ?_
    rw [agree_single hs]
    exact iInf_le (fun k : ℕ => f (σ.setNat n k)) _

theorem iSup_agree (n : Ident) (σ : Env) (f : Exp) :
    (⨆ σ' ∈ {σ' | Agree [⟨n, .uint⟩] σ σ'}, f σ') = ⨆ k : ℕ, f (σ.setNat n k) := by
  apply le_antisymm
  · refine iSup₂_le fun σ' hs => ?_
    rw [agree_single hs]
    exact le_iSup (fun k : ℕ => f (σ.setNat n k)) _
  · exact iSup_le fun k => le_iSup₂ (f := fun σ' (_ : σ' ∈ {σ' | Agree [⟨n, .uint⟩] σ σ'}) => f σ') _ (agree_upd n σ k)

theorem zeroSpec_ev (σ : Env) : zeroSpec.ev σ = 0 := by
  show ((0 : ℕ) : ℝ≥0∞) = 0
  exact Nat.cast_zero

theorem omegaNull_ev (n : Ident) (I : Expr .eureal) (σ : Env) : (omegaNull n I).ev σ = omegaAt n I 0 σ := rfl

theorem upd_upd {v : Var} (σ : Env) (a b : v.ty.den) : (σ.upd v a).upd v b = σ.upd v b := by
  funext w
  by_cases hw : w = v
  · subst hw; simp
  · rw [Env.upd_ne _ hw, Env.upd_ne _ hw, Env.upd_ne _ hw]

theorem omegaNext_ev (n : Ident) (I : Expr .eureal) (σ : Env) (k : ℕ) :
    (omegaNext n I).ev (σ.setNat n k) = omegaAt n I (k + 1) σ := by
  have h : ((σ.setNat n k) ⟨n, .uint⟩ : ℕ) = k := Env.setNat_same σ n k
  have h' : ∀ m : ℕ, m = k → I.ev ((σ.setNat n k).setNat n (m + 1)) = I.ev (σ.setNat n (k + 1)) := by
    intro m hm
    subst hm
    congr 1
    exact upd_upd σ _ _
  exact h' _ h

/-- One loop iteration does not see `n`, if the loop does not mention it. -/
theorem loopFun_omegaAt {C : SemCtx} (hC : C.Regular) {n : Ident} {c : Expr .bool} {body : Stmt} {φ : Exp}
    (hb : body.NoNeg) (hc : ¬ c.Free ⟨n, .uint⟩) (ht : ¬ body.Touched ⟨n, .uint⟩) (hr : ¬ body.Reads ⟨n, .uint⟩)
    (hφ : Ignores (· = ⟨n, .uint⟩) φ) (I : Expr .eureal) (k : ℕ) (σ : Env) :
    loopFun C c body φ I.ev (σ.setNat n k)
      = loopFun C c body φ (omegaAt n I k) σ := by
  classical
  set τ := σ.setNat n k with hτ
  have hag : AgreeOff (· = ⟨n, .uint⟩) σ τ := AgreeOff.upd σ (D := (· = ⟨n, .uint⟩)) rfl _
  have hi : Ignores (· = ⟨n, .uint⟩) (omegaAt n I k) := by
    intro ρ ρ' h
    show I.ev _ = I.ev _
    have : ρ'.setNat n k = ρ.setNat n k := by
      funext v
      by_cases hv : v = ⟨n, .uint⟩
      · subst hv; exact (Env.setNat_same _ _ _).trans (Env.setNat_same _ _ _).symm
      · exact (Env.setNat_ne _ _ hv).trans ((h v hv).trans (Env.setNat_ne _ _ hv).symm)
    rw [this]
  have h1 : vcSem C body I.ev τ = vcSem C body (omegaAt n I k) τ := by
    refine vcSem_frame hC (M := (· ≠ ⟨n, .uint⟩)) (fun v hv h => ht (h ▸ hv)) fun σ' hs => ?_
    show I.ev σ' = I.ev (σ'.setNat n k)
    congr 1
    funext v
    by_cases hv : v = ⟨n, .uint⟩
    · subst hv
      exact (hs _ (fun h => h rfl)).trans ((Env.setNat_same _ _ _).trans (Env.setNat_same _ _ _).symm)
    · exact (Env.setNat_ne _ _ hv).symm
  have h2 : vcSem C body (omegaAt n I k) τ = vcSem C body (omegaAt n I k) σ :=
    vcSem_ignores hC hb hi σ τ (hag.mono fun v hv => by subst hv; exact ⟨hr, Or.inl rfl⟩)
  have h3 : c.tv τ ↔ c.tv σ := tv_agreeOff (D := (· = ⟨n, .uint⟩)) (fun v hv => by subst hv; exact hc) hag
  unfold loopFun
  by_cases hcσ : c.tv σ
  · rw [if_pos hcσ, if_pos (h3.2 hcσ), h1, h2]
  · rw [if_neg hcσ, if_neg (fun h => hcσ (h3.1 h)), hφ σ τ hag]

/-- `Φ(0)` does not depend on `n` either. -/
theorem loopFun_zero_ignores {C : SemCtx} (hC : C.Regular) {n : Ident} {c : Expr .bool} {body : Stmt} {φ : Exp}
    (hb : body.NoNeg) (hc : ¬ c.Free ⟨n, .uint⟩) (hr : ¬ body.Reads ⟨n, .uint⟩)
    (hφ : Ignores (· = ⟨n, .uint⟩) φ) {X : Exp} (hX : Ignores (· = ⟨n, .uint⟩) X) :
    Ignores (· = ⟨n, .uint⟩) (loopFun C c body φ X) := by
  classical
  intro σ τ hag
  have h2 : vcSem C body X τ = vcSem C body X σ :=
    vcSem_ignores hC hb hX σ τ (hag.mono fun v hv => by subst hv; exact ⟨hr, Or.inl rfl⟩)
  have h3 : c.tv τ ↔ c.tv σ := tv_agreeOff (D := (· = ⟨n, .uint⟩)) (fun v hv => by subst hv; exact hc) hag
  unfold loopFun
  by_cases hcσ : c.tv σ
  · rw [if_pos hcσ, if_pos (h3.2 hcσ), h2]
  · rw [if_neg hcσ, if_neg (fun h => hcσ (h3.1 h)), hφ σ τ hag]

/-- The side conditions in one state, for lower bounds. -/
def OmegaLower (Φ : Exp → Exp) (I : ℕ → Exp) (σ : Env) : Prop :=
  I 0 σ ≤ Φ (fun _ => 0) σ ∧ ∀ k, I (k + 1) σ ≤ Φ (I k) σ

/-- The side conditions in one state, for upper bounds (as encoded, with `Φ(0)`). -/
def OmegaUpper (Φ : Exp → Exp) (I : ℕ → Exp) (σ : Env) : Prop :=
  Φ (fun _ => 0) σ ≤ I 0 σ ∧ ∀ k, Φ (I k) σ ≤ I (k + 1) σ

variable {C : SemCtx} {n : Ident} {c : Expr .bool} {body : Stmt} {φ : Exp}

theorem zeroSpec_fun : zeroSpec.ev = fun _ : Env => (0 : ℝ≥0∞) := funext zeroSpec_ev

open Classical in
/-- Meaning of the side conditions in procedures. -/
theorem omegaConds_down (hC : C.Regular) (hb : body.NoNeg) (hc : ¬ c.Free ⟨n, .uint⟩) (ht : ¬ body.Touched ⟨n, .uint⟩)
    (hr : ¬ body.Reads ⟨n, .uint⟩) (hφ : Ignores (· = ⟨n, .uint⟩) φ) (I : Expr .eureal) (σ : Env) :
    vcSem C (omegaConds .down n I c body) φ σ
      = if OmegaLower (loopFun C c body φ) (omegaAt n I) σ then ⊤ else 0 := by
  set Φ := loopFun C c body φ with hΦ
  have val : ∀ a b : ℝ≥0∞, (if (if a ≤ b then (⊤ : ℝ≥0∞) else b) = ⊤ then (⊤ : ℝ≥0∞) else 0)
      = if a ≤ b then ⊤ else 0 := by
    intro a b
    by_cases h : a ≤ b
    · rw [if_pos h, if_pos rfl, if_pos h]
    · rw [if_neg h, if_neg h, if_neg (fun hb : b = ⊤ => h (hb ▸ le_top))]
  have h1 : vcSem C (omegaCond1 .down n I c body) φ σ
      = if omegaAt n I 0 σ ≤ Φ (fun _ => 0) σ then ⊤ else 0 := by
    show (if (if (omegaNull n I).ev σ ≤ Φ (vcSem C (heyConst zeroSpec .down) φ) σ then (⊤ : ℝ≥0∞)
      else Φ (vcSem C (heyConst zeroSpec .down) φ) σ) = ⊤ then (⊤ : ℝ≥0∞) else 0) = _
    rw [heyConst_sem, zeroSpec_fun, val]
    rfl
  have h2 : vcSem C (omegaCond2 .down n I c body) φ σ
      = ⨅ k : ℕ, if omegaAt n I (k + 1) σ ≤ Φ (omegaAt n I k) σ then (⊤ : ℝ≥0∞) else 0 := by
    show (⨅ σ' ∈ {σ' | Agree [⟨n, .uint⟩] σ σ'},
      (if (if (omegaNext n I).ev σ' ≤ Φ (vcSem C (heyConst I .down) φ) σ' then (⊤ : ℝ≥0∞)
      else Φ (vcSem C (heyConst I .down) φ) σ') = ⊤ then (⊤ : ℝ≥0∞) else 0)) = _
    rw [heyConst_sem, iInf_agree n σ (fun σ' => (if (if (omegaNext n I).ev σ' ≤ Φ I.ev σ' then (⊤ : ℝ≥0∞)
      else Φ I.ev σ') = ⊤ then (⊤ : ℝ≥0∞) else 0))]
    refine iInf_congr fun k => ?_
    rw [val, omegaNext_ev, hΦ, loopFun_omegaAt hC hb hc ht hr hφ]
  show min (vcSem C (omegaCond1 .down n I c body) φ σ) (vcSem C (omegaCond2 .down n I c body) φ σ) = _
  rw [h1, h2]
  by_cases h : OmegaLower Φ (omegaAt n I) σ
  · rw [if_pos h, if_pos h.1, min_eq_right le_top]
    exact iInf_eq_top.2 fun k => if_pos (h.2 k)
  · rw [if_neg h]
    by_cases h0 : omegaAt n I 0 σ ≤ Φ (fun _ => 0) σ
    · have : ∃ k, ¬ omegaAt n I (k + 1) σ ≤ Φ (omegaAt n I k) σ := by
        by_contra hn
        push Not at hn
        exact h ⟨h0, hn⟩
      obtain ⟨k, hk⟩ := this
      refine le_antisymm ((min_le_right _ _).trans ((iInf_le _ k).trans ?_)) zero_le
      rw [if_neg hk]
    · rw [if_neg h0, min_eq_left zero_le]

open Classical in
/-- Meaning of the encoding in procedures: the supremum of the `I_k`, if the side conditions hold *in this state*. -/
theorem transformOmega_down (hC : C.Regular) (hb : body.NoNeg) (hc : ¬ c.Free ⟨n, .uint⟩)
    (ht : ¬ body.Touched ⟨n, .uint⟩) (hr : ¬ body.Reads ⟨n, .uint⟩) (hφ : Ignores (· = ⟨n, .uint⟩) φ)
    (I : Expr .eureal) (σ : Env) :
    vcSem C (transformOmega .down n I c body) φ σ
      = if OmegaLower (loopFun C c body φ) (omegaAt n I) σ then ⨆ k, omegaAt n I k σ else 0 := by
  set Φ := loopFun C c body φ with hΦ
  have hi : ∀ k, Ignores (· = ⟨n, .uint⟩) (omegaAt n I k) := by
    intro k ρ ρ' h
    show I.ev _ = I.ev _
    congr 1
    funext v
    by_cases hv : v = ⟨n, .uint⟩
    · subst hv; exact (Env.setNat_same _ _ _).trans (Env.setNat_same _ _ _).symm
    · exact (Env.setNat_ne _ _ hv).trans ((h v hv).trans (Env.setNat_ne _ _ hv).symm)
  show (⨆ σ' ∈ {σ' | Agree [⟨n, .uint⟩] σ σ'},
    min (I.ev σ') (vcSem C (omegaConds .down n I c body) φ σ')) = _
  rw [iSup_agree n σ (fun σ' => min (I.ev σ') (vcSem C (omegaConds .down n I c body) φ σ'))]
  have hk : ∀ k : ℕ, OmegaLower Φ (omegaAt n I) (σ.setNat n k)
      ↔ OmegaLower Φ (omegaAt n I) σ := by
    intro k
    have hag : AgreeOff (· = ⟨n, .uint⟩) σ (σ.setNat n k) :=
      AgreeOff.upd σ (D := (· = ⟨n, .uint⟩)) rfl _
    unfold OmegaLower
    have hz : Φ (fun _ => 0) (σ.setNat n k) = Φ (fun _ => 0) σ :=
      loopFun_zero_ignores hC hb hc hr hφ (X := fun _ => 0) (fun _ _ _ => rfl) _ _ hag
    rw [hi 0 _ _ hag, hz]
    refine and_congr_right fun _ => forall_congr' fun j => ?_
    rw [hi _ _ _ hag, hΦ, loopFun_zero_ignores hC hb hc hr hφ (hi j) _ _ hag]
  by_cases h : OmegaLower Φ (omegaAt n I) σ
  · rw [if_pos h]
    refine iSup_congr fun k => ?_
    rw [omegaConds_down hC hb hc ht hr hφ, if_pos ((hk k).2 h), min_eq_left le_top]
    rfl
  · rw [if_neg h]
    refine le_antisymm (iSup_le fun k => ?_) zero_le
    rw [omegaConds_down hC hb hc ht hr hφ, if_neg (fun h' => h ((hk k).1 h')), min_eq_right zero_le]

open Classical in
/-- Meaning of the side conditions in coprocedures. -/
theorem omegaConds_up (hC : C.Regular) (hb : body.NoNeg) (hc : ¬ c.Free ⟨n, .uint⟩) (ht : ¬ body.Touched ⟨n, .uint⟩)
    (hr : ¬ body.Reads ⟨n, .uint⟩) (hφ : Ignores (· = ⟨n, .uint⟩) φ) (I : Expr .eureal) (σ : Env) :
    vcSem C (omegaConds .up n I c body) φ σ
      = if OmegaUpper (loopFun C c body φ) (omegaAt n I) σ then 0 else ⊤ := by
  set Φ := loopFun C c body φ with hΦ
  have val : ∀ a b : ℝ≥0∞, (if (if a ≥ b then (0 : ℝ≥0∞) else b) = 0 then (0 : ℝ≥0∞) else ⊤)
      = if b ≤ a then 0 else ⊤ := by
    intro a b
    by_cases h : b ≤ a
    · rw [if_pos h, if_pos h, if_pos rfl]
    · rw [if_neg h, if_neg h, if_neg (fun hb : b = 0 => h (hb ▸ zero_le))]
  have h1 : vcSem C (omegaCond1 .up n I c body) φ σ
      = if Φ (fun _ => 0) σ ≤ omegaAt n I 0 σ then 0 else ⊤ := by
    show (if (if (omegaNull n I).ev σ ≥ Φ (vcSem C (heyConst zeroSpec .up) φ) σ then (0 : ℝ≥0∞)
      else Φ (vcSem C (heyConst zeroSpec .up) φ) σ) = 0 then (0 : ℝ≥0∞) else ⊤) = _
    rw [heyConst_sem, zeroSpec_fun, val]
    rfl
  have h2 : vcSem C (omegaCond2 .up n I c body) φ σ
      = ⨆ k : ℕ, if Φ (omegaAt n I k) σ ≤ omegaAt n I (k + 1) σ then (0 : ℝ≥0∞) else ⊤ := by
    show (⨆ σ' ∈ {σ' | Agree [⟨n, .uint⟩] σ σ'},
      (if (if (omegaNext n I).ev σ' ≥ Φ (vcSem C (heyConst I .up) φ) σ' then (0 : ℝ≥0∞)
      else Φ (vcSem C (heyConst I .up) φ) σ') = 0 then (0 : ℝ≥0∞) else ⊤)) = _
    rw [heyConst_sem, iSup_agree n σ (fun σ' => (if (if (omegaNext n I).ev σ' ≥ Φ I.ev σ' then (0 : ℝ≥0∞)
      else Φ I.ev σ') = 0 then (0 : ℝ≥0∞) else ⊤))]
    refine iSup_congr fun k => ?_
    rw [val, omegaNext_ev, hΦ, loopFun_omegaAt hC hb hc ht hr hφ]
  show max (vcSem C (omegaCond1 .up n I c body) φ σ) (vcSem C (omegaCond2 .up n I c body) φ σ) = _
  rw [h1, h2]
  by_cases h : OmegaUpper Φ (omegaAt n I) σ
  · rw [if_pos h, if_pos h.1, max_eq_right zero_le]
    refine le_antisymm (iSup_le fun k => ?_) zero_le
    rw [if_pos (h.2 k)]
  · rw [if_neg h]
    by_cases h0 : Φ (fun _ => 0) σ ≤ omegaAt n I 0 σ
    · have : ∃ k, ¬ Φ (omegaAt n I k) σ ≤ omegaAt n I (k + 1) σ := by
        by_contra hn
        push Not at hn
        exact h ⟨h0, hn⟩
      obtain ⟨k, hk⟩ := this
      refine top_le_iff.1 (le_trans ?_ (le_max_right _ _))
      refine le_trans ?_ (le_iSup _ k)
      rw [if_neg hk]
    · rw [if_neg h0, max_eq_left le_top]

open Classical in
/-- Meaning of the encoding in coprocedures. -/
theorem transformOmega_up (hC : C.Regular) (hb : body.NoNeg) (hc : ¬ c.Free ⟨n, .uint⟩)
    (ht : ¬ body.Touched ⟨n, .uint⟩) (hr : ¬ body.Reads ⟨n, .uint⟩) (hφ : Ignores (· = ⟨n, .uint⟩) φ)
    (I : Expr .eureal) (σ : Env) :
    vcSem C (transformOmega .up n I c body) φ σ
      = if OmegaUpper (loopFun C c body φ) (omegaAt n I) σ then ⨅ k, omegaAt n I k σ else ⊤ := by
  set Φ := loopFun C c body φ with hΦ
  have hi : ∀ k, Ignores (· = ⟨n, .uint⟩) (omegaAt n I k) := by
    intro k ρ ρ' h
    show I.ev _ = I.ev _
    congr 1
    funext v
    by_cases hv : v = ⟨n, .uint⟩
    · subst hv; exact (Env.setNat_same _ _ _).trans (Env.setNat_same _ _ _).symm
    · exact (Env.setNat_ne _ _ hv).trans ((h v hv).trans (Env.setNat_ne _ _ hv).symm)
  show (⨅ σ' ∈ {σ' | Agree [⟨n, .uint⟩] σ σ'},
    max (I.ev σ') (vcSem C (omegaConds .up n I c body) φ σ')) = _
  rw [iInf_agree n σ (fun σ' => max (I.ev σ') (vcSem C (omegaConds .up n I c body) φ σ'))]
  have hk : ∀ k : ℕ, OmegaUpper Φ (omegaAt n I) (σ.setNat n k)
      ↔ OmegaUpper Φ (omegaAt n I) σ := by
    intro k
    have hag : AgreeOff (· = ⟨n, .uint⟩) σ (σ.setNat n k) :=
      AgreeOff.upd σ (D := (· = ⟨n, .uint⟩)) rfl _
    unfold OmegaUpper
    have hz : Φ (fun _ => 0) (σ.setNat n k) = Φ (fun _ => 0) σ :=
      loopFun_zero_ignores hC hb hc hr hφ (X := fun _ => 0) (fun _ _ _ => rfl) _ _ hag
    rw [hi 0 _ _ hag, hz]
    refine and_congr_right fun _ => forall_congr' fun j => ?_
    rw [hi _ _ _ hag, hΦ, loopFun_zero_ignores hC hb hc hr hφ (hi j) _ _ hag]
  by_cases h : OmegaUpper Φ (omegaAt n I) σ
  · rw [if_pos h]
    refine iInf_congr fun k => ?_
    rw [omegaConds_up hC hb hc ht hr hφ, if_pos ((hk k).2 h), max_eq_left zero_le]
    rfl
  · rw [if_neg h]
    refine top_le_iff.1 (le_iInf fun k => ?_)
    rw [omegaConds_up hC hb hc ht hr hφ, if_neg (fun h' => h ((hk k).1 h')), max_eq_right le_top]

theorem heyConst_noValidate (e : Expr .eureal) (d : Dir) (p : Expr .eureal) : ValidateOk (heyConst e d) p :=
  validateOk_of_noValidate (S := heyConst e d) ⟨trivial, trivial, trivial⟩ p

/-- The posts of the `validate`s in the encoding are implications. -/
theorem transformOmega_validateOk (hb : ∀ p, ValidateOk body p) (d : Dir) (n : Ident) (I : Expr .eureal)
    (p : Expr .eureal) : ValidateOk (transformOmega d n I c body) p := by
  have h1 : ∀ p, ValidateOk (omegaCond1 d n I c body) p := by
    intro p
    refine ⟨⟨⟨trivial, fun _ h => ?_⟩, fun _ _ => trivial⟩, ?_⟩
    · cases h; exact ⟨⟨heyConst_noValidate _ _ _, fun _ _ => hb _⟩, trivial⟩
    · intro p' hp'
      obtain ⟨q, _, hq⟩ := bind_ok hp'
      cases d
      · cases hq; exact Or.inl ⟨_, _, rfl⟩
      · cases hq; exact Or.inl ⟨_, _, rfl⟩
  have h2 : ∀ p, ValidateOk (omegaCond2 d n I c body) p := by
    intro p
    refine ⟨⟨⟨⟨trivial, fun _ h => ?_⟩, fun _ _ => trivial⟩, ?_⟩, fun _ _ => trivial⟩
    · cases h; exact ⟨⟨heyConst_noValidate _ _ _, fun _ _ => hb _⟩, trivial⟩
    · intro p' hp'
      obtain ⟨q, _, hq⟩ := bind_ok hp'
      cases d
      · cases hq; exact Or.inl ⟨_, _, rfl⟩
      · cases hq; exact Or.inl ⟨_, _, rfl⟩
  refine ⟨⟨⟨trivial, fun _ h => ?_⟩, fun _ _ => trivial⟩, fun _ _ => trivial⟩
  cases h
  cases d
  · exact ⟨h1 _, h2 _⟩
  · exact ⟨h1 _, h2 _⟩

theorem transformOmega_goodDists (hb : body.GoodDists) (d : Dir) (n : Ident) (I : Expr .eureal) :
    (transformOmega d n I c body).GoodDists := by
  cases d <;>
  exact ⟨trivial, trivial, ⟨⟨trivial, trivial, ⟨⟨hb, trivial, trivial, trivial⟩, trivial⟩, trivial⟩,
    ⟨trivial, trivial, trivial, ⟨⟨hb, trivial, trivial, trivial⟩, trivial⟩, trivial⟩⟩, trivial⟩

end

end Caesar
