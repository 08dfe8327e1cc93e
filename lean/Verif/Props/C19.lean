import Verif.ProofRules.LoopsMono
import Verif.Witness

/-!
# C19: k-induction with larger `k` is at least as strong

Model: `encodeLoops` followed by `vcgen`. The specification is the order on verification conditions only
(`Dir.Le`: for procedures, larger verification conditions are easier to verify; for coprocedures smaller ones).

The full property is false for loop bodies containing `negate` statements (`C19_not_full`); it is proved for all
programs without them, for all `k ≤ k'`, simultaneously for all annotations of a program with nested loops.
-/

open scoped ENNReal NNReal

namespace Caesar
set_option linter.unusedSectionVars false

/-- The full property: replacing `k` by a larger `k'` in any annotations of a program never makes the verification
condition worse. -/
def C19_full : Prop :=
  ∀ (_ : Doms) (_ : Interp) (d : Dir) (S S' T T' : Stmt) (post e e' : Expr .eureal), S.LargerK S' →
    S.NoValidate → S'.NoValidate → S.GoodDists → S'.GoodDists →
    encodeLoops d S = .ok T → encodeLoops d S' = .ok T' → vcgen T post = .ok e → vcgen T' post = .ok e' →
    d.Le e.ev e'.ev

section
variable [Doms] [Interp]

/-- All programs without `negate` and `validate`: the verification condition does not get worse when `k` grows. -/
theorem C19_larger_k_partial {d : Dir} {S S' T T' : Stmt} {post e e' : Expr .eureal} (hK : S.LargerK S')
    (hN : S.NoNeg) (hV : S.NoValidate) (hV' : S'.NoValidate) (hG : S.GoodDists) (hG' : S'.GoodDists)
    (hT : encodeLoops d S = .ok T) (hT' : encodeLoops d S' = .ok T') (he : vcgen T post = .ok e)
    (he' : vcgen T' post = .ok e') : d.Le e.ev e'.ev := by
  let C : SemCtx := ⟨.lfp, fun _ _ _ φ => φ⟩
  have h := ((encodeLoops_larger (C := C) (fun _ _ _ => monotone_id) hK hN hT hT').1.2.1 post.ev)
  rw [← vcgen_sound C he (encodeLoops_validateOk hT hV post) (encodeLoops_goodDists hT hG),
    ← vcgen_sound C he' (encodeLoops_validateOk hT' hV' post) (encodeLoops_goodDists hT' hG')] at h
  exact h

/-- One loop: what is provable with `@k_induction(k, I)` is provable with `@k_induction(k', I)` for `k ≤ k'`. -/
theorem C19_provable_partial {k k' : Nat} (hk : k ≤ k') {I : Expr .eureal} {c : Expr .bool} {b T T' : Stmt}
    {pre post e e' : Expr .eureal} (hN : b.NoNeg) (hV : b.NoValidate) (hG : b.GoodDists)
    (hT : encodeLoops .down (.annot (.kInduction k I) (.while c b)) = .ok T)
    (hT' : encodeLoops .down (.annot (.kInduction k' I) (.while c b)) = .ok T')
    (he : vcgen T post = .ok e) (he' : vcgen T' post = .ok e') (h : ∀ σ, pre.ev σ ≤ e.ev σ) (σ : Env) :
    pre.ev σ ≤ e'.ev σ :=
  (h σ).trans (C19_larger_k_partial (d := .down) (.kInduction hk (.refl (.while c b))) hN hV hV hG hG hT hT' he he' σ)

end

/-- `@invariant(I)` is exactly `@k_induction(1, I)`. -/
theorem C19_invariant_eq_one (d : Dir) (I : Expr .eureal) (S : Stmt) :
    encodeLoops d (.annot (.invariant I) S) = encodeLoops d (.annot (.kInduction 1 I) S) := by
  show (encodeLoops d S >>= encodeAnnot d (.invariant I)) = (encodeLoops d S >>= encodeAnnot d (.kInduction 1 I))
  congr 1
  funext s
  cases s <;> rfl

/-! ## Counterexample with negations -/

def c19X : Var := ⟨⟨"x", 0⟩, .uint⟩

/-- `?(x == 0)` -/
def c19I : Expr .eureal := .embed (.rel (s := .uint) .eq (.var ⟨"x", 0⟩) (Expr.uintLit 0))

/-- `x = x + 1; negate` -/
def c19Body : Stmt :=
  .seq (.assign c19X (.bin (.add rfl) (.var ⟨"x", 0⟩) (Expr.uintLit 1))) (.negate .down)

/-- `@k_induction(k, ?(x == 0)) while true { x = x + 1; negate }` -/
def c19S (k : Nat) : Stmt := .annot (.kInduction k c19I) (.while (Expr.boolLit true) c19Body)

theorem c19I_zero [Doms] [Interp] {σ : Env} (h : σ c19X = (0 : ℕ)) : c19I.ev σ = ⊤ := if_pos h

theorem c19I_pos [Doms] [Interp] {σ : Env} (h : σ c19X ≠ (0 : ℕ)) : c19I.ev σ = 0 := if_neg h

theorem C19_not_full : ¬ C19_full := by
  classical
  intro h
  let _ := unitDoms
  let _ := unitInterp
  obtain ⟨e, he⟩ : ∃ e, vcgen (transformKInduction .down 1 c19I (Expr.boolLit true) c19Body) Expr.inftyLit = .ok e :=
    ⟨_, rfl⟩
  obtain ⟨e', he'⟩ : ∃ e, vcgen (transformKInduction .down 2 c19I (Expr.boolLit true) c19Body) Expr.inftyLit = .ok e :=
    ⟨_, rfl⟩
  have h1 := h unitDoms unitInterp .down (c19S 1) (c19S 2) _ _ Expr.inftyLit e e' (.kInduction (by omega) (.refl _))
    ⟨trivial, trivial⟩ ⟨trivial, trivial⟩ ⟨trivial, trivial⟩ ⟨trivial, trivial⟩ rfl rfl he he'
  let C : SemCtx := ⟨.lfp, fun _ _ _ φ => φ⟩
  have hv : ∀ p, ValidateOk c19Body p := fun p => validateOk_of_noValidate (S := c19Body) ⟨trivial, trivial⟩ p
  have hg : c19Body.GoodDists := ⟨trivial, trivial⟩
  set Φ := loopFun C (Expr.boolLit true) c19Body (Expr.inftyLit).ev with hΦd
  let up : Env → Env := fun σ => σ.upd c19X (Nat.succ (σ c19X))
  have hup : ∀ σ, up σ c19X ≠ (0 : ℕ) := fun σ h' => by
    have h2 : up σ c19X = Nat.succ (σ c19X) := Env.upd_same _ _ _
    exact absurd (h2.symm.trans h' : Nat.succ (σ c19X) = 0) (Nat.succ_ne_zero _)
  have hΦ : ∀ X σ, Φ X σ = if X (up σ) = 0 then ⊤ else 0 := fun X σ => if_pos (rfl : true = true)
  have hΦI : ∀ σ, Φ c19I.ev σ = ⊤ := fun σ => by rw [hΦ, if_pos (c19I_pos (hup σ))]
  have e1 : e.ev zeroEnv = ⊤ := by
    rw [vcgen_sound C he (transform_validateOk hv 1 _ _ _) (transform_goodDists hg 1 _ _), transformKInduction_sem]
    refine (if_pos fun σ' _ => ?_).trans (c19I_zero rfl)
    show c19I.ev σ' ≤ Φ c19I.ev σ'
    rw [hΦI]; exact le_top
  have e2 : e'.ev zeroEnv = 0 := by
    rw [vcgen_sound C he' (transform_validateOk hv 2 _ _ _) (transform_goodDists hg 2 _ _), transformKInduction_sem]
    refine if_neg fun hi => ?_
    have h3 : c19I.ev zeroEnv ≤ Φ (fun σ => max (c19I.ev σ) (Φ c19I.ev σ)) zeroEnv := hi zeroEnv fun _ _ => rfl
    rw [c19I_zero (σ := zeroEnv) rfl, hΦ] at h3
    have h4 : max (c19I.ev (up zeroEnv)) (Φ c19I.ev (up zeroEnv)) = ⊤ := by rw [hΦI]; exact max_eq_right le_top
    rw [if_neg (fun h5 => absurd (h4.symm.trans h5) (by simp))] at h3
    exact absurd h3 (by simp)
  have h2 : e.ev zeroEnv ≤ e'.ev zeroEnv := h1 zeroEnv
  rw [e1, e2] at h2
  exact absurd h2 (by simp)

/-! ## Non-vacuity -/

/-- Nested loops in which both annotations get a larger `k`, one of them from `@invariant`. -/
example (I J post : Expr .eureal) :
    let W : Annot → Annot → Stmt := fun a b => .annot a (.while (Expr.boolLit true)
      (.seq (.annot b (.while (Expr.boolLit false) (.assign c19X (Expr.uintLit 1)))) (.havoc .down [c19X])))
    (W (.invariant I) (.kInduction 2 J)).LargerK (W (.kInduction 3 I) (.kInduction 5 J)) ∧
      ∃ T T' e e', encodeLoops .up (W (.invariant I) (.kInduction 2 J)) = .ok T ∧
        encodeLoops .up (W (.kInduction 3 I) (.kInduction 5 J)) = .ok T' ∧ vcgen T post = .ok e ∧
        vcgen T' post = .ok e' := by
  intro W
  exact ⟨.invariant (by omega) (.while (.seq (.kInduction (by omega) (.refl _)) (.refl _))),
    ⟨_, _, _, _, rfl, rfl, rfl, rfl⟩⟩

/-- The improvement is strict in general: with `while true { x = x + 1 }`-like bodies `k = 1` may fail where `k = 2`
succeeds. Here `I = ?(x == 0)`, body `if x == 0 { x = 1 } else { x = 0 }`: `k = 1` gives `0`, `k = 2` gives `I`. -/
example : let _ := unitDoms; let _ := unitInterp;
    ∃ (b : Stmt) (e e' : Expr .eureal), b.NoNeg ∧ b.NoValidate ∧ b.GoodDists ∧
      vcgen (transformKInduction .down 1 c19I (Expr.boolLit true) b) Expr.inftyLit = .ok e ∧
      vcgen (transformKInduction .down 2 c19I (Expr.boolLit true) b) Expr.inftyLit = .ok e' ∧
      e.ev zeroEnv = 0 ∧ e'.ev zeroEnv = ⊤ := by
  classical
  intro _ _
  let b : Stmt := .ite (.rel (s := .uint) .eq (.var ⟨"x", 0⟩) (Expr.uintLit 0)) (.assign c19X (Expr.uintLit 1))
    (.assign c19X (Expr.uintLit 0))
  refine ⟨b, _, _, ⟨trivial, trivial⟩, ⟨trivial, trivial⟩, ⟨trivial, trivial⟩, rfl, rfl, ?_, ?_⟩
  all_goals
    let C : SemCtx := ⟨.lfp, fun _ _ _ φ => φ⟩
    have hv : ∀ p, ValidateOk b p := fun p => validateOk_of_noValidate (S := b) ⟨trivial, trivial⟩ p
    have hg : b.GoodDists := ⟨trivial, trivial⟩
    set Φ := loopFun C (Expr.boolLit true) b (Expr.inftyLit).ev with hΦd
    let s0 : Env → Env := fun σ => σ.upd c19X (0 : ℕ)
    let s1 : Env → Env := fun σ => σ.upd c19X (1 : ℕ)
    have hs0 : ∀ σ, s0 σ c19X = (0 : ℕ) := fun σ => Env.upd_same _ _ _
    have hs1 : ∀ σ, s1 σ c19X = (1 : ℕ) := fun σ => Env.upd_same _ _ _
    have hΦ : ∀ X σ, Φ X σ = if σ c19X = (0 : ℕ) then X (s1 σ) else X (s0 σ) := fun X σ => if_pos (rfl : true = true)
    have hne : ∀ σ, s1 σ c19X ≠ (0 : ℕ) := fun σ h => absurd ((hs1 σ).symm.trans h : (1 : ℕ) = 0) Nat.one_ne_zero
  · rw [vcgen_sound C (S := transformKInduction .down 1 c19I (Expr.boolLit true) b) (post := Expr.inftyLit) rfl
      (transform_validateOk hv 1 _ _ _) (transform_goodDists hg 1 _ _), transformKInduction_sem]
    refine if_neg fun hi => ?_
    have h3 : c19I.ev zeroEnv ≤ Φ c19I.ev zeroEnv := hi zeroEnv fun _ _ => rfl
    have hz : zeroEnv c19X = (0 : ℕ) := rfl
    rw [c19I_zero hz, hΦ, if_pos hz, c19I_pos (hne _)] at h3
    exact absurd h3 (by simp)
  · rw [vcgen_sound C (S := transformKInduction .down 2 c19I (Expr.boolLit true) b) (post := Expr.inftyLit) rfl
      (transform_validateOk hv 2 _ _ _) (transform_goodDists hg 2 _ _), transformKInduction_sem]
    refine (if_pos fun σ' _ => ?_).trans (c19I_zero rfl)
    show c19I.ev σ' ≤ Φ (fun σ => max (c19I.ev σ) (Φ c19I.ev σ)) σ'
    by_cases hx : σ' c19X = (0 : ℕ)
    · rw [hΦ, if_pos hx]
      show _ ≤ max _ (Φ c19I.ev (s1 σ'))
      rw [hΦ, if_neg (hne _), c19I_zero (hs0 _)]
      exact le_top.trans (le_max_right _ _)
    · rw [c19I_pos hx]; exact zero_le

end Caesar
