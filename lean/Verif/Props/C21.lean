import Verif.ProofRules.Tracking
import Verif.ProofRules.Unroll
import Verif.Props.C31
import Verif.Props.C45
import Verif.Witness

/-!
# C21: the declared approximation of `@unroll` is right for every terminator

Specification: `ApproxKind.Describes` (C31) between the value of the encoding and the fixed point semantics `vcSem` of
the loop, for the fixed point the tool says it uses (`Annot.inferFix`).

`get_approximation` of `@unroll` (`src/proof_rules/unroll.rs:85-96`) does not look at the terminator, so the property is
false: with `@wp` and terminator `∞` the loop is declared an under-approximation of the least fixed point although its
value can be `∞` (`C21_not_full`), and with terminator `1` and no calculus it is declared an over-approximation of the
greatest fixed point, which can be `∞` (`C21_one_not_over`). It is proved for the terminators for which it can hold:
those below the least (above the greatest) fixed point, in particular the literals `0` and `∞`
(`C21_terminators_partial`, `C21_literals_partial`), and for the terminator `1` with respect to the greatest
one-bounded fixed point (`C21_one_bounded`).
-/

open scoped ENNReal NNReal

namespace Caesar
set_option linter.unusedSectionVars false

/-- The full property, for loop bodies without loop annotations of their own (for which the tool's approximation
kind of the body is `EXACT`) and without `negate`. -/
def C21_full : Prop :=
  ∀ (_ : Doms) (_ : Interp) (d : Dir) (calculus : Option CalculusType) (k : Nat) (t : Expr .eureal) (C : SemCtx),
    (∀ l f a, Monotone (C.call l f a)) → C.loop = ((Annot.unroll k t).inferFix calculus d).loopSem →
    ∀ (c : Expr .bool) (b T : Stmt) (φ : Exp), b.NoNeg → b.NoRules →
      encodeLoops d (.annot (.unroll k t) (.while c b)) = .ok T →
      ((Annot.unroll k t).approximation ((Annot.unroll k t).inferFix calculus d) .exact calculus).Describes
        (vcSem C T φ) (vcSem C (.while c b) φ)

section
variable [Doms] [Interp]

/-- Whatever the annotation computes, it is right if the terminator itself is on the right side of the fixed point. -/
theorem C21_terminators_partial {d : Dir} {calculus : Option CalculusType} {k : Nat} {t : Expr .eureal} {C : SemCtx}
    (hC : ∀ l f a, Monotone (C.call l f a)) (hl : C.loop = ((Annot.unroll k t).inferFix calculus d).loopSem)
    {c : Expr .bool} {b T : Stmt} {φ : Exp} (hN : b.NoNeg) (hb : b.NoRules)
    (hT : encodeLoops d (.annot (.unroll k t) (.while c b)) = .ok T)
    (hlfp : (Annot.unroll k t).inferFix calculus d = .lfp → t.ev ≤ vcSem C (.while c b) φ)
    (hgfp : (Annot.unroll k t).inferFix calculus d = .gfp → vcSem C (.while c b) φ ≤ t.ev) :
    ((Annot.unroll k t).approximation ((Annot.unroll k t).inferFix calculus d) .exact calculus).Describes
      (vcSem C T φ) (vcSem C (.while c b) φ) := by
  have hm : Monotone (loopFun C c b φ) := loopFun_mono (vcSem_mono C hC hN) c φ
  rw [encode_unroll_inv (encodeLoops_noRules hb) hT, encodeUnroll_sem, heyConst_sem]
  rw [vcSem_while] at hlfp hgfp ⊢
  cases hf : (Annot.unroll k t).inferFix calculus d with
  | lfp =>
    rw [hf] at hl
    have h := hlfp hf
    rw [hl] at h ⊢
    exact ⟨fun _ => iterate_le_of_prefixed hm (lfp_prefixed hm) h k, fun h => (by cases h)⟩
  | gfp =>
    rw [hf] at hl
    have h := hgfp hf
    rw [hl] at h ⊢
    exact ⟨fun h => (by cases h), fun _ => le_iterate_of_postfixed hm (gfp_postfixed hm) h k⟩

/-- Literal terminators: `0` with least fixed points (`@wp`, `@ert`, or no calculus), `∞` with greatest fixed points
(`@wlp`, or no calculus). -/
theorem C21_literals_partial {d : Dir} {calculus : Option CalculusType} {k : Nat} {t : Expr .eureal} {C : SemCtx}
    (hC : ∀ l f a, Monotone (C.call l f a)) (hl : C.loop = ((Annot.unroll k t).inferFix calculus d).loopSem)
    {c : Expr .bool} {b T : Stmt} {φ : Exp} (hN : b.NoNeg) (hb : b.NoRules)
    (hT : encodeLoops d (.annot (.unroll k t) (.while c b)) = .ok T)
    (ht : t.isBotLit = true ∧ calculus ≠ some .wlp ∨ t.isTopLit = true ∧ (calculus = none ∨ calculus = some .wlp)) :
    ((Annot.unroll k t).approximation ((Annot.unroll k t).inferFix calculus d) .exact calculus).Describes
      (vcSem C T φ) (vcSem C (.while c b) φ) := by
  have hnb : t.isTopLit = true → ¬ t.isBotLit = true := fun h1 h2 => by
    have h3 := congrFun (isTopLit_ev h1 ▸ isBotLit_ev h2 : (fun _ : Env => (⊤ : ℝ≥0∞)) = fun _ => 0)
    exact absurd (h3 fun v => v.ty.default) (by simp)
  refine C21_terminators_partial hC hl hN hb hT (fun hf => ?_) (fun hf => ?_)
  · rcases ht with ⟨ht, _⟩ | ⟨ht, h⟩
    · rw [isBotLit_ev ht]; exact fun _ => zero_le
    · rcases h with rfl | rfl
      · simp [Annot.inferFix, Annot.defaultFix, ht, hnb ht] at hf
      · cases hf
  · rcases ht with ⟨ht, h⟩ | ⟨ht, _⟩
    · cases calculus with
      | none => simp [Annot.inferFix, Annot.defaultFix, ht] at hf
      | some c => cases c <;> first | exact absurd rfl h | cases hf
    · rw [isTopLit_ev ht]; exact fun _ => le_top

/-- For the terminator `1` (any literal recognised as one), the encoding is above every one-bounded post-fixed point of
the loop function, hence above the greatest fixed point of the one-bounded (`wlp`) semantics. -/
theorem C21_one_bounded {d : Dir} {k : Nat} {t : Expr .eureal} {C : SemCtx} (hC : ∀ l f a, Monotone (C.call l f a))
    {c : Expr .bool} {b T : Stmt} {φ : Exp} (hN : b.NoNeg) (hb : b.NoRules)
    (hT : encodeLoops d (.annot (.unroll k t) (.while c b)) = .ok T) (ht : t.isOneLit = true) :
    sSup {X : Exp | X ≤ (fun _ => 1) ∧ X ≤ loopFun C c b φ X} ≤ vcSem C T φ := by
  have hm : Monotone (loopFun C c b φ) := loopFun_mono (vcSem_mono C hC hN) c φ
  rw [encode_unroll_inv (encodeLoops_noRules hb) hT, encodeUnroll_sem, heyConst_sem]
  have h1 : t.ev = fun _ => 1 := by
    funext σ
    have := isOneLit_mul ht (t := .eureal) rfl σ (1 : ℝ≥0∞)
    exact (mul_one (t.ev σ)).symm.trans this.1
  refine sSup_le fun X hX => ?_
  exact le_iterate_of_postfixed hm hX.2 (h1 ▸ hX.1) k

end

/-! ## Counterexamples -/

/-- `@wp proc … @unroll(1, ∞) while true {}`: declared below the least fixed point `0`, value `∞`. -/
theorem C21_not_full : ¬ C21_full := by
  intro h
  let _ := unitDoms
  let _ := unitInterp
  let C : SemCtx := ⟨.lfp, fun _ _ _ φ => φ⟩
  have h1 := (h unitDoms unitInterp .down (some .wp) 1 Expr.inftyLit C (fun _ _ _ => monotone_id) rfl
    (Expr.boolLit true) .skip _ (fun _ => 0) trivial trivial rfl).1 rfl
  have h2 : vcSem C (.while (Expr.boolLit true) .skip) (fun _ => 0) ≤ (fun _ => 0) := by
    rw [vcSem_while]
    refine sInf_le (a := fun _ => 0) ?_
    intro σ
    exact le_of_eq (if_pos (rfl : true = true))
  have h3 := le_trans (α := Exp) h1 h2
  have h4 : vcSem C (encodeUnroll (Expr.boolLit true) .skip 1 (heyConst Expr.inftyLit .down)) (fun _ => 0) zeroEnv = ⊤ := by
    rw [encodeUnroll_sem, heyConst_sem]
    exact if_pos (rfl : true = true)
  exact absurd (h4 ▸ h3 zeroEnv) (by simp)

/-- The same with no calculus and terminator `1`: the greatest fixed point of `while true {}` is `∞`. -/
theorem C21_one_not_over : let _ := unitDoms; let _ := unitInterp;
    ∃ (C : SemCtx) (t : Expr .eureal) (T : Stmt), t.isOneLit = true ∧ C.loop = ((Annot.unroll 1 t).inferFix none .down).loopSem ∧
    encodeLoops .down (.annot (.unroll 1 t) (.while (Expr.boolLit true) .skip)) = .ok T ∧
    ¬ ((Annot.unroll 1 t).approximation ((Annot.unroll 1 t).inferFix none .down) .exact none).Describes
      (vcSem C T fun _ => 0) (vcSem C (.while (Expr.boolLit true) .skip) fun _ => 0) := by
  intro _ _
  refine ⟨⟨.gfp, fun _ _ _ φ => φ⟩, .lit (.efrac 1), _, rfl, rfl, rfl, fun h => ?_⟩
  let C : SemCtx := ⟨.gfp, fun _ _ _ φ => φ⟩
  have h1 := h.2 rfl
  have h2 : (fun _ => ⊤) ≤ vcSem C (.while (Expr.boolLit true) .skip) (fun _ => 0) := by
    rw [vcSem_while]
    refine le_sSup (a := fun _ => ⊤) ?_
    intro σ
    exact le_of_eq (if_pos (rfl : true = true)).symm
  have h3 := le_trans (α := Exp) h2 h1
  have h4 : vcSem C (encodeUnroll (Expr.boolLit true) .skip 1 (heyConst (.lit (.efrac 1)) .down)) (fun _ => 0) zeroEnv = 1 := by
    rw [encodeUnroll_sem, heyConst_sem]
    refine (if_pos (rfl : true = true)).trans ?_
    show (((1 : ℚ≥0) : ℝ≥0) : ℝ≥0∞) = 1
    simp
  exact absurd (h4 ▸ h3 zeroEnv) (by simp)

/-! ## Non-vacuity -/

/-- `@unroll(3, 0) while b { x = x + 1 }` in a coprocedure without calculus: a proper under-approximation. -/
example : let b : Stmt := .assign ⟨⟨"x", 0⟩, .uint⟩ (.bin (.add rfl) (.var ⟨"x", 0⟩) (Expr.uintLit 1))
    b.NoNeg ∧ b.NoRules ∧ (extremeLit .down).isBotLit = true ∧
    (Annot.unroll 3 (extremeLit .down)).approximation ((Annot.unroll 3 (extremeLit .down)).inferFix none .up) .exact none
      = .under' ∧
    ∃ T, encodeLoops .up (.annot (.unroll 3 (extremeLit .down)) (.while (.var ⟨"b", 0⟩) b)) = .ok T :=
  ⟨trivial, trivial, rfl, rfl, _, rfl⟩

/-- A terminator that is not a literal can meet the condition of `C21_terminators_partial`: every terminator below the
post does for `while x ≤ 3 {…}` after the loop. Here `t = post` and the guard is `false`. -/
example [Doms] [Interp] (C : SemCtx) (t : Expr .eureal) (b : Stmt) (hl : C.loop = .lfp) :
    t.ev ≤ vcSem C (.while (Expr.boolLit false) b) t.ev := by
  rw [vcSem_while, hl]
  refine le_sInf fun X hX σ => ?_
  exact (le_of_eq (if_neg (fun h : false = true => by cases h)).symm).trans (hX σ)

end Caesar
