import Verif.ProofRules.Unroll
import Verif.Witness

/-!
# C20: `@unroll` encodes exactly `k` iterations of the loop function

Specification: the characteristic function `X ↦ [c] · vc[body](X) + [¬c] · φ` (`c20Fun`), iterated `k` times on the
terminator.
Model: `encodeLoops` followed by `vcgen`.

The exactness part is proved without restrictions on the loop body (`C20_iterations`). The comparison with the least and
greatest fixed points and the monotonicity in `k` are false for loop bodies containing `negate`
(`C20_not_full`) and proved for all others.
-/

open scoped ENNReal NNReal

namespace Caesar
set_option linter.unusedSectionVars false

section
variable [Doms] [Interp]

open Classical in
/-- The characteristic function of `while c { body }` with respect to `φ` (`website/docs/proof-rules/README.md`). -/
noncomputable def c20Fun (C : SemCtx) (c : Expr .bool) (body : Stmt) (φ X : Exp) : Exp :=
  fun σ => if c.tv σ then vcSem C body X σ else φ σ

end

/-- The full property. -/
def C20_full : Prop :=
  ∀ (_ : Doms) (_ : Interp) (d : Dir) (C : SemCtx), (∀ l f a, Monotone (C.call l f a)) →
    ∀ (k : Nat) (t : Expr .eureal) (c : Expr .bool) (b b' T : Stmt) (φ : Exp), encodeLoops d b = .ok b' →
      encodeLoops d (.annot (.unroll k t) (.while c b)) = .ok T →
      vcSem C T φ = (c20Fun C c b' φ)^[k] t.ev ∧
      ((t.ev = fun _ => 0) → vcSem C T φ ≤ fixpoint .lfp (c20Fun C c b' φ) ∧
        ∀ k' T', k ≤ k' → encodeLoops d (.annot (.unroll k' t) (.while c b)) = .ok T' → vcSem C T φ ≤ vcSem C T' φ) ∧
      ((t.ev = fun _ => ⊤) → fixpoint .gfp (c20Fun C c b' φ) ≤ vcSem C T φ ∧
        ∀ k' T', k ≤ k' → encodeLoops d (.annot (.unroll k' t) (.while c b)) = .ok T' → vcSem C T' φ ≤ vcSem C T φ)

section
variable [Doms] [Interp]

/-- Exactness, for all loop bodies, terminators and `k`. `b'` is the body with its own loops encoded. -/
theorem C20_iterations (C : SemCtx) {d : Dir} {k : Nat} {t : Expr .eureal} {c : Expr .bool} {b b' T : Stmt}
    (hb : encodeLoops d b = .ok b') (h : encodeLoops d (.annot (.unroll k t) (.while c b)) = .ok T) (φ : Exp) :
    vcSem C T φ = (c20Fun C c b' φ)^[k] t.ev := by
  rw [encode_unroll_inv hb h, encodeUnroll_sem, heyConst_sem]
  rfl

/-- Exactness of the generated verification condition. -/
theorem C20_vcgen_iterations (C : SemCtx) {d : Dir} {k : Nat} {t : Expr .eureal} {c : Expr .bool} {b b' T : Stmt}
    {post e : Expr .eureal} (hV : b.NoValidate) (hG : b.GoodDists)
    (hb : encodeLoops d b = .ok b') (h : encodeLoops d (.annot (.unroll k t) (.while c b)) = .ok T)
    (he : vcgen T post = .ok e) : e.ev = (c20Fun C c b' post.ev)^[k] t.ev := by
  rw [← C20_iterations C hb h]
  exact vcgen_sound C he (encodeLoops_validateOk h hV post) (encodeLoops_goodDists h hG)

/-- Every loop with an `@unroll` annotation whose body can be encoded is encoded; in particular, a body without loop
annotations is copied as it is. -/
theorem C20_encodes (d : Dir) (k : Nat) (t : Expr .eureal) (c : Expr .bool) {b : Stmt} (hb : b.NoRules) :
    encodeLoops d b = .ok b ∧ ∃ T, encodeLoops d (.annot (.unroll k t) (.while c b)) = .ok T := by
  refine ⟨encodeLoops_noRules hb, encodeUnroll c b k (heyConst t d), ?_⟩
  simp only [encodeLoops, encodeLoops_noRules hb]
  rfl

/-- With `t = ⊥` the encoding is below the least fixed point, monotonically in `k`. -/
theorem C20_under_lfp_partial {C : SemCtx} (hC : ∀ l f a, Monotone (C.call l f a)) {d : Dir} {k : Nat}
    {t : Expr .eureal} {c : Expr .bool} {b b' T : Stmt} (hN : b.NoNeg) (hb : encodeLoops d b = .ok b')
    (h : encodeLoops d (.annot (.unroll k t) (.while c b)) = .ok T) (ht : t.ev = fun _ => 0) (φ : Exp) :
    vcSem C T φ ≤ fixpoint .lfp (c20Fun C c b' φ) ∧
      ∀ k' T', k ≤ k' → encodeLoops d (.annot (.unroll k' t) (.while c b)) = .ok T' → vcSem C T φ ≤ vcSem C T' φ := by
  have hm : Monotone (c20Fun C c b' φ) := loopFun_mono (vcSem_mono C hC (encodeLoops_noNeg hb hN)) c φ
  rw [C20_iterations C hb h]
  refine ⟨iterate_le_of_prefixed hm (lfp_prefixed hm) (ht ▸ fun _ => zero_le) k, fun k' T' hk h' => ?_⟩
  rw [C20_iterations C hb h']
  exact iterate_bot_mono hm (ht ▸ fun _ => zero_le) hk

/-- With `t = ⊤` the encoding is above the greatest fixed point, antitonically in `k`. -/
theorem C20_over_gfp_partial {C : SemCtx} (hC : ∀ l f a, Monotone (C.call l f a)) {d : Dir} {k : Nat}
    {t : Expr .eureal} {c : Expr .bool} {b b' T : Stmt} (hN : b.NoNeg) (hb : encodeLoops d b = .ok b')
    (h : encodeLoops d (.annot (.unroll k t) (.while c b)) = .ok T) (ht : t.ev = fun _ => ⊤) (φ : Exp) :
    fixpoint .gfp (c20Fun C c b' φ) ≤ vcSem C T φ ∧
      ∀ k' T', k ≤ k' → encodeLoops d (.annot (.unroll k' t) (.while c b)) = .ok T' → vcSem C T' φ ≤ vcSem C T φ := by
  have hm : Monotone (c20Fun C c b' φ) := loopFun_mono (vcSem_mono C hC (encodeLoops_noNeg hb hN)) c φ
  rw [C20_iterations C hb h]
  refine ⟨le_iterate_of_postfixed hm (gfp_postfixed hm) (ht ▸ fun _ => le_top) k, fun k' T' hk h' => ?_⟩
  rw [C20_iterations C hb h']
  exact iterate_top_anti hm (ht ▸ fun _ => le_top) hk

end

/-! ## Counterexample with negations -/

/-- `@unroll(k, 0) while true { negate }` is `∞` for `k = 1` and `0` for `k = 2`. -/
theorem C20_not_full : ¬ C20_full := by
  classical
  intro h
  let _ := unitDoms
  let _ := unitInterp
  let C : SemCtx := ⟨.lfp, fun _ _ _ φ => φ⟩
  have h0 : (extremeLit .down).ev = fun _ => 0 := funext extremeLit_down
  have h1 := ((h unitDoms unitInterp .down C (fun _ _ _ => monotone_id) 1 (extremeLit .down) (Expr.boolLit true)
    (.negate .down) (.negate .down) _ (fun _ => 0) rfl rfl).2.1 h0).2 2 _ (by omega) rfl zeroEnv
  rw [C20_iterations C (b := .negate .down) rfl rfl, C20_iterations C (b := .negate .down) rfl rfl, h0] at h1
  have h2 : ∀ X σ, c20Fun C (Expr.boolLit true) (.negate .down) (fun _ => 0) X σ = if X σ = 0 then ⊤ else 0 :=
    fun X σ => if_pos (rfl : true = true)
  simp only [Function.iterate_succ_apply', Function.iterate_zero, id, h2] at h1
  simp at h1

/-! ## Non-vacuity -/

/-- `@unroll(k, 0) while x ≤ 3 { x = x + 1 }` with a nested unrolled loop. -/
example (post : Expr .eureal) : ∃ b b' T e, b.NoNeg ∧ b.NoValidate ∧ b.GoodDists ∧ ¬ b.NoRules ∧
    encodeLoops .up b = .ok b' ∧
    encodeLoops .up (.annot (.unroll 4 (extremeLit .down)) (.while (Expr.boolLit true) b)) = .ok T ∧
    vcgen T post = .ok e := by
  let x : Var := ⟨⟨"x", 0⟩, .uint⟩
  let b : Stmt := .seq (.assign x (.bin (.add rfl) (.var ⟨"x", 0⟩) (Expr.uintLit 1)))
    (.annot (.unroll 2 Expr.inftyLit) (.while (.rel (.le rfl) (.var ⟨"x", 0⟩) (Expr.uintLit 3)) (.havoc .up [x])))
  exact ⟨b, _, _, _, ⟨trivial, trivial⟩, ⟨trivial, trivial⟩, ⟨trivial, trivial⟩, fun h => h.2.elim, rfl, rfl, rfl⟩

end Caesar
