import Verif.ProofRules.NegLoops
import Verif.Witness

/-!
# C64: loops between negations

The meaning of `negate` turns lower bounds into upper bounds, so a loop behind a `negate` in a procedure has to be bounded from above. The program passes
the monotonicity check without a warning if there is a `conegate` behind the loop. Slicing follows the direction through negations
(`src/slicing/transform.rs:436-441`), the encoding of loops does not: it uses the direction of the procedure (`src/proof_rules/mod.rs:288-289,314`).
-/

open scoped ENNReal NNReal

namespace Caesar
set_option linter.unusedSectionVars false

/-- The full property: what is generated for a program with (k-)inductions which the monotonicity check accepts is on the safe side of its meaning.
Every branch and every loop restores the direction, negations are not in loops, and both fixed points of all loops are the same. Otherwise as `C18_full`;
the variables havocked in loops are also assigned to or declared there. -/
def C64_full : Prop :=
  ∀ (_ : Doms) (_ : Interp) (d : Dir) (C : SemCtx), C.Regular → C.loop = d.inductionSem →
    ∀ (S S' : Stmt) (A : Var → Prop) (post e : Expr .eureal), monoVisit d S = some d → S.BranchesReturn d → S.LoopsNoNeg →
      (∀ k φ, vcSem ⟨k, C.call⟩ S φ = vcSem C S φ) → S.NoValidate → S.GoodDists → S.OnlyInduction → S.DeclsLocal A → S.HavocsReported →
      Ignores A post.ev → encodeLoops d S = .ok S' → vcgen S' post = .ok e → d.Le e.ev (vcSem C S post.ev)

section
variable [Doms] [Interp]

/-- The property for programs in which every loop is in a context of the direction of the procedure, for all negations outside of loops. -/
theorem C64_partial {d d' : Dir} {C : SemCtx} (hC : C.Regular) (hl : C.loop = d.inductionSem) {S S' : Stmt} {A : Var → Prop}
    {post e : Expr .eureal} (hm : monoVisit d S = some d') (hb : S.BranchesReturn d) (hat : S.LoopsAt d d) (hN : S.LoopsNoNeg)
    (hV : S.NoValidate) (hG : S.GoodDists) (hI : S.OnlyInduction) (hD : S.DeclsLocal A) (hH : S.HavocsReported) (hpost : Ignores A post.ev)
    (henc : encodeLoops d S = .ok S') (hvc : vcgen S' post = .ok e) : d.Le e.ev (vcSem C S post.ev) := by
  have h1 := vcgen_sound C hvc (encodeLoops_validateOk henc hV post) (encodeLoops_goodDists henc hG)
  have h2 := encodeLoops_tracked hC hl S henc hm hb hat hN hI (Stmt.localsOk_of_decls hD hH) hpost
  rw [← h1] at h2
  exact h2

/-- A verified procedure of this kind satisfies its specification. -/
theorem C64_proc_partial {d' : Dir} {C : SemCtx} (hC : C.Regular) (hl : C.loop = .gfp) {S S' : Stmt} {A : Var → Prop}
    {pre post e : Expr .eureal} (hm : monoVisit .down S = some d') (hb : S.BranchesReturn .down) (hat : S.LoopsAt .down .down) (hN : S.LoopsNoNeg)
    (hV : S.NoValidate) (hG : S.GoodDists) (hI : S.OnlyInduction) (hD : S.DeclsLocal A) (hH : S.HavocsReported) (hpost : Ignores A post.ev)
    (henc : encodeLoops .down S = .ok S') (hvc : vcgen S' post = .ok e) (hver : ∀ σ, pre.ev σ ≤ e.ev σ) (σ : Env) :
    pre.ev σ ≤ vcSem C S post.ev σ :=
  (hver σ).trans (C64_partial (d := .down) hC hl hm hb hat hN hV hG hI hD hH hpost henc hvc σ)

end

/-! ## Counterexample -/

/-- `@invariant(0) while false {}` -/
private def loop : Stmt := .annot (.invariant (Expr.botLit .eureal rfl)) (.while (Expr.boolLit false) .skip)

/-- `negate; @invariant(0) while false {}; conegate` -/
private def prog : Stmt := .seq (.negate .down) (.seq loop (.negate .up))

private theorem loop_sem [Doms] [Interp] (C : SemCtx) (φ : Exp) : vcSem C loop φ = φ := by
  classical
  show fixpoint C.loop (loopFun C (Expr.boolLit false) .skip φ) = φ
  have h : loopFun C (Expr.boolLit false) .skip φ = fun _ => φ := by
    funext X σ
    exact if_neg (fun h : false = true => by cases h)
  rw [h]
  cases C.loop
  · exact le_antisymm (sInf_le (le_refl φ)) (le_sInf fun X hX => hX)
  · exact le_antisymm (sSup_le fun X hX => hX) (le_sSup (le_refl φ))

private theorem prog_sem [Doms] [Interp] (C : SemCtx) (k : LoopSem) (φ : Exp) : vcSem ⟨k, C.call⟩ prog φ = vcSem C prog φ := by
  have h : ∀ C' : SemCtx, vcSem C' prog φ = vcSem C' (.negate .down) (vcSem C' (.negate .up) φ) := fun C' =>
    congrArg (vcSem C' (.negate .down)) (loop_sem C' _)
  rw [h, h]
  rfl

/-- The procedure with body `prog`, pre `∞` and post `0` verifies, although the body maps `0` to `0`. -/
theorem C64_verifies [Doms] [Interp] : ∃ S' e, encodeLoops .down prog = .ok S' ∧ vcgen S' (Expr.botLit .eureal rfl) = .ok e ∧ (∀ σ, e.ev σ = ⊤) ∧
    ∀ C σ, vcSem C prog (fun _ => 0) σ = 0 := by
  classical
  obtain ⟨S', hS⟩ : ∃ S', encodeLoops .down prog = .ok S' := ⟨_, rfl⟩
  obtain ⟨e, he⟩ : ∃ e, vcgen S' (Expr.botLit .eureal rfl) = .ok e := by cases hS; exact ⟨_, rfl⟩
  refine ⟨S', e, hS, he, fun σ => ?_, fun C σ => ?_⟩
  · let C : SemCtx := ⟨.gfp, fun _ _ _ φ => φ⟩
    rw [vcgen_sound C he (encodeLoops_validateOk hS (by exact ⟨trivial, trivial, trivial⟩) _) (encodeLoops_goodDists hS (by exact ⟨trivial, trivial, trivial⟩))]
    cases hS
    show (if vcSem C (transformKInduction .down 1 (Expr.botLit .eureal rfl) (Expr.boolLit false) .skip) _ σ = 0 then (⊤ : ℝ≥0∞) else 0) = ⊤
    rw [transformKInduction_sem]
    refine if_pos ?_
    have h0 : (Expr.botLit .eureal rfl).ev σ = 0 := by
      show ((0 : ℕ) : ℝ≥0∞) = 0
      exact Nat.cast_zero
    split
    · exact h0
    · rfl
  · show (if vcSem C loop _ σ = 0 then (⊤ : ℝ≥0∞) else 0) = 0
    rw [loop_sem]
    refine if_neg ?_
    show ¬ (if (0 : ℝ≥0∞) = ⊤ then (0 : ℝ≥0∞) else ⊤) = 0
    simp

theorem C64_not_full : ¬ C64_full := by
  intro h
  let _ := unitDoms
  let _ := unitInterp
  obtain ⟨S', e, hS, he, h1, h2⟩ := C64_verifies
  let C : SemCtx := ⟨.gfp, fun l _ _ φ σ => ⨅ σ' ∈ {σ' | Agree l σ σ'}, φ σ'⟩
  have hz : (Expr.botLit .eureal rfl).ev = fun _ => 0 := by
    funext σ
    show ((0 : ℕ) : ℝ≥0∞) = 0
    exact Nat.cast_zero
  have := h unitDoms unitInterp .down C (regular_havoc .gfp) rfl prog S' (fun _ => False) (Expr.botLit .eureal rfl) e rfl
    ⟨trivial, fun _ _ => ⟨⟨trivial, rfl⟩, fun _ _ => trivial⟩⟩ ⟨trivial, trivial, trivial⟩ (fun k φ => prog_sem C k φ)
    ⟨trivial, trivial, trivial⟩ ⟨trivial, trivial, trivial⟩ ⟨trivial, trivial, trivial⟩
    ⟨⟨trivial, ⟨fun v hv => absurd hv.1 (List.not_mem_nil), trivial⟩⟩, trivial⟩ ⟨trivial, ⟨fun v hv => hv.elim, trivial⟩, trivial⟩
    (fun σ σ' hs => by rw [show σ' = σ from funext fun v => hs v id]) hS he zeroEnv
  rw [h1, hz, h2 C] at this
  exact absurd this (by simp)

/-! ## Non-vacuity -/

/-- `@invariant(0) while false {}; negate; assert 0; conegate`: a loop and, behind it, negations. -/
private def good : Stmt := .seq loop (.seq (.negate .down) (.seq (.assert .up (Expr.botLit .eureal rfl)) (.negate .up)))

example : monoVisit .down good = some .down ∧ good.BranchesReturn .down ∧ good.LoopsAt .down .down ∧ good.LoopsNoNeg ∧ good.NoValidate ∧
    good.GoodDists ∧ good.OnlyInduction ∧ good.DeclsLocal (fun _ => False) ∧ good.HavocsReported ∧
    ∃ S' e, encodeLoops .down good = .ok S' ∧ vcgen S' (Expr.botLit .eureal rfl) = .ok e :=
  ⟨rfl, ⟨⟨trivial, rfl⟩, fun _ _ => ⟨trivial, fun _ _ => ⟨trivial, fun _ _ => trivial⟩⟩⟩, ⟨rfl, fun _ _ => ⟨trivial, fun _ _ => ⟨trivial, fun _ _ => trivial⟩⟩⟩,
    ⟨trivial, trivial, trivial, trivial⟩, ⟨trivial, trivial, trivial, trivial⟩, ⟨trivial, trivial, trivial, trivial⟩,
    ⟨trivial, trivial, trivial, trivial⟩, ⟨⟨⟨trivial, trivial⟩, trivial⟩, ⟨fun v hv => absurd hv.1 (List.not_mem_nil), trivial⟩⟩,
    ⟨⟨fun v hv => hv.elim, trivial⟩, trivial, trivial, trivial⟩, _, _, rfl, rfl⟩

/-- `negate; @invariant(0) while false {}; conegate` is excluded only because of the direction at the loop. -/
example : ¬ prog.LoopsAt .down .down := fun h => by
  have := (h.2 .up rfl).1
  cases this

end Caesar
