import Verif.Props.C25

/-!
# C24: procedure calls are sound with respect to specifications

The encoding of a call is compared with `runCall` (`Procs/Spec.lean`): running a callee body which satisfies the
specification.
-/

open scoped ENNReal NNReal

namespace Caesar
set_option linter.unusedSectionVars false

/-- The encoding of the call is at most (for coprocs: at least) the value of running the body `B`, for all continuations
`φ` (which do not mention the temporaries of the encoding), states `σ` and values `τ₀` of uninitialised variables. -/
def CallSound [Doms] [Interp] (C : SemCtx) (p : Proc) (B : Stmt) (lhs : List Var) (args : List ((t : Ty) × Expr t)) : Prop :=
  ∀ (declared : List Var) (φ : Exp), Ignores (· ∈ p.inputs.map Param.old) φ → ∀ σ τ₀,
    match p.dir with
    | .down => vcSem C (Stmt.block (encodeAssign declared p lhs args).1) φ σ ≤ runCall p (vcSem C B) lhs args φ σ τ₀
    | .up => runCall p (vcSem C B) lhs args φ σ τ₀ ≤ vcSem C (Stmt.block (encodeAssign declared p lhs args).1) φ σ

/-- The body of `p` is `B`: monotone, does not change the input parameters (they are immutable) and satisfies the
specification. -/
structure BodyOk [Doms] [Interp] (C : SemCtx) (p : Proc) (B : Stmt) : Prop where
  body : p.body = some B
  noNeg : B.NoNeg
  ins : ∀ x ∈ p.ins, ¬ B.Touched x
  meets : p.Meets (vcSem C B)

/-- C24: the encoding of a call never yields more than running any body that satisfies the specification (never less,
for coprocs). -/
def C24_full : Prop :=
  ∀ (_ : Doms) (_ : Interp) (C : SemCtx), C.Regular → ∀ (p : Proc) (B : Stmt) (lhs : List Var) (args : List ((t : Ty) × Expr t)),
    p.WF → BodyOk C p B → CallWF p lhs args → CallSound C p B lhs args

section
variable [Doms] [Interp]

/-- C24, for procedures with at least one postcondition and calls whose left-hand sides are distinct and whose arguments
do not clash with the parameters (`NoClash`). Missing: procedures without postcondition
(`C24_not_full`), permuted arguments in recursive calls (`C24_swap`) and repeated left-hand sides (`C24_repeated_lhs`). -/
theorem C24_partial (C : SemCtx) (hC : C.Regular) (p : Proc) (B : Stmt) (lhs : List Var) (args : List ((t : Ty) × Expr t))
    (hp : p.WF) (hB : BodyOk C p B) (hc : CallWF p lhs args) (hpost : p.ensures ≠ []) (hcl : NoClash p lhs args) :
    CallSound C p B lhs args := by
  intro declared φ hφ σ τ₀
  have hmono : Monotone (vcSem C B) := vcSem_mono C hC.mono hB.noNeg
  have hK : KeepsIns p (vcSem C B) := fun φ ψ τ h =>
    vcSem_frame hC (M := fun v => B.Touched v) (fun v hv => hv) fun τ' hτ' => h τ' fun x hx => hτ' x (hB.ins x hx)
  cases hd : p.dir with
  | down => exact encodeAssign_le_run C hp hd hpost hc hcl hmono hK hB.meets declared hφ σ τ₀
  | up => exact run_le_encodeAssign C hp hd hpost hc hcl hmono hK hB.meets declared hφ σ τ₀

/-- C24 for calls of other procedures: the arguments and left-hand sides do not mention parameters of the callee. -/
theorem C24_otherCallee (C : SemCtx) (hC : C.Regular) (p : Proc) (B : Stmt) (lhs : List Var) (args : List ((t : Ty) × Expr t))
    (hp : p.WF) (hB : BodyOk C p B) (hc : CallWF p lhs args) (hpost : p.ensures ≠ []) (hn : lhs.Nodup)
    (hargs : ∀ a ∈ args, ∀ x ∈ p.ins, ¬ a.2.Free x) (hlhs : ∀ y ∈ lhs, y ∉ p.outputs) : CallSound C p B lhs args := by
  refine C24_partial C hC p B lhs args hp hB hc hpost ⟨hn, seqOkOn_of_fresh hargs _, seqOkOn_of_fresh ?_ _⟩
  intro a ha x hx hf
  obtain ⟨y, hy, rfl⟩ := List.mem_map.mp ha
  have : x = y := hf
  exact hlhs y hy (this ▸ hx)

end

/-! ## Violations -/

/-- A regular context in which calls havoc their left-hand sides. -/
@[reducible] noncomputable def havocCtx [Doms] : SemCtx := ⟨.lfp, fun l _ _ φ σ => ⨅ σ' ∈ {σ' | Agree l σ σ'}, φ σ'⟩

/-- The literal `1/2`. -/
def halfLit : Expr .eureal := .lit (.efrac (1/2))

theorem halfLit_ev [Doms] [Interp] (σ : Env) : halfLit.ev σ = ((1 / 2 : ℝ≥0) : ℝ≥0∞) := by
  show (((1/2 : ℚ≥0) : ℝ≥0) : ℝ≥0∞) = _
  congr 1
  push_cast
  rfl

/-- `proc p() -> () { weigh 1/2 }`, without `pre` and `post`. -/
def halfProc : Proc := ⟨⟨"p", 0⟩, .down, [], [], [], some (.weigh halfLit)⟩

/-- C24 is violated for procedures without postcondition: no `compare` is generated for the (implicit)
postcondition `⊤`, so the call keeps the postexpectation, although the body only guarantees half of it. The
documentation (`website/docs/heyvl/procs.md`, "Why validate is needed for soundness") describes this
unsoundness for an encoding without `validate`. -/
theorem C24_not_full : ¬ C24_full := by
  intro h
  let _ := unitDoms
  let _ := unitInterp
  have hw : halfProc.WF :=
    ⟨List.nodup_nil, fun e he => absurd he List.not_mem_nil, fun e he => absurd he List.not_mem_nil,
      fun e he => absurd he List.not_mem_nil, List.nodup_nil, fun x hx => absurd hx List.not_mem_nil⟩
  have hb : BodyOk havocCtx halfProc (.weigh halfLit) := by
    refine ⟨rfl, trivial, fun x hx => absurd hx List.not_mem_nil, fun τ => ?_⟩
    show _ ≤ halfLit.ev τ * ⨅ e ∈ ([] : List (Expr .eureal)), e.ev τ
    rw [halfLit_ev, show (⨅ e ∈ ([] : List (Expr .eureal)), e.ev τ) = ⊤ by simp, ENNReal.mul_top (by simp)]
    exact le_top
  have h1 := h unitDoms unitInterp havocCtx (regular_havoc _) halfProc _ [] [] hw hb
    ⟨rfl, rfl, fun a ha => absurd ha List.not_mem_nil, fun x hx => absurd hx List.not_mem_nil⟩ [] (fun _ => 1) (fun _ _ _ => rfl)
    zeroEnv zeroEnv
  have h2 : (⨅ σ' ∈ {σ' | Agree [] zeroEnv σ'}, (1 : ℝ≥0∞)) ≤ halfLit.ev zeroEnv * 1 := h1
  have h3 : (1 : ℝ≥0∞) ≤ halfLit.ev zeroEnv * 1 := (le_iInf₂ fun _ _ => le_rfl).trans h2
  rw [halfLit_ev, mul_one] at h3
  have h4 : (1 : ℝ≥0) ≤ 1 / 2 := by exact_mod_cast h3
  exact absurd h4 (by norm_num)

/-- `proc p(a: EUReal, b: EUReal) -> () pre a post a { }`. -/
def swapProc : Proc :=
  ⟨⟨"p", 0⟩, .down, [⟨⟨⟨"a", 0⟩, .eureal⟩, 1⟩, ⟨⟨⟨"b", 0⟩, .eureal⟩, 2⟩], [],
    [.requires (.var ⟨"a", 0⟩), .ensures (.var ⟨"a", 0⟩)], some .skip⟩

/-- C24 is violated for permuted arguments, here `p(b, a)` in the body of `p(a, b)`, even though there is a
postcondition. -/
theorem C24_swap : let _ := unitDoms; let _ := unitInterp
    ∃ (C : SemCtx) (p : Proc) (B : Stmt) (lhs : List Var) (args : List ((t : Ty) × Expr t)), C.Regular ∧ p.WF ∧ BodyOk C p B ∧
      CallWF p lhs args ∧ p.ensures ≠ [] ∧ lhs.Nodup ∧ ¬ CallSound C p B lhs args := by
  intro _ _
  let a : Var := ⟨⟨"a", 0⟩, .eureal⟩
  let b : Var := ⟨⟨"b", 0⟩, .eureal⟩
  refine ⟨havocCtx, swapProc, .skip, [], [⟨.eureal, varExpr b⟩, ⟨.eureal, varExpr a⟩], regular_havoc _,
    ⟨by decide, ?_, ?_, ?_, by decide, by decide⟩, ⟨rfl, trivial, fun _ _ h => h, ?_⟩, ⟨rfl, rfl, ?_, by decide⟩, ?_, List.nodup_nil, ?_⟩
  · intro e he v hv
    obtain rfl := List.mem_singleton.mp (show e ∈ [(.var ⟨"a", 0⟩ : Expr .eureal)] from he)
    obtain rfl : v = a := hv
    decide
  · intro e he v hv
    obtain rfl := List.mem_singleton.mp (show e ∈ [(.var ⟨"a", 0⟩ : Expr .eureal)] from he)
    obtain rfl : v = a := hv
    decide
  · intro e he
    obtain rfl := List.mem_singleton.mp (show e ∈ [(.var ⟨"a", 0⟩ : Expr .eureal)] from he)
    trivial
  · intro τ; exact le_rfl
  · intro x hx y hy hf
    fin_cases hx
    · obtain rfl : y = b := hf
      exact absurd hy (by decide)
    · obtain rfl : y = a := hf
      exact absurd hy (by decide)
  · exact List.cons_ne_nil _ _
  · intro h
    classical
    have henc : (encodeAssign [] swapProc [] [⟨.eureal, varExpr b⟩, ⟨.eureal, varExpr a⟩]).1 =
        [wrapError (.assert .down (substPairs (varExpr a) [⟨a, varExpr b⟩, ⟨b, varExpr a⟩])),
          .varInit ⟨⟨"old_a", 1⟩, .eureal⟩ (varExpr b), .havoc .down [],
          wrapSuccess (.compare .down (substPairs (varExpr a) [⟨a, varExpr ⟨⟨"old_a", 1⟩, .eureal⟩⟩, ⟨b, varExpr a⟩]))] := by
      rfl
    let σ : Env := zeroEnv.upd a (⊤ : ℝ≥0∞)
    have h1 := h [] (fun _ => 0) (fun _ _ _ => rfl) σ zeroEnv
    have h1 : vcSem havocCtx (Stmt.block (encodeAssign [] swapProc [] [⟨.eureal, varExpr b⟩, ⟨.eureal, varExpr a⟩]).1)
      (fun _ => 0) σ ≤ 0 := h1
    rw [henc] at h1
    have ha : σ a = (⊤ : ℝ≥0∞) := Env.upd_same _ _ _
    have hb : σ b = (0 : ℝ≥0∞) := Env.upd_ne _ (by decide) _
    let σ₁ : Env := σ.upd ⟨⟨"old_a", 1⟩, .eureal⟩ (σ b)
    have h2 : min ((substPairs (varExpr a) [⟨a, varExpr b⟩, ⟨b, varExpr a⟩]).ev σ) (⨅ σ' ∈ {σ' | Agree [] σ₁ σ'},
      if (substPairs (varExpr a) [⟨a, varExpr ⟨⟨"old_a", 1⟩, .eureal⟩⟩, ⟨b, varExpr a⟩]).ev σ' ≤ 0 then (⊤ : ℝ≥0∞) else 0) ≤ 0 := h1
    have h3 : (substPairs (varExpr a) [⟨a, varExpr b⟩, ⟨b, varExpr a⟩]).ev σ = ⊤ := by
      rw [substPairs_ev]
      show ((σ.upd b (σ a)).upd a ((σ.upd b (σ a)) b)) a = (⊤ : ℝ≥0∞)
      rw [Env.upd_same, Env.upd_same, ha]
    have h4 : (⨅ σ' ∈ {σ' | Agree [] σ₁ σ'},
      if (substPairs (varExpr a) [⟨a, varExpr ⟨⟨"old_a", 1⟩, .eureal⟩⟩, ⟨b, varExpr a⟩]).ev σ' ≤ 0 then (⊤ : ℝ≥0∞) else 0) = ⊤ := by
      refine top_le_iff.mp (le_iInf₂ fun σ' (hs : Agree [] σ₁ σ') => ?_)
      obtain rfl : σ' = σ₁ := funext fun v => hs v List.not_mem_nil
      rw [if_pos]
      rw [substPairs_ev]
      refine le_of_eq ?_
      show ((σ₁.upd b (σ₁ a)).upd a ((σ₁.upd b (σ₁ a)) ⟨⟨"old_a", 1⟩, .eureal⟩)) a = (0 : ℝ≥0∞)
      rw [Env.upd_same, Env.upd_ne _ (by decide)]
      exact (Env.upd_same σ (⟨⟨"old_a", 1⟩, .eureal⟩ : Var) (σ b)).trans hb
    rw [h3, h4] at h2
    exact absurd h2 (by simp)

/-- `y != z`. -/
def pairPost : Expr .eureal := .embed (.rel .ne (.var ⟨"y", 0⟩ : Expr .eureal) (.var ⟨"z", 0⟩))

/-- `proc p() -> (y: EUReal, z: EUReal) pre ∞ post ?(y != z) { y = 0; z = ∞ }`. -/
def pairProc : Proc :=
  ⟨⟨"p", 0⟩, .down, [], [⟨⟨"y", 0⟩, .eureal⟩, ⟨⟨"z", 0⟩, .eureal⟩], [.requires Expr.inftyLit, .ensures pairPost],
    some (.seq (.assign ⟨⟨"y", 0⟩, .eureal⟩ (.lit (.efrac 0))) (.assign ⟨⟨"z", 0⟩, .eureal⟩ Expr.inftyLit))⟩

/-- C24 is violated for `x, x = p()`: the postcondition `?(y != z)` becomes `?(x != x)`, so anything can be proved after the
call. -/
theorem C24_repeated_lhs : let _ := unitDoms; let _ := unitInterp
    ∃ (C : SemCtx) (p : Proc) (B : Stmt) (lhs : List Var) (args : List ((t : Ty) × Expr t)), C.Regular ∧ p.WF ∧ BodyOk C p B ∧
      CallWF p lhs args ∧ p.ensures ≠ [] ∧ args = [] ∧ ¬ CallSound C p B lhs args := by
  classical
  intro _ _
  let x : Var := ⟨⟨"x", 1⟩, .eureal⟩
  let y : Var := ⟨⟨"y", 0⟩, .eureal⟩
  let z : Var := ⟨⟨"z", 0⟩, .eureal⟩
  refine ⟨havocCtx, pairProc, _, [x, x], [], regular_havoc _,
    ⟨by decide, ?_, ?_, ?_, by decide, by decide⟩, ⟨rfl, ⟨trivial, trivial⟩, fun _ h => absurd h List.not_mem_nil, ?_⟩,
    ⟨rfl, rfl, fun a ha => absurd ha List.not_mem_nil, by decide⟩, ?_, rfl, ?_⟩
  · intro e he v hv
    obtain rfl := List.mem_singleton.mp (show e ∈ [Expr.inftyLit] from he)
    exact absurd hv id
  · intro e he v hv
    obtain rfl := List.mem_singleton.mp (show e ∈ [pairPost] from he)
    rcases hv with (rfl : v = y) | (rfl : v = z)
    · decide
    · decide
  · intro e he
    obtain rfl := List.mem_singleton.mp (show e ∈ [pairPost] from he)
    exact ⟨trivial, trivial⟩
  · intro τ
    refine le_trans le_top (le_of_eq (Eq.symm ?_))
    show (⨅ e ∈ [pairPost], e.ev ((τ.upd y (((0 : ℚ≥0) : ℝ≥0) : ℝ≥0∞)).upd z (⊤ : ℝ≥0∞))) = ⊤
    set τ' : Env := (τ.upd y (((0 : ℚ≥0) : ℝ≥0) : ℝ≥0∞)).upd z (⊤ : ℝ≥0∞) with hτ'
    have hy : τ' y = (0 : ℝ≥0∞) := by
      have h1 : τ' y = (τ.upd y (((0 : ℚ≥0) : ℝ≥0) : ℝ≥0∞)) y := Env.upd_ne _ (by decide) _
      have h2 : (τ.upd y (((0 : ℚ≥0) : ℝ≥0) : ℝ≥0∞)) y = (((0 : ℚ≥0) : ℝ≥0) : ℝ≥0∞) := Env.upd_same _ _ _
      have h0 : (((0 : ℚ≥0) : ℝ≥0) : ℝ≥0∞) = 0 := by simp
      exact h1.trans (h2.trans h0)
    have hz : τ' z = (⊤ : ℝ≥0∞) := Env.upd_same _ _ _
    refine top_le_iff.mp (le_iInf₂ fun e he => ?_)
    obtain rfl := List.mem_singleton.mp he
    show (⊤ : ℝ≥0∞) ≤ (Expr.embed _ : Expr .eureal).ev τ'
    rw [Expr.ev_embed, if_pos]
    show ¬ (τ' y = τ' z)
    rw [hy, hz]
    exact ENNReal.zero_ne_top
  · exact List.cons_ne_nil _ _
  · intro h
    have henc : (encodeAssign [] pairProc [x, x] []).1 =
        [wrapError (.assert .down Expr.inftyLit), .havoc .down [x, x],
          wrapSuccess (.compare .down (substPairs pairPost [⟨y, varExpr x⟩, ⟨z, varExpr x⟩]))] := by
      rfl
    have h1 := h [] (fun _ => 0) (fun _ _ _ => rfl) zeroEnv zeroEnv
    have h1 : vcSem havocCtx (Stmt.block (encodeAssign [] pairProc [x, x] []).1) (fun _ => 0) zeroEnv ≤ 0 := h1
    rw [henc] at h1
    have h2 : min (Expr.inftyLit.ev zeroEnv) (⨅ σ' ∈ {σ' | Agree [x, x] zeroEnv σ'},
      if (substPairs pairPost [⟨y, varExpr x⟩, ⟨z, varExpr x⟩]).ev σ' ≤ 0 then (⊤ : ℝ≥0∞) else 0) ≤ 0 := h1
    have h4 : (⨅ σ' ∈ {σ' | Agree [x, x] zeroEnv σ'},
      if (substPairs pairPost [⟨y, varExpr x⟩, ⟨z, varExpr x⟩]).ev σ' ≤ 0 then (⊤ : ℝ≥0∞) else 0) = ⊤ := by
      refine top_le_iff.mp (le_iInf₂ fun σ' _ => ?_)
      rw [if_pos]
      rw [substPairs_ev]
      refine le_of_eq ?_
      show (Expr.embed _ : Expr .eureal).ev ((σ'.upd z (σ' x)).upd y ((σ'.upd z (σ' x)) x)) = 0
      rw [Expr.ev_embed, if_neg]
      show ¬ ¬ (((σ'.upd z (σ' x)).upd y ((σ'.upd z (σ' x)) x)) y = ((σ'.upd z (σ' x)).upd y ((σ'.upd z (σ' x)) x)) z)
      rw [Env.upd_same, Env.upd_ne _ (show z ≠ y by decide), Env.upd_same, Env.upd_ne _ (show x ≠ z by decide)]
      exact not_not.mpr rfl
    rw [h4] at h2
    exact absurd h2 (by rw [show Expr.inftyLit.ev zeroEnv = ⊤ from rfl]; simp)

/-! ## Non-vacuity -/

/-- A call `x = p(x)` of the proc `p(a) -> (r) pre a post r { r = a }`: all hypotheses hold. -/
def idProc : Proc :=
  ⟨⟨"p", 0⟩, .down, [⟨⟨⟨"a", 0⟩, .eureal⟩, 1⟩], [⟨⟨"r", 0⟩, .eureal⟩], [.requires (.var ⟨"a", 0⟩), .ensures (.var ⟨"r", 0⟩)],
    some (.assign ⟨⟨"r", 0⟩, .eureal⟩ (.var ⟨"a", 0⟩))⟩

theorem idProc_wf : idProc.WF := by
  refine ⟨by decide, ?_, ?_, ?_, by decide, by decide⟩
  · intro e he v hv
    obtain rfl := List.mem_singleton.mp (show e ∈ [(.var ⟨"a", 0⟩ : Expr .eureal)] from he)
    obtain rfl : v = ⟨⟨"a", 0⟩, .eureal⟩ := hv
    decide
  · intro e he v hv
    obtain rfl := List.mem_singleton.mp (show e ∈ [(.var ⟨"r", 0⟩ : Expr .eureal)] from he)
    obtain rfl : v = ⟨⟨"r", 0⟩, .eureal⟩ := hv
    decide
  · intro e he
    obtain rfl := List.mem_singleton.mp (show e ∈ [(.var ⟨"r", 0⟩ : Expr .eureal)] from he)
    trivial

example [Doms] [Interp] : CallSound havocCtx idProc (.assign ⟨⟨"r", 0⟩, .eureal⟩ (.var ⟨"a", 0⟩)) [⟨⟨"x", 5⟩, .eureal⟩]
    [⟨.eureal, .var ⟨"x", 5⟩⟩] := by
  refine C24_otherCallee havocCtx (regular_havoc _) idProc _ _ _ idProc_wf ⟨rfl, trivial, by unfold Stmt.Touched; decide, fun τ => ?_⟩
    ⟨rfl, rfl, ?_, by decide⟩ (List.cons_ne_nil _ _) (List.nodup_singleton _) ?_ (by decide)
  · show (⨅ e ∈ [(.var ⟨"a", 0⟩ : Expr .eureal)], e.ev τ) ≤
      ⨅ e ∈ [(.var ⟨"r", 0⟩ : Expr .eureal)], e.ev (τ.upd ⟨⟨"r", 0⟩, .eureal⟩ (τ ⟨⟨"a", 0⟩, .eureal⟩))
    refine (iInf₂_le (f := fun (e : Expr .eureal) _ => e.ev τ) (.var ⟨"a", 0⟩) (List.mem_singleton.mpr rfl)).trans
      (le_iInf₂ fun e he => ?_)
    obtain rfl := List.mem_singleton.mp he
    exact le_of_eq (Env.upd_same τ (⟨⟨"r", 0⟩, .eureal⟩ : Var) _).symm
  · intro a ha x hx hf
    obtain rfl := List.mem_singleton.mp ha
    obtain rfl : x = ⟨⟨"x", 5⟩, .eureal⟩ := hf
    exact absurd hx (by decide)
  · intro a ha x hx hf
    obtain rfl := List.mem_singleton.mp ha
    obtain rfl : x = ⟨⟨"x", 5⟩, .eureal⟩ := hf
    exact absurd hx (by decide)

end Caesar
