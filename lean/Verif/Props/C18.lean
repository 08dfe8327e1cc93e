import Verif.ProofRules.LoopsSound
import Verif.Witness

/-!
# C18: `@invariant` and `@k_induction` are sound

Specification: `vcSem` with the greatest (procedures) or least (coprocedures) fixed point semantics of loops.
Model: `encodeLoops` (`Verif/ProofRules/Loops.lean`) followed by `vcgen`.

The full property `C18_full` is false: the encoding havocs only the variables that are *assigned to* in the loop body
and forgets the ones that are *havocked* there (`src/ast/util.rs:87-99`), so inductivity is only checked for their
initial values (`C18_not_full`). The partial theorem assumes that the havocked variables are also assigned to or
declared in the loop. Also missing: bodies with `negate` (Park induction needs monotone loop functions) and programs
with their own `validate` statements (see C02).
-/

open scoped ENNReal NNReal

namespace Caesar
set_option linter.unusedSectionVars false

/-- The full property, for programs without negations and `validate`. `A` is a set of variables on which the
postexpectation does not depend, and variables declared in loops are only used there. -/
def C18_full : Prop :=
  ∀ (_ : Doms) (_ : Interp) (d : Dir) (C : SemCtx), C.Regular → C.loop = d.inductionSem →
    ∀ (S S' : Stmt) (A : Var → Prop) (post e : Expr .eureal), S.NoNeg → S.NoValidate → S.GoodDists → S.OnlyInduction →
      S.DeclsLocal A → Ignores A post.ev → encodeLoops d S = .ok S' → vcgen S' post = .ok e →
      d.Le e.ev (vcSem C S post.ev)

section
variable [Doms] [Interp]

/-- The verification condition generated for a program whose loops are encoded by (k-)induction bounds its semantics
from below (procedures, greatest fixed points) or above (coprocedures, least fixed points). Loops may be nested, `k`
is arbitrary. -/
theorem C18_induction_sound_partial {d : Dir} {C : SemCtx} (hC : C.Regular) (hl : C.loop = d.inductionSem)
    {S S' : Stmt} {A : Var → Prop} {post e : Expr .eureal} (hN : S.NoNeg) (hV : S.NoValidate) (hG : S.GoodDists)
    (hI : S.OnlyInduction) (hD : S.DeclsLocal A) (hpost : Ignores A post.ev) (hH : S.HavocsReported)
    (henc : encodeLoops d S = .ok S') (hvc : vcgen S' post = .ok e) :
    d.Le e.ev (vcSem C S post.ev) := by
  have h1 := vcgen_sound C hvc (encodeLoops_validateOk henc hV post) (encodeLoops_goodDists henc hG)
  have h2 := (encodeLoops_sound hC hl S).1 henc hN hI (Stmt.localsOk_of_decls hD hH) hpost
  rw [← h1] at h2
  exact h2

/-- A procedure verified with (k-)induction satisfies its specification with respect to the greatest fixed point
semantics of its loops. -/
theorem C18_proc_verified_partial {C : SemCtx} (hC : C.Regular) (hl : C.loop = .gfp)
    {S S' : Stmt} {A : Var → Prop} {pre post e : Expr .eureal} (hN : S.NoNeg) (hV : S.NoValidate) (hG : S.GoodDists)
    (hI : S.OnlyInduction) (hD : S.DeclsLocal A) (hpost : Ignores A post.ev) (hH : S.HavocsReported)
    (henc : encodeLoops .down S = .ok S') (hvc : vcgen S' post = .ok e) (hver : ∀ σ, pre.ev σ ≤ e.ev σ) (σ : Env) :
    pre.ev σ ≤ vcSem C S post.ev σ :=
  (hver σ).trans (C18_induction_sound_partial (d := .down) hC hl hN hV hG hI hD hpost hH henc hvc σ)

/-- A coprocedure verified with (k-)induction satisfies its specification with respect to the least fixed point
semantics of its loops. -/
theorem C18_coproc_verified_partial {C : SemCtx} (hC : C.Regular) (hl : C.loop = .lfp)
    {S S' : Stmt} {A : Var → Prop} {pre post e : Expr .eureal} (hN : S.NoNeg) (hV : S.NoValidate) (hG : S.GoodDists)
    (hI : S.OnlyInduction) (hD : S.DeclsLocal A) (hpost : Ignores A post.ev) (hH : S.HavocsReported)
    (henc : encodeLoops .up S = .ok S') (hvc : vcgen S' post = .ok e) (hver : ∀ σ, e.ev σ ≤ pre.ev σ) (σ : Env) :
    vcSem C S post.ev σ ≤ pre.ev σ :=
  (C18_induction_sound_partial (d := .up) hC hl hN hV hG hI hD hpost hH henc hvc σ).trans (hver σ)

end

/-! ## Counterexample -/

def c18X : Var := ⟨⟨"x", 0⟩, .uint⟩
def c18B : Var := ⟨⟨"b", 0⟩, .bool⟩

/-- `havoc x; b = false` -/
def c18Body : Stmt := .seq (.havoc .down [c18X]) (.assign c18B (Expr.boolLit false))

/-- `@invariant(∞) while b { havoc x; b = false }` -/
def c18S : Stmt := .annot (.invariant Expr.inftyLit) (.while (.var ⟨"b", 0⟩) c18Body)

/-- `?(x == 0)` -/
def c18Post : Expr .eureal := .embed (.rel (s := .uint) .eq (.var ⟨"x", 0⟩) (Expr.uintLit 0))

theorem c18Post_zero [Doms] [Interp] {σ : Env} (h : σ c18X = (0 : ℕ)) : c18Post.ev σ = ⊤ :=
  if_pos h

theorem c18Post_one [Doms] [Interp] {σ : Env} (h : σ c18X = (1 : ℕ)) : c18Post.ev σ = 0 :=
  if_neg fun h' : σ c18X = (0 : ℕ) => absurd (h.symm.trans h') (by decide : ¬ (1 : ℕ) = 0)

/-- The loop sets `x` arbitrarily, but from `x = 0` the encoded loop is verified against the post `?(x == 0)`. -/
theorem C18_not_full : ¬ C18_full := by
  classical
  intro h
  let _ := unitDoms
  let _ := unitInterp
  let C : SemCtx := ⟨.gfp, fun l _ _ φ σ => ⨅ σ' ∈ {σ' | Agree l σ σ'}, φ σ'⟩
  obtain ⟨e, he⟩ : ∃ e, vcgen (transformKInduction .down 1 Expr.inftyLit (.var ⟨"b", 0⟩) c18Body) c18Post = .ok e :=
    ⟨_, rfl⟩
  have hx0 : zeroEnv c18X = (0 : ℕ) := rfl
  let σ := zeroEnv.upd c18B (True : Prop)
  have h1 := h unitDoms unitInterp .down C (regular_havoc .gfp) rfl c18S _ (fun _ => False) c18Post e ⟨trivial, trivial⟩
    ⟨trivial, trivial⟩ ⟨trivial, trivial⟩ ⟨trivial, trivial⟩
    ⟨fun v hv => absurd hv.1 (List.not_mem_nil), trivial, trivial⟩ (fun σ σ' hs => by rw [show σ' = σ from funext fun v => hs v id])
    rfl he
  -- the encoding evaluates to infinity
  have h2 : e.ev σ = ⊤ := by
    rw [vcgen_sound C he (transform_validateOk (b := c18Body) (fun p => ⟨trivial, fun _ _ => trivial⟩) 1 _ _ _)
      (transform_goodDists (b := c18Body) ⟨trivial, trivial⟩ 1 _ _), transformKInduction_sem]
    refine if_pos fun σ' hs => ?_
    show ⊤ ≤ loopFun C _ c18Body c18Post.ev _ σ'
    unfold loopFun
    split
    · exact le_iInf₂ fun _ _ => le_rfl
    · have hx : σ' c18X = (0 : ℕ) := by
        rw [hs c18X (by decide)]
        exact (Env.upd_ne _ (by decide) _).trans hx0
      rw [c18Post_zero hx]
  -- the loop evaluates to zero
  have h3 : vcSem C c18S c18Post.ev σ = 0 := by
    have hm := loopFun_mono (vcSem_mono C (regular_havoc .gfp).mono (S := c18Body) ⟨trivial, trivial⟩)
      (.var ⟨"b", 0⟩) c18Post.ev
    have hpf := gfp_postfixed hm
    let F := fixpoint .gfp (loopFun C (.var ⟨"b", 0⟩) c18Body c18Post.ev)
    refine le_antisymm ((hpf σ).trans ?_) zero_le
    have hb : (Expr.var ⟨"b", 0⟩ : Expr .bool).tv σ := by
      have : σ c18B = (True : Prop) := Env.upd_same _ _ _
      exact this.mpr trivial
    rw [show loopFun C (.var ⟨"b", 0⟩) c18Body c18Post.ev F σ = vcSem C c18Body F σ from if_pos hb]
    let σ1 : Env := σ.upd c18X (1 : ℕ)
    have ha : Agree [c18X] σ σ1 := fun v hv => Env.upd_ne _ (by simpa using hv) _
    refine (iInf₂_le (f := fun σ' (_ : σ' ∈ {σ' | Agree [c18X] σ σ'}) =>
      vcSem C (.assign c18B (Expr.boolLit false)) F σ') σ1 ha).trans ?_
    let σ2 : Env := σ1.upd c18B ((Expr.boolLit false).eval σ1)
    show F σ2 ≤ 0
    refine (hpf σ2).trans ?_
    have hb2 : ¬ (Expr.var ⟨"b", 0⟩ : Expr .bool).tv σ2 := by
      have h4 : σ2 c18B = (Expr.boolLit false).eval σ1 := Env.upd_same _ _ _
      exact fun hh => absurd (h4.mp hh) (by show ¬ (false = true); decide)
    rw [show loopFun C (.var ⟨"b", 0⟩) c18Body c18Post.ev F σ2 = c18Post.ev σ2 from if_neg hb2]
    refine le_of_eq (c18Post_one ?_)
    exact (Env.upd_ne _ (by decide) _).trans (Env.upd_same _ _ _)
  have h4 : e.ev σ ≤ vcSem C c18S c18Post.ev σ := h1 σ
  rw [h2, h3] at h4
  exact absurd h4 (by simp)

/-! ## Non-vacuity -/

/-- `@k_induction(2, I) while b { var y: UInt = x; @invariant(J) while (y ≤ 3) { y = y + 1 }; x = y }` -/
def c18Good (I J : Expr .eureal) : Stmt :=
  .annot (.kInduction 2 I) (.while (.var ⟨"b", 0⟩)
    (.seq (.varInit ⟨⟨"y", 0⟩, .uint⟩ (.var ⟨"x", 0⟩))
      (.seq (.annot (.invariant J) (.while (.rel (.le rfl) (.var ⟨"y", 0⟩) (Expr.uintLit 3))
        (.assign ⟨⟨"y", 0⟩, .uint⟩ (.bin (.add rfl) (.var ⟨"y", 0⟩) (Expr.uintLit 1)))))
        (.assign c18X (.var ⟨"y", 0⟩)))))

/-- All hypotheses on the program are met by a nested loop (with two different rules) with a local variable, and
verification condition generation succeeds. -/
example (I J post : Expr .eureal) :
    let S := c18Good I J
    S.NoNeg ∧ S.NoValidate ∧ S.GoodDists ∧ S.OnlyInduction ∧ S.DeclsLocal (fun _ => False) ∧ S.HavocsReported ∧
      ∃ S' e, encodeLoops .down S = .ok S' ∧ vcgen S' post = .ok e := by
  refine ⟨⟨trivial, trivial, trivial⟩, ⟨trivial, trivial, trivial⟩, ⟨trivial, trivial, trivial⟩,
    ⟨trivial, trivial, trivial⟩, ⟨?_, ⟨trivial, ?_, trivial⟩, trivial⟩,
    ⟨?_, trivial, ⟨fun _ h => h.elim, trivial⟩, trivial⟩, ⟨_, _, rfl, rfl⟩⟩
  · rintro v ⟨hv, hm⟩
    simp [Stmt.declared, Stmt.modified] at hv hm
    exact absurd hv hm.1
  · rintro v ⟨hv, hm⟩
    cases hv
  · intro v hv
    simp [Stmt.Havocs] at hv

/-- Also with a declared variable that is never assigned to:
`@invariant(I) while b { var y: UInt = x; b = (y ≤ 3) }`. -/
example : (Stmt.annot (.invariant Expr.inftyLit) (.while (.var ⟨"b", 0⟩)
      (.seq (.varInit ⟨⟨"y", 0⟩, .uint⟩ (.var ⟨"x", 0⟩))
        (.assign c18B (.rel (.le rfl) (.var ⟨"y", 0⟩) (Expr.uintLit 3)))))).DeclsLocal
    (fun v => v = ⟨⟨"y", 0⟩, .uint⟩) := by
  refine ⟨?_, trivial, trivial⟩
  rintro v ⟨hv, -⟩
  simp [Stmt.declared] at hv
  subst hv
  refine ⟨rfl, id, ?_, ?_⟩
  · intro h; exact absurd (congrArg Var.ty h) (by decide)
  · simp [Stmt.Reads, Stmt.Inits, Expr.Free]

end Caesar
