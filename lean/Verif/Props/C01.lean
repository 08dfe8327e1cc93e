import Verif.VcgenSound
import Verif.Witness

/-!
# C01: generated verification conditions mean what the documentation says

Specification: `Verif/Spec.lean` (`vcSem`, transcribed from the documentation).
Model: `Verif/Vcgen.lean` (`vcgen`).

Full property: `C01_full`. It is false because of `validate` (see C02) and `binom` (see C44): `C01_not_full`.
The partial theorem covers everything else. Missing: `validate` whose post is neither an implication nor
`{0,∞}`-valued, and `binom` with parameters for which the exponent matters.
-/

open scoped ENNReal NNReal

namespace Caesar
set_option linter.unusedSectionVars false

/-- The full property. -/
def C01_full : Prop :=
  ∀ (_ : Doms) (_ : Interp) (C : SemCtx) (S : Stmt) (post e : Expr .eureal),
    vcgen S post = .ok e → ∀ σ : Env, e.ev σ = vcSem C S post.ev σ

section
variable [Doms] [Interp]

/-- Whenever verification condition generation succeeds, the result evaluates in every state to the documented
semantics. Loops and calls make it fail, so `C` is irrelevant. -/
theorem C01_vcgen_meaning_partial (C : SemCtx) {S : Stmt} {post e : Expr .eureal} (h : vcgen S post = .ok e)
    (hv : ValidateOk S post) (hd : S.GoodDists) (σ : Env) : e.ev σ = vcSem C S post.ev σ :=
  congrFun (vcgen_sound C h hv hd) σ

/-- Without `validate`, only the distribution condition remains. -/
theorem C01_vcgen_meaning_no_validate (C : SemCtx) {S : Stmt} {post e : Expr .eureal}
    (h : vcgen S post = .ok e) (hv : S.NoValidate) (hd : S.GoodDists) (σ : Env) :
    e.ev σ = vcSem C S post.ev σ :=
  C01_vcgen_meaning_partial C h (validateOk_of_noValidate hv post) hd σ

end

/-- Statements without loops and calls (annotations other than slicing ones only occur on loops), all
distribution calls having a nonempty table. -/
def Stmt.LoopCallFree : Stmt → Prop
  | .while _ _ => False
  | .call _ _ _ _ => False
  | .annot (.slicing _) s => s.LoopCallFree
  | .annot _ _ => False
  | .sample _ _ d => ∃ tbl, d.apply = .ok tbl ∧ tbl ≠ []
  | .seq a b => a.LoopCallFree ∧ b.LoopCallFree
  | .demonic a b => a.LoopCallFree ∧ b.LoopCallFree
  | .angelic a b => a.LoopCallFree ∧ b.LoopCallFree
  | .additive a b => a.LoopCallFree ∧ b.LoopCallFree
  | .ite _ a b => a.LoopCallFree ∧ b.LoopCallFree
  | _ => True

/-- Verification condition generation succeeds on all statements without loops and calls. -/
theorem C01_vcgen_succeeds {S : Stmt} (h : S.LoopCallFree) (post : Expr .eureal) :
    ∃ e, vcgen S post = .ok e := by
  induction S generalizing post with
  | seq a b iha ihb =>
    obtain ⟨e, he⟩ := ihb h.2 post
    obtain ⟨e', he'⟩ := iha h.1 e
    exact ⟨e', by simp [vcgen, bind, Except.bind, he, he']⟩
  | demonic a b iha ihb | angelic a b iha ihb | additive a b iha ihb | ite c a b iha ihb =>
    obtain ⟨e, he⟩ := iha h.1 post
    obtain ⟨e', he'⟩ := ihb h.2 post
    simp only [vcgen, bind, Except.bind, he, he']
    exact ⟨_, rfl⟩
  | «while» => exact h.elim
  | call => exact h.elim
  | annot an s ih =>
    cases an with
    | slicing k => exact ih h post
    | _ => exact h.elim
  | sample b x d =>
    obtain ⟨tbl, h1, h2⟩ := h
    simp only [vcgen, h1, bind, Except.bind]
    cases tbl with
    | nil => exact absurd rfl h2
    | cons p tbl => exact ⟨_, rfl⟩
  | validate d =>
    cases d <;> simp only [vcgen] <;> split <;> exact ⟨_, rfl⟩
  | havoc d => cases d <;> exact ⟨_, rfl⟩
  | assert d => cases d <;> exact ⟨_, rfl⟩
  | assume d => cases d <;> exact ⟨_, rfl⟩
  | compare d => cases d <;> exact ⟨_, rfl⟩
  | negate d => cases d <;> exact ⟨_, rfl⟩
  | _ => exact ⟨_, rfl⟩

/-- Non-vacuity: `assert ?(x ≤ 3); x = unif(1,6); { tick 1 } ⊓ { havoc x; validate; assume ∞ }`. -/
def C01_example : Stmt :=
  .seq (.assert .down (.embed (.rel (.le rfl) (.var ⟨"x", 0⟩) (Expr.uintLit 3))))
    (.seq (.sample false ⟨"x", 0⟩ (.unif 1 6))
      (.demonic (.tick (.cast .uintEUReal (Expr.uintLit 1)))
        (.seq (.havoc .down [⟨⟨"x", 0⟩, .uint⟩]) (.seq (.validate .down) (.assume .down Expr.inftyLit)))))

example : C01_example.LoopCallFree := by
  refine ⟨trivial, ⟨_, rfl, by simp⟩, trivial, trivial, trivial, trivial⟩

example [Doms] [Interp] (post : Expr .eureal) :
    ValidateOk C01_example post ∧ C01_example.GoodDists := by
  refine ⟨⟨⟨⟨trivial, ⟨⟨trivial, ?_⟩, fun _ _ => trivial⟩⟩, fun _ _ => trivial⟩, fun _ _ => trivial⟩, ?_⟩
  · intro p' h
    cases h
    exact Or.inl ⟨_, _, rfl⟩
  · simp [C01_example, Stmt.GoodDists, DistCall.Good]

/-- `validate` of the constant `1` is documented to be `0`, but the generated condition is `∞`. -/
theorem C01_not_full : ¬ C01_full := by
  intro h
  let _ := unitDoms
  let _ := unitInterp
  have h1 := h unitDoms unitInterp ⟨.lfp, fun _ _ _ φ => φ⟩ (.validate .down) (.lit (.efrac 1)) _ rfl zeroEnv
  have h2 : (Expr.lit (.efrac 1)).ev zeroEnv = 1 := by
    rw [Expr.ev_efrac]; simp
  rw [Expr.ev_not, Expr.ev_not, h2] at h1
  simp [vcSem, h2] at h1

end Caesar
