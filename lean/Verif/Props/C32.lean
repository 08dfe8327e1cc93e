import Verif.ProofRules.TrackingSound
import Verif.Witness

/-!
# C32: approximation tracking is sound

Specification: `ApproxKind.Describes` (C31) between the encoded and the original program under the documented semantics
`vcSem`, where all annotated loops denote the fixed point `fk` the tool infers for them.
Model: `trackApprox` (`track_approximation_in_statement`) and `encodeLoops`.

The full property is false in several ways:
* `C32_not_full`: induction is classified as an over-approximation of the least fixed point also in *procedures*, where
  the encoding yields `I` or `0`. In `@wp proc` a counterexample to verification is then reported as a counterexample to
  the property.
* `C32_additive_wrong`: annotated loops in the branches of the addition choice are ignored by the analysis.
* C21: the approximation of `@unroll` ignores its terminator.

`C32_tracking_partial` proves the property for all programs, with nested and mixed loop rules, that avoid these cases
(`Stmt.RulesOk`). Not covered: the rules `@omega_invariant`, `@past`, `@ost`, `@ast` (see C22, C23, C52).
-/

open scoped ENNReal NNReal

namespace Caesar
set_option linter.unusedSectionVars false

/-- The full property for the rules `@invariant`, `@k_induction` and `@unroll`; `DeclsLocal`, `HavocsReported` and `A`
as in C18. -/
def C32_full : Prop :=
  ∀ (_ : Doms) (_ : Interp) (d : Dir) (calculus : Option CalculusType) (fk : FixKind) (C : SemCtx), C.Regular →
    C.loop = fk.loopSem → ∀ (S S' : Stmt) (A : Var → Prop) (φ : Exp), S.FixIs d calculus fk → S.DeclsLocal A →
      S.HavocsReported → Ignores A φ → encodeLoops d S = .ok S' →
      (ApproxKind.infimum (trackApprox d calculus S)).Describes (vcSem C S' φ) (vcSem C S φ)

section
variable [Doms] [Interp]

/-- Soundness of the analysis for programs whose rules are used as in `Stmt.RulesOk`. -/
theorem C32_tracking_partial {d : Dir} {calculus : Option CalculusType} {fk : FixKind} {C : SemCtx} (hC : C.Regular)
    (hl : C.loop = fk.loopSem) {S S' : Stmt} {A : Var → Prop} {φ : Exp} (hF : S.FixIs d calculus fk)
    (hD : S.DeclsLocal A) (hH : S.HavocsReported) (hφ : Ignores A φ) (hR : S.RulesOk d fk)
    (h : encodeLoops d S = .ok S') :
    (ApproxKind.infimum (trackApprox d calculus S)).Describes (vcSem C S' φ) (vcSem C S φ) :=
  trackApprox_sound hC hl hR hF (Stmt.localsOk_of_decls hD hH) hφ h

/-- The record made for an annotated loop is sound by itself, not only together with the records of the loops nested in
it. -/
theorem C32_record_partial {d : Dir} {calculus : Option CalculusType} {fk : FixKind} {C : SemCtx} (hC : C.Regular)
    (hl : C.loop = fk.loopSem) {an : Annot} {s S' : Stmt} {A : Var → Prop} {φ : Exp} (han : an.isEncoding = true)
    (hF : (Stmt.annot an s).FixIs d calculus fk) (hD : (Stmt.annot an s).DeclsLocal A)
    (hH : (Stmt.annot an s).HavocsReported) (hφ : Ignores A φ) (hR : (Stmt.annot an s).RulesOk d fk)
    (h : encodeLoops d (.annot an s) = .ok S') {k : ApproxKind} (hk : (trackApprox d calculus (.annot an s)).getLast? = some k) :
    k.Describes (vcSem C S' φ) (vcSem C (.annot an s) φ) := by
  have h1 := C32_tracking_partial hC hl hF hD hH hφ hR h
  have hrec : trackApprox d calculus (.annot an s) = trackApprox d calculus s ++
      [an.approximation (an.inferFix calculus d) (ApproxKind.infimum (trackApprox d calculus s)) calculus] := if_pos han
  rw [hrec, List.getLast?_concat, Option.some.injEq] at hk
  have hle : k.Le (ApproxKind.infimum (trackApprox d calculus s)) := by
    rw [← hk]
    generalize ApproxKind.infimum (trackApprox d calculus s) = inner
    generalize an.inferFix calculus d = fix
    obtain ⟨u, o⟩ := inner
    cases an with
    | slicing => exact nomatch han
    | past | ost | ast =>
      unfold Annot.approximation
      simp only
      split
      · exact ⟨fun h => (nomatch h), fun h => (nomatch h)⟩
      · exact ⟨fun h => (nomatch h), fun h => (nomatch h)⟩
      · split
        next h => rw [h.2]; exact ⟨id, id⟩
        next => exact ⟨fun h => (nomatch h), fun h => (nomatch h)⟩
    | _ =>
      cases fix <;> cases u <;> cases o <;>
        simp [Annot.approximation, inductionApprox, ApproxKind.and, ApproxKind.under', ApproxKind.over', ApproxKind.Le]
  have hall : k.Le (ApproxKind.infimum (trackApprox d calculus (.annot an s))) := by
    rw [C31_infimum, hrec]
    intro k' hk'
    rcases List.mem_append.1 hk' with h' | h'
    · exact (C31_infimum _ _).1 hle k' h'
    · rw [List.mem_singleton.1 h', hk]
      exact ⟨id, id⟩
  exact ⟨fun hu => h1.1 (hall.1 hu), fun ho => h1.2 (hall.2 ho)⟩

/-- What the tool reports (`sound_proofs`, `sound_refutations`), for procedures: if it claims that proofs are sound then a
verified procedure satisfies its specification; if it claims that refutations are sound then each counterexample to the
verification condition is a counterexample to the specification. -/
theorem C32_proc_verdict_partial {calculus : Option CalculusType} {fk : FixKind} {C : SemCtx} (hC : C.Regular)
    (hl : C.loop = fk.loopSem) {S S' : Stmt} {A : Var → Prop} {pre post e : Expr .eureal}
    (hF : S.FixIs .down calculus fk) (hD : S.DeclsLocal A) (hH : S.HavocsReported) (hφ : Ignores A post.ev)
    (hR : S.RulesOk .down fk) (hV : S.NoValidate) (hG : S.GoodDists)
    (h : encodeLoops .down S = .ok S') (he : vcgen S' post = .ok e) :
    ((procSoundness .down calculus S).soundProofs = true → (∀ σ, pre.ev σ ≤ e.ev σ) →
      ∀ σ, pre.ev σ ≤ vcSem C S post.ev σ) ∧
    ((procSoundness .down calculus S).soundRefutations = true → ∀ σ, ¬ pre.ev σ ≤ e.ev σ →
      ¬ pre.ev σ ≤ vcSem C S post.ev σ) := by
  have h1 := C32_tracking_partial hC hl hF hD hH hφ hR h
  rw [← vcgen_sound C he (encodeLoops_validateOk h hV post) (encodeLoops_goodDists h hG)] at h1
  exact ⟨fun hs hv σ => (hv σ).trans (h1.1 hs σ), fun hs σ hn hp => hn (hp.trans (h1.2 hs σ))⟩

/-- The same for coprocedures. -/
theorem C32_coproc_verdict_partial {calculus : Option CalculusType} {fk : FixKind} {C : SemCtx} (hC : C.Regular)
    (hl : C.loop = fk.loopSem) {S S' : Stmt} {A : Var → Prop} {pre post e : Expr .eureal}
    (hF : S.FixIs .up calculus fk) (hD : S.DeclsLocal A) (hH : S.HavocsReported) (hφ : Ignores A post.ev)
    (hR : S.RulesOk .up fk) (hV : S.NoValidate) (hG : S.GoodDists)
    (h : encodeLoops .up S = .ok S') (he : vcgen S' post = .ok e) :
    ((procSoundness .up calculus S).soundProofs = true → (∀ σ, e.ev σ ≤ pre.ev σ) →
      ∀ σ, vcSem C S post.ev σ ≤ pre.ev σ) ∧
    ((procSoundness .up calculus S).soundRefutations = true → ∀ σ, ¬ e.ev σ ≤ pre.ev σ →
      ¬ vcSem C S post.ev σ ≤ pre.ev σ) := by
  have h1 := C32_tracking_partial hC hl hF hD hH hφ hR h
  rw [← vcgen_sound C he (encodeLoops_validateOk h hV post) (encodeLoops_goodDists h hG)] at h1
  exact ⟨fun hs hv σ => (h1.2 hs σ).trans (hv σ), fun hs σ hn hp => hn ((h1.1 hs σ).trans hp)⟩

end

/-! ## Counterexamples -/

/-- `while false {}` is the identity. -/
theorem c32_while_false [Doms] [Interp] (C : SemCtx) (φ : Exp) :
    vcSem C (.while (Expr.boolLit false) .skip) φ = φ := by
  have hΦ : ∀ X, loopFun C (Expr.boolLit false) .skip φ X = φ := fun X =>
    funext fun σ => if_neg (fun h : false = true => nomatch h)
  rw [vcSem_while]
  cases C.loop with
  | lfp => exact le_antisymm (sInf_le (hΦ φ).le) (le_sInf fun X hX => (hΦ X).ge.trans hX)
  | gfp => exact le_antisymm (sSup_le fun X hX => le_trans hX (hΦ X).le) (le_sSup (hΦ φ).ge)

theorem c32_ignores_false [Doms] (φ : Exp) : Ignores (fun _ => False) φ := fun σ σ' hs => by
  rw [show σ' = σ from funext fun v => hs v id]

/-- `@wp proc … { @invariant(0) while false {} }` is declared an over-approximation (of `φ`), but its value is `0`. -/
theorem C32_not_full : ¬ C32_full := by
  intro h
  let _ := unitDoms
  let _ := unitInterp
  let C : SemCtx := ⟨.lfp, fun l _ _ φ σ => ⨅ σ' ∈ {σ' | Agree l σ σ'}, φ σ'⟩
  have h1 := (h unitDoms unitInterp .down (some .wp) .lfp C (regular_havoc .lfp) rfl
    (.annot (.invariant (extremeLit .down)) (.while (Expr.boolLit false) .skip)) _ (fun _ => False) (fun _ => ⊤)
    (Stmt.fixIs_calculus _ .wp _) ⟨fun v hv => absurd hv.1 List.not_mem_nil, trivial⟩ ⟨fun v hv => hv.elim, trivial⟩
    (c32_ignores_false _) rfl).2 rfl zeroEnv
  have h2 : vcSem C (.annot (.invariant (extremeLit .down)) (.while (Expr.boolLit false) .skip)) (fun _ => ⊤) zeroEnv
      = ⊤ := congrFun (c32_while_false C _) zeroEnv
  rw [h2, transformKInduction_sem, extremeLit_down, ite_self] at h1
  exact absurd h1 (by simp)

/-- Consequently the tool claims that refutations are sound for this procedure. -/
theorem C32_wp_proc_refutations : (procSoundness .down (some .wp)
    (.annot (.invariant (extremeLit .down)) (.while (Expr.boolLit false) .skip))).soundRefutations = true := rfl

/-- An unrolled loop in an addition choice: declared exact, but the values are `∞` and `0`. -/
theorem C32_additive_wrong : let _ := unitDoms; let _ := unitInterp;
    ∃ (C : SemCtx) (S S' : Stmt), C.loop = .lfp ∧ S.FixIs .down none .lfp ∧ encodeLoops .down S = .ok S' ∧
      ApproxKind.infimum (trackApprox .down none S) = .exact ∧ vcSem C S (fun _ => ⊤) zeroEnv = ⊤ ∧
      vcSem C S' (fun _ => ⊤) zeroEnv = 0 := by
  intro _ _
  let C : SemCtx := ⟨.lfp, fun _ _ _ φ => φ⟩
  let L : Stmt := .annot (.unroll 0 (extremeLit .down)) (.while (Expr.boolLit false) .skip)
  refine ⟨C, .additive L L, _, rfl, ⟨⟨fun _ => rfl, trivial⟩, ⟨fun _ => rfl, trivial⟩⟩, rfl, rfl, ?_, ?_⟩
  · show vcSem C (.while (Expr.boolLit false) .skip) (fun _ => ⊤) zeroEnv
      + vcSem C (.while (Expr.boolLit false) .skip) (fun _ => ⊤) zeroEnv = ⊤
    rw [c32_while_false]; exact top_add _
  · show vcSem C (heyConst (extremeLit .down) .down) (fun _ => ⊤) zeroEnv
      + vcSem C (heyConst (extremeLit .down) .down) (fun _ => ⊤) zeroEnv = 0
    rw [heyConst_sem, extremeLit_down, add_zero]

/-! ## Non-vacuity -/

/-- A `@wlp` procedure with an invariant-annotated loop around a k-induction loop is classified as an
under-approximation and meets the hypotheses. -/
example [Doms] [Interp] (I J : Expr .eureal) :
    let S : Stmt := .annot (.invariant I) (.while (.var ⟨"b", 0⟩)
      (.seq (.annot (.kInduction 2 J) (.while (.var ⟨"c", 0⟩) (.assign ⟨⟨"c", 0⟩, .bool⟩ (Expr.boolLit false))))
        (.assign ⟨⟨"b", 0⟩, .bool⟩ (Expr.boolLit false))))
    S.RulesOk .down .gfp ∧ S.FixIs .down (some .wlp) .gfp ∧ S.HavocsReported ∧ S.DeclsLocal (fun _ => False) ∧
      ApproxKind.infimum (trackApprox .down (some .wlp) S) = .under' ∧ ∃ S', encodeLoops .down S = .ok S' := by
  intro S
  refine ⟨⟨rfl, ⟨rfl, trivial⟩, trivial⟩, Stmt.fixIs_calculus _ .wlp _, ⟨?_, ⟨fun v h => h.elim, trivial⟩, trivial⟩,
    ⟨fun v hv => ?_, trivial, fun v hv => ?_, trivial⟩, rfl, _, rfl⟩
  · rintro v (h | h) <;> exact h.elim
  · exact absurd hv.1 List.not_mem_nil
  · exact absurd hv.1 List.not_mem_nil

/-- The record of an outer loop inherits from the inner loop. -/
example (I : Expr .eureal) : (trackApprox .up (some .wp) (.annot (.unroll 3 (extremeLit .down)) (.while (.var ⟨"b", 0⟩)
    (.annot (.invariant I) (.while (.var ⟨"c", 0⟩) .skip))))).getLast? = some .unknown := rfl

/-- Unrolling with `0` in a `@wp` coprocedure is an under-approximation; together with an invariant it is unknown. -/
example (I : Expr .eureal) : let U : Stmt := .annot (.unroll 3 (extremeLit .down)) (.while (.var ⟨"b", 0⟩) .skip)
    let V : Stmt := .annot (.invariant I) (.while (.var ⟨"b", 0⟩) .skip)
    ApproxKind.infimum (trackApprox .up (some .wp) U) = .under' ∧
    ApproxKind.infimum (trackApprox .up (some .wp) (.seq U V)) = .unknown ∧
    ApproxKind.infimum (trackApprox .up (some .wp) V) = .over' := ⟨rfl, rfl, rfl⟩

example [Doms] [Interp] : (Stmt.annot (.unroll 3 (extremeLit .down)) (.while (.var ⟨"b", 0⟩) .skip)).RulesOk .up .lfp :=
  ⟨funext extremeLit_down, trivial⟩

end Caesar
