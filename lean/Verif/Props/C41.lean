import Verif.Slicing.TransformSound
import Verif.Witness

/-!
# C41: verified slices imply verified programs, failing slices imply failing programs
-/

open scoped ENNReal NNReal

namespace Caesar
set_option linter.unusedSectionVars false
open Slicing

section
variable [Doms] [Interp]

/-- In state `σ`, all disabled slice statements satisfy `P`. -/
def OnlyDisabled (P : SliceStmt → Prop) (stmts : List SliceStmt) (σ : Env) : Prop :=
  ∀ s ∈ stmts, ¬ (.var s.ident : Expr .bool).tv σ → P s

/-- The verification condition `a` is at least as hard to verify as `b`: lower for procs, higher for coprocs. -/
def Harder : Dir → ℝ≥0∞ → ℝ≥0∞ → Prop
  | .down, a, b => a ≤ b
  | .up, a, b => b ≤ a

/-- Verification succeeds in a state. -/
def Succeeds : Dir → ℝ≥0∞ → Prop
  | .down, a => a = ⊤
  | .up, a => a = 0

end

/-- C41: for all programs accepted by direction tracking, disabling concordant statements makes verification harder (so a verified slice implies a
verified program), and disabling discordant statements makes it easier (so a failing slice implies a failing program). -/
def C41_full : Prop :=
  ∀ (_ : Doms) (_ : Interp) (C : SemCtx), C.Regular → ∀ (filter : Selection) (tcx : TyCtx) (d : Dir) (S : Stmt),
    (∀ v, S.Touched v → v.id ∈ tcx.decls) → (visit filter {} { tcx := tcx, dir := d } S).2.2 = true → ∀ (φ : Exp) (σ : Env),
    (OnlyDisabled (·.selection.concordant = true) (transform filter tcx d S).2.stmts σ →
      Harder d (vcSem C (transform filter tcx d S).1 φ σ) (vcSem C S φ σ)) ∧
    (OnlyDisabled (·.selection.discordant = true) (transform filter tcx d S).2.stmts σ →
      Harder d (vcSem C S φ σ) (vcSem C (transform filter tcx d S).1 φ σ))

section
variable [Doms] [Interp]

/-- Direction tracking accepts a program in the slicing transformation if the monotonicity check does. -/
theorem visit_ok_of_mono {filter : Selection} {tcx : TyCtx} {d d' : Dir} {S : Stmt} (h : monoVisit d S = some d') :
    (visit filter {} { tcx := tcx, dir := d } S).2.2 = true := (visit_dir filter S {} { tcx := tcx, dir := d } d' h).1

/-- The first half of C41, for programs in which every branch and loop body restores the direction. -/
theorem C41_verify_partial (C : SemCtx) (hC : C.Regular) (filter : Selection) (tcx : TyCtx) (d d' : Dir) (S : Stmt)
    (hdecl : ∀ v, S.Touched v → v.id ∈ tcx.decls) (hdir : monoVisit d S = some d') (hbr : S.BranchesReturn d) (φ : Exp) (σ : Env)
    (hσ : OnlyDisabled (·.selection.concordant = true) (transform filter tcx d S).2.stmts σ) :
    Harder d (vcSem C (transform filter tcx d S).1 φ σ) (vcSem C S φ σ) := by
  have hg := visit_grows filter S {} { tcx := tcx, dir := d }
  have h := visit_rel (C := C) (V := (transform filter tcx d S).2.stmts) (m := fun i => (.var i : Expr .bool).tv σ) hC (mode := some true)
    (fun s hs h => .inl ⟨rfl, hσ s hs h⟩) filter S
    (fun s hs ht => (hg.fresh s hs).elim (fun h => nomatch h) fun h => h (hdecl _ ht)) {} { tcx := tcx, dir := d } (fun s hs => hs)
    (.inr ⟨d', hdir, hbr⟩) φ φ (fun _ _ => Cmp.R.refl _ _) σ fun s hs => Iff.rfl
  cases d <;> exact h

/-- The second half of C41, for programs in which every branch and loop body restores the direction. -/
theorem C41_error_partial (C : SemCtx) (hC : C.Regular) (filter : Selection) (tcx : TyCtx) (d d' : Dir) (S : Stmt)
    (hdecl : ∀ v, S.Touched v → v.id ∈ tcx.decls) (hdir : monoVisit d S = some d') (hbr : S.BranchesReturn d) (φ : Exp) (σ : Env)
    (hσ : OnlyDisabled (·.selection.discordant = true) (transform filter tcx d S).2.stmts σ) :
    Harder d (vcSem C S φ σ) (vcSem C (transform filter tcx d S).1 φ σ) := by
  have hg := visit_grows filter S {} { tcx := tcx, dir := d }
  have h := visit_rel (C := C) (V := (transform filter tcx d S).2.stmts) (m := fun i => (.var i : Expr .bool).tv σ) hC (mode := some false)
    (fun s hs h => .inr ⟨rfl, hσ s hs h⟩) filter S
    (fun s hs ht => (hg.fresh s hs).elim (fun h => nomatch h) fun h => h (hdecl _ ht)) {} { tcx := tcx, dir := d } (fun s hs => hs)
    (.inr ⟨d', hdir, hbr⟩) φ φ (fun _ _ => Cmp.R.refl _ _) σ fun s hs => Iff.rfl
  cases d <;> exact h

theorem noNeg_tracked {S : Stmt} (h : S.NoNeg) (d : Dir) : monoVisit d S = some d ∧ S.BranchesReturn d := by
  induction S with
  | seq a b iha ihb =>
    have h1 := iha h.1
    have h2 := ihb h.2
    refine ⟨?_, h1.2, fun d' hd => ?_⟩
    · show (monoVisit d a).bind (fun d1 => monoVisit d1 b) = some d
      rw [h1.1]; exact h2.1
    · obtain rfl := Option.some.inj (h1.1.symm.trans hd)
      exact h2.2
  | demonic a b iha ihb | angelic a b iha ihb | additive a b iha ihb | ite c a b iha ihb =>
    have h1 := iha h.1
    have h2 := ihb h.2
    refine ⟨?_, h1.2, h2.2, h1.1, h2.1⟩
    show (monoVisit d a).bind (fun d1 => monoVisit d1 b) = some d
    rw [h1.1]; exact h2.1
  | «while» c s ih => exact ⟨(ih h).1, (ih h).2, (ih h).1⟩
  | annot an s ih => exact ih h
  | negate d => exact h.elim
  | _ => exact ⟨rfl, trivial⟩

/-- A counterexample of a slice with only discordant statements disabled is a counterexample of the original program. -/
theorem C41_counterexample (C : SemCtx) (hC : C.Regular) (filter : Selection) (tcx : TyCtx) (d d' : Dir) (S : Stmt)
    (hdecl : ∀ v, S.Touched v → v.id ∈ tcx.decls) (hdir : monoVisit d S = some d') (hbr : S.BranchesReturn d) (φ : Exp) (σ : Env)
    (hσ : OnlyDisabled (·.selection.discordant = true) (transform filter tcx d S).2.stmts σ)
    (hc : ¬ Succeeds d (vcSem C (transform filter tcx d S).1 φ σ)) : ¬ Succeeds d (vcSem C S φ σ) := by
  have h := C41_error_partial C hC filter tcx d d' S hdecl hdir hbr φ σ hσ
  intro hs
  cases d with
  | down => exact hc (top_le_iff.mp ((hs : _ = _) ▸ h))
  | up => exact hc (le_zero_iff.mp ((hs : _ = _) ▸ h))

/-- If a slice of a program without negations verifies, for a choice `m` of the slice variables that only disables concordant statements, the
program itself verifies. The program and the postexpectation do not mention the slice variables. -/
theorem C41_verified (C : SemCtx) (hC : C.Regular) (filter : Selection) (tcx : TyCtx) (d : Dir) (S : Stmt)
    (hdecl : ∀ v, S.Touched v → v.id ∈ tcx.decls) (hN : S.NoNeg) (φ : Exp) (m : Ident → Prop)
    (hm : ∀ s ∈ (transform filter tcx d S).2.stmts, ¬ m s.ident → s.selection.concordant = true)
    (hr : ∀ s ∈ (transform filter tcx d S).2.stmts, ¬ S.Reads s.var)
    (hφ : Ignores (fun v => ∃ s ∈ (transform filter tcx d S).2.stmts, v = s.var) φ)
    (hv : ∀ σ, (∀ s ∈ (transform filter tcx d S).2.stmts, (.var s.ident : Expr .bool).tv σ ↔ m s.ident) →
      Succeeds d (vcSem C (transform filter tcx d S).1 φ σ)) :
    ∀ σ, Succeeds d (vcSem C S φ σ) := by
  classical
  intro σ
  let τ : Env := fun v => match v with
    | ⟨i, .bool⟩ => if ∃ s ∈ (transform filter tcx d S).2.stmts, (⟨i, .bool⟩ : Var) = s.var then m i else σ ⟨i, .bool⟩
    | v => σ v
  have hτ : ∀ s ∈ (transform filter tcx d S).2.stmts, (.var s.ident : Expr .bool).tv τ ↔ m s.ident := by
    intro s hs
    exact iff_of_eq (if_pos ⟨s, hs, rfl⟩)
  have hag : AgreeOff (fun v => ∃ s ∈ (transform filter tcx d S).2.stmts, v = s.var) σ τ := by
    intro v hv
    obtain ⟨i, t⟩ := v
    cases t with
    | bool => exact if_neg hv
    | _ => rfl
  have h1 := hv τ hτ
  obtain ⟨hd, hb⟩ := noNeg_tracked hN d
  have h2 := C41_verify_partial C hC filter tcx d d S hdecl hd hb φ τ fun s hs h => hm s hs fun h' => h ((hτ s hs).mpr h')
  have h3 : vcSem C S φ τ = vcSem C S φ σ := by
    refine vcSem_ignores hC hN hφ σ τ fun v hv => hag v fun ⟨s, hs, e⟩ => hv ⟨?_, .inl ⟨s, hs, e⟩⟩
    rw [e]; exact hr s hs
  rw [h3] at h2
  cases d with
  | down => exact top_le_iff.mp ((h1 : _ = _) ▸ h2)
  | up => exact le_zero_iff.mp ((h1 : _ = _) ▸ h2)

end

/-! ## Counterexample -/

/-- `if false { negate } else {}; assert 0`. -/
def c41S : Stmt := .seq (.ite (Expr.boolLit false) (.negate .down) .skip) (.assert .down (Expr.botLit .eureal rfl))

/-- C41 is violated: the direction is threaded through the branches of a conditional, so the `assert` in a proc is taken for a
concordant statement. -/
theorem C41_not_full : ¬ C41_full := by
  classical
  intro h
  let _ := unitDoms
  let _ := unitInterp
  have h1 := (h unitDoms unitInterp _ (regular_havoc .lfp) Selection.verified TyCtx.new .down c41S ?_ rfl (fun _ => ⊤) zeroEnv).1 ?_
  · have hf : ¬ (Expr.boolLit false).tv zeroEnv := fun h => Bool.noConfusion (h : false = true)
    have e1 : vcSem ⟨.lfp, fun l _ _ φ σ => ⨅ σ' ∈ {σ' | Agree l σ σ'}, φ σ'⟩ c41S (fun _ => ⊤) zeroEnv = 0 := by
      have h0 : (Expr.botLit .eureal rfl).ev zeroEnv = 0 := Expr.eval_botLit _ _
      refine (if_neg hf).trans ?_
      show min ((Expr.botLit .eureal rfl).ev zeroEnv) ⊤ = (0 : ℝ≥0∞)
      rw [h0]; exact min_eq_left zero_le
    have e2 : vcSem ⟨.lfp, fun l _ _ φ σ => ⨅ σ' ∈ {σ' | Agree l σ σ'}, φ σ'⟩ (transform Selection.verified TyCtx.new .down c41S).1
        (fun _ => ⊤) zeroEnv = ⊤ := by
      refine (if_neg hf).trans ?_
      refine (toggles_assert (C := ⟨.lfp, fun l _ _ φ σ => ⨅ σ' ∈ {σ' | Agree l σ σ'}, φ σ'⟩) .down (Expr.botLit .eureal rfl) _ (fun _ => ⊤) zeroEnv).trans ?_
      exact if_neg fun h => h
    have h2 : vcSem _ (transform Selection.verified TyCtx.new .down c41S).1 (fun _ => ⊤) zeroEnv ≤ vcSem _ c41S (fun _ => ⊤) zeroEnv := h1
    rw [e1, e2] at h2
    exact absurd (top_le_iff.mp h2) (by simp)
  · rintro v ((h | h) | h) <;> exact h.elim
  · intro s hs _
    obtain rfl : s = ⟨⟨"slice_toggle_0", 0⟩, makeSelection {} .concordant⟩ := List.mem_singleton.mp hs
    rfl

/-! ## Non-vacuity -/

/-- `assume a; negate; { tick a } ⊓ { assert b }; conegate`. -/
def c41Good : Stmt :=
  .seq (.assume .down (.var ⟨"a", 0⟩)) (.seq (.negate .down)
    (.seq (.demonic (.tick (.var ⟨"a", 0⟩)) (.assert .down (.var ⟨"b", 0⟩))) (.negate .up)))

/-- A program with negations that satisfies the hypotheses, with concordant and discordant statements. -/
example : monoVisit .down c41Good = some .down ∧ c41Good.BranchesReturn .down ∧ (∀ v, ¬ c41Good.Touched v) ∧
    ((transform (prepareSelection false true false true) TyCtx.new .down c41Good).2.stmts.map
      fun s => (s.ident.name, s.selection.concordant, s.selection.discordant)) =
    [("slice_toggle_0", true, false), ("slice_toggle_1", false, true), ("slice_toggle_2", true, false), ("slice_toggle_3", true, false),
      ("slice_toggle_4", true, false)] := by
  refine ⟨rfl, ⟨trivial, fun d h => ⟨trivial, fun d h => ⟨?_, fun _ _ => trivial⟩⟩⟩, fun v => ?_, by decide⟩
  · exact ⟨trivial, trivial, rfl, rfl⟩
  · rintro (h | h | h | h)
    · exact h
    · exact h
    · rcases h with h | h <;> exact h
    · exact h

end Caesar
