import Verif.Infra.ProverSpec
import Mathlib.Data.List.Induction

/-!
# C17: answers of the prover are about the current query
-/

namespace Caesar.Infra

set_option linter.unusedSectionVars false

/-- A correct solver: formulas have a semantics and `sat` and `unsat` answers are right. -/
class CorrectSolver (F : Type) extends Solver F where
  Model : Type
  holds : Model → F → Prop
  holds_neg (m : Model) (f : F) : holds m (neg f) ↔ ¬ holds m f
  sat (n : Nat) (as bs : List F) : solve n as bs = .sat → ∃ m, ∀ f ∈ as ++ bs, holds m f
  unsat (n : Nat) (as bs : List F) : solve n as bs = .unsat → ¬ ∃ m, ∀ f ∈ as ++ bs, holds m f

section
variable {F : Type} [CorrectSolver F]

/-- The formulas have a common model. -/
def Satisfiable (fs : List F) : Prop := ∃ m : CorrectSolver.Model F, ∀ f ∈ fs, CorrectSolver.holds m f

/-- A correct answer to a satisfiability query about `fs`. -/
def AnswerOk (fs : List F) : SatResult → Prop
  | .sat => Satisfiable fs
  | .unsat => ¬ Satisfiable fs
  | .unknown => True

/-- A correct answer to a proof query after `hist` with assumptions `as`. A query without proof obligations is
proved. -/
def ProveOk (hist : List (Prover.Op F)) (as : List F) : ProveResult → Prop
  | .proof => Prover.live Prover.obligation hist = [] ∨ ¬ Satisfiable (Prover.live Prover.asserted hist ++ as)
  | .counterexample => Satisfiable (Prover.live Prover.asserted hist ++ as)
  | .unknown => True

theorem solve_ok (n : Nat) (as bs : List F) : AnswerOk (as ++ bs) (Solver.solve n as bs) := by
  cases h : Solver.solve n as bs with
  | sat => exact CorrectSolver.sat n as bs h
  | unsat => exact CorrectSolver.unsat n as bs h
  | unknown => trivial

/-- Whether an operation adds an assertion. -/
def isAdd : Prover.Op F → Bool
  | .addAssumption _ | .addProvable _ => true
  | _ => false

/-- Since the last operation which added an assertion there was no check with assumptions. -/
def NoAssumingSinceAdd (hist : List (Prover.Op F)) : Prop :=
  ∀ as, .checkProofAssuming as ∈ hist.reverse.takeWhile (fun o => !isAdd o) → as = []

theorem NoAssumingSinceAdd.snoc {hist : List (Prover.Op F)} {o : Prover.Op F} (h : NoAssumingSinceAdd (hist ++ [o]))
    (ho : isAdd o = false) : NoAssumingSinceAdd hist ∧ ∀ as, o = .checkProofAssuming as → as = [] := by
  have e : (hist ++ [o]).reverse.takeWhile (fun o => !isAdd o) = o :: hist.reverse.takeWhile (fun o => !isAdd o) := by
    rw [List.reverse_append, List.reverse_singleton, List.singleton_append, List.takeWhile_cons, ho]
    rfl
  refine ⟨fun as has => h as ?_, fun as has => h as ?_⟩
  · rw [e]; exact List.mem_cons_of_mem _ has
  · rw [e, has]; exact List.mem_cons_self

/-- The cached result is right if no check with assumptions happened. -/
theorem cache_ok (mode : IncrementalMode) (hist : List (Prover.Op F)) (p : Prover F)
    (hrun : (Prover.new mode).run hist = some p) (hn : NoAssumingSinceAdd hist) (r : SatResult) (hr : p.lastResult = some r) :
    AnswerOk (Prover.live Prover.asserted hist) r := by
  induction hist using List.reverseRecOn generalizing p r with
  | nil =>
    cases hrun
    cases hr
  | append_singleton hist o ih =>
    obtain ⟨q, hq, hs⟩ : ∃ q, (Prover.new mode).run hist = some q ∧ q.step o = some p := by
      have run_append : ∀ (os : List (Prover.Op F)) (p0 : Prover F), p0.run (os ++ [o]) = (p0.run os).bind fun p => p.step o := by
        intro os
        induction os with
        | nil =>
          intro p0
          show (p0.step o).bind (fun p => some p) = p0.step o
          cases p0.step o <;> rfl
        | cons o' os ih' =>
          intro p0
          show (p0.step o').bind _ = ((p0.step o').bind _).bind _
          cases p0.step o' with
          | none => rfl
          | some p1 => exact ih' p1
      rw [run_append] at hrun
      cases hq : (Prover.new mode).run hist with
      | none => rw [hq] at hrun; cases hrun
      | some q => rw [hq] at hrun; exact ⟨q, rfl, hrun⟩
    have hinv := (Prover.Inv.new mode).run hq
    rw [List.nil_append] at hinv
    have hinv' := hinv.step hs
    rw [← hinv'.getAssertions]
    have hcall : AnswerOk q.getAssertions (Solver.solve q.calls q.getAssertions []) := by
      have := solve_ok q.calls q.getAssertions []
      rwa [List.append_nil] at this
    cases o with
    | addAssumption f => cases hs; cases hr
    | addProvable f => cases hs; cases hr
    | checkProofAssuming as =>
      obtain ⟨h1, h2⟩ := hn.snoc rfl
      obtain rfl := h2 as rfl
      cases hs
      revert hr
      rw [show (q.checkProofAssuming []).2.getAssertions = q.getAssertions by
        unfold Prover.getAssertions; rw [(Prover.checkProofAssuming_keep q []).1]]
      unfold Prover.checkProofAssuming
      split
      · exact fun hr => hinv.getAssertions ▸ ih q hq h1 r hr
      · cases hl : q.lastResult with
        | some r' => intro hr; exact hinv.getAssertions ▸ ih q hq h1 r hr
        | none =>
          intro hr
          cases hr
          exact hcall
    | checkSat =>
      obtain ⟨h1, h2⟩ := hn.snoc rfl
      cases hs
      revert hr
      rw [show q.checkSat.2.getAssertions = q.getAssertions by
        unfold Prover.getAssertions; rw [(Prover.checkSat_keep q).1]]
      unfold Prover.checkSat
      cases hl : q.lastResult with
      | some r' => intro hr; exact hinv.getAssertions ▸ ih q hq h1 r hr
      | none =>
        intro hr
        cases hr
        exact hcall
    | push =>
      obtain ⟨h1, h2⟩ := hn.snoc rfl
      cases hs
      have := ih q hq h1 r hr
      rw [← hinv.getAssertions] at this
      have e : q.push.getAssertions = q.getAssertions := by
        unfold Prover.getAssertions Prover.push
        cases q.solver with
        | native fr =>
          show ([] :: fr).reverse.flatten = fr.reverse.flatten
          rw [List.reverse_cons, List.flatten_append]
          simp
        | emulated s st => rfl
      rw [e]
      exact this
    | pop =>
      obtain ⟨h1, h2⟩ := hn.snoc rfl
      have h0 : q.level ≠ 0 := by
        intro h0
        replace hs : q.pop = some p := hs
        unfold Prover.pop at hs
        rw [if_pos h0] at hs
        cases hs
      obtain ⟨q', e, _, _, _, _, hl, _⟩ := Prover.pop_spec hinv.synced hinv.len h0
      cases e.symm.trans hs
      rcases hl with hl | ⟨hl, _, ha⟩
      · rw [hl] at hr; cases hr
      · rw [ha, hinv.getAssertions]
        exact ih q hq h1 r (hl ▸ hr)
    | setTimeout d =>
      obtain ⟨h1, h2⟩ := hn.snoc rfl
      cases hs
      have := ih q hq h1 r hr
      rw [← hinv.getAssertions] at this
      exact this

theorem toProveResult_ok (hist : List (Prover.Op F)) (as : List F) (r : SatResult)
    (h : AnswerOk (Prover.live Prover.asserted hist ++ as) r) : ProveOk hist as (Prover.toProveResult r) := by
  cases r with
  | sat => exact h
  | unsat => exact Or.inr h
  | unknown => trivial

/-- Answers to checks with assumptions are always right. -/
theorem C17_assuming (mode : IncrementalMode) (hist : List (Prover.Op F)) (p : Prover F)
    (hrun : (Prover.new mode).run hist = some p) (a : F) (as : List F) :
    ProveOk hist (a :: as) (p.checkProofAssuming (a :: as)).1 := by
  have hinv := (Prover.Inv.new mode).run hrun
  rw [List.nil_append] at hinv
  unfold Prover.checkProofAssuming
  split
  · rename_i h
    refine Or.inl ?_
    by_contra hne
    have h0 := (hinv.provables 0 (Nat.zero_le _)).1 (by rw [Prover.liveBelow_zero]; exact hne)
    obtain ⟨m, hm, _⟩ := h0
    unfold Prover.hasProvables at h
    rw [hm] at h
    cases h
  · cases hl : p.lastResult <;>
    · refine toProveResult_ok hist _ _ ?_
      rw [← hinv.getAssertions]
      exact solve_ok _ _ _

/-- Answers to all checks are right if no check with assumptions was made since the last assertion was added. -/
theorem C17_answers_partial (mode : IncrementalMode) (hist : List (Prover.Op F)) (p : Prover F)
    (hrun : (Prover.new mode).run hist = some p) (hn : NoAssumingSinceAdd hist) :
    AnswerOk (Prover.live Prover.asserted hist) p.checkSat.1 ∧ ∀ as, ProveOk hist as (p.checkProofAssuming as).1 := by
  have hinv := (Prover.Inv.new mode).run hrun
  rw [List.nil_append] at hinv
  have hcall : AnswerOk (Prover.live Prover.asserted hist) (Solver.solve p.calls p.getAssertions []) := by
    have := solve_ok p.calls p.getAssertions []
    rw [List.append_nil] at this
    exact hinv.getAssertions ▸ this
  refine ⟨?_, fun as => ?_⟩
  · unfold Prover.checkSat
    cases hl : p.lastResult with
    | some r => exact cache_ok mode hist p hrun hn r hl
    | none => exact hcall
  · cases as with
    | cons a as => exact C17_assuming mode hist p hrun a as
    | nil =>
      unfold Prover.checkProofAssuming
      split
      · rename_i h
        refine Or.inl ?_
        by_contra hne
        have h0 := (hinv.provables 0 (Nat.zero_le _)).1 (by rw [Prover.liveBelow_zero]; exact hne)
        obtain ⟨m, hm, _⟩ := h0
        unfold Prover.hasProvables at h
        rw [hm] at h
        cases h
      · cases hl : p.lastResult with
        | some r =>
          refine toProveResult_ok hist _ _ ?_
          rw [List.append_nil]
          exact cache_ok mode hist p hrun hn r hl
        | none =>
          refine toProveResult_ok hist _ _ ?_
          rw [List.append_nil]
          exact hcall

end

/-- The full property: all answers after all histories are right. -/
def C17_full : Prop :=
  ∀ (F : Type) (_ : CorrectSolver F) (mode : IncrementalMode) (hist : List (Prover.Op F)) (p : Prover F),
    (Prover.new mode).run hist = some p →
    AnswerOk (Prover.live Prover.asserted hist) p.checkSat.1 ∧ ∀ as, ProveOk hist as (p.checkProofAssuming as).1

open Classical in
set_option warn.classDefReducibility false in
/-- A solver for one Boolean variable, which is correct and never answers `unknown`. -/
noncomputable def oneVarSolver : CorrectSolver (Bool → Bool) where
  neg f := fun b => !f b
  solve _ as bs := if ∃ m : Bool, ∀ f ∈ as ++ bs, f m = true then .sat else .unsat
  Model := Bool
  holds m f := f m = true
  holds_neg m f := by simp
  sat _ as bs h := by
    by_contra hc
    rw [if_neg hc] at h
    cases h
  unsat _ as bs h hc := by
    rw [if_pos hc] at h
    cases h

/-- It fails: the result of a check with assumptions is cached and returned by a later check without them. After
`add_provable(x)` and `check_proof_assuming([x])`, `check_proof()` reports a proof of `x`. -/
theorem C17_not_full : ¬ C17_full := by
  intro h
  let hist : List (Prover.Op (Bool → Bool)) := [.addProvable id, .checkProofAssuming [id]]
  let _ := oneVarSolver
  have hans : Solver.solve (F := Bool → Bool) 0 [fun b => !b] [id] = .unsat := by
    refine if_neg ?_
    rintro ⟨m, hm⟩
    have h1 := hm _ List.mem_cons_self
    have h2 := hm id (List.mem_cons_of_mem _ List.mem_cons_self)
    cases m <;> simp at h1 h2
  have hrun : ∃ p, (Prover.new .native).run hist = some p ∧ p.lastResult = some .unsat ∧ p.hasProvables = true :=
    ⟨_, rfl, congrArg some hans, rfl⟩
  obtain ⟨p, hp, hl, hprov⟩ := hrun
  have h1 := (h _ _ _ _ p hp).1
  unfold Prover.checkSat at h1
  rw [hl] at h1
  refine h1 ⟨false, fun f hf => ?_⟩
  have hlive : Prover.live Prover.asserted hist = [fun b => !b] := by
    have := ((Prover.Inv.new .native).run hp).getAssertions
    rw [List.nil_append] at this
    rw [← this]
    cases hp
    rfl
  rw [hlive] at hf
  rw [List.mem_singleton.1 hf]
  rfl

/-- The wrong answer is also given to the proof query: an unprovable obligation is reported as proved. -/
theorem C17_not_full_proof : ∃ (p : Prover (Bool → Bool)), let _ := oneVarSolver
    (Prover.new .native).run [.addProvable id, .checkProofAssuming [id]] = some p ∧
    (p.checkProofAssuming []).1 = .proof ∧ Satisfiable p.getAssertions := by
  let _ := oneVarSolver
  have hans : Solver.solve (F := Bool → Bool) 0 [fun b => !b] [id] = .unsat := by
    refine if_neg ?_
    rintro ⟨m, hm⟩
    have h1 := hm _ List.mem_cons_self
    have h2 := hm id (List.mem_cons_of_mem _ List.mem_cons_self)
    cases m <;> simp at h1 h2
  refine ⟨_, rfl, ?_, ⟨false, fun f hf => ?_⟩⟩
  · show Prover.toProveResult (Solver.solve (F := Bool → Bool) 0 [fun b => !b] [id]) = .proof
    rw [hans]
    rfl
  · rw [List.mem_singleton.1 hf]
    rfl

/-- Non-vacuity. -/
example : NoAssumingSinceAdd (F := Bool → Bool) (let _ := oneVarSolver; [.checkProofAssuming [id], .addProvable id, .push, .checkSat]) := by
  intro as has
  simp [isAdd] at has

end Caesar.Infra
