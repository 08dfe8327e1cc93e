import Verif.Infra.ProverSpec

/-!
# C16: the prover's push and pop form a proper stack
-/

namespace Caesar.Infra

variable {F : Type} [Solver F]

/-- In both modes and after each history, the solver has exactly those assertions, in the order in which they were added,
which were added at levels that are still open. -/
theorem C16_assertions (mode : IncrementalMode) (hist : List (Prover.Op F)) (p : Prover F)
    (h : (Prover.new mode).run hist = some p) : p.getAssertions = Prover.live Prover.asserted hist :=
  ((Prover.Inv.new mode).run h).getAssertions

/-- A history runs into a panic exactly if it pops more often than it pushed before. -/
theorem C16_no_panic (mode : IncrementalMode) (hist : List (Prover.Op F)) :
    ((Prover.new (F := F) mode).run hist).isSome ↔ Prover.StaysOpen hist := by
  rw [Prover.run_isSome (Prover.Inv.new mode), Prover.staysOpen_iff]
  exact Iff.rfl

/-- The level is the number of open levels. -/
theorem C16_level (mode : IncrementalMode) (hist : List (Prover.Op F)) (p : Prover F)
    (h : (Prover.new mode).run hist = some p) : p.level + Prover.pops hist = Prover.pushes hist := by
  have key : ∀ (os : List (Prover.Op F)) (n m : Nat), Prover.height n os = some m →
      m + Prover.pops os = n + Prover.pushes os := by
    intro os
    induction os with
    | nil => intro n m e; cases e; rfl
    | cons o os ih =>
      intro n m e
      unfold Prover.pops Prover.pushes at *
      rw [List.countP_cons, List.countP_cons]
      cases o with
      | push =>
        have := ih (n + 1) m e
        simp
        omega
      | pop =>
        cases n with
        | zero => cases e
        | succ n =>
          have := ih n m e
          simp
          omega
      | _ => simpa using ih n m e
  have := key hist 0 p.level ((Prover.Inv.new mode).run h).height
  omega

/-- Proof obligations are tracked the same way: the prover knows of a proof obligation exactly if one was added at a
level which is still open. -/
theorem C16_provables (mode : IncrementalMode) (hist : List (Prover.Op F)) (p : Prover F)
    (h : (Prover.new mode).run hist = some p) : p.hasProvables = true ↔ Prover.live Prover.obligation hist ≠ [] := by
  have hi := (Prover.Inv.new mode).run h
  have h0 := hi.provables 0 (Nat.zero_le _)
  rw [Prover.liveBelow_zero] at h0
  rw [List.nil_append] at h0
  rw [h0]
  unfold Prover.hasProvables
  rw [Option.isSome_iff_exists]
  exact ⟨fun ⟨m, hm⟩ => ⟨m, hm, hi.minLe m hm⟩, fun ⟨m, hm, _⟩ => ⟨m, hm⟩⟩

/-- Both modes have the same assertions. -/
theorem C16_modes_agree (hist : List (Prover.Op F)) (p q : Prover F)
    (hp : (Prover.new .native).run hist = some p) (hq : (Prover.new .emulated).run hist = some q) :
    p.getAssertions = q.getAssertions ∧ p.level = q.level ∧ p.hasProvables = q.hasProvables := by
  refine ⟨(C16_assertions _ _ _ hp).trans (C16_assertions _ _ _ hq).symm, ?_, ?_⟩
  · have := C16_level _ _ _ hp
    have := C16_level _ _ _ hq
    omega
  · rw [Bool.eq_iff_iff, C16_provables _ _ _ hp, C16_provables _ _ _ hq]

/-- Non-vacuity: a history with nested levels. -/
example : Prover.StaysOpen ([.addAssumption 1, .push, .addAssumption 2, .push, .addProvable 3, .pop, .addAssumption 4] : List (Prover.Op ℕ)) := by
  rw [Prover.staysOpen_iff]; rfl

end Caesar.Infra
