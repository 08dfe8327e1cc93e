import Verif.ProofRules.Negations
import Mathlib.Data.List.Basic

/-!
# C30: forward and backward direction tracking agree
-/

namespace Caesar

/-- Walk forwards over a sequence of statements. -/
def walkForwards (d : Dir) : List Stmt → Except DirectionError Dir
  | [] => .ok d
  | s :: ss => (handleNegationForwards d s).bind fun d => walkForwards d ss

/-- Walk backwards over a sequence of statements. -/
def walkBackwards (d : Dir) : List Stmt → Except DirectionError Dir
  | [] => .ok d
  | s :: ss => (walkBackwards d ss).bind fun d => handleNegationBackwards d s

/-- The full property. -/
def C30_full : Prop := ∀ (ss : List Stmt) (d d' : Dir), walkForwards d ss = .ok d' → walkBackwards d' ss = .ok d

/-- What the forward walk should do: toggle at each negation and require that the direction of the negation is the current
one. This is what the code does. -/
theorem C30_forwards (d : Dir) (s : Stmt) (d' : Dir) :
    handleNegationForwards d s = .ok d' ↔
      (∀ e, s = .negate e → e = d ∧ d' = d.toggle) ∧ ((∀ e, s ≠ .negate e) → d' = d) := by
  cases s with
  | negate e =>
    constructor
    · intro h
      refine ⟨fun e' he => ?_, fun hn => (hn e rfl).elim⟩
      cases he
      cases d <;> cases e <;> cases h <;> exact ⟨rfl, rfl⟩
    · intro h
      obtain ⟨rfl, rfl⟩ := h.1 e rfl
      cases e <;> rfl
  | _ =>
    exact ⟨fun h => ⟨fun _ he => (by cases he), fun _ => (by cases h; rfl)⟩,
      fun h => (by rw [h.2 (fun _ he => (by cases he))]; rfl)⟩

/-- The property holds for sequences without `conegate`. -/
theorem C30_roundtrip_partial (ss : List Stmt) (hss : Stmt.negate .up ∉ ss) (d d' : Dir)
    (h : walkForwards d ss = .ok d') : walkBackwards d' ss = .ok d := by
  induction ss generalizing d with
  | nil => cases h; rfl
  | cons s ss ih =>
    unfold walkForwards at h
    cases hs : handleNegationForwards d s with
    | error e => rw [hs] at h; cases h
    | ok d1 =>
      rw [hs] at h
      have := ih (fun hm => hss (List.mem_cons_of_mem _ hm)) d1 h
      unfold walkBackwards
      rw [this]
      show handleNegationBackwards d1 s = .ok d
      cases s with
      | negate e =>
        cases e with
        | up => exact (hss List.mem_cons_self).elim
        | down => cases d <;> cases hs <;> rfl
      | _ => cases hs; rfl

/-- It fails for `conegate`: forwards, `Up` becomes `Down`; backwards, `Down` is rejected. -/
theorem C30_not_full : ¬ C30_full := by
  intro h
  have := h [.negate .up] .up .down rfl
  cases this

/-- Moreover, the backward walk accepts `conegate` in a context which the forward walk rejects. -/
theorem C30_not_full_accepts :
    handleNegationBackwards .up (.negate .up) = .ok .down ∧ ∀ d', handleNegationForwards .down (.negate .up) ≠ .ok d' :=
  ⟨rfl, fun _ h => by cases h⟩

/-- Non-vacuity. -/
example : walkForwards .down [.negate .down, .skip] = .ok .up ∧ Stmt.negate .up ∉ [Stmt.negate .down, .skip] :=
  ⟨rfl, by simp⟩

end Caesar
