import Verif.Syntax

/-!
# Direction tracking

Models `src/proof_rules/negations.rs`.
-/

namespace Caesar

/-- `DirectionError` (`src/proof_rules/negations.rs:95-102`), without the span. `before` tells whether the direction is the
one from before the statement. -/
structure DirectionError where
  before : Bool
  current : Dir
  negation : Dir
  deriving DecidableEq, Repr

/-- `DirectionTracker::handle_negation_forwards` (`src/proof_rules/negations.rs:28-50`): the new direction. -/
def handleNegationForwards (cur : Dir) (s : Stmt) : Except DirectionError Dir :=
  match s with
  | .negate d =>
    match cur, d with
    | .down, .down => .ok .up
    | .up, .up => .ok .down
    | _, _ => .error ⟨true, cur, d⟩
  | _ => .ok cur

/-- `DirectionTracker::handle_negation_backwards` (`src/proof_rules/negations.rs:53-73`): the new direction. -/
def handleNegationBackwards (cur : Dir) (s : Stmt) : Except DirectionError Dir :=
  match s with
  | .negate d =>
    match d, cur with
    | .down, .up => .ok .down
    | .up, .up => .ok .down
    | _, _ => .error ⟨false, cur, d⟩
  | _ => .ok cur

end Caesar
