import Mathlib.Data.Rat.Defs
import Mathlib.Algebra.Order.Field.Rat

/-!
# Concrete extended reals

Models `z3rro/src/eureal/concrete.rs`.
-/

namespace Caesar.Smt

/-- `ConcreteEUReal` (`z3rro/src/eureal/concrete.rs:21-24`). `BigRational` is modelled by `ℚ`. -/
inductive Concrete where
  | real (r : ℚ)
  | infinity
  deriving DecidableEq

namespace Concrete

/-- The derived `Ord` (`z3rro/src/eureal/concrete.rs:19`): variants are compared in the order of their declaration and
equal variants by their fields. -/
def le : Concrete → Concrete → Bool
  | .real a, .real b => decide (a ≤ b)
  | .real _, .infinity => true
  | .infinity, .real _ => false
  | .infinity, .infinity => true

/-- `One::one` (`z3rro/src/eureal/concrete.rs:55-57`). -/
def one : Concrete := .real 1

/-- `One::is_one` (`z3rro/src/eureal/concrete.rs:51-53`). -/
def isOne : Concrete → Bool
  | .real r => decide (r = 1)
  | .infinity => false

/-- `Add::add` (`z3rro/src/eureal/concrete.rs:60-72`). -/
def add : Concrete → Concrete → Concrete
  | .infinity, _ => .infinity
  | _, .infinity => .infinity
  | .real a, .real b => .real (a + b)

/-- `Sub::sub` (`z3rro/src/eureal/concrete.rs:74-91`). -/
def sub : Concrete → Concrete → Option Concrete
  | .infinity, .infinity => none
  | .infinity, _ => some .infinity
  | _, .infinity => none
  | .real a, .real b => if a ≥ b then some (.real (a - b)) else some (.real 0)

/-- `Mul::mul` (`z3rro/src/eureal/concrete.rs:93-109`). -/
def mul : Concrete → Concrete → Concrete
  | .real a, c =>
    if a = 0 then .real 0
    else match c with
      | .real b => if b = 0 then .real 0 else .real (a * b)
      | .infinity => .infinity
  | .infinity, .real b => if b = 0 then .real 0 else .infinity
  | .infinity, .infinity => .infinity

end Concrete

end Caesar.Smt
