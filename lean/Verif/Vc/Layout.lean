import Mathlib.Data.List.Basic

/-!
# The steps of explanations that are shown

`ExprExplanation` (`src/vc/explain.rs:33-90`) and `remove_casts` (`src/ast/util.rs:142-161`).
-/

namespace Caesar.Layout

/-- `ExprKind` (`src/ast/expr.rs`): casts, and all other expressions with what they contain apart from expressions (`l`) and the children in the order of `walk_expr`. -/
inductive PExpr (α : Type) where
  | cast (e : PExpr α)
  | node (l : α) (kids : List (PExpr α))

variable {α β : Type}

mutual
/-- `RemoveCastsVisitor::visit_expr` (`src/ast/util.rs:155-160`): a cast is replaced by its operand, and then `walk_expr` visits the children. -/
def visit : PExpr α → PExpr α
  | .cast e => walk e
  | .node l ts => .node l (visitAll ts)
/-- `walk_expr` (`src/ast/visit.rs:173-222`). -/
def walk : PExpr α → PExpr α
  | .cast e => .cast (visit e)
  | .node l ts => .node l (visitAll ts)
/-- The loops over children in `walk_expr`. -/
def visitAll : List (PExpr α) → List (PExpr α)
  | [] => []
  | t :: ts => visit t :: visitAll ts
end

/-- `remove_casts` (`src/ast/util.rs:144-148`). -/
def removeCasts (e : PExpr α) : PExpr α := visit e

/-- `Itertools::dedup`: of consecutive equal elements there is one. -/
def dedup [DecidableEq β] : List β → List β
  | [] => []
  | [a] => [a]
  | a :: b :: l => if a = b then dedup (b :: l) else a :: dedup (b :: l)

/-- `to_strings` (`src/vc/explain.rs:74-85`). `print` makes both texts of an expression without casts. -/
def toStrings [DecidableEq β] (print : PExpr α → β) (steps : List (PExpr α)) : List β := dedup (steps.map fun e => print (removeCasts e))

/-- `shrink_to_block` (`src/vc/explain.rs:45-70`). `block` is the line at which the block starts and `line` that of the span. -/
def shrinkToBlock (block : Option Nat) (line : Nat) (steps : List (PExpr α)) : List (PExpr α) :=
  match block with
  | none => steps
  | some block =>
    let space := line - block - 1
    steps.drop (steps.length - space)

end Caesar.Layout
