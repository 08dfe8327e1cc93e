import Verif.Smt.Shared

/-!
# Statistics about expressions

`StatsVisitor` (`src/ast/stats.rs`) is a mutable visitor, so it clones shared nodes. The memory is that of `Smt/Shared.lean`.
-/

namespace Caesar.Smt.Sharing

/-- `Stats` (`src/ast/stats.rs:13-18`) without the number of statements, which are not in expressions. Of the histogram there are the recorded values. -/
structure Stats where
  numExprs : Nat
  numQuants : Nat
  depths : List Nat
  deriving DecidableEq

/-- The memory and `StatsVisitor` (`src/ast/stats.rs:54-57`). -/
structure StatState where
  cells : List Cell
  depth : Nat
  stats : Stats

/-- `visit_expr` before the children (`src/ast/stats.rs:67-78`) for a node of the kind `k`. -/
def StatState.count (s : StatState) (k : Kind) : StatState :=
  let depth := s.depth + 1
  let stats := { s.stats with numExprs := s.stats.numExprs + 1 }
  { s with
    depth
    stats := match k with
      | .quant => { stats with numQuants := stats.numQuants + 1 }
      | .var _ | .lit => { stats with depths := stats.depths ++ [depth] }
      | _ => stats }

/-- The loops over the children in `walk_expr` (`src/ast/visit.rs:173-222`). `f` visits the child behind a pointer that is held apart from the others. While the
children are visited, the pointers in the node count as held by the visitor. Declarations of quantified variables have no initial values. -/
def statKids (f : List Nat → StatState → Nat → Option (StatState × Nat)) (held : List Nat) : StatState → List Nat → List Nat → Option (StatState × List Nat)
  | s, done, [] => some (s, done)
  | s, done, k :: todo => do
    let (s, k) ← f (done ++ todo ++ held) s k
    statKids f held s (done ++ [k]) todo

/-- `visit_expr` (`src/ast/stats.rs:67-82`). The result contains the new pointer: `walk_expr` begins with `deref_mut` (`src/ast/visit.rs:174`). The recursion is
bounded for Lean by the first argument. -/
def statVisit : Nat → List Nat → StatState → Nat → Option (StatState × Nat)
  | 0, _, _, _ => none
  | n + 1, held, s, p => do
    let seen ← s.cells[p]?
    let s := s.count seen.kind
    let (cells, p) := makeMut s.cells held p
    let cell ← cells[p]?
    let (s, ks) ← statKids (statVisit n) (p :: held) { s with cells := cells.set p ⟨cell.kind, []⟩ } [] cell.kids
    some ({ s with cells := s.cells.set p ⟨cell.kind, ks⟩, depth := s.depth - 1 }, p)

/-- `trace_expr_stats` (`src/driver/quant_proof.rs:119-135`) with the pointers `held` elsewhere in the program: the memory, the new pointer, the statistics, and is there the warning
about quantifiers? -/
def traceStats (n : Nat) (held : List Nat) (cells : List Cell) (p : Nat) : Option (List Cell × Nat × Stats × Bool) :=
  (statVisit n held ⟨cells, 0, ⟨0, 0, []⟩⟩ p).map fun r => (r.1.cells, r.2, r.1.stats, decide (r.1.stats.numQuants > 0))

end Caesar.Smt.Sharing
