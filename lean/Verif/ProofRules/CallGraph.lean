import Verif.Syntax

/-!
# The call graph and recursive procedures

Models `src/proof_rules/calculus/recursion_checker.rs`.
-/

namespace Caesar

/-- The procedure calls which `CallGraphVisitor` finds in a body, in order
(`src/proof_rules/calculus/recursion_checker.rs:76-96` with the default `walk_stmt`, `src/ast/visit.rs:224-291`). Calls occur only as
the right-hand side of an assignment or declaration; arguments are pure (`src/front/tycheck.rs:583`). -/
def Stmt.callees : Stmt → List Ident
  | .seq a b => a.callees ++ b.callees
  | .call _ _ f _ => [f]
  | .demonic a b => a.callees ++ b.callees
  | .angelic a b => a.callees ++ b.callees
  | .additive a b => a.callees ++ b.callees
  | .ite _ a b => a.callees ++ b.callees
  | .while _ b => b.callees
  | .annot _ s => s.callees
  | _ => []

/-- A procedure of the module: name and optional body. (`src/proof_rules/calculus/recursion_checker.rs:56-66`) -/
structure ProcBody where
  name : Ident
  body : Option Stmt

/-- `generate_call_graph` (`src/proof_rules/calculus/recursion_checker.rs:96-115`): the edges, each from the callee to the caller.
Edge weights (spans) are dropped. The nodes are the endpoints of edges, because `get_node` is called for these only. -/
def callGraph (ps : List ProcBody) : List (Ident × Ident) :=
  ps.flatMap fun p => match p.body with
    | some b => b.callees.map fun c => (c, p.name)
    | none => []

/-- `RecursiveProcBlame` (`src/proof_rules/calculus/recursion_checker.rs:12-21`), without the span. -/
structure Blame where
  called : Ident
  recursive : Ident
  deriving DecidableEq

/-- One insertion into the map `recursive_procs` (`src/proof_rules/calculus/recursion_checker.rs:138-152`). The map is a list of blames with
distinct keys `recursive`. -/
def addBlame (scc : List Ident) (node : Ident) (m : List Blame) (edge : Ident × Ident) : List Blame :=
  if edge.2 ∈ scc ∧ edge.2 ∉ m.map Blame.recursive then m ++ [⟨node, edge.2⟩] else m

/-- `find_recursive_procs` (`src/proof_rules/calculus/recursion_checker.rs:120-159`), with the result `sccs` of `petgraph::algo::tarjan_scc` as a
parameter. -/
def findRecursive (edges : List (Ident × Ident)) (sccs : List (List Ident)) : List Blame :=
  sccs.foldl (fun m scc =>
    if scc.length > 1 ∨ (∃ x ∈ scc.head?, (x, x) ∈ edges) then
      scc.foldl (fun m node => (edges.filter fun e => e.1 = node).foldl (addBlame scc node) m) m
    else m) []

end Caesar
