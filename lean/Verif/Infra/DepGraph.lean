import Verif.Syntax

/-!
# The dependency graph

Models `src/depgraph.rs`.
-/

namespace Caesar.Infra

/-- A declaration as far as the dependency graph sees it: its kind, its name and the set of names which are collected in `current_deps`
while its AST is walked (`visit_ty`, `visit_expr`, `src/depgraph.rs:158-170`). A domain contributes its functions and axioms
(`src/depgraph.rs:112-129`). -/
inductive DepDecl where
  | proc (name : Ident) (deps : List Ident)
  | func (name : Ident) (deps : List Ident)
  | axiomDecl (name : Ident) (deps : List Ident)

/-- `AxiomInstantiation` (`src/smt/funcs/axiomatic.rs:23-33`). -/
inductive AxiomInst where
  | decreasing | bidirectional
  deriving DecidableEq

/-- `DepGraph` (`src/depgraph.rs:30-41`), without `current_deps`, which is empty between declarations. The hash map and the hash sets are lists. -/
structure DepGraph where
  inst : AxiomInst
  directed : List (Ident × List Ident)
  sccs : List (List Ident)

namespace DepGraph

/-- `DepGraph::new` (`src/depgraph.rs:44-51`). -/
def new (inst : AxiomInst) : DepGraph := ⟨inst, [], []⟩

/-- `entry(from).or_default().extend(deps)` (`src/depgraph.rs:56`). -/
def extendEntry (key : Ident) (deps : List Ident) : List (Ident × List Ident) → List (Ident × List Ident)
  | [] => [(key, deps)]
  | (k, ds) :: m => if k = key then (k, ds ++ deps) :: m else (k, ds) :: extendEntry key deps m

/-- `collect_directed_deps` (`src/depgraph.rs:54-57`). -/
def collectDirected (g : DepGraph) (key : Ident) (deps : List Ident) : DepGraph :=
  { g with directed := extendEntry key deps g.directed }

/-- `collect_mutual_deps` (`src/depgraph.rs:60-64`). -/
def collectMutual (g : DepGraph) (key : Ident) (deps : List Ident) : DepGraph :=
  { g with sccs := g.sccs ++ [key :: deps] }

/-- `visit_proc`, `visit_func`, `visit_axiom` (`src/depgraph.rs:105-156`). `none` is the error `AxiomNoDeps`. -/
def visit (g : DepGraph) : DepDecl → Option DepGraph
  | .proc name deps => some (g.collectDirected name deps)
  | .func name deps =>
    match g.inst with
    | .decreasing => some (g.collectDirected name deps)
    | .bidirectional => some (g.collectMutual name deps)
  | .axiomDecl name deps => if deps = [] then none else some (g.collectMutual name deps)

/-- Visiting all declarations. (`src/depgraph.rs:118-184`) -/
def visitAll (g : DepGraph) : List DepDecl → Option DepGraph
  | [] => some g
  | d :: ds => do
    let g ← g.visit d
    g.visitAll ds

/-- `get_successors` (`src/depgraph.rs:68-87`). -/
def successors (g : DepGraph) (x : Ident) : List Ident :=
  (match g.directed.find? (fun e => e.1 = x) with
    | some e => e.2
    | none => []) ++ (g.sccs.filter fun scc => x ∈ scc).flatten

/-- All identifiers with successors (for the termination proof only). -/
def sources (g : DepGraph) : List Ident := g.directed.map Prod.fst ++ g.sccs.flatten

theorem successors_nil {g : DepGraph} {x : Ident} (h : x ∉ g.sources) : g.successors x = [] := by
  unfold sources at h
  rw [List.mem_append, not_or] at h
  unfold successors
  have h1 : g.directed.find? (fun e => e.1 = x) = none := by
    rw [List.find?_eq_none]
    intro e he hx
    exact h.1 (List.mem_map.2 ⟨e, he, of_decide_eq_true hx⟩)
  have h2 : (g.sccs.filter fun scc => x ∈ scc) = [] := by
    rw [List.filter_eq_nil_iff]
    intro scc hs hx
    exact h.2 (List.mem_flatten.2 ⟨scc, hs, of_decide_eq_true hx⟩)
  rw [h1, h2]
  rfl

/-- The loop of `get_reachable` (`src/depgraph.rs:91-103`). The worklist is a stack with its top at the head. -/
def reachLoop (g : DepGraph) (worklist reachable : List Ident) : List Ident :=
  match worklist with
  | [] => reachable
  | x :: wl =>
    if x ∈ reachable then reachLoop g wl reachable
    else reachLoop g (((g.successors x).filter fun s => s ∉ x :: reachable).reverse ++ wl) (x :: reachable)
termination_by ((g.sources.filter fun x => x ∉ reachable).length, worklist.length)
decreasing_by
  · exact Prod.Lex.right _ (by simp)
  · rename_i hx
    by_cases hs : x ∈ g.sources
    · apply Prod.Lex.left
      have hle : ∀ l : List Ident, (l.filter fun y => y ∉ x :: reachable).length ≤ (l.filter fun y => y ∉ reachable).length := by
        intro l
        induction l with
        | nil => simp
        | cons a l ih =>
          by_cases ha : a ∈ reachable
          · simpa [List.filter_cons, ha] using ih
          · by_cases hax : a = x
            · simp only [List.filter_cons, List.mem_cons, hax, hx] at ih ⊢
              simp at ih ⊢
              omega
            · simp only [List.filter_cons, List.mem_cons, hax, ha] at ih ⊢
              simp at ih ⊢
              omega
      obtain ⟨l1, l2, hl⟩ := List.append_of_mem hs
      rw [hl, List.filter_append, List.filter_append, List.length_append, List.length_append]
      have h1 := hle l1
      have h2 := hle l2
      have h3 : ((x :: l2).filter fun y => y ∉ x :: reachable) = l2.filter fun y => y ∉ x :: reachable := by
        simp [List.filter_cons]
      have h4 : ((x :: l2).filter fun y => y ∉ reachable) = x :: l2.filter fun y => y ∉ reachable := by
        simp [List.filter_cons, hx]
      rw [h3, h4, List.length_cons]
      omega
    · have : (g.sources.filter fun y => y ∉ x :: reachable) = g.sources.filter fun y => y ∉ reachable := by
        apply List.filter_congr
        intro y hy
        have : y ≠ x := fun h => hs (h ▸ hy)
        simp [this]
      rw [this, successors_nil hs]
      exact Prod.Lex.right _ (by simp)

/-- `get_reachable` (`src/depgraph.rs:90-103`). -/
def reachable (g : DepGraph) (idents : List Ident) : List Ident := g.reachLoop idents.reverse []

/-- `is_potentially_recursive` (`src/depgraph.rs:109-112`). -/
def isPotentiallyRecursive (g : DepGraph) (x : Ident) : Bool := decide (x ∈ g.reachable (g.successors x))

end DepGraph

end Caesar.Infra
