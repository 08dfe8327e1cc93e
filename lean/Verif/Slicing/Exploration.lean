/-!
# Enumerating verifying slices

Models `SubsetExploration` (`src/slicing/util.rs:150-415`) and `slice_unsat_search` with its helpers
(`src/slicing/solver.rs:378-450,588-687`). Sets of slice vars (`IndexSet<Bool>`) are lists, read as sets of enabled vars.
Time limits are not modelled.
-/

namespace Caesar.Slicing

variable {V : Type} [DecidableEq V]

/-- The assertions put into the solver of the exploration. (`src/slicing/util.rs:200-225`) -/
inductive Constraint (V : Type) where
  /-- `block` (`src/slicing/util.rs:218-226`): not all of `on` are on and all of `off` are off. -/
  | block (on off : List V)
  /-- `block_non_subset` (`src/slicing/util.rs:207-214`): all of `off` are off. -/
  | allOff (off : List V)
  /-- `block_at_least` (`src/slicing/util.rs:200-204`): fewer than `size` vars are on. -/
  | fewer (vars : List V) (size : Nat)

/-- Whether a set of enabled vars satisfies an assertion. -/
def Constraint.Holds : Constraint V → List V → Prop
  | .block on off, A => ¬ ((∀ v ∈ on, v ∈ A) ∧ ∀ v ∈ off, v ∉ A)
  | .allOff off, A => ∀ v ∈ off, v ∉ A
  | .fewer vs n, A => ¬ n ≤ (vs.filter (· ∈ A)).length

/-- `SubsetExploration` (`src/slicing/util.rs:150-155`). -/
structure Explorer (V : Type) where
  vars : List V
  extensive : List V
  reductive : List V
  constraints : List (Constraint V)

/-- `solver.assert`. (`src/slicing/util.rs:213,225`) -/
def Explorer.assert (x : Explorer V) (c : Constraint V) : Explorer V := { x with constraints := x.constraints ++ [c] }

/-- `next_set` (`src/slicing/util.rs:179-197`), given the answer of the solver for the current assertions: a satisfying set, or `none` for unsat.
A model without a value for a variable stands for the set in which that variable is on. -/
def Explorer.nextSet (x : Explorer V) (solve : List (Constraint V) → Option (List V)) : Option (List V) :=
  (solve x.constraints).map fun A => x.vars.filter (· ∈ A)

/-- `block_at_least` (`src/slicing/util.rs:200-204`). -/
def Explorer.blockAtLeast (x : Explorer V) (size : Nat) : Explorer V := x.assert (.fewer x.vars size)

/-- `block_non_subset` (`src/slicing/util.rs:207-214`). -/
def Explorer.blockNonSubset (x : Explorer V) (s : List V) : Explorer V := x.assert (.allOff (x.vars.filter (· ∉ s)))

/-- `block_this` (`src/slicing/util.rs:231-240`). -/
def Explorer.blockThis (x : Explorer V) (s : List V) : Explorer V :=
  x.assert (.block (x.vars.filter (· ∈ s)) (x.vars.filter (· ∉ s)))

/-- `block_unsat` (`src/slicing/util.rs:252-270`). -/
def Explorer.blockUnsat (x : Explorer V) (allTrue : List V) : Explorer V :=
  let allFalse := x.vars.filter (· ∉ allTrue)
  x.assert (.block (allTrue.filter (· ∉ x.reductive)) (allFalse.filter (· ∉ x.extensive)))

/-- `block_sat` (`src/slicing/util.rs:283-301`). -/
def Explorer.blockSat (x : Explorer V) (allTrue : List V) : Explorer V :=
  let allFalse := x.vars.filter (· ∉ allTrue)
  x.assert (.block (allTrue.filter (· ∉ x.extensive)) (allFalse.filter (· ∉ x.reductive)))

/-- Answers of `check_proof_seed` (`src/slicing/solver.rs:655-679`); a proof comes with the enabled vars of the unsat core
(`unsat_core_to_seed`, `src/slicing/solver.rs:681-687`). -/
inductive Check (V : Type) where
  | proof (core : List V) | counterexample | unknown

/-- Use the shrunk set only if nothing but extensive vars is removed (`src/slicing/util.rs:329-346,352-370`). -/
def Explorer.useCore (x : Explorer V) (current core : List V) : List V :=
  if (current.filter (· ∉ core)).all (· ∈ x.extensive) then core else current

/-- The loop of `shrink_block_unsat` (`src/slicing/util.rs:348-375`). `check n` is the answer to the `n`-th query. -/
def Explorer.shrinkLoop (x : Explorer V) (check : Nat → List V → Check V) : Nat → List V → List V → Nat × List V
  | n, current, [] => (n, current)
  | n, current, v :: vs =>
    if v ∈ current then
      let removed := current.filter (· ≠ v)
      match check n removed with
      | .proof core => x.shrinkLoop check (n + 1) (x.useCore removed core) vs
      | _ => x.shrinkLoop check (n + 1) (removed ++ [v]) vs
    else x.shrinkLoop check n current vs

/-- `shrink_block_unsat` without blocking (`src/slicing/util.rs:320-379`). -/
def Explorer.shrink (x : Explorer V) (check : Nat → List V → Check V) (n : Nat) (allTrue : List V) : Nat × List V :=
  let current := match check n allTrue with
    | .proof core => x.useCore allTrue core
    | _ => allTrue
  x.shrinkLoop check (n + 1) current (allTrue.filter (· ∈ x.extensive))

/-- The loop of `grow_block_sat` (`src/slicing/util.rs:404-410`). -/
def Explorer.growLoop (check : Nat → List V → Check V) : Nat → List V → List V → Nat × List V
  | n, current, [] => (n, current)
  | n, current, v :: vs =>
    match check n (current ++ [v]) with
    | .counterexample => growLoop check (n + 1) (current ++ [v]) vs
    | _ => growLoop check (n + 1) current vs

/-- `grow_block_sat` without blocking (`src/slicing/util.rs:398-414`). -/
def Explorer.grow (x : Explorer V) (check : Nat → List V → Check V) (n : Nat) (allTrue : List V) : Nat × List V :=
  Explorer.growLoop check n allTrue (x.extensive.filter (· ∉ allTrue))

/-- `SliceMinimality` (`src/slicing/solver.rs:32-41`). -/
inductive Minimality where
  | any | subset | size

/-- `UnknownHandling` (`src/slicing/solver.rs:43-54`). -/
inductive UnknownHandling where
  | continue | stop | accept

/-- `found_active` (`src/slicing/solver.rs:413-437`): keep the shortest slice. -/
def foundActive (best : Option (List V)) (s : List V) : Option (List V) :=
  match best with
  | some b => if b.length > s.length then some s else some b
  | none => some s

/-- How the search ends: the `panic!`, or the result together with whether all sets were explored. (`src/slicing/solver.rs:590-652`) -/
inductive Outcome (V : Type) where
  | panic
  | done (exhausted : Bool) (best : Option (List V))

/-- `slice_unsat_search` (`src/slicing/solver.rs:590-652`). `none` means that the fuel is exhausted. -/
def Explorer.search (solve : List (Constraint V) → Option (List V)) (check : Nat → List V → Check V) (min : Minimality)
    (unk : UnknownHandling) : (fuel : Nat) → (n : Nat) → Explorer V → Option (List V) → Option (Outcome V)
  | 0, _, _, _ => none
  | fuel + 1, n, x, best =>
    match x.nextSet solve with
    | none => some (.done true best)
    | some seed =>
      match check n seed with
      | .proof _ =>
        let (n, res) := x.shrink check (n + 1) seed
        let x := x.blockUnsat res
        let best := foundActive best res
        match min with
        | .any => some (.done false best)
        | .subset => search solve check min unk fuel n (x.blockNonSubset res) best
        | .size => search solve check min unk fuel n (x.blockAtLeast res.length) best
      | .counterexample =>
        let (n, res) := x.grow check (n + 1) seed
        search solve check min unk fuel n (x.blockSat res) best
      | .unknown =>
        match unk with
        | .continue => search solve check min unk fuel (n + 1) (x.blockThis seed) best
        | .stop => some (.done false best)
        | .accept => some .panic

end Caesar.Slicing
