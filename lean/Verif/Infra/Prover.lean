import Mathlib.Data.List.Basic

/-!
# The prover

Models `z3rro/src/prover.rs`. The SMT solver itself is a parameter.
-/

namespace Caesar.Infra

/-- `SatResult` of Z3. (imported in `z3rro/src/prover.rs:7`) -/
inductive SatResult where
  | sat | unsat | unknown
  deriving DecidableEq

/-- `ProveResult` (`z3rro/src/prover.rs:19-23`), without the reason for an unknown result. -/
inductive ProveResult where
  | proof | counterexample | unknown
  deriving DecidableEq

/-- `IncrementalMode` (`z3rro/src/prover.rs:40-43`). -/
inductive IncrementalMode where
  | native | emulated
  deriving DecidableEq

/-- Formulas and the solver: `neg` is `Bool::not` and `solve n asserted assumptions` is the answer of Z3's `check` resp.
`check_assumptions` in its `n`-th call (it may answer differently for the same input). (used in `z3rro/src/prover.rs:150-204`) -/
class Solver (F : Type) where
  neg : F → F
  solve : Nat → List F → List F → SatResult

/-- `StackSolver` (`z3rro/src/prover.rs:46-50`). The native solver keeps a stack of frames of assertions (innermost
first); this is the documented behaviour of Z3's `push` and `pop`. The emulated solver has one list of assertions
(`Solver::assert` appends) and a separate stack (innermost first; the `Vec` has it last). -/
inductive StackSolver (F : Type) where
  | native (frames : List (List F))
  | emulated (solver : List F) (stack : List (List F))

/-- `Prover` (`z3rro/src/prover.rs:77-88`). `last_result` only keeps the result. `solverTimeout` is the timeout
configured in the current Z3 solver object, `calls` counts the calls of Z3. -/
structure Prover (F : Type) where
  timeout : Option Nat
  solverTimeout : Option Nat
  solver : StackSolver F
  level : Nat
  minLevelWithProvables : Option Nat
  lastResult : Option SatResult
  calls : Nat

namespace Prover
variable {F : Type}

/-- `Prover::new` (`z3rro/src/prover.rs:91-105`). -/
def new (mode : IncrementalMode) : Prover F where
  timeout := none
  solverTimeout := none
  solver := match mode with
    | .native => .native [[]]
    | .emulated => .emulated [] [[]]
  level := 0
  minLevelWithProvables := none
  lastResult := none
  calls := 0

/-- `Prover::get_assertions` (`z3rro/src/prover.rs:120-122`). -/
def getAssertions (p : Prover F) : List F :=
  match p.solver with
  | .native frames => frames.reverse.flatten
  | .emulated solver _ => solver

/-- `Prover::set_timeout` (`z3rro/src/prover.rs:125-128`). -/
def setTimeout (p : Prover F) (d : Nat) : Prover F := { p with timeout := some d, solverTimeout := some d }

/-- Append to the innermost frame. The empty case panics in Rust (`last_mut().unwrap()`) and cannot occur. (`z3rro/src/prover.rs:138`) -/
def pushTop (f : F) : List (List F) → List (List F)
  | [] => [[f]]
  | top :: rest => (top ++ [f]) :: rest

/-- `Prover::add_assumption` (`z3rro/src/prover.rs:131-142`). -/
def addAssumption (p : Prover F) (f : F) : Prover F :=
  { p with
    solver := match p.solver with
      | .native frames => .native (pushTop f frames)
      | .emulated solver stack => .emulated (solver ++ [f]) (pushTop f stack)
    lastResult := none }

/-- `Prover::add_provable` (`z3rro/src/prover.rs:150-153`). -/
def addProvable [Solver F] (p : Prover F) (f : F) : Prover F :=
  let p := p.addAssumption (Solver.neg f)
  { p with minLevelWithProvables := some (p.minLevelWithProvables.getD p.level) }

/-- `Prover::has_provables` (`z3rro/src/prover.rs:191-193`). -/
def hasProvables (p : Prover F) : Bool := p.minLevelWithProvables.isSome

/-- `Prover::cache_result` (`z3rro/src/prover.rs:206-216`), together with the call of Z3. -/
def callSolver [Solver F] (p : Prover F) (assumptions : List F) : SatResult × Prover F :=
  let res := Solver.solve p.calls p.getAssertions assumptions
  (res, { p with lastResult := some res, calls := p.calls + 1 })

/-- The translation of results at the end of `check_proof_assuming` (`z3rro/src/prover.rs:180-184`). -/
def toProveResult : SatResult → ProveResult
  | .unsat => .proof
  | .unknown => .unknown
  | .sat => .counterexample

/-- `Prover::check_proof_assuming` (`z3rro/src/prover.rs:162-185`). -/
def checkProofAssuming [Solver F] (p : Prover F) (assumptions : List F) : ProveResult × Prover F :=
  if !p.hasProvables then (.proof, p)
  else
    match p.lastResult, assumptions with
    | some res, [] => (toProveResult res, p)
    | _, assumptions =>
      let (res, p) := p.callSolver assumptions
      (toProveResult res, p)

/-- `Prover::check_sat` (`z3rro/src/prover.rs:196-203`). -/
def checkSat [Solver F] (p : Prover F) : SatResult × Prover F :=
  match p.lastResult with
  | some res => (res, p)
  | none => p.callSolver []

/-- `Prover::push` (`z3rro/src/prover.rs:243-249`). -/
def push (p : Prover F) : Prover F :=
  { p with
    level := p.level + 1
    solver := match p.solver with
      | .native frames => .native ([] :: frames)
      | .emulated solver stack => .emulated solver ([] :: stack) }

/-- `Prover::pop` (`z3rro/src/prover.rs:252-284`); `none` is the panic "cannot pop level 0". -/
def pop (p : Prover F) : Option (Prover F) :=
  if p.level = 0 then none
  else
    let level := p.level - 1
    let minLevel := match p.minLevelWithProvables with
      | some m => if m > level then none else some m
      | none => none
    match p.solver with
    | .native frames =>
      some { p with level, minLevelWithProvables := minLevel, lastResult := none, solver := .native frames.tail }
    | .emulated solver stack =>
      match stack with
      | [] => none
      | oldTop :: stack =>
        if oldTop.isEmpty then
          some { p with level, minLevelWithProvables := minLevel, solver := .emulated solver stack }
        else
          some { p with
            level, minLevelWithProvables := minLevel, lastResult := none
            solver := .emulated stack.reverse.flatten stack
            solverTimeout := none }

/-- The operations offered by the prover. (`z3rro/src/prover.rs:125-287`) -/
inductive Op (F : Type) where
  | addAssumption (f : F)
  | addProvable (f : F)
  | checkProofAssuming (assumptions : List F)
  | checkSat
  | push
  | pop
  | setTimeout (d : Nat)

/-- Execute one operation. (`z3rro/src/prover.rs:125-287`) -/
def step [Solver F] (p : Prover F) : Op F → Option (Prover F)
  | .addAssumption f => some (p.addAssumption f)
  | .addProvable f => some (p.addProvable f)
  | .checkProofAssuming as => some (p.checkProofAssuming as).2
  | .checkSat => some p.checkSat.2
  | .push => some p.push
  | .pop => p.pop
  | .setTimeout d => some (p.setTimeout d)

/-- Execute a history of operations. -/
def run [Solver F] (p : Prover F) : List (Op F) → Option (Prover F)
  | [] => some p
  | o :: os => (p.step o).bind fun p => p.run os

end Prover

end Caesar.Infra
