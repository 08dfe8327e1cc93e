/-!
# Modules and the exit verdict

Models `Module::extend` (`src/driver/front.rs`), the main loop of `src/driver/commands/verify.rs`,
`src/driver/error.rs` and the diagnostics of `src/servers/cli.rs`.
-/

namespace Caesar.Driver

/-- `Module::extend` (`src/driver/front.rs:106-117`): the new list of items and the returned slice
(`&mut self.items[old_items_len + 1..]`). -/
def extend {α : Type} (items new : List α) : List α × List α :=
  let oldLen := items.length
  let items := items ++ new
  if items.length > oldLen then (items, items.drop (oldLen + 1)) else (items, [])

/-- `ReasonUnknown` (`z3rro/src/util.rs`), as far as the driver distinguishes it. -/
inductive ReasonUnknown where
  | interrupted | timeout | other
  deriving DecidableEq

/-- `ProveResult` (`z3rro/src/prover.rs:19-23`). -/
inductive ProveResult where
  | proof | counterexample | unknown (r : ReasonUnknown)
  deriving DecidableEq

/-- `CaesarError` (`src/driver/error.rs:12-38`). -/
inductive CaesarError where
  | diagnostic | io | timeout | oom | interrupted | user | server | panic
  deriving DecidableEq

/-- What happens to one verification unit in the loop of `verify_files_main`: `limits` is the result of `check_limits`,
`lower` the result of the lowering steps before the solver, `solve` the result of `run_smt_prove_task`, and
`soundProofs` the flag of its `ProcSoundness`. The solver and the lowering steps are parameters here. (`src/driver/commands/verify.rs:247-250`) -/
structure UnitRun where
  limits : Except CaesarError Unit
  lower : Except CaesarError Unit
  solve : Except CaesarError ProveResult
  soundProofs : Bool

/-- State of the loop: the counters of `verify_files_main` and `has_emitted_errors` of the `CliServer`
(`src/servers/cli.rs:26-30`). -/
structure LoopState where
  numProven : Nat
  numFailures : Nat
  emittedErrors : Bool

/-- One iteration of the loop (`src/driver/commands/verify.rs:236-303`). `run_smt_prove_task` emits an error diagnostic
for an unsound proof (`src/driver/smt_proof.rs:169-171,583-585`,
`src/proof_rules/calculus/soundness_checker.rs:125-141`, `src/servers/cli.rs:71-77`). -/
def verifyUnit (st : LoopState) (u : UnitRun) : Except CaesarError LoopState := do
  u.limits
  u.lower
  let result ← u.solve
  let st := if result = .proof && !u.soundProofs then { st with emittedErrors := true } else st
  match result with
  | .unknown .interrupted => .error .interrupted
  | .unknown .timeout => .error .timeout
  | .proof => .ok { st with numProven := st.numProven + 1 }
  | .counterexample | .unknown _ => .ok { st with numFailures := st.numFailures + 1 }

/-- The loop over all units. (`src/driver/commands/verify.rs:247`) -/
def verifyLoop (st : LoopState) : List UnitRun → Except CaesarError LoopState
  | [] => .ok st
  | u :: us => do
    let st ← verifyUnit st u
    verifyLoop st us

/-- `verify_files_main` (`src/driver/commands/verify.rs:160-314`): `front` is the result of everything before the loop
(with the server's error flag), `skip` says that the early return for `--no-verify` is taken. -/
def verifyFilesMain (front : Except CaesarError Bool) (skip : Bool) (units : List UnitRun) :
    Except CaesarError (Bool × Bool) := do
  let emitted ← front
  if skip then return (true, emitted)
  let st ← verifyLoop ⟨0, 0, emitted⟩ units
  return (st.numFailures == 0, st.emittedErrors)

/-- `finalize_caesar_result` (`src/driver/error.rs:40-85`): the exit code of the process. A panic exits with code 101. -/
def exitCode : Except CaesarError (Bool × Bool) → Nat
  | .ok (allVerified, emittedErrors) => if emittedErrors then 1 else if allVerified then 0 else 1
  | .error .diagnostic => 1
  | .error .io => 1
  | .error .timeout => 2
  | .error .oom => 3
  | .error .interrupted => 130
  | .error .user => 1
  | .error .server => 101
  | .error .panic => 101

end Caesar.Driver
