import Verif.Slicing.Transform
import Verif.Slicing.Minimizer
import Verif.Slicing.Exploration

/-!
# The search for failing slices, which is the main call to the SMT solver

Models `slice_failing_binary_search` and `slice_sat_binary_search` (`src/slicing/solver.rs:333-370,456-586`), and `SliceModel`
(`src/slicing/model.rs`). The SMT solver is the function `ask`: `ask step n` is its answer to the query number `step`, in which at most `n` of
the active slice variables are true. Interrupts and limits (`LimitError`) are left out, and so are logging and messages.
-/

namespace Caesar.Slicing

/-- A Z3 model on the slice variables, as returned by `eval` without model completion: `none` means that the variable has no value in the
model (`src/slicing/solver.rs:402-406`, `z3rro/src/model.rs:172-182`). Evaluation of a constant does not fail (`SmtEvalError` is left out). -/
abbrev PModel := Ident → Option Bool

/-- The answer to one query: `SatResult` together with `Prover::get_model` (`z3rro/src/prover.rs:224-228`). There is a model after `Sat`, there
may be one after `Unknown`, and there is none after `Unsat`. -/
inductive Reply where
  | sat (M : PModel)
  | unsat
  | unknown (M : Option PModel)

/-- `SliceSolveOptions` (`src/slicing/solver.rs:56-61`). -/
structure SliceOptions where
  minimality : Minimality
  unknown : UnknownHandling

/-- The options for failing slices (`src/driver/smt_proof.rs:343-354`). -/
def failingOptions (sliceErrorFirst sliceErrorInconsistent : Bool) : SliceOptions :=
  ⟨if sliceErrorFirst then .any else .size, if sliceErrorInconsistent then .accept else .stop⟩

/-- The model that is used for the search, if any (`src/slicing/solver.rs:517-520`): one that is consistent, or any one with
`UnknownHandling::Accept`. -/
def Reply.accepted (o : SliceOptions) : Reply → Option PModel
  | .sat M => some M
  | .unknown (some M) => match o.unknown with | .accept => some M | _ => none
  | _ => none

/-- `found_model` (`src/slicing/solver.rs:396-411`): the number of active variables which are true in the model. Variables without a value
count as false. -/
def countTrue (active : List Ident) (M : PModel) : Nat := (active.filter fun v => (M v).getD false).length

/-- What is recorded for a trial without an accepted model (`src/slicing/solver.rs:545-553`). -/
def Reply.choice (o : SliceOptions) : Reply → MinResult
  | .unsat => .rejectDownwards
  | .unknown _ => match o.unknown with | .stop => .rejectDownwards | _ => .unknown
  | .sat _ => .unknown

/-- The body of the loop, after the answer to the trial with bound `n` (`src/slicing/solver.rs:516-553`). `none` is a failed assertion. The second
component of the result is `cur_solver_n`, the third one says whether to leave the loop. -/
def trial (o : SliceOptions) (active : List Ident) (m : Minimizer) (n : Nat) (r : Reply) : Option (Minimizer × Nat × Bool) :=
  match r.accepted o with
  | some M =>
    if countTrue active M ≤ n then
      (m.addResult (countTrue active M) .acceptUpwards).map fun m =>
        (m, countTrue active M, match o.minimality with | .any => true | _ => false)
    else none
  | none => (m.addResult n (r.choice o)).map fun m => (m, n, false)

/-- The state of the search: the minimizer, `cur_solver_n` and the result cached in the prover (`last_result`,
`z3rro/src/prover.rs:52-62`), which belong to the last query, and the number of queries so far. (`src/slicing/solver.rs:491-494`) -/
structure SearchSt where
  min : Minimizer
  last : Option (Nat × Reply)
  step : Nat

/-- The loop (`src/slicing/solver.rs:495-554`). The outer `none` means that the fuel is exhausted, the inner one that an assertion failed. -/
def satSearch (o : SliceOptions) (active : List Ident) (ask : Nat → Nat → Reply) : (fuel : Nat) → SearchSt → Option (Option SearchSt)
  | 0, _ => none
  | fuel + 1, s =>
    match s.min.nextTrial with
    | none => some (some s)
    | some n =>
      match trial o active s.min n (ask s.step n) with
      | none => some none
      | some (m, c, true) => some (some ⟨m, some (c, ask s.step n), s.step + 1⟩)
      | some (m, c, false) => satSearch o active ask fuel ⟨m, some (c, ask s.step n), s.step + 1⟩

/-- Resetting the solver after the search (`src/slicing/solver.rs:559-582`), and the answer to the final query. If the solver is left alone, the final
query is answered from the cache (`z3rro/src/prover.rs:162-176`). `none` is a failed assertion. -/
def settle (active : List Ident) (ask : Nat → Nat → Reply) (s : SearchSt) : Option Reply :=
  match s.last with
  | none => some (ask s.step active.length)
  | some (c, r) =>
    if c = s.min.enabled then some r
    else
      let r := ask s.step s.min.enabled
      if s.min.minAccept.isSome then
        match r with | .unsat => none | _ => some r
      else if s.min.maxReject.isSome then
        match r with | .unsat => some r | _ => none
      else if !active.isEmpty then
        match r with | .unknown _ => some r | _ => none
      else some r

/-- `slice_sat_binary_search` (`src/slicing/solver.rs:456-586`), followed by the check of `slice_failing_binary_search`
(`src/slicing/solver.rs:356-357`). -/
def searchFinal (o : SliceOptions) (active : List Ident) (ask : Nat → Nat → Reply) (fuel : Nat) : Option (Option Reply) :=
  (satSearch o active ask fuel ⟨.new 0 active.length, none, 0⟩).map fun s => s.bind (settle active ask)

/-- `ProveResult` (`z3rro/src/prover.rs:17-23`). -/
inductive ProveResult where
  | proof | counterexample | unknown
  deriving DecidableEq

/-- The result of `check_proof` for a solver's answer (`z3rro/src/prover.rs:177-181`); there are provables. -/
def Reply.proveResult : Reply → ProveResult
  | .sat _ => .counterexample
  | .unsat => .proof
  | .unknown _ => .unknown

/-- `get_model` with the consistency of the model (`z3rro/src/prover.rs:224-228`). -/
def Reply.getModel : Reply → Option (Bool × PModel)
  | .sat M => some (true, M)
  | .unsat => none
  | .unknown M => M.map fun M => (false, M)

/-- `SliceMode` (`src/slicing/model.rs:12-17`). -/
inductive SliceMode where
  | verify | error
  deriving DecidableEq

/-- `SliceModel` (`src/slicing/model.rs:19-25`). -/
structure SliceModel where
  consistent : Bool
  mode : SliceMode
  stmts : List (SliceStmt × Bool)

/-- `SliceModel::from_model` (`src/slicing/model.rs:36-59`). Variables without a value are enabled (`z3rro/src/model.rs:175-181`). -/
def SliceModel.fromModel (mode : SliceMode) (stmts : List SliceStmt) (selection : Selection) (consistent : Bool) (M : PModel) : SliceModel :=
  ⟨consistent, mode, (stmts.map fun s => (s, (M s.ident).getD true)).filter fun p => selection.enables p.1.selection⟩

/-- `SliceModel::from_enabled` (`src/slicing/model.rs:61-82`). -/
def SliceModel.fromEnabled (mode : SliceMode) (stmts : List SliceStmt) (selection : Selection) (enabled : List Ident) : SliceModel :=
  ⟨true, mode, (stmts.filter fun s => selection.enables s.selection).map fun s => (s, decide (s.ident ∈ enabled))⟩

/-- `SliceResult` (`src/slicing/model.rs:27-33`), without messages and evaluation errors. -/
inductive SliceResult where
  | partOfError | notNecessary
  deriving DecidableEq

/-- `iter_results` (`src/slicing/model.rs:89-100`); the statements stand for their spans. -/
def SliceModel.results (sm : SliceModel) : List (SliceStmt × SliceResult) :=
  sm.stmts.filterMap fun (s, enabled) =>
    match sm.mode, enabled with
    | .error, true => some (s, .partOfError)
    | .verify, false => some (s, .notNecessary)
    | _, _ => none

/-- The active slice variables (`split_by_selection`, `src/slicing/solver.rs:117-128`). -/
def activeVars (selection : Selection) (stmts : List SliceStmt) : List Ident :=
  (stmts.filter fun s => selection.enables s.selection).map (·.ident)

/-- `slice_failing_binary_search` (`src/slicing/solver.rs:333-370`). -/
def sliceFailing (o : SliceOptions) (stmts : List SliceStmt) (ask : Nat → Nat → Reply) (fuel : Nat) :
    Option (Option (ProveResult × Option SliceModel)) :=
  (searchFinal o (activeVars Selection.failure stmts) ask fuel).map fun r => r.map fun r =>
    (r.proveResult, r.getModel.map fun (c, M) => SliceModel.fromModel .error stmts Selection.failure c M)

end Caesar.Slicing
