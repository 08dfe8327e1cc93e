import Verif.Slicing.Failing
import Verif.Slicing.Exploration

/-!
# Verifying slices

Models the four ways to find a slice that still verifies (`src/slicing/solver.rs:190-331`) and their choice (`src/driver/smt_proof.rs:366-403`), on top of
the exploration of subsets (`Slicing/Exploration.lean`) and the binary search (`Slicing/Failing.lean`). Time limits and messages are not modelled.
-/

namespace Caesar.Slicing

/-- `SliceVerifyMethod` (`src/driver/commands/options.rs:388-411`). -/
inductive VerifyMethod where
  | unsatCore | minimalSubset | smallestSubset | existsForall
  deriving DecidableEq

/-- The answers of the solvers: to the query of `slice_verifying_unsat_core` (the unsat core, or `none` without a proof), to the queries of
`check_proof_seed`, to the propositional queries of the exploration, and to the queries of the exists-forall solver. -/
structure VerifyAnswers where
  core : Option (List Ident)
  check : Nat → List Ident → Check Ident
  solve : List (Constraint Ident) → Option (List Ident)
  ask : Nat → Nat → Reply

/-- `slice_verifying_unsat_core` (`src/slicing/solver.rs:231-270`); `found_active` and `finish` (`src/slicing/solver.rs:413-453`) return the core. -/
def verifyingCore (stmts : List SliceStmt) (core : Option (List Ident)) : Option SliceModel :=
  core.map fun c => SliceModel.fromEnabled .verify stmts Selection.verified c

/-- The explorer that is set up in `slice_verifying_enumerate` (`src/slicing/solver.rs:285-323`): the active variables, and the concordant and discordant ones
among all slice statements. -/
def enumerateExplorer (stmts : List SliceStmt) : Explorer Ident :=
  ⟨activeVars Selection.verified stmts, (stmts.filter (·.selection.concordant)).map (·.ident), (stmts.filter (·.selection.discordant)).map (·.ident), []⟩

/-- `slice_verifying_enumerate` (`src/slicing/solver.rs:274-331`) with the options of `src/driver/smt_proof.rs:371-386`. The outer `none` means that the fuel is
exhausted, the second one that the search panics. -/
def verifyingEnumerate (stmts : List SliceStmt) (min : Minimality) (solve : List (Constraint Ident) → Option (List Ident))
    (check : Nat → List Ident → Check Ident) (fuel : Nat) : Option (Option (Option SliceModel)) :=
  (Explorer.search solve check min .continue fuel 0 (enumerateExplorer stmts) none).map fun o => match o with
    | .panic => none
    | .done _ R => some (R.map fun r => SliceModel.fromEnabled .verify stmts Selection.verified r)

/-- `slice_verifying_exists_forall` (`src/slicing/solver.rs:194-228`) with the options of `src/driver/smt_proof.rs:387-402`: the first model is taken. -/
def verifyingExistsForall (stmts : List SliceStmt) (ask : Nat → Nat → Reply) (fuel : Nat) : Option (Option (Option SliceModel)) :=
  (searchFinal ⟨.any, .stop⟩ (activeVars Selection.verified stmts) ask fuel).map fun r => r.map fun r => match r with
    | .sat M => some (SliceModel.fromModel .verify stmts Selection.verified true M)
    | _ => none

/-- The slice that is reported for a program that verifies (`src/driver/smt_proof.rs:366-403`), without uninterpreted functions. -/
def sliceVerifying (method : VerifyMethod) (stmts : List SliceStmt) (ans : VerifyAnswers) (fuel : Nat) : Option (Option (Option SliceModel)) :=
  match method with
  | .unsatCore => some (some (verifyingCore stmts ans.core))
  | .minimalSubset => verifyingEnumerate stmts .subset ans.solve ans.check fuel
  | .smallestSubset => verifyingEnumerate stmts .size ans.solve ans.check fuel
  | .existsForall => verifyingExistsForall stmts ans.ask fuel

end Caesar.Slicing
