import Verif.Driver.Lower
import Verif.Procs.SpecCall
import Verif.Slicing.Failing
import Verif.Smt.Translate

/-!
# One verification unit, from the encoded procedure to the verdict

Models the body of the loop in `verify_files_main` (`src/driver/commands/verify.rs:237-284`): `lower_core_verify_task`
(`src/driver/core_verify.rs:43-67`), `lower_quant_prove_task` (`src/driver/quant_proof.rs`), and the parts of `run_smt_prove_task` which
determine the verdict (`src/driver/smt_proof.rs:133-190,262-440`), with the queries as they are given to the SMT solver.

The solver itself is a parameter. Z3's own simplification of the formula, probes, statistics, printing, functions with axioms (C70) and slicing for
verification, which comes after the verdict, are left out.
-/

namespace Caesar.Smt
open Slicing

/-- `SmtSliceStmts::new`, the variables (`src/slicing/solver.rs:72-81`). -/
noncomputable def transVars [Doms] [SmtInterp] (O : Oracle) : List SliceStmt → TState → Option (List (SliceStmt × Term .bool) × TState)
  | [], st => some ([], st)
  | s :: ss, st => do
    let (x, st) ← trans O (.var s.ident : Expr .bool) st
    let (xs, st) ← transVars O ss st
    some ((s, x) :: xs, st)

/-- `SmtSliceStmts::new`, the constraints (`src/slicing/solver.rs:84-91`). -/
noncomputable def transAll [Doms] [SmtInterp] (O : Oracle) : List (Expr .bool) → TState → Option (List (Term .bool) × TState)
  | [], st => some ([], st)
  | e :: es, st => do
    let (x, st) ← trans O e st
    let (xs, st) ← transAll O es st
    some (x :: xs, st)

/-- What the prover knows in the search for failing slices: the provable `vc`, the constraints of the translator when it was set up (`mk_valid_query_prover`,
`src/driver/smt_proof.rs:424-449`), the SMT variables of the slice statements, and the constraints on them (`SmtSliceStmts`,
`src/slicing/solver.rs:63-67`). -/
structure SliceQuery [Doms] where
  vc : Term .bool
  st : TState
  vars : List (SliceStmt × Term .bool)
  constraints : List (Term .bool)

/-- `SmtVcProveTask::translate`, `mk_valid_query_prover`, `SliceSolver::new` (`src/driver/smt_proof.rs:269-296,316,342`, `src/slicing/solver.rs:140-156`), in
this order: the constraints of the translator are added to the prover before the slice variables are translated. -/
noncomputable def mkQuery [Doms] [SmtInterp] (O : Oracle) (b : Expr .bool) (stmts : List SliceStmt) (constraints : List (Expr .bool)) : Option SliceQuery := do
  let (vc, st) ← trans O b .new
  let (vars, st') ← transVars O stmts st
  let (cs, _) ← transAll O constraints st'
  some ⟨vc, st, vars, cs⟩

end Caesar.Smt

namespace Caesar
open Slicing

/-- The options of the unit. (`src/driver/commands/options.rs`) -/
structure UnitOptions where
  lower : LowerOptions := {}
  noSliceError : Bool := false
  sliceTicks : Bool := false
  sliceSampling : Bool := false
  sliceVerify : Bool := false
  sliceErrorFirst : Bool := false
  sliceErrorInconsistent : Bool := false

/-- The selection of the options (`src/driver/core_verify.rs:136-144`). -/
def UnitOptions.selection (opts : UnitOptions) : Selection :=
  prepareSelection opts.noSliceError opts.sliceTicks opts.sliceSampling opts.sliceVerify

/-- What else influences a unit: the procedures, the symbol table, declared temporaries, the solver of the unfolder and its queries so far, and the spans of new
identifiers. (`src/driver/commands/verify.rs:160-170,238-262`) -/
structure UnitCtx where
  procs : ProcTable
  tcx : TyCtx
  declared : List Var
  oracle : Oracle
  queries : Nat
  span : Nat
  span' : Nat
  span'' : Nat

/-- `lower_core_verify_task` (`src/driver/core_verify.rs:43-67`) up to the statement given to verification condition generation:
calls are replaced by specifications, then statements get slice variables. -/
def UnitCtx.sliced (c : UnitCtx) (opts : UnitOptions) (d : Dir) (T : Stmt) : Option (Stmt × St) :=
  (specCall c.procs d T c.declared).map fun (T', _) => transform opts.selection c.tcx d T'

/-- `lower_core_verify_task` and `lower_quant_prove_task` (`src/driver/commands/verify.rs:248-263`): the formula, and the slice variables. `none` is an error, a
panic, or an exhausted bound `n` on the recursion of `Boolify`. -/
def UnitCtx.formula (c : UnitCtx) (opts : UnitOptions) (n : Nat) (d : Dir) (T : Stmt) : Option (Expr .bool × St) := do
  let (S, st) ← c.sliced opts d T
  let e ← (coreVc d S).toOption
  let (b, _) ← lowerQuant c.oracle c.span c.span' c.span'' opts.lower n d e (st.tcx, c.queries)
  some (b, st)

/-- The whole unit (`src/driver/commands/verify.rs:237-284`): the verdict and the slice which is reported. `ask q step n` is the answer of the SMT solver to the query number
`step`, with at most `n` active slice variables. The outer `none` is an error, a panic, or an exhausted bound (`n` or `fuel`), the inner one a failed assertion. -/
noncomputable def runUnit [Doms] [Smt.SmtInterp] (O : Smt.Oracle) (c : UnitCtx) (opts : UnitOptions) (ask : Smt.SliceQuery → Nat → Nat → Reply) (n fuel : Nat) (d : Dir) (T : Stmt) :
    Option (Option (ProveResult × Option SliceModel)) := do
  let (b, st) ← c.formula opts n d T
  let q ← Smt.mkQuery O b st.stmts st.constraints
  sliceFailing (failingOptions opts.sliceErrorFirst opts.sliceErrorInconsistent) st.stmts (ask q) fuel

/-- The unit ends with the given result: it is the result for all sufficiently large bounds, which the code does not have. (`src/driver/commands/verify.rs:237-284`) -/
def Runs [Doms] [Smt.SmtInterp] (O : Smt.Oracle) (c : UnitCtx) (opts : UnitOptions) (ask : Smt.SliceQuery → Nat → Nat → Reply) (d : Dir) (T : Stmt)
    (out : ProveResult × Option SliceModel) : Prop :=
  ∃ N, ∀ n ≥ N, ∃ fuel, runUnit O c opts ask n fuel d T = some (some out)

end Caesar
