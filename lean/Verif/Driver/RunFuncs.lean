import Verif.Driver.Deps

/-!
# A verification unit of a program with functions and axioms

Models `run_smt_prove_task` (`src/driver/smt_proof.rs:140-174`) for programs with domains: the function encoder is chosen from the options and the dependency
graph, the functions and axioms which the unit depends on are translated, and the query of C80 is asked together with them. What `define-fun-rec` means and how
fuel is represented is explained in `Smt/Funcs.lean`.
-/

namespace Caesar.Driver
open Smt Slicing

/-- The declaration without its name. (`src/ast/decl.rs`) -/
def NamedSpec.spec : NamedSpec → DomainSpec
  | .func d => .func d
  | .prop _ e => .prop e

/-- A query with function symbols: for each meaning of the function symbols, the assertions about them (`src/smt/uninterpreted.rs:62-70`), and the query of
the search for failing slices. It is the same text for all meanings. (`src/driver/smt_proof.rs:424-449`) -/
abbrev FuncQuery [Doms] := World → Option (List Fact × SliceQuery)

/-- `SmtCtx::new` followed by `SmtVcProveTask::translate`, `mk_valid_query_prover` and `SliceSolver::new` (`src/driver/smt_proof.rs:144-149,316,342`,
`src/smt/mod.rs:50-150`). The two translators do not share anything. -/
noncomputable def mkFuncQuery [Doms] (O : Smt.Oracle) (E : Encoder) (ds : List DomainSpec) (b : Expr .bool) (stmts : List SliceStmt)
    (constraints : List (Expr .bool)) : FuncQuery := fun W => do
  let (facts, _) ← domainFacts O W E ds .new
  let q ← @mkQuery _ (W.at E E.fuel) O b stmts constraints
  some (facts, q)

open Classical in
/-- The body of the loop in `verify_files_main` (`src/driver/commands/verify.rs:237-284`) for a program with functions: `items` are the source units after the
encoding of loops, and `g` is their dependency graph. As in `runUnit`, `ask` is the SMT solver, the outer `none` is an error, a panic, or an exhausted
bound. Whether the translation succeeds does not depend on the meaning of the function symbols. -/
noncomputable def runFuncUnit [Doms] (O : Smt.Oracle) (o : EncodingOptions) (items : List SourceUnit) (g : Infra.DepGraph) (u : SourceUnit) (c : UnitCtx)
    (opts : UnitOptions) (ask : FuncQuery → Nat → Nat → Reply) (n fuel : Nat) : Option (Option (ProveResult × Option SliceModel)) := do
  let (d, T) ← u.task
  let (b, st) ← c.formula opts n d T
  let E ← mkEncoder o g ((domainSpecs items).map NamedSpec.spec)
  let q := mkFuncQuery O E ((translatedSpecs (u.deps g) (domainSpecs items)).map NamedSpec.spec) b st.stmts st.constraints
  if ∀ W, (q W).isSome then
    sliceFailing (failingOptions opts.sliceErrorFirst opts.sliceErrorInconsistent) st.stmts (ask q) fuel
  else none

/-- The unit ends with the given result, as in `Runs`. (`src/driver/commands/verify.rs:237-284`) -/
def RunsFunc [Doms] (O : Smt.Oracle) (o : EncodingOptions) (items : List SourceUnit) (g : Infra.DepGraph) (u : SourceUnit) (c : UnitCtx)
    (opts : UnitOptions) (ask : FuncQuery → Nat → Nat → Reply) (out : ProveResult × Option SliceModel) : Prop :=
  ∃ N, ∀ n ≥ N, ∃ fuel, runFuncUnit O o items g u c opts ask n fuel = some (some out)

end Caesar.Driver
