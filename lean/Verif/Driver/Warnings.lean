import Verif.Driver.Module
import Verif.Procs.Monotonicity
import Verif.Slicing.Transform

/-!
# Errors, warnings and advice of a run

Models how the command line version of `caesar verify` treats diagnostics: `add_diagnostic` and `add_or_throw_diagnostic` (`src/servers/cli.rs`, `src/servers/mod.rs`),
the places where diagnostics are given that do not end the run, and the exit code (`src/driver/error.rs`), with and without the option `--werr`.

Parsing, type checking, the checks of annotations, the translation to JANI, Storm, the lowering steps and the solver are parameters: it is given how each of them ends.
The check for monotonicity and the traversal of the slicer are the functions of `Procs/Monotonicity.lean` and `Slicing/Transform.lean`. The texts and the places of diagnostics
are left out; a diagnostic says what it is about and which unit it belongs to. Input and output always succeed.
-/

namespace Caesar.Driver.Warnings

/-- `ReportKind` of `ariadne`, as far as it is used: `src/procs/monotonicity.rs:50`, `src/slicing/transform.rs:189`, `src/mc/run_storm.rs:29-47`, `src/driver/front.rs:415`. -/
inductive Kind where
  | error | warning | advice
  deriving DecidableEq

/-- What a diagnostic is about. (`src/procs/monotonicity.rs:47-70`, `src/driver/front.rs:413-416`, `src/driver/commands/model_check.rs:104-117`,
`src/slicing/transform.rs:186-197`, `src/proof_rules/calculus/soundness_checker.rs:125-141`) -/
inductive Topic where
  | problem | notMonotone | notExplained | noModel | storm | notSliced | unsoundProof
  deriving DecidableEq

/-- `Diagnostic` (`src/ast/diagnostic.rs`), with its kind, what it is about and the number of the unit. -/
structure Diag where
  kind : Kind
  topic : Topic
  unit : Nat
  deriving DecidableEq

/-- How a step ends the run: with a diagnostic, which is an error, or with another `CaesarError` (`src/driver/error.rs:12-38`). -/
inductive Stop where
  | problem
  | other (e : CaesarError)

/-- `CaesarError` with the diagnostic that is thrown (`src/driver/error.rs:16-38`). -/
inductive Failure where
  | diagnostic (d : Diag)
  | other (e : CaesarError)

/-- The `CliServer` (`src/servers/cli.rs:26-30`), with the diagnostics printed so far, the results printed so far, and the counters of the main loop
(`src/driver/commands/verify.rs:244-245`). -/
structure Run where
  werr : Bool
  emitted : Bool := false
  printed : List Diag := []
  reported : List (Nat × ProveResult) := []
  numProven : Nat := 0
  numFailures : Nat := 0

/-- A step of the verifier. The functions modelled return `Result<(), CaesarError>` (`src/driver/error.rs:16`). -/
abbrev Step := Run → Run × Except Failure Unit

/-- The operator `?` (for instance `src/driver/commands/verify.rs:167-172`). -/
def andThen (a b : Step) : Step := fun s =>
  match a s with
  | (s', .ok ()) => b s'
  | (s', .error e) => (s', .error e)

/-- A step that does nothing: an option that is not set (for instance `src/driver/commands/verify.rs:178-180`). -/
def skip : Step := fun s => (s, .ok ())

/-- A loop with steps (for instance `src/driver/front.rs:180-189`). -/
def each {α : Type} (f : α → Step) : List α → Step
  | [] => skip
  | a :: l => andThen (f a) (each f l)

/-- A step of which only the end is known; without a diagnostic for the server. (`src/driver/error.rs:16-38`) -/
def known (unit : Nat) : Except Stop Unit → Step
  | .ok () => skip
  | .error .problem => fun s => (s, .error (.diagnostic ⟨.error, .problem, unit⟩))
  | .error (.other e) => fun s => (s, .error (.other e))

/-- `add_diagnostic` (`src/servers/cli.rs:71-77`). -/
def add (d : Diag) : Step := fun s => ({ s with emitted := s.emitted || s.werr || d.kind == .error, printed := s.printed ++ [d] }, .ok ())

/-- `unless_fatal_error` (`src/servers/mod.rs:217-223`) and `add_or_throw_diagnostic` (`src/servers/cli.rs:79-82`). -/
def addOrThrow (d : Diag) : Step := fun s => if d.kind == .error || s.werr then (s, .error (.diagnostic d)) else add d s

/-- `SourceUnit` (`src/driver/front.rs:300-303`): procedures, raw statements, and other declarations. -/
inductive Source where
  | proc (d : Dir) (body : Option Stmt)
  | raw (block : Stmt)
  | other

/-- The answer of Storm, as far as the kind of the diagnostic depends on it (`src/mc/run_storm.rs:25-47,56-78`). -/
inductive StormResult where
  | value | notFound | noInitialState | failed
  deriving DecidableEq

/-- `storm_result_to_diagnostic` (`src/mc/run_storm.rs:25-47`). -/
def stormDiag (unit : Nat) : StormResult → Diag
  | .value => ⟨.advice, .storm, unit⟩
  | .notFound => ⟨.error, .storm, unit⟩
  | .noInitialState => ⟨.advice, .storm, unit⟩
  | .failed => ⟨.error, .storm, unit⟩

/-- A source unit: its number, the end of its type check, of its explanation, and of its translation to JANI with the answer of Storm if there was a file and if Storm was to be run.
(`src/driver/front.rs:180-189,397-419`, `src/driver/commands/model_check.rs:99-119`) -/
structure SUnit where
  num : Nat
  source : Source
  tycheck : Except Stop Unit
  explain : Except Stop Unit
  jani : Except Stop (Option StormResult)

/-- `check_monotonicity` (`src/driver/front.rs:384-394`): whether there is a warning. Procedures without a body have no statements to visit. -/
def SUnit.notMonotone (u : SUnit) : Bool :=
  match u.source with
  | .proc d (some body) => !monoAccepts d body
  | _ => false

/-- The loop body of `Module::tycheck` (`src/driver/front.rs:180-188`). -/
def tycheckUnit (u : SUnit) : Step :=
  andThen (known u.num u.tycheck) (if u.notMonotone then addOrThrow ⟨.warning, .notMonotone, u.num⟩ else skip)

/-- `explain_vc` of a unit (`src/driver/front.rs:397-419`): a diagnostic becomes a warning. -/
def explainUnit (u : SUnit) : Step :=
  match u.explain with
  | .ok () => skip
  | .error .problem => add ⟨.warning, .notExplained, u.num⟩
  | .error (.other e) => fun s => (s, .error (.other e))

/-- The loop body of `run_model_checking` (`src/driver/commands/model_check.rs:99-119`). -/
def modelCheckUnit (u : SUnit) : Step :=
  match u.jani with
  | .ok none => skip
  | .ok (some r) => add (stormDiag u.num r)
  | .error .problem => add ⟨.error, .noModel, u.num⟩
  | .error (.other e) => fun s => (s, .error (.other e))

/-- A verification task in the main loop (`src/driver/commands/verify.rs:247-301`): the check of the limits, the steps before slicing (`src/driver/core_verify.rs:32-66`), direction and
block, the steps after slicing, the result of the solver, and whether proofs are sound. -/
structure Task where
  num : Nat
  limits : Except Stop Unit
  before : Except Stop Unit
  dir : Dir
  block : Stmt
  lower : Except Stop Unit
  solve : Except Stop ProveResult
  soundProofs : Bool

/-- `prepare_slicing` (`src/driver/core_verify.rs:130-151`): the diagnostic if the traversal ends with an error. -/
def sliceTask (filter : Slicing.Selection) (tcx : TyCtx) (t : Task) : Step :=
  if (Slicing.visit filter {} { tcx := tcx, dir := t.dir } t.block).2.2 then skip else addOrThrow ⟨.advice, .notSliced, t.num⟩

/-- `handle_vc_check_result` (`src/servers/cli.rs:105-114`, `src/driver/smt_proof.rs:545-588`): prints the result, and the error for a proof that is not sound. -/
def report (t : Task) (r : ProveResult) : Step := fun s =>
  let s := { s with reported := s.reported ++ [(t.num, r)] }
  if r = .proof && !t.soundProofs then add ⟨.error, .unsoundProof, t.num⟩ s else (s, .ok ())

/-- The counters and the reasons to stop (`src/driver/commands/verify.rs:286-300`). -/
def count (r : ProveResult) : Step := fun s =>
  match r with
  | .unknown .interrupted => (s, .error (.other .interrupted))
  | .unknown .timeout => (s, .error (.other .timeout))
  | .proof => ({ s with numProven := s.numProven + 1 }, .ok ())
  | .counterexample => ({ s with numFailures := s.numFailures + 1 }, .ok ())
  | .unknown _ => ({ s with numFailures := s.numFailures + 1 }, .ok ())

/-- `run_smt_prove_task` and what follows it (`src/driver/commands/verify.rs:273-300`). -/
def solveTask (t : Task) : Step :=
  match t.solve with
  | .ok r => andThen (report t r) (count r)
  | .error .problem => known t.num (.error .problem)
  | .error (.other e) => known t.num (.error (.other e))

/-- The body of the main loop (`src/driver/commands/verify.rs:247-301`). -/
def verifyTask (filter : Slicing.Selection) (tcx : TyCtx) (t : Task) : Step :=
  andThen (known t.num t.limits) (andThen (known t.num t.before) (andThen (sliceTask filter tcx t) (andThen (known t.num t.lower) (solveTask t))))

/-- What a run of `verify` is about: the ends of the steps, the units after parsing and name resolution, those selected by `--filter`, the tasks of the main loop, and the options `--explain-vc`, `--jani-dir` or
`--run-storm`, `--no-verify` (with the other options of `src/driver/commands/verify.rs:207-216`), and those of the slicer. (`src/driver/commands/verify.rs:160-314`) -/
structure Program where
  parse : Except Stop Unit
  units : List SUnit
  select : Except Stop (SUnit → Bool)
  rules : Except Stop Unit
  tasks : List Task
  explain : Bool
  modelCheck : Bool
  noVerify : Bool
  filter : Slicing.Selection
  tcx : TyCtx

/-- `Module::filter` (`src/driver/front.rs:192-213`) is called after the type check (`src/driver/front.rs:86-89`): the units left by `--filter`. -/
def Program.kept (p : Program) : List SUnit :=
  match p.select with
  | .ok f => p.units.filter f
  | .error _ => []

/-- `verify_files_main` (`src/driver/commands/verify.rs:160-314`). -/
def main (p : Program) : Step :=
  andThen (known 0 p.parse) <|
  andThen (each tycheckUnit p.units) <|
  andThen (known 0 (p.select.map fun _ => ())) <|
  andThen (if p.explain then each explainUnit p.kept else skip) <|
  andThen (if p.modelCheck then each modelCheckUnit p.kept else skip) <|
  andThen (known 0 p.rules) <|
  if p.noVerify then skip else each (verifyTask p.filter p.tcx) p.tasks

/-- `finalize_caesar_result` (`src/driver/error.rs:40-85`) with `exit_code` (`src/servers/cli.rs:116-122`): the exit code, and the server in the end. -/
def finalize : Run × Except Failure Unit → Nat × Run
  | (s, .ok ()) => (exitCode (.ok (s.numFailures == 0, s.emitted)), s)
  | (s, .error (.diagnostic d)) => (exitCode (.error .diagnostic), (add d s).1)
  | (s, .error (.other e)) => (exitCode (.error e), s)

/-- `run_verify_command` (`src/driver/commands/verify.rs:54-68`) with the `CliServer` made by `CliServer::new` (`src/servers/cli.rs:33-39`). -/
def run (werr : Bool) (p : Program) : Nat × Run := finalize (main p { werr := werr })

end Caesar.Driver.Warnings
