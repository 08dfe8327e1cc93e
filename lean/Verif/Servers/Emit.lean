import Verif.Driver.Verdict
import Verif.Servers.Status

/-!
# Model of what the editor is told about a result

Models `SmtVcProveResult::emit_diagnostics` (`src/driver/smt_proof.rs:590-676`), `SliceModel::to_diagnostics` and `iter_results`
(`src/slicing/model.rs:84-143`), and which slice models come with which results (`SmtVcProveTask::run_solver`, `src/driver/smt_proof.rs:356-402`,
and `slice_failing_binary_search`, `src/slicing/solver.rs:333-370`). For comparison, the title of the slice on the command line
(`pretty_slice`, `src/smt/pretty_model.rs:226-262`).

Texts of values and of the rest of the counterexample are parameters; see `Smt/Report.lean` for them. The places of statements in the body are
those of `Driver/Verdict.lean`, and `at` gives their spans.
-/

namespace Caesar.Server

open Caesar.Driver.Verdict (Place Soundness ProveResult resultText)

/-- The kinds of diagnostics that are given here (`ariadne::ReportKind`). -/
inductive Level where
  | error | warning
deriving DecidableEq

/-- `Diagnostic` (`src/ast/diagnostic.rs`). `unnecessary` is the tag `DiagnosticTag::UNNECESSARY`. -/
structure Diag where
  level : Level
  span : Loc
  message : String
  note : Option String
  labels : List (Loc × String)
  unnecessary : Bool
deriving DecidableEq

/-- `SliceMode` (`src/slicing/model.rs:12-17`). -/
inductive Mode where
  | verify | error
deriving DecidableEq

/-- A statement of a slice model: its span, the messages of its annotations, and the value of its variable. `none` is an `SmtEvalError`
(`src/slicing/transform.rs:52-72`, `src/slicing/model.rs:24`). -/
structure Sliced where
  span : Loc
  failure : Option String
  success : Option String
  enabled : Option Bool

/-- `SliceModel` (`src/slicing/model.rs:19-25`). -/
structure Slice where
  consistent : Bool
  mode : Mode
  stmts : List Sliced

/-- `SliceResult` (`src/slicing/model.rs:27-33`). -/
inductive SliceResult where
  | partOfError (message : Option String)
  | notNecessary (message : Option String)
  | error

/-- One statement in `iter_results` (`src/slicing/model.rs:90-99`). -/
def Sliced.result (mode : Mode) (s : Sliced) : Option (Loc × SliceResult) :=
  match mode, s.enabled with
  | .error, some true => some (s.span, .partOfError s.failure)
  | .verify, some false => some (s.span, .notNecessary s.success)
  | _, some _ => none
  | _, none => some (s.span, .error)

/-- `iter_results` (`src/slicing/model.rs:89-100`). -/
def Slice.results (sm : Slice) : List (Loc × SliceResult) := sm.stmts.filterMap (Sliced.result sm.mode)

/-- One result in `to_diagnostics` (`src/slicing/model.rs:122-142`). -/
def sliceDiag : Loc × SliceResult → Option Diag
  | (span, .partOfError message) =>
    some ⟨.error, span, message.getD "This statement is part of the error", none, [(span, "here")], false⟩
  | (span, .notNecessary message) =>
    some ⟨.warning, span, message.getD "This statement is not necessary", none, [(span, "here")], true⟩
  | (_, .error) => none

/-- `to_diagnostics` (`src/slicing/model.rs:120-143`). -/
def Slice.diags (sm : Slice) : List Diag := sm.results.filterMap sliceDiag

/-- `VarKind` (`src/ast/decl.rs:276-289`). -/
inductive VarKind where
  | input | output | mut | quant | subst | slice
deriving DecidableEq

/-- `VarKind::to_str` (`src/ast/decl.rs:297-306`). -/
def VarKind.text : VarKind → String
  | .input => "input"
  | .output => "output"
  | .mut => "mutable"
  | .quant => "bound"
  | .subst => "subst"
  | .slice => "slice"

/-- A declaration of one of the `local_idents` of the translator (`src/smt/translate_exprs.rs:135-137`): the span of the name, the text of the
original name (`src/ast/decl.rs:266-271`), and the kind. Other declarations than variables have no kind. -/
structure Local where
  span : Loc
  name : String
  kind : Option VarKind

/-- The label of a variable (`src/driver/smt_proof.rs:620-634`). -/
def Local.label (value : Local → String) (v : Local) : Option (Loc × String) :=
  v.kind.map fun k => (v.span, "in the cex, " ++ k.text ++ " variable " ++ v.name ++ " is " ++ value v)

/-- The labels of a counterexample (`src/driver/smt_proof.rs:615-635`). The sort is stable. -/
def labels (locals : List Local) (value : Local → String) : List (Loc × String) :=
  ((locals.mergeSort fun a b => a.span.start ≤ b.span.start).filter fun v => v.kind ≠ some .slice).filterMap (Local.label value)

/-- The note for unknown results (`src/driver/smt_proof.rs:659-663`). -/
def unknownNote : String :=
  "For many queries, the query to the SMT solver is inherently undecidable. There are various tricks to help the SMT solver, which can be found in the Caesar documentation:\n                             https://www.caesarverifier.org/docs/caesar/debugging"

/-- The parts of a result that `emit_diagnostics` works with: the span of the unit, the spans of its statements, the variables of the
translator, the texts of their values, and the text of the rest of the model. -/
structure Texts where
  span : Loc
  at' : Place → Loc
  locals : List Local
  value : Local → String
  model : String

/-- The diagnostic of `soundness_diagnostic` (`src/proof_rules/calculus/soundness_checker.rs:126-145`) with spans. -/
def Texts.soundness (t : Texts) (s : Soundness) (r : ProveResult) : Option Diag :=
  (s.diagnostic r).map fun d => ⟨.error, t.span, d.message, d.note, d.labels.map fun l => (t.at' l.span, l.message), false⟩

/-- `emit_diagnostics` (`src/driver/smt_proof.rs:590-676`). `none` is a panic: the slice model of a counterexample is unwrapped. -/
def emit (t : Texts) (s : Soundness) (slice : Option Slice) (r : ProveResult) : Option (List Diag) :=
  let before := match slice with
    | some sm => sm.diags
    | none => []
  match r with
  | .proof => some (before ++ (t.soundness s .proof).toList)
  | .counterexample =>
    match slice with
    | none => none
    | some _ => some (before ++ [⟨.error, t.span, resultText s .counterexample ++ "\n\n" ++ t.model, none, labels t.locals t.value, false⟩])
  | .unknown reason => some (before ++ [⟨.error, t.span, resultText s (.unknown reason), some unknownNote, [], false⟩])

/-- What the solver says in `run_solver`: the result and, if there is a model, the values of the slice variables in it
(`src/slicing/solver.rs:356-369`). There is a model for each counterexample (`Solver::get_model` after `Sat`, `z3rro/src/prover.rs:200-232`),
and none for a proof, which is asserted. There may be one for unknown results. -/
inductive Answer where
  | proof
  | counterexample (stmts : List Sliced)
  | unknown (reason : String) (stmts : Option (List Sliced))

/-- The result (`ProveResult`). -/
def Answer.result : Answer → ProveResult
  | .proof => .proof
  | .counterexample _ => .counterexample
  | .unknown reason _ => .unknown reason

/-- The slice model of the answer (`src/slicing/solver.rs:358-368`; the consistency is that of `z3rro/src/prover.rs:207-213`). -/
def Answer.slice : Answer → Option Slice
  | .proof => none
  | .counterexample stmts => some ⟨true, .error, stmts⟩
  | .unknown _ stmts => stmts.map fun l => ⟨false, .error, l⟩

/-- The slice model of the result (`src/driver/smt_proof.rs:357-399`). `verifySlice` is what slicing for verification finds, if the option
`--slice-verify` is set (`src/slicing/solver.rs:220-231,261-269,323-331`). -/
def Answer.finalSlice (a : Answer) (sliceVerify : Bool) (verifySlice : Option (Bool × List Sliced)) : Option Slice :=
  match sliceVerify, a with
  | true, .proof => verifySlice.map fun p => ⟨p.1, .verify, p.2⟩
  | _, a => a.slice

/-- The status in the editor (`src/servers/lsp.rs:507-510`). -/
def status (s : Soundness) : ProveResult → VerifyStatus
  | .proof => .ofResult .proof s.soundProofs s.soundRefutations
  | .counterexample => .ofResult .counterexample s.soundProofs s.soundRefutations
  | .unknown _ => .ofResult .unknown s.soundProofs s.soundRefutations

/-- The title of a slice on the command line (`src/smt/pretty_model.rs:249-258`), if it has lines. Statements of `FileId::DUMMY` have no line
(`src/smt/pretty_model.rs:228-230`, `src/ast/diagnostic.rs:175-177`). -/
def Slice.title (sm : Slice) : Option String :=
  if (sm.results.filter fun p => p.1.file ≠ 0).isEmpty then none
  else some (if sm.consistent then "program slice:" else "program slice (based on unknown solver state):")

end Caesar.Server
