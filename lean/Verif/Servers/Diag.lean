import Verif.Servers.Lsp
import Verif.Servers.Position

/-!
# Diagnostics in the editor

How a diagnostic is converted for the language server protocol (`src/ast/diagnostic.rs`), and how the diagnostics of a run are published (`src/servers/lsp.rs`).
-/

namespace Caesar.Diag
open Caesar.Position

/-- `ariadne::ReportKind`, used in `src/ast/diagnostic.rs:427`. -/
inductive Kind where
  | error | warning | advice | custom
  deriving DecidableEq

/-- `NumberOrString` of the crate `lsp_types`, used in `src/ast/diagnostic.rs:428`. -/
inductive Code where
  | number (n : Int)
  | string (s : String)
  deriving DecidableEq

/-- `Span` (`src/ast/diagnostic.rs:231-241`) without its variant. -/
structure DSpan where
  file : ℕ
  bytes : ByteSpan

/-- `Label` (`src/ast/diagnostic.rs:625-650`). -/
structure DLabel where
  span : DSpan
  msg : Option String

/-- `DiagnosticInner` (`src/ast/diagnostic.rs:425-434`). Tags are numbers, as in the protocol. -/
structure Diagn where
  kind : Kind
  code : Option Code
  msg : Option String
  note : Option String
  location : DSpan
  labels : List DLabel
  tags : Option (List ℕ)

/-- `Span::to_lsp` (`src/ast/diagnostic.rs:280-318`) with the look-up of the file. The outer `none` is a panic, the inner one the result for files that are not documents. -/
def toLspIn (fs : Server.Files) (s : DSpan) : Option (Option (Server.Doc × Range)) :=
  (fs.get s.file).bind fun f => (toLsp f.text.toList s.bytes).map fun r =>
    match f.path with
    | .lsp d => some (d, r)
    | .builtin => none

/-- `DiagnosticSeverity` of the crate `lsp_types`, used in `src/ast/diagnostic.rs:530-535`. -/
inductive Severity where
  | error | warning | information
  deriving DecidableEq

/-- The severity of a kind (`src/ast/diagnostic.rs:530-535`). -/
def severity : Kind → Severity
  | .error => .error
  | .warning => .warning
  | .advice => .information
  | .custom => .error

/-- `DiagnosticRelatedInformation` of the crate `lsp_types`, as it is built in `src/ast/diagnostic.rs:545-570`. -/
structure Related where
  uri : ℕ
  range : Range
  message : String
  deriving DecidableEq

/-- `lsp_types::Diagnostic`, as it is built in `src/ast/diagnostic.rs:571-581`. The source is always "caesar". -/
structure LspDiag where
  range : Range
  severity : Severity
  code : Option Code
  message : String
  related : List Related
  tags : Option (List ℕ)
  deriving DecidableEq

/-- The closure for one label (`src/ast/diagnostic.rs:546-560`). The outer `none` is a panic. -/
def relatedOf (fs : Server.Files) (l : DLabel) : Option (Option Related) :=
  (toLspIn fs l.span).map fun r => r.bind fun (d, range) => l.msg.map fun m => ⟨d.uri, range, m⟩

/-- The labels (`src/ast/diagnostic.rs:542-562`). `none` is a panic. -/
def relatedAll (fs : Server.Files) : List DLabel → Option (List Related)
  | [] => some []
  | l :: ls => (relatedOf fs l).bind fun r => (relatedAll fs ls).map fun rs => r.toList ++ rs

/-- `Diagnostic::as_lsp_diagnostic` (`src/ast/diagnostic.rs:524-583`). The outer `none` is a panic, the inner one the result for diagnostics outside of documents. -/
def asLsp (fs : Server.Files) (g : Diagn) : Option (Option (Server.Doc × LspDiag)) :=
  (toLspIn fs g.location).bind fun
    | none => some none
    | some (d, range) => (relatedAll fs g.labels).map fun rs =>
      let note := match g.note with
        | some n => [⟨d.uri, range, "Note: " ++ n⟩]
        | none => []
      some (d, ⟨range, severity g.kind, g.code, g.msg.getD "(no message)", rs ++ note, g.tags⟩)

/-- The diagnostics in `file_statuses` (`src/servers/lsp.rs:68-77`), by the id of the file. -/
abbrev Statuses := List (ℕ × List Diagn)

/-- The entry that `add_diagnostic` changes (`src/servers/lsp.rs:404-409`). -/
def Statuses.add (g : Diagn) : Statuses → Statuses
  | [] => [(g.location.file, [g])]
  | (i, gs) :: st => if i = g.location.file then (i, gs ++ [g]) :: st else (i, gs) :: Statuses.add g st

/-- Converting the diagnostics of one file (`src/servers/lsp.rs:200-203`). `none` is a panic, of the conversion or of `unwrap`. -/
def convertAll (fs : Server.Files) : List Diagn → Option (List LspDiag)
  | [] => some []
  | g :: gs => (asLsp fs g).bind fun r => r.bind fun (_, l) => (convertAll fs gs).map (l :: ·)

/-- `publish_diagnostics` (`src/servers/lsp.rs:192-218`): the sent notifications, in the order of the list (the code has a hash map, whose order is not fixed). Sending does not fail. `none` is a panic. -/
def publish (fs : Server.Files) : Statuses → Option (List (Server.Doc × List LspDiag))
  | [] => some []
  | (i, gs) :: st => (fs.get i).bind fun f =>
    match f.path with
    | .builtin => publish fs st
    | .lsp d => (convertAll fs gs).bind fun ls => (publish fs st).map ((d, ls) :: ·)

/-- Adding diagnostics one after the other (`src/servers/lsp.rs:404-414`), each time with a publication. The results are the last notifications. `none` is a panic. -/
def addAll (fs : Server.Files) (st : Statuses) (last : List (Server.Doc × List LspDiag)) : List Diagn → Option (Statuses × List (Server.Doc × List LspDiag))
  | [] => some (st, last)
  | g :: gs => (publish fs (Statuses.add g st)).bind fun p => addAll fs (Statuses.add g st) p gs

end Caesar.Diag
