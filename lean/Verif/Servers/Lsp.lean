import Verif.Servers.StatusLemmas
import Mathlib.Logic.Relation

/-!
# The language server

The model of the language server (`src/servers/lsp.rs`) and of the files it stores (`src/ast/diagnostic.rs`).

The server is a loop over the messages of the client, and at most one task that runs concurrently and verifies a file. Simplifications:
* URIs are numbers, request ids are numbers.
* Nothing is lost on the connection, and there are no errors of the transport.
* Messages have been parsed; a change notification has exactly one change (the assertion of `src/servers/lsp.rs:144`).
* The task takes the lock of the server three times (`src/servers/lsp.rs:577-598`). The loop takes it only while there is no active request, so a call of the task is
one atomic step here. That the blocking thread gets the lock before the hard timeout is assumed.
* The calls of the verifier are those for the file that is verified. Reports for built-in files are not published (`src/servers/lsp.rs:196`), they are left out.
* Which calls the verifier makes and what its result is, is any relation `Verifier`.
-/

namespace Caesar.Server

/-- `VersionedTextDocumentIdentifier`. -/
structure Doc where
  uri : ℕ
  version : Int
deriving DecidableEq

/-- `SourceFilePath` (`src/ast/diagnostic.rs:28-33`): a document of the client or a built-in file. -/
inductive Path where
  | lsp (d : Doc)
  | builtin
deriving DecidableEq

/-- `StoredFile` (`src/ast/diagnostic.rs:78-83`). The id of a file is its index in the list of the files plus one. -/
structure File where
  path : Path
  text : String

/-- `Files` (`src/ast/diagnostic.rs:121-123`). -/
abbrev Files := List File

/-- `Files::add` (`src/ast/diagnostic.rs:130-134`). `none` is the panic if the id is not a 16 bit number. -/
def Files.add (fs : Files) (f : File) : Option Files := if fs.length + 1 < 65536 then some (fs ++ [f]) else none

/-- The document of a file has this URI: the closure of `src/ast/diagnostic.rs:141-144` and `165-168`. -/
def File.hasUri (f : File) (uri : ℕ) : Bool :=
  match f.path with
  | .lsp d => d.uri = uri
  | .builtin => false

/-- `Files::add_or_update_uri` (`src/ast/diagnostic.rs:136-153`): the first file of the URI is replaced, if there is one. -/
def Files.addOrUpdateUri (fs : Files) (d : Doc) (text : String) : Option Files :=
  match fs.findIdx? (·.hasUri d.uri) with
  | some i => some (fs.set i ⟨.lsp d, text⟩)
  | none => Files.add fs ⟨.lsp d, text⟩

/-- `Files::get` (`src/ast/diagnostic.rs:155-158`). `none` is the failed assertion for the id of the dummy file, and the `unwrap` of the callers. -/
def Files.get (fs : Files) (id : ℕ) : Option File := if id = 0 then none else fs[id - 1]?

/-- `Files::find` (`src/ast/diagnostic.rs:160-162`), the id of the file. -/
def Files.find (fs : Files) (p : Path) : Option ℕ := (fs.findIdx? fun f => f.path = p).map (· + 1)

/-- `Files::find_uri` (`src/ast/diagnostic.rs:164-169`), the id of the file. -/
def Files.findUri (fs : Files) (uri : ℕ) : Option ℕ := (fs.findIdx? (·.hasUri uri)).map (· + 1)

/-- `FileStatus` (`src/servers/mod.rs:40-45`). Of the diagnostics and the explanations there are only the locations. -/
structure Report where
  type : FileStatusType
  statuses : StatusList
  diagnostics : List Loc
  explanations : List Loc

/-- `FileStatus::default` and `FileStatus::clear` (`src/servers/mod.rs:48-53`). -/
def Report.empty : Report := ⟨.todo, [], [], []⟩

/-- The messages that the server sends, and the start of a task. Those for a document have also the text which the server has stored for it. -/
inductive Ev where
  /-- `custom/documentStatus` (`src/servers/lsp.rs:284-288`) -/
  | status (d : Doc) (text : String) (type : FileStatusType) (shown : List (Loc × VerifyStatus))
  /-- `textDocument/publishDiagnostics` (`src/servers/lsp.rs:204-215`) -/
  | diagnostics (d : Doc) (text : String) (shown : List Loc)
  /-- `custom/computedPre` (`src/servers/lsp.rs:234-242`) -/
  | explanations (d : Doc) (text : String) (shown : List Loc)
  /-- a response to a request -/
  | response (id : ℕ)
  /-- (not a message) the verification of a document starts, and this is its text -/
  | started (d : Doc) (text : String)

/-- The state of the server: `LspServer` (`src/servers/lsp.rs:68-77`) and what it has sent so far. -/
structure Srv where
  files : Files
  reports : List (ℕ × Report)
  out : List Ev

/-- `publish_diagnostics`, `publish_explanations` and `publish_document_statuses` (`src/servers/lsp.rs:192-291`): for every file with a report that is a document
of the client, a message is sent. `none` is the panic of `files.get(..).unwrap()`. -/
def Srv.publish (s : Srv) (mk : Doc → String → Report → Ev) : Option Srv := do
  let evs ← s.reports.mapM fun (id, r) => (Files.get s.files id).map fun f =>
    match f.path with
    | .lsp d => [mk d f.text r]
    | .builtin => []
  some { s with out := s.out ++ evs.flatten }

/-- `publish_document_statuses` (`src/servers/lsp.rs:247-291`). -/
def Srv.publishStatuses (s : Srv) : Option Srv := s.publish fun d t r => .status d t r.type (iterSpans r.statuses)

/-- `publish_diagnostics` (`src/servers/lsp.rs:192-218`). -/
def Srv.publishDiagnostics (s : Srv) : Option Srv := s.publish fun d t r => .diagnostics d t r.diagnostics

/-- `publish_explanations` (`src/servers/lsp.rs:220-245`). -/
def Srv.publishExplanations (s : Srv) : Option Srv := s.publish fun d t r => .explanations d t r.explanations

/-- `self.file_statuses.entry(id).or_default()` and a change of it. -/
def Srv.modify (s : Srv) (id : ℕ) (g : Report → Report) : Srv :=
  { s with reports := insertKey s.reports id (g ((getKey s.reports id).getD .empty)) }

/-- `LspServer::clear_reported_file_state` (`src/servers/lsp.rs:329-337`). -/
def Srv.clear (s : Srv) (id : ℕ) : Option Srv := do
  let s := if (getKey s.reports id).isSome then { s with reports := insertKey s.reports id .empty } else s
  let s ← s.publishDiagnostics
  s.publishStatuses

/-- The notifications of the client (`src/servers/lsp.rs:134-175`). -/
inductive Note where
  | didOpen (heyvl : Bool) (d : Doc) (text : String)
  | didChange (d : Doc) (text : String)
  | didClose (uri : ℕ)
  | ignored

/-- `LspServer::handle_notification` and `update_text_document` (`src/servers/lsp.rs:130-190`). -/
def Srv.handle (s : Srv) : Note → Option Srv
  | .didOpen heyvl d text => if heyvl then (Files.addOrUpdateUri s.files d text).map fun fs => { s with files := fs } else some s
  | .didChange d text => (Files.addOrUpdateUri s.files d text).map fun fs => { s with files := fs }
  | .didClose uri => do
    let id ← Files.findUri s.files uri
    s.clear id
  | .ignored => some s

/-- The calls of the verifier for the file that it verifies. -/
inductive Call where
  /-- `init_tcx` adds a file for each built-in annotation, calculus and distribution (`src/driver/front.rs:296-304`) -/
  | addBuiltin
  /-- `register_source_unit`, `set_ongoing_unit` or `handle_vc_check_result`: the status of a unit is updated (`src/servers/lsp.rs:443-525`) -/
  | unitStatus (name : UnitName) (s : VerifyStatus)
  /-- `set_file_status_type` (`src/servers/lsp.rs:481-491`) -/
  | fileType (t : FileStatusType)
  /-- `add_diagnostic` (`src/servers/lsp.rs:405-415`) -/
  | diagnostic (l : Loc)
  /-- `add_diagnostic` for a span of the dummy file -/
  | dummyDiagnostic
  /-- `add_vc_explanation` (`src/servers/lsp.rs:422-441`) -/
  | explanation (l : Loc)

/-- One call for the file `id`. -/
def Srv.call (s : Srv) (id : ℕ) : Call → Option Srv
  | .addBuiltin => (Files.add s.files ⟨.builtin, ""⟩).map fun fs => { s with files := fs }
  | .unitStatus name st => do
    let l ← updateStatus ((getKey s.reports id).getD .empty).statuses name st
    (s.modify id fun r => { r with statuses := l }).publishStatuses
  | .fileType t => (s.modify id fun r => { r with type := t }).publishStatuses
  | .diagnostic l => (s.modify id fun r => { r with diagnostics := r.diagnostics ++ [l] }).publishDiagnostics
  | .dummyDiagnostic => (s.modify 0 fun r => r).publishDiagnostics
  | .explanation l => (s.modify id fun r => { r with explanations := r.explanations ++ [l] }).publishExplanations

/-- The results of `verify_files_with_limits` that `handle_verify_result` tells apart (`src/servers/lsp.rs:366-385`). -/
inductive Result where
  | ok | interrupted | diagnostic (l : Loc) | limit | error

/-- `LspServer::handle_verify_result` (`src/servers/lsp.rs:359-386`). For a limit, all the reports of all the files are changed
(`handle_timeout_for_results`, `src/servers/lsp.rs:294-327`; its diagnostics are left out). -/
def Srv.handleResult (s : Srv) (id : ℕ) : Result → Option Srv
  | .ok | .interrupted | .error => some s
  | .diagnostic l => do
    let s ← s.call id (.diagnostic l)
    s.call id (.fileType .invalid)
  | .limit => do
    let s : Srv := { s with reports := s.reports.map fun p => (p.1, { p.2 with statuses := timeoutAll p.2.statuses }) }
    let s ← s.publishStatuses
    s.call id (.fileType .timeout)

/-- The verifier: for the text of a file, these may be the calls and this the result. -/
abbrev Verifier := String → List Call → Result → Prop

/-- The task of a verification request. -/
inductive Task where
  /-- it has not started -/
  | pending (id : ℕ) (d : Doc)
  /-- it verifies the file; these are the calls to come and the result -/
  | verifying (id : ℕ) (file : ℕ) (calls : List Call) (r : Result)
  | finished

/-- The first part of `run_verify_request` (`src/servers/lsp.rs:576-581`, `reset_verify_state_for_document` at `349-357`, `lsp_file_id` at `339-347`). `none` is the panic if
there is no document of this version. -/
def Srv.start (s : Srv) (d : Doc) : Option (Srv × ℕ × String) := do
  let id ← Files.find s.files (.lsp d)
  let f ← Files.get s.files id
  let s ← ({ s with out := s.out ++ [Ev.started d f.text] } : Srv).clear id
  some (s, id, f.text)

/-- The steps of `run_verify_request` (`src/servers/lsp.rs:570-599`). -/
inductive TaskStep (V : Verifier) : Srv × Task → Srv × Task → Prop where
  | start {s s' : Srv} {id d file text calls r} (h : s.start d = some (s', file, text)) (hv : V text calls r) :
    TaskStep V (s, .pending id d) (s', .verifying id file calls r)
  | call {s s' : Srv} {id file c calls r} (h : s.call file c = some s') : TaskStep V (s, .verifying id file (c :: calls) r) (s', .verifying id file calls r)
  | done {s s' : Srv} {id file r} (h : s.handleResult file r = some s') :
    TaskStep V (s, .verifying id file [] r) ({ s' with out := s'.out ++ [.response id] }, .finished)

/-- The panics of `run_verify_request`. -/
inductive TaskPanics : Srv → Task → Prop where
  | start {s : Srv} {id d} (h : s.start d = none) : TaskPanics s (.pending id d)
  | call {s : Srv} {id file c calls r} (h : s.call file c = none) : TaskPanics s (.verifying id file (c :: calls) r)
  | done {s : Srv} {id file r} (h : s.handleResult file r = none) : TaskPanics s (.verifying id file [] r)

/-- The messages of the client. -/
inductive Msg where
  | note (n : Note)
  /-- `custom/verify` -/
  | verify (id : ℕ) (d : Doc)
  | shutdown (id : ℕ)
  /-- any other request -/
  | other (id : ℕ)
  /-- a response of the client -/
  | response

/-- The state of the loop `run_lsp_server` with its `RunningQueue` (`src/servers/lsp.rs:528-531`). -/
inductive Phase where
  /-- there is no active request -/
  | idle
  /-- there is an active request (which may have finished), and there are queued notifications -/
  | running (t : Task) (queued : List Note)
  /-- the loop waits in `RunningQueue::process` for the task, and then for the queued notifications to be handled; this is the message that it has received -/
  | waiting (t : Task) (queued : List Note) (m : Msg)
  /-- the server has panicked -/
  | dead

/-- What the loop does with a message if there is no active request (`src/servers/lsp.rs:620-661`). `none` is a panic. -/
def Srv.receive (s : Srv) : Msg → Option (Srv × Phase)
  | .note n => (s.handle n).map fun s => (s, .idle)
  | .verify id d => some (s, .running (.pending id d) [])
  | .shutdown id => some ({ s with out := s.out ++ [.response id] }, .idle)
  | .other _ => some (s, .idle)
  | .response => none

/-- The queued notifications are handled (`src/servers/lsp.rs:559-565`). -/
def Srv.handleAll (s : Srv) (ns : List Note) : Option Srv := ns.foldlM Srv.handle s

/-- A state of the server process, with the messages that have been received so far. -/
structure Conf where
  srv : Srv
  phase : Phase
  received : List Msg

/-- The steps of the server: the loop of `run_lsp_server` (`src/servers/lsp.rs:615-664`) and `RunningQueue::process` (`src/servers/lsp.rs:543-567`), interleaved with those of the task. A cancellation is only a request
to the task to stop. -/
inductive Step (V : Verifier) : Conf → Conf → Prop where
  /-- a message is received while there is no active request -/
  | receive {s s' ms m ph} (h : s.receive m = some (s', ph)) : Step V ⟨s, .idle, ms⟩ ⟨s', ph, ms ++ [m]⟩
  | receiveDead {s ms m} (h : s.receive m = none) : Step V ⟨s, .idle, ms⟩ ⟨s, .dead, ms ++ [m]⟩
  /-- a notification is queued (`src/servers/lsp.rs:650-652`) -/
  | queue {s t q ms n} : Step V ⟨s, .running t q, ms⟩ ⟨s, .running t (q ++ [n]), ms ++ [.note n]⟩
  /-- any other request is ignored -/
  | ignore {s t q ms id} : Step V ⟨s, .running t q, ms⟩ ⟨s, .running t q, ms ++ [.other id]⟩
  /-- a response (`src/servers/lsp.rs:648`) -/
  | response {s t q ms} : Step V ⟨s, .running t q, ms⟩ ⟨s, .dead, ms ++ [.response]⟩
  /-- a verification request or a shutdown: wait for the task (`src/servers/lsp.rs:622-645`) -/
  | wait {s t q ms m} (h : match m with | .verify _ _ | .shutdown _ => True | _ => False) : Step V ⟨s, .running t q, ms⟩ ⟨s, .waiting t q m, ms ++ [m]⟩
  /-- any message, if the task has finished (`src/servers/lsp.rs:616-618`) -/
  | waitFinished {s q ms m} : Step V ⟨s, .running .finished q, ms⟩ ⟨s, .waiting .finished q m, ms ++ [m]⟩
  /-- the task has finished: handle the queued notifications, then the message -/
  | drain {s s1 s2 q ms m ph} (h1 : s.handleAll q = some s1) (h2 : s1.receive m = some (s2, ph)) : Step V ⟨s, .waiting .finished q m, ms⟩ ⟨s2, ph, ms⟩
  | drainDead {s q ms m} (h : ∀ s1, s.handleAll q = some s1 → s1.receive m = none) : Step V ⟨s, .waiting .finished q m, ms⟩ ⟨s, .dead, ms⟩
  /-- the task makes a step -/
  | task {s s' t t' q ms} (h : TaskStep V (s, t) (s', t')) : Step V ⟨s, .running t q, ms⟩ ⟨s', .running t' q, ms⟩
  | taskWaiting {s s' t t' q ms m} (h : TaskStep V (s, t) (s', t')) : Step V ⟨s, .waiting t q m, ms⟩ ⟨s', .waiting t' q m, ms⟩
  /-- the task panics; this kills the server as soon as the task is awaited -/
  | taskDead {s t q ms} (h : TaskPanics s t) : Step V ⟨s, .running t q, ms⟩ ⟨s, .dead, ms⟩
  | taskWaitingDead {s t q ms m} (h : TaskPanics s t) : Step V ⟨s, .waiting t q m, ms⟩ ⟨s, .dead, ms⟩

/-- The server at its start (`src/servers/lsp.rs:83-95`). -/
def Srv.init : Srv := ⟨[], [], []⟩

/-- The states that can be reached. -/
def Reachable (V : Verifier) (c : Conf) : Prop := Relation.ReflTransGen (Step V) ⟨.init, .idle, []⟩ c

/-! ## Specification: a server that handles one message after the other -/

/-- One message is handled completely. -/
inductive Handles (V : Verifier) : Srv → Msg → Srv → Prop where
  | note {s s' n} (h : s.handle n = some s') : Handles V s (.note n) s'
  | verify {s s' id d} (h : Relation.ReflTransGen (TaskStep V) (s, .pending id d) (s', .finished)) : Handles V s (.verify id d) s'
  | shutdown {s id} : Handles V s (.shutdown id) { s with out := s.out ++ [.response id] }
  | other {s id} : Handles V s (.other id) s

/-- The messages are handled one after the other. -/
inductive HandlesAll (V : Verifier) : Srv → List Msg → Srv → Prop where
  | nil {s} : HandlesAll V s [] s
  | snoc {s s1 s2 ms m} (h : HandlesAll V s ms s1) (hm : Handles V s1 m s2) : HandlesAll V s (ms ++ [m]) s2

/-- The server panics while it handles the message. -/
inductive Dies (V : Verifier) : Srv → Msg → Prop where
  | note {s n} (h : s.handle n = none) : Dies V s (.note n)
  | verify {s s' t id d} (h : Relation.ReflTransGen (TaskStep V) (s, .pending id d) (s', t)) (hp : TaskPanics s' t) : Dies V s (.verify id d)
  | response {s} : Dies V s .response

end Caesar.Server
