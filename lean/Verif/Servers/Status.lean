import Mathlib.Data.List.Basic
import Mathlib.Data.List.Nodup

/-!
# The statuses of source units

The model of the statuses which the language server keeps for the source units of a file (`src/servers/mod.rs`), and of the calls by which the
verifier changes them (`src/driver/commands/verify.rs`, `src/servers/lsp.rs`).
-/

namespace Caesar.Server

/-- `VerifyStatus` (`src/servers/mod.rs:69-84`). -/
inductive VerifyStatus where
  | todo | ongoing | verified | refuted | failed | unknown | timeout
deriving DecidableEq

/-- `ProveResult` (`z3rro/src/prover.rs`) with the reasons of an unknown result which are told apart in `src/driver/commands/verify.rs:288-294`. -/
inductive Outcome where
  | proof | counterexample | interrupted | timeout | unknown
deriving DecidableEq

/-- `VerifyStatus::from_prove_result` (`src/servers/mod.rs:87-96`). The soundness of proofs and refutations is that of `ProcSoundness`. -/
def VerifyStatus.ofResult (result : Outcome) (soundProofs soundRefutations : Bool) : VerifyStatus :=
  match result with
  | .proof => if soundProofs then .verified else .failed
  | .counterexample => if soundRefutations then .refuted else .failed
  | .interrupted | .timeout | .unknown => .unknown

/-- `VerifyStatus::is_completed` (`src/servers/mod.rs:99-101`). -/
def VerifyStatus.isCompleted (s : VerifyStatus) : Bool := s ≠ .todo && s ≠ .ongoing

/-- `VerifyStatus::combine` (`src/servers/mod.rs:104-116`). -/
def VerifyStatus.combine : VerifyStatus → VerifyStatus → VerifyStatus
  | .failed, _ => .failed
  | _, .failed => .failed
  | .verified, .verified => .verified
  | .refuted, .refuted => .refuted
  | .unknown, _ => .unknown
  | _, .unknown => .unknown
  | .timeout, _ => .timeout
  | _, .timeout => .timeout
  | .ongoing, _ => .ongoing
  | _, .ongoing => .ongoing
  | .todo, _ => .todo
  | _, .todo => .todo
  | .verified, .refuted => .unknown
  | .refuted, .verified => .unknown

/-- `Span` (`src/ast/diagnostic.rs:231-241`) without its variant. The file is the number of its `FileId`. -/
structure Loc where
  file : ℕ
  start : ℕ
  stop : ℕ
deriving DecidableEq

/-- `SourceUnitName` (`src/driver/item.rs:11-20`). The variant of the span (`SpanVariant`) is a number. -/
structure UnitName where
  path : String
  decl : Option String
  loc : Loc
  variant : ℕ
deriving DecidableEq

/-- `VerifyStatusList` (`src/servers/mod.rs:122-124`): an `IndexMap` is a list of pairs in the order of the insertions. -/
abbrev StatusList := List (UnitName × VerifyStatus)

/-- `IndexMap::insert`: the place of a key that exists is kept. -/
def insertKey {α β : Type} [DecidableEq α] : List (α × β) → α → β → List (α × β)
  | [], k, v => [(k, v)]
  | (k', v') :: l, k, v => if k' = k then (k', v) :: l else (k', v') :: insertKey l k v

/-- `IndexMap::get`. -/
def getKey {α β : Type} [DecidableEq α] : List (α × β) → α → Option β
  | [], _ => none
  | (k', v') :: l, k => if k' = k then some v' else getKey l k

/-- `VerifyStatusList::update_status` (`src/servers/mod.rs:127-132`). `none` is the panic. -/
def updateStatus (l : StatusList) (name : UnitName) (result : VerifyStatus) : Option StatusList :=
  if (getKey l name).isNone && result ≠ .todo then none else some (insertKey l name result)

/-- `VerifyStatusList::timeout_all` (`src/servers/mod.rs:136-145`) after all its elements have been consumed. -/
def timeoutAll (l : StatusList) : StatusList := l.map fun p => if p.2.isCompleted then p else (p.1, .timeout)

/-- One element of the loop of `iter_spans` (`src/servers/mod.rs:153-158`). -/
def addSpan (bySpan : List (Loc × VerifyStatus)) (p : UnitName × VerifyStatus) : List (Loc × VerifyStatus) :=
  match getKey bySpan p.1.loc with
  | some prev => insertKey bySpan p.1.loc (prev.combine p.2)
  | none => insertKey bySpan p.1.loc p.2

/-- `VerifyStatusList::iter_spans` (`src/servers/mod.rs:147-161`). -/
def iterSpans (l : StatusList) : List (Loc × VerifyStatus) := l.foldl addSpan []

/-! ## The calls of the verifier -/

/-- `FileStatusType` (`src/servers/mod.rs:58-65`). -/
inductive FileStatusType where
  | todo | ongoing | invalid | timeout | done
deriving DecidableEq

/-- The kinds of source units (`src/driver/front.rs:307-310`), as far as the server tells them apart. -/
inductive UnitKind where
  /-- a procedure with a body -/
  | proc
  /-- a procedure without a body -/
  | bodyless
  /-- a function, or a domain -/
  | other
  /-- raw statements (`--raw`) -/
  | raw
deriving DecidableEq

/-- A source unit with what will come of its verification. -/
structure SourceUnit where
  name : UnitName
  kind : UnitKind
  result : Outcome
  soundProofs : Bool
  soundRefutations : Bool

/-- The state of the server for the one file: `FileStatus` (`src/servers/mod.rs:40-45`) without diagnostics and explanations. -/
structure FileState where
  type : FileStatusType
  statuses : StatusList

/-- `FileStatus::clear` (`src/servers/mod.rs:48-53`). -/
def FileState.cleared : FileState := ⟨.todo, []⟩

/-- `LspServer::register_source_unit` (`src/servers/lsp.rs:443-464`). -/
def registerUnit (st : FileState) (u : SourceUnit) : Option FileState :=
  if u.kind = .proc then (updateStatus st.statuses u.name .todo).map fun l => { st with statuses := l } else some st

/-- `LspServer::set_ongoing_unit` (`src/servers/lsp.rs:466-479`). -/
def setOngoing (st : FileState) (name : UnitName) : Option FileState :=
  (updateStatus st.statuses name .ongoing).map fun l => { type := .ongoing, statuses := l }

/-- `LspServer::handle_vc_check_result` (`src/servers/lsp.rs:493-525`), without the diagnostics. -/
def handleResult (st : FileState) (u : SourceUnit) : Option FileState :=
  (updateStatus st.statuses u.name (.ofResult u.result u.soundProofs u.soundRefutations)).map fun l =>
    { type := if l.all (fun p => p.2.isCompleted) then .done else st.type, statuses := l }

/-- What `verify_files_main` returns, as far as it is relevant to the server. -/
inductive RunResult where
  | ok | timedOut | cancelled
deriving DecidableEq

/-- The source units that become verification tasks: `CoreVerifyTask::from_source_unit` (`src/driver/core_verify.rs:92-115`) and
`encode_proc_verify`. -/
def SourceUnit.isTask (u : SourceUnit) : Bool := u.kind = .proc || u.kind = .raw

/-- The loop over the verification tasks (`src/driver/commands/verify.rs:247-301`). The limits are checked before each task; they are exceeded after
`fuel` tasks. An interrupted solver is the result of a cancellation or, as all that is not a cancellation, of a timeout. -/
def verifyLoop : ℕ → List SourceUnit → FileState → Option (FileState × RunResult)
  | _, [], st => some (st, .ok)
  | 0, _ :: _, st => some (st, .timedOut)
  | fuel + 1, u :: us, st => do
    let st ← setOngoing st u.name
    let st ← handleResult st u
    match u.result with
    | .interrupted => some (st, .cancelled)
    | .timeout => some (st, .timedOut)
    | _ => verifyLoop fuel us st

/-- The calls of `verify_files_main` (`src/driver/commands/verify.rs:160-314`) for units without errors: the units of the file are registered, then those that
the encodings have generated (`src/driver/front.rs:205-232`), then the tasks are verified. -/
def verifyMain (fuel : ℕ) (units generated : List SourceUnit) (st : FileState) : Option (FileState × RunResult) := do
  let st ← units.foldlM registerUnit st
  let st ← generated.foldlM registerUnit st
  verifyLoop fuel ((units ++ generated).filter SourceUnit.isTask) st

/-- `LspServer::handle_verify_result` (`src/servers/lsp.rs:359-386`) for these results; `handle_timeout_for_results` is at `src/servers/lsp.rs:294-327`. -/
def handleVerifyResult : FileState × RunResult → FileState
  | (st, .ok) => st
  | (st, .cancelled) => st
  | (st, .timedOut) => { type := .timeout, statuses := timeoutAll st.statuses }

/-- A verification request (`src/servers/lsp.rs:570-599`): the state of the file is cleared, the file is verified and the result is handled. -/
def verifyRequest (fuel : ℕ) (units generated : List SourceUnit) : Option FileState :=
  (verifyMain fuel units generated .cleared).map handleVerifyResult

end Caesar.Server
