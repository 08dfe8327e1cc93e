import Verif.Smt.Accessed

/-!
# Files with the queries to the solver

Models `write_smtlib` (`src/driver/smt_proof.rs:468-499`), `set_global_z3_params` (`src/driver/smt_proof.rs:62-133`), `Smtlib`
(`z3rro/src/smtlib.rs`), `SmtParams` (`z3rro/src/params.rs`), `PrefixWriter` (`z3rro/src/util.rs:83-120`),
`write_detailed_command_info` (`src/version.rs:37-65`) and the names of files (`src/driver/item.rs:25-61`).
-/

namespace Caesar.Driver.Query

/-- Text. Bytes of UTF-8 and characters are not distinguished, as only line feeds are looked for. (`z3rro/src/util.rs:104`) -/
abbrev FText := List Char

/-! ## Parameters -/

/-- The keys and values of `SmtParams` in the order of their insertion. (`z3rro/src/params.rs:13-18`) -/
abbrev Params := List (FText × FText)

/-- `SmtParams::set_param` (`z3rro/src/params.rs:38-43`), i.e. `IndexMap::insert`, which keeps the place of a key that is present. -/
def setParam (k v : FText) : Params → Params
  | [] => [(k, v)]
  | (k', v') :: r => if k' = k then (k, v) :: r else (k', v') :: setParam k v r

/-- `IndexMap::extend` (`z3rro/src/params.rs:52`) and repeated `set_param`. -/
def setParams (ps : Params) (globals : Params) : Params := ps.foldl (fun m e => setParam e.1 e.2 m) globals

/-- `QuantifierInstantiation` (`src/driver/commands/options.rs:131-143`). -/
inductive QuantInst where
  | all | ematching | mbqi | none
  deriving DecidableEq

/-- The options read by `set_global_z3_params`, and the milliseconds that are left. (`src/driver/smt_proof.rs:62`) -/
structure Z3Options where
  trace : Bool
  seed : Option ℕ
  quant : QuantInst
  qiProfile : Bool
  mbqiTrace : Bool
  verbose : Option ℕ
  timeLeft : Option ℕ

/-- The parameters set by `set_global_z3_params` (`src/driver/smt_proof.rs:74-132`), in their order. `mbqi_` is
`QuantifierMeta::MBQI_PREFIX` (`z3rro/src/quantifiers.rs:48`). -/
def z3Params (o : Z3Options) : Params :=
  [("smt.arith.nl.order".toList, "false".toList)] ++
  (if o.trace then [("trace".toList, "true".toList), ("proof".toList, "true".toList), ("trace_file_name".toList, "z3.log".toList)] else []) ++
  (o.seed.elim [] fun s => [("smt.random_seed".toList, Smt.natText s)]) ++
  [("smt.qi.eager_threshold".toList, "100".toList), ("smt.qi.lazy_threshold".toList, "1000".toList)] ++
  (match o.quant with
    | .ematching => [("smt.mbqi.id".toList, "mbqi_".toList)]
    | .mbqi => [("smt.ematching".toList, "false".toList)]
    | .none => [("smt.ematching".toList, "false".toList), ("smt.mbqi.id".toList, "mbqi_".toList)]
    | .all => []) ++
  (if o.qiProfile then [("smt.qi.profile".toList, "true".toList), ("smt.qi.profile_freq".toList, "1000".toList)] else []) ++
  (if o.mbqiTrace then [("smt.mbqi.trace".toList, "true".toList)] else []) ++
  (o.verbose.elim [] fun v => [("verbose".toList, Smt.natText v)]) ++
  (o.timeLeft.elim [] fun t => [("timeout".toList, Smt.natText t)])

/-- One `set-option` command (`z3rro/src/params.rs:63`). -/
def optionText (e : FText × FText) : FText := "(set-option :".toList ++ e.1 ++ [' '] ++ e.2 ++ [')', '\n']

/-- `Display for SmtParams` (`z3rro/src/params.rs:58-67`): `add_global_params` and a line for each. -/
def optionsText (globals ps : Params) : FText := ((setParams ps globals).map optionText).flatten

/-! ## The query -/

/-- `ProveResult` (`z3rro/src/prover.rs:19-23`) with the text of the reason. -/
inductive Answer where
  | proof | counterexample | unknown (reason : FText)
  deriving DecidableEq

/-- `Display for ProveResult` (`z3rro/src/prover.rs:25-33`). -/
def Answer.text : Answer → FText
  | .proof => "Proof".toList
  | .counterexample => "Counterexample".toList
  | .unknown r => "Unknown (reason: ".toList ++ r ++ [')']

/-- `Smtlib` (`z3rro/src/smtlib.rs:20-27`). -/
structure SmtlibText where
  params : Option Params
  body : FText

/-- `add_check_sat` (`z3rro/src/smtlib.rs:38-40`). -/
def SmtlibText.addCheckSat (s : SmtlibText) : SmtlibText := { s with body := s.body ++ "\n(check-sat)".toList }

/-- `add_details_query` (`z3rro/src/smtlib.rs:43-49`). -/
def SmtlibText.addDetails (s : SmtlibText) : Answer → SmtlibText
  | .proof => s
  | .counterexample => { s with body := s.body ++ "\n(get-model)\n".toList }
  | .unknown _ => { s with body := s.body ++ "\n(get-info :reason-unknown)\n".toList }

/-- `into_string` (`z3rro/src/smtlib.rs:75-80`). -/
def SmtlibText.intoString (globals : Params) (s : SmtlibText) : FText :=
  match s.params with
  | some ps => optionsText globals ps ++ ['\n'] ++ s.body
  | none => s.body

/-- `get_smtlib` (`src/driver/smt_proof.rs:452-465`, `z3rro/src/prover.rs:329-332`). `raco` is the external program that formats the
text if it succeeds; it is `none` with `--no-pretty-smtlib`. -/
def getSmtlib (globals : Params) (raco : Option (FText → Option FText)) (solver : FText) : SmtlibText :=
  ⟨some globals, (raco.bind fun f => f solver).getD solver⟩

/-! ## Comments -/

/-- `PrefixWriter` (`z3rro/src/util.rs:86-90`) with what was written so far. -/
structure PrefixWriter where
  lineStart : Bool
  out : FText

/-- `split_inclusive(|c| *c == b'\n')` (`z3rro/src/util.rs:104`). -/
def splitInclusive : FText → List FText
  | [] => []
  | c :: cs => if c = '\n' then [c] :: splitInclusive cs else
    match splitInclusive cs with
    | [] => [[c]]
    | l :: ls => (c :: l) :: ls

/-- `PrefixWriter::write` (`z3rro/src/util.rs:103-112`). -/
def PrefixWriter.write (pre : FText) (w : PrefixWriter) (buf : FText) : PrefixWriter :=
  (splitInclusive buf).foldl (fun w line =>
    ⟨decide (line.getLast? = some '\n'), w.out ++ (if w.lineStart then pre else []) ++ line⟩) w

/-- What `write_detailed_command_info` shows. (`src/version.rs:37-65`) -/
structure CommandInfo where
  command : FText
  version : FText
  features : FText
  profile : FText
  target : FText
  date : FText
  host : FText
  ci : Option FText
  z3 : FText
  os : FText

/-- The pieces written by `write_detailed_command_info` (`src/version.rs:37-65`). `writeln!` may split them further, which makes no
difference (`Caesar.Driver.Query.C89_header`). -/
def CommandInfo.chunks (i : CommandInfo) : List FText :=
  ["Command: ".toList ++ i.command ++ ['\n'], "Caesar version: ".toList ++ i.version ++ ['\n'],
    "Features: ".toList ++ i.features ++ ['\n'], ['\n'], "Profile: ".toList ++ i.profile ++ ['\n'],
    "Target: ".toList ++ i.target ++ ['\n'], "Build date: ".toList ++ i.date ++ ['\n'], "Build host: ".toList ++ i.host] ++
  (i.ci.elim [] fun c => [" (".toList ++ c ++ [')']]) ++
  [['\n'], ['\n'], "Z3 version: ".toList ++ i.z3 ++ ['\n'], "Operating system: ".toList ++ i.os ++ ['\n'], ['\n']]

/-! ## Names -/

/-- `SourceUnitName` (`src/driver/item.rs:14-19`) without the span. -/
structure UnitName where
  shortPath : FText
  declName : Option FText
  deriving DecidableEq

/-- `Display for SourceUnitName` (`src/driver/item.rs:68-76`). -/
def UnitName.text (n : UnitName) : FText := n.shortPath ++ n.declName.elim [] fun d => "::".toList ++ d

/-- `std::path::Component` on Unix (`src/driver/item.rs:55-57`). -/
inductive PathComp where
  | root | cur | parent | normal (t : FText)
  deriving DecidableEq

/-- The segment of a component. (`src/driver/item.rs:57`) -/
def PathComp.text : PathComp → FText
  | .root => ['/']
  | .cur => ['.']
  | .parent => ['.', '.']
  | .normal t => t

/-- The segments of a path between its separators. (`Path::components`, `src/driver/item.rs:55`) -/
def segments : FText → List FText
  | [] => [[]]
  | c :: cs => if c = '/' then [] :: segments cs else
    match segments cs with
    | [] => [[c]]
    | s :: ss => (c :: s) :: ss

/-- A segment that is not the first of a relative path: empty ones and `.` are skipped. (`Path::components`, `src/driver/item.rs:55`) -/
def segComp (s : FText) : Option PathComp :=
  if s = [] ∨ s = ['.'] then none else if s = ['.', '.'] then some .parent else some (.normal s)

/-- `Path::components` on Unix (`src/driver/item.rs:55`). -/
def pathComps (p : FText) : List PathComp :=
  (if p.head? = some '/' then [.root] else if (segments p).head? = some ['.'] then [.cur] else []) ++
    (segments p).filterMap segComp

/-- `PathBuf::push` (`src/driver/item.rs:57`, `src/driver/smt_proof.rs:485`) of a path with this text. -/
def pushPath (b p : FText) : FText :=
  if p.head? = some '/' then p else if b = [] ∨ b.getLast? = some '/' then b ++ p else b ++ '/' :: p

/-- `to_file_name` (`src/driver/item.rs:44-61`), for Unix. -/
def UnitName.fileName (n : UnitName) (ext : FText) : FText :=
  ((pathComps (n.text ++ '.' :: ext)).filter (· ≠ .parent)).foldl (fun b c => pushPath b c.text) []

/-! ## Writing the files -/

/-- The header of a file (`src/driver/smt_proof.rs:488-493`). -/
def headerText (i : CommandInfo) (n : UnitName) (r : Option Answer) : FText :=
  ((i.chunks ++ ["Source unit: ".toList ++ n.text ++ ['\n']] ++
    (r.elim [] fun r => ["Prove result: ".toList ++ r.text ++ ['\n']])).foldl (PrefixWriter.write "; ".toList) ⟨true, []⟩).out

/-- The query with its check and question for details (`src/driver/smt_proof.rs:475-480`). -/
def queryText (globals : Params) (s : SmtlibText) (r : Option Answer) : FText :=
  ((r.elim s.addCheckSat s.addCheckSat.addDetails).intoString globals)

/-- The files. (`src/driver/smt_proof.rs:487`) -/
abbrev FileSystem := FText → Option FText

/-- `write_smtlib` (`src/driver/smt_proof.rs:468-499`) as far as files are concerned. Creating directories and files succeeds. -/
def writeSmtlib (dir : Option FText) (globals : Params) (i : CommandInfo) (n : UnitName) (s : SmtlibText) (r : Option Answer)
    (fs : FileSystem) : FileSystem :=
  match dir with
  | none => fs
  | some dir => Function.update fs (pushPath dir (n.fileName "smt2".toList)) (some (headerText i n r ++ queryText globals s r))

/-- A unit: its name, the text of the solver, and its answer (`none` if there is none because of an error, e.g. when time is up). (`src/driver/smt_proof.rs:295-422`) -/
structure QueryUnit where
  name : UnitName
  solver : FText
  answer : Option Answer

/-- The files written by `SmtVcProveTask::run_solver` (`src/driver/smt_proof.rs:326-329,406-414`). With `noVerify`, the second file is not written. -/
def writeUnit (dir : Option FText) (globals : Params) (raco : Option (FText → Option FText)) (i : CommandInfo) (noVerify : Bool)
    (fs : FileSystem) (u : QueryUnit) : FileSystem :=
  let s := getSmtlib globals raco u.solver
  let fs := writeSmtlib dir globals i u.name s none fs
  if noVerify then fs else u.answer.elim fs fun r => writeSmtlib dir globals i u.name s (some r) fs

/-- The files of all units, which are run in order until one has no answer (`src/driver/commands/verify.rs:247-303`). -/
def writeUnits (dir : Option FText) (globals : Params) (raco : Option (FText → Option FText)) (i : CommandInfo) (noVerify : Bool) :
    FileSystem → List QueryUnit → FileSystem
  | fs, [] => fs
  | fs, u :: us =>
    let fs := writeUnit dir globals raco i noVerify fs u
    if !noVerify ∧ u.answer = none then fs else writeUnits dir globals raco i noVerify fs us

end Caesar.Driver.Query
