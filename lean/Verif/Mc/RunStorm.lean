import Verif.Smt.PrettyRational

/-!
# Running Storm on the exported models

Models `run_storm` and the reading of Storm's output (`src/mc/run_storm.rs`) and the loop of the command
(`src/driver/commands/model_check.rs:74-126`). Texts are lists of characters; Storm itself, the file system's errors and Docker are given
by their answers.
-/

namespace Caesar.Mc

open Caesar.Smt (natText parseBigInt prettyRational)

abbrev Text := List Char

/-- `str::find` (`src/mc/run_storm.rs:219-222`), with positions counted in characters. -/
def find (pat : Text) : Text → Option ℕ
  | [] => if pat = [] then some 0 else none
  | c :: cs => if pat.isPrefixOf (c :: cs) then some 0 else (find pat cs).map (· + 1)

/-- `char::is_whitespace`, used by `trim` (`src/mc/run_storm.rs:227`): the Unicode property `White_Space`. -/
def isWhite (c : Char) : Bool :=
  c.toNat ∈ [9, 10, 11, 12, 13, 32, 0x85, 0xA0, 0x1680, 0x2000, 0x2001, 0x2002, 0x2003, 0x2004, 0x2005, 0x2006, 0x2007, 0x2008, 0x2009,
    0x200A, 0x2028, 0x2029, 0x202F, 0x205F, 0x3000]

/-- `str::trim` (`src/mc/run_storm.rs:227`). -/
def trim (s : Text) : Text := ((s.dropWhile isWhite).reverse.dropWhile isWhite).reverse

/-- `result.parse::<BigRational>()` (`src/mc/run_storm.rs:229`), from the crate `num`: a number, or two numbers separated by the first
`/`, the second one not zero. -/
def parseRational (s : Text) : Option ℚ := do
  let n ← parseBigInt (s.takeWhile (· ≠ '/'))
  let d ← match s.dropWhile (· ≠ '/') with
    | [] => some 1
    | _ :: ds => parseBigInt ds
  if d = 0 then none else some (n / d)

/-- `RunWhichStorm` (`src/driver/commands/options.rs:62-70`). -/
inductive WhichStorm where
  | path | dockerStable | dockerCI
  deriving DecidableEq

/-- The options for Storm in `ModelCheckingOptions` (`src/driver/commands/options.rs:72-128`). The timeout is in seconds. -/
structure StormOptions where
  janiDir : Option Text
  run : Option WhichStorm
  exact : Bool
  stateLimit : Option ℕ
  constants : Option Text
  timeout : Option ℕ

/-- `StormValue` (`src/mc/run_storm.rs:56-61`). -/
inductive StormValue where
  | notFound
  | value (s : Text)
  | noInitialState
  deriving DecidableEq

/-- `RESULT_TEXT` (`src/mc/run_storm.rs:216`). -/
def resultText : Text := "Result (for initial states):".toList

/-- The search string (`src/mc/run_storm.rs:218`). -/
def searchString (property : Text) : Text := "Model checking property \"".toList ++ property ++ ['"']

/-- The text at which the approximation begins (`src/mc/run_storm.rs:224-226`). -/
def approxText : Text := "(approx. ".toList

/-- The operator in front of the result (`src/mc/run_storm.rs:234-239`). -/
def operator (exact : Bool) (limit : Option ℕ) : Text :=
  match exact, limit with
  | true, none => []
  | true, some _ => "≥ ".toList
  | false, some _ => "⪆ ".toList
  | false, none => "≈ ".toList

/-- The result without the approximation (`src/mc/run_storm.rs:224-226`). -/
def cutApprox (result : Text) : Text :=
  match find approxText result with
  | some i => result.take i
  | none => result

/-- How a result is shown (`src/mc/run_storm.rs:223-241`). -/
def showResult (o : StormOptions) (result : Text) : Text :=
  let result := trim (cutApprox result)
  let result := if o.exact then (match parseRational result with
    | some value => prettyRational value
    | none => result) else result
  operator o.exact o.stateLimit ++ result

/-- `find_property_result` (`src/mc/run_storm.rs:211-246`). -/
def findPropertyResult (o : StormOptions) (output property : Text) : StormValue :=
  match find (searchString property) output with
  | none => .notFound
  | some start =>
    match find resultText (output.drop start) with
    | none => .notFound
    | some i =>
      let resultStart := start + i + resultText.length
      match find ['\n'] (output.drop resultStart) with
      | none => .notFound
      | some e => .value (showResult o ((output.drop resultStart).take e))

/-- A duration: seconds and nanoseconds below one second. -/
structure Dur where
  secs : ℕ
  nanos : ℕ
  deriving DecidableEq

/-- `Duration`s are compared lexicographically (`src/mc/run_storm.rs:124`). -/
def Dur.min (a b : Dur) : Dur := if a.secs < b.secs ∨ (a.secs = b.secs ∧ a.nanos ≤ b.nanos) then a else b

/-- The timeout that is passed on (`src/mc/run_storm.rs:121-126`). `left` is the time left for Caesar (`src/resource_limits.rs:253-261`). -/
def stormTimeout (left : Option Dur) (specific : Option ℕ) : Option Dur :=
  ((left.bind fun ct => (specific.map fun st => ct.min ⟨st, 0⟩)).or left).or (specific.map fun st => ⟨st, 0⟩)

/-- A command: the program and its arguments. -/
structure Cmd where
  program : Text
  args : List Text
  deriving DecidableEq

/-- The limits of Caesar (`src/resource_limits.rs:253-266`): the time left and the memory limit in megabytes. -/
structure Limits where
  left : Option Dur
  memory : Option ℕ

/-- `properties.join(",")` (`src/mc/run_storm.rs:150`). -/
def joinComma : List Text → Text
  | [] => []
  | [p] => p
  | p :: q :: ps => p ++ ',' :: joinComma (q :: ps)

/-- The arguments of Storm (`src/mc/run_storm.rs:127-150`). -/
def stormArgs (o : StormOptions) (l : Limits) (file : Text) (properties : List Text) : List Text :=
  (match stormTimeout l.left o.timeout with
    | some t => ["--timeout".toList, natText t.secs]
    | none => []) ++
  (if o.exact then ["--exact".toList] else []) ++
  (match o.stateLimit with
    | some n => ["--state-limit".toList, natText n]
    | none => []) ++
  (match o.constants with
    | some c => ["--constants".toList, c]
    | none => []) ++
  ["--sound".toList, "--jani".toList, file, "-jprop".toList, joinComma properties]

/-- The command (`src/mc/run_storm.rs:84-150`) for a file in the directory `dir`, whose absolute path is given. -/
def stormCmd (o : StormOptions) (w : WhichStorm) (l : Limits) (dir file : Text) (properties : List Text) : Cmd :=
  match w with
  | .path => ⟨"storm".toList, stormArgs o l (dir ++ '/' :: file) properties⟩
  | w => ⟨"docker".toList, ["run".toList, "--rm".toList, "-v".toList, dir ++ ":/mnt".toList, "-w".toList, "/mnt".toList] ++
      (match l.memory with
        | some m => ["--memory".toList, natText m ++ ['m']]
        | none => []) ++
      [if w = .dockerStable then "movesrwth/storm:stable".toList else "movesrwth/storm:ci".toList, "storm".toList] ++
      stormArgs o l file properties⟩

/-- What running the command gives (`src/mc/run_storm.rs:153`): an I/O error, or the exit code and the standard output. -/
inductive Answer where
  | io
  | exit (code : Option ℤ) (stdout : Text)

/-- `StormError` (`src/mc/run_storm.rs:63-73`). -/
inductive StormError where
  | io
  | failed (code : Option ℤ) (stdout : Text)
  | aborted (seconds states : ℕ)
  | dockerNotRunning
  deriving DecidableEq

/-- The result of `run_storm` and its panics. -/
inductive Run (α : Type) where
  | ok (a : α)
  | err (e : StormError)
  | panic
  deriving DecidableEq

/-- A digit in the regular expression (`src/mc/run_storm.rs:177`); only ASCII digits, which Storm prints. -/
def isDigit (c : Char) : Bool := decide ('0' ≤ c ∧ c ≤ '9')

/-- Remove a prefix. -/
def strip (pat s : Text) : Option Text := if pat.isPrefixOf s then some (s.drop pat.length) else none

/-- A nonempty sequence of digits and the rest. -/
def digits (s : Text) : Option (Text × Text) :=
  match s.takeWhile isDigit with
  | [] => none
  | d :: ds => some (d :: ds, s.dropWhile isDigit)

/-- The regular expression at one position (`src/mc/run_storm.rs:177`). -/
def abortAt (s : Text) : Option (Text × Text) := do
  let s ← strip "Explored ".toList s
  let (n, s) ← digits s
  let s ← strip " states in ".toList s
  let (t, s) ← digits s
  let _ ← strip " seconds before abort".toList s
  some (n, t)

/-- `re.captures` (`src/mc/run_storm.rs:178`): the leftmost match. -/
def abortIn : Text → Option (Text × Text)
  | [] => none
  | c :: cs => (abortAt (c :: cs)).or (abortIn cs)

/-- `parse().unwrap()` for `usize` and `u64` (`src/mc/run_storm.rs:179-180`). -/
def parseU64 (s : Text) : Option ℕ := (Smt.parseDigits 0 s).bind fun n => if n < 2 ^ 64 then some n else none

/-- The message for models without initial states (`src/mc/run_storm.rs:166`). -/
def noInitialText : Text := "The model does not have a single initial state".toList

/-- `output_str.lines().next().unwrap()` (`src/mc/run_storm.rs:167,191`). A carriage return at the end is kept here. -/
def version (s : Text) : Option Text := if s = [] then none else some (s.takeWhile (· ≠ '\n'))

/-- `StormOutput` (`src/mc/run_storm.rs:49-54`). -/
structure StormOutput where
  version : Text
  results : List (Text × StormValue)
  deriving DecidableEq

/-- What `run_storm` makes of the answer (`src/mc/run_storm.rs:153-194`). The output is UTF-8. -/
def readAnswer (o : StormOptions) (w : WhichStorm) (properties : List Text) : Answer → Run StormOutput
  | .io => .err .io
  | .exit code out =>
    if code ≠ some 0 then
      if code = some 125 ∧ w ≠ .path then .err .dockerNotRunning
      else if (find noInitialText out).isSome then
        match version out with
        | none => .panic
        | some v => .ok ⟨v, properties.map fun p => (p, .noInitialState)⟩
      else match abortIn out with
        | some (n, t) => match parseU64 n, parseU64 t with
          | some n, some t => .err (.aborted t n)
          | _, _ => .panic
        | none => .err (.failed code out)
    else match version out with
      | none => .panic
      | some v => .ok ⟨v, properties.map fun p => (p, findPropertyResult o out p)⟩

/-! ## The command -/

/-- The diagnostics (`src/mc/run_storm.rs:26-46`). -/
inductive StormDiag where
  | reward (s : Text)
  | notFound
  | noInitialState
  | error (e : StormError)
  deriving DecidableEq

/-- The name of the property that is checked (`src/driver/commands/model_check.rs:110`, `src/mc/run_storm.rs:28`). -/
def rewardName : Text := "reward".toList

/-- `storm_result_to_diagnostic` (`src/mc/run_storm.rs:26-47`); `none` is the panic of `unwrap`. -/
def toDiag : Run StormOutput → Option StormDiag
  | .ok out => match out.results.lookup rewardName with
    | some (.value s) => some (.reward s)
    | some .notFound => some .notFound
    | some .noInitialState => some .noInitialState
    | none => none
  | .err e => some (.error e)
  | .panic => none

/-- A unit: a procedure with its exported model or the error of the export, another declaration, or a raw block. -/
inductive McUnit (M E : Type) where
  | proc (name : Text) (model : Except E M)
  | decl (name : Text)
  | raw

/-- A diagnostic at a unit. -/
inductive McDiag (E : Type) where
  | export (e : E)
  | storm (d : StormDiag)
  deriving DecidableEq

/-- The outcome of the loop: the error of the command, a panic, or the end. -/
inductive McEnd where
  | done | userError | panic
  deriving DecidableEq

/-- Files by their paths. -/
abbrev Files (M : Type) := Text → Option M

/-- The file of a procedure (`src/driver/front.rs:433`). -/
def janiFile (name : Text) : Text := name ++ ".jani".toList

section
variable {M E : Type} (o : StormOptions) (limits : ℕ → Limits) (storm : Cmd → Option M → Answer)

/-- `write_to_jani_if_requested` and the run of Storm for one unit (`src/driver/front.rs:422-446`,
`src/driver/commands/model_check.rs:101-120`). `dir` is `options.jani_dir`, `n` the position of the unit, at which the limits are looked
up. Storm is a function of the command and the contents of the file in the directory; errors of the file system and of the server are left out. -/
def checkUnit (dir : Option Text) (n : ℕ) (fs : Files M) : McUnit M E → Files M × Option (Option (McDiag E))
  | .proc name model => match dir with
    | none => (fs, some none)
    | some dir => match model with
      | .error e => (fs, some (some (.export e)))
      | .ok m =>
        let fs := Function.update fs (janiFile name) (some m)
        match o.run with
        | none => (fs, some none)
        | some w => (fs, (toDiag (readAnswer o w [rewardName] (storm (stormCmd o w (limits n) dir (janiFile name) [rewardName])
            (fs (janiFile name))))).map fun d => some (.storm d))
  | .decl _ => (fs, some none)
  | .raw => match dir with
    | none => (fs, some none)
    | some _ => (fs, none)

/-- The loop over the units (`src/driver/commands/model_check.rs:101-120`): the files, the diagnostics with the positions of their units,
and how it ends. -/
def checkUnits (dir : Option Text) : ℕ → Files M → List (McUnit M E) → Files M × List (ℕ × McDiag E) × McEnd
  | _, fs, [] => (fs, [], .done)
  | n, fs, u :: us => match checkUnit o limits storm dir n fs u with
    | (fs, none) => (fs, [], .panic)
    | (fs, some d) =>
      let r := checkUnits dir (n + 1) fs us
      (r.1, (match d with | some d => [(n, d)] | none => []) ++ r.2.1, r.2.2)

/-- `run_model_checking` (`src/driver/commands/model_check.rs:74-126`). `temp` is the path of a new temporary directory. -/
def runModelChecking (temp : Text) (isCommand : Bool) (units : List (McUnit M E)) : Files M × List (ℕ × McDiag E) × McEnd :=
  match o.janiDir with
  | some dir => checkUnits o limits storm (some dir) 0 (fun _ => none) units
  | none =>
    if isCommand ∧ o.run = none then (fun _ => none, [], .userError)
    else checkUnits o limits storm (if o.run.isSome then some temp else none) 0 (fun _ => none) units

end

end Caesar.Mc
