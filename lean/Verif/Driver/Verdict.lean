import Verif.ProofRules.Tracking
import Verif.Servers.Status

/-!
# What is reported for a unit

Models the records, the notes and the labels of `src/proof_rules/calculus/soundness_checker.rs`, the map from units to their soundness, and the text and
the error which are reported for a unit (`src/driver/smt_proof.rs:516-598`).
-/

namespace Caesar.Driver.Verdict

/-- `StmtKindName` (`src/proof_rules/calculus/soundness_checker.rs:23-27`). -/
inductive StmtKindName where
  | stmt | loop
deriving DecidableEq

/-- `Display` of `StmtKindName` (`src/proof_rules/calculus/soundness_checker.rs:29-36`). -/
def StmtKindName.text : StmtKindName → String
  | .stmt => "statement"
  | .loop => "loop"

/-- The place of a statement in a body, in place of its span: the numbers of the branches on the way to it. -/
abbrev Place := List ℕ

/-- `ApproximationRecord` (`src/proof_rules/calculus/soundness_checker.rs:38-43`). -/
structure Record where
  span : Place
  stmtKind : StmtKindName
  kind : ApproxKind
deriving DecidableEq

/-- `track_approximation_in_statement` and `track_approximation_in_block` (`src/proof_rules/calculus/soundness_checker.rs:243-316`), with the whole
records; `trackApprox` (`ProofRules/Tracking.lean`) only has the kinds. `here` is the place of the statement. -/
def track (d : Dir) (calculus : Option CalculusType) (here : Place) : Stmt → List Record
  | .seq a b => track d calculus (here ++ [0]) a ++ track d calculus (here ++ [1]) b
  | .ite _ a b => track d calculus (here ++ [0]) a ++ track d calculus (here ++ [1]) b
  | .demonic a b => track d calculus (here ++ [0]) a ++ track d calculus (here ++ [1]) b
  | .angelic a b => track d calculus (here ++ [0]) a ++ track d calculus (here ++ [1]) b
  | .while _ s => track d calculus (here ++ [0]) s
  | .annot an s =>
      let inner := track d calculus (here ++ [0]) s
      if an.isEncoding then
        inner ++ [⟨here, .loop, an.approximation (an.inferFix calculus d) (ApproxKind.infimum (inner.map Record.kind)) calculus⟩]
      else inner
  | .negate _ => [⟨here, .stmt, .unknown⟩]
  | _ => []

/-- `ProcSoundness` (`src/proof_rules/calculus/soundness_checker.rs:47-55`). -/
structure Soundness where
  direction : Dir
  approx : ApproxKind
  soundProofs : Bool
  soundRefutations : Bool
  approximations : List Record
  calculus : Option CalculusType
deriving DecidableEq

/-- `ProcSoundness::new` (`src/proof_rules/calculus/soundness_checker.rs:66-86`). -/
def Soundness.new (d : Dir) (approximations : List Record) (calculus : Option CalculusType) : Soundness :=
  let approx := ApproxKind.infimum (approximations.map Record.kind)
  match d with
  | .down => ⟨d, approx, approx.under, approx.over, approximations, calculus⟩
  | .up => ⟨d, approx, approx.over, approx.under, approximations, calculus⟩

/-- `ProcSoundness::default` (`src/proof_rules/calculus/soundness_checker.rs:57-62`). -/
def Soundness.default : Soundness := .new .down [] none

/-- `Display` of `ApproximationKind` (`src/proof_rules/calculus/soundness_checker.rs:206-215`). -/
def kindText (k : ApproxKind) : String :=
  match k.under, k.over with
  | true, true => "exact approximation"
  | true, false => "under-approximation"
  | false, true => "over-approximation"
  | false, false => "unknown approximation"

/-- `Display` of a calculus is its name (`src/intrinsic/annotations.rs:161-182`); the three built-in ones are named so. -/
def calculusText : CalculusType → String
  | .wp => "wp"
  | .wlp => "wlp"
  | .ert => "ert"

/-- The text of the note (`src/proof_rules/calculus/soundness_checker.rs:91-96`). -/
def noteText (d : Dir) (k : ApproxKind) : String :=
  kindText k ++ " conflicts with " ++ (match d with | .down => "proc" | .up => "coproc") ++ " direction, leading to unsound proof"

/-- `diagnostic_note` (`src/proof_rules/calculus/soundness_checker.rs:89-99`). -/
def Soundness.note (s : Soundness) : Option String := if !s.soundProofs then some (noteText s.direction s.approx) else none

/-- The message of a label (`src/proof_rules/calculus/soundness_checker.rs:107-120`). -/
def labelText (calculus : Option CalculusType) (r : Record) : String :=
  match calculus, r.kind.under, r.kind.over with
  | some c, false, true =>
      "For this " ++ r.stmtKind.text ++ " S, " ++ calculusText c ++ " is over-approximated i.e., vc[S] ≥ " ++ calculusText c ++ "[S]"
  | some c, true, false =>
      "For this " ++ r.stmtKind.text ++ " S, " ++ calculusText c ++ " is under-approximated i.e., vc[S] ≤ " ++ calculusText c ++ "[S]"
  | _, _, _ => "This statement is an " ++ kindText r.kind ++ " of the real program behavior"

/-- `Label` (`src/ast/diagnostic.rs`): a place and a message. -/
structure Label where
  span : Place
  message : String
deriving DecidableEq

/-- `diagnostic_labels` (`src/proof_rules/calculus/soundness_checker.rs:102-124`). -/
def Soundness.labels (s : Soundness) : List Label :=
  (s.approximations.filter fun r => r.kind ≠ ApproxKind.exact).map fun r => ⟨r.span, labelText s.calculus r⟩

/-- `ProveResult` (`z3rro/src/prover.rs`) with the text of the reason. -/
inductive ProveResult where
  | proof
  | counterexample
  | unknown (reason : String)
deriving DecidableEq

/-- An error (`Diagnostic` with `ReportKind::Error`, `src/ast/diagnostic.rs`) at the span of the unit. -/
structure ErrorDiag where
  message : String
  note : Option String
  labels : List Label
deriving DecidableEq

/-- `soundness_diagnostic` (`src/proof_rules/calculus/soundness_checker.rs:126-145`). -/
def Soundness.diagnostic (s : Soundness) : ProveResult → Option ErrorDiag
  | .proof => if !s.soundProofs then some ⟨"Unsound verification", s.note, s.labels⟩ else none
  | _ => none

/-- `result_text` (`src/driver/smt_proof.rs:516-534`). -/
def resultText (s : Soundness) : ProveResult → String
  | .proof => if s.soundProofs then "Verified" else "Unsound verification"
  | .counterexample => if s.soundRefutations then "Counter-example to property found" else "Counter-example to verification found"
  | .unknown reason => "Unknown result: SMT solver returned " ++ reason

/-- What `print_prove_result` (`src/driver/smt_proof.rs:537-588`) prints in the first line and what it gives to the server. The counterexample and the
slices, printed after the first line, are not part of this model (C69, C77). -/
def report (name : String) (s : Soundness) (r : ProveResult) : String × Option ErrorDiag :=
  (name ++ ": " ++ resultText s r, s.diagnostic r)

/-! ## The soundness of units -/

/-- `SourceUnit` (`src/driver/front.rs:307-310`) as far as the soundness map looks at it. -/
inductive SUnit where
  /-- a procedure: its direction, its calculus (`get_proc_calculus`) and its body -/
  | proc (d : Dir) (calculus : Option CalculusType) (body : Option Stmt)
  /-- statements without a procedure (`--raw`) -/
  | raw (body : Stmt)
  /-- another declaration -/
  | other

/-- `soundness_blame_of_proc` and `soundness_blame_of_raw` (`src/proof_rules/calculus/soundness_checker.rs:318-337`), and the choice between them
(`:226-232`). -/
def SUnit.soundness : SUnit → Option Soundness
  | .proc d calculus (some body) => some (.new d (track d calculus [] body) calculus)
  | .proc _ _ none => none
  | .raw body => some (.new .down (track .down none [] body) none)
  | .other => none

open Caesar.Server (insertKey getKey)

/-- One iteration of the loop of `get_soundness_map` (`src/proof_rules/calculus/soundness_checker.rs:225-236`). -/
def addSoundness {N : Type} [DecidableEq N] (m : List (N × Soundness)) (u : N × SUnit) : List (N × Soundness) :=
  match u.2.soundness with
  | some s => insertKey m u.1 s
  | none => m

/-- `get_soundness_map` (`src/proof_rules/calculus/soundness_checker.rs:218-238`); the names of the units are compared as a whole. -/
def soundnessMap {N : Type} [DecidableEq N] (units : List (N × SUnit)) : List (N × Soundness) :=
  units.foldl addSoundness []

/-- The soundness of a unit at the time of verification (`src/driver/commands/verify.rs:226`). -/
def soundnessOf {N : Type} [DecidableEq N] (m : List (N × Soundness)) (name : N) : Soundness := (getKey m name).getD .default

end Caesar.Driver.Verdict
