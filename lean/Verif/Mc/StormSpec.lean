import Verif.Mc.RunStorm
import Verif.Mc.Jani

/-!
# What Storm prints, and how it reads its arguments

A specification, not taken from the code.
-/

open scoped ENNReal

namespace Caesar.Mc

/-- Text that does not contain the given one. -/
def Without (pat s : Text) : Prop := ∀ a b, s ≠ a ++ pat ++ b

/-- How sections of the output begin. -/
def sectionText : Text := "Model checking property".toList

/-- A piece of a line that neither begins a section nor states a result. -/
structure Plain (s : Text) : Prop where
  line : '\n' ∉ s
  section_ : Without sectionText s
  result : Without resultText s

/-- A result: the number (or other text without spaces and parentheses) and possibly an approximation. -/
structure Result where
  text : Text
  approx : Option Text

/-- The beginning of a result. -/
def resultLead : Text := "Result (for initial states): ".toList

/-- The beginning of an approximation. -/
def approxLead : Text := " (approx. ".toList

/-- `Result (for initial states): 1/3 (approx. 0.3333333333)`. -/
def Result.line (r : Result) : Text :=
  resultLead ++ r.text ++ (match r.approx with | none => [] | some a => approxLead ++ a ++ [')'])

/-- Results are well formed if they are a part of one line, their texts contain no spaces and parentheses, and they do not begin sections. -/
structure Result.Ok (r : Result) : Prop where
  text : r.text ≠ [] ∧ ∀ c ∈ r.text, isWhite c = false ∧ c ≠ '('
  line : '\n' ∉ r.line
  section_ : Without sectionText r.line

/-- The output about one property: its name and formula, other lines, possibly its result, and other lines. -/
structure Sec where
  name : Text
  formula : Text
  before : List Text
  result : Option Result
  after : List Text

/-- Lines are ended by newlines. -/
def lines (ls : List Text) : Text := ls.flatMap fun l => l ++ ['\n']

/-- `Model checking property "reward": R[C]=? ...`. -/
def Sec.header (s : Sec) : Text := sectionText ++ [' ', '"'] ++ s.name ++ ['"'] ++ s.formula

/-- The line of the result, if there is one. -/
def Sec.resultLines (s : Sec) : Text :=
  match s.result with
  | none => []
  | some r => lines [r.line]

/-- The text of a section. -/
def Sec.text (s : Sec) : Text := lines (s.header :: s.before) ++ s.resultLines ++ lines s.after

/-- Property names contain no quotes. -/
structure Sec.Ok (s : Sec) : Prop where
  name : Plain s.name ∧ '"' ∉ s.name
  formula : Plain s.formula
  before : ∀ l ∈ s.before, Plain l
  result : ∀ r, s.result = some r → r.Ok
  after : ∀ l ∈ s.after, Plain l

/-- The output of a successful run: lines about the version and the model, and the sections. -/
structure Report where
  intro : List Text
  secs : List Sec

def Report.text (r : Report) : Text := lines r.intro ++ r.secs.flatMap Sec.text

structure Report.Ok (r : Report) : Prop where
  intro : ∀ l ∈ r.intro, Plain l
  secs : ∀ s ∈ r.secs, s.Ok

/-- The settings of Storm that are given by arguments. -/
structure Settings where
  timeout : Option Text := none
  exact : Bool := false
  stateLimit : Option Text := none
  constants : Option Text := none
  sound : Bool := false
  jani : Option Text := none
  props : Option Text := none
  deriving DecidableEq

/-- Reading the arguments from left to right. Unknown arguments and missing values are errors. -/
def Settings.read (s : Settings) : List Text → Option Settings
  | [] => some s
  | a :: as =>
    if a = "--exact".toList then Settings.read { s with exact := true } as
    else if a = "--sound".toList then Settings.read { s with sound := true } as
    else match as with
      | [] => none
      | v :: as =>
        if a = "--timeout".toList then Settings.read { s with timeout := some v } as
        else if a = "--state-limit".toList then Settings.read { s with stateLimit := some v } as
        else if a = "--constants".toList then Settings.read { s with constants := some v } as
        else if a = "--jani".toList then Settings.read { s with jani := some v } as
        else if a = "-jprop".toList then Settings.read { s with props := some v } as
        else none

section
variable [JOps]

open Classical in
/-- The expected reward of the first `n` steps if only the states in `K` are explored. The other states are sinks without rewards. -/
noncomputable def Scheduler.stepsIn {A : JAutomaton} (π : Scheduler A) (K : Loc → JState → Prop) :
    ℕ → List (Loc × JState) → Loc → JState → ℝ≥0∞
  | 0, _, _, _ => 0
  | n + 1, h, l, s => if ¬ K l s ∨ A.enabled l s = [] then 0
    else A.exitReward l s + (π.pick h l s).expect (fun l' s' => π.stepsIn K n ((l, s) :: h) l' s') s

/-- The value of the property `reward` if only the states in `K` are explored. -/
noncomputable def JAutomaton.valueIn (A : JAutomaton) (K : Loc → JState → Prop) : Dir → Loc → JState → ℝ≥0∞
  | .down, l, s => ⨅ π : Scheduler A, ⨆ n, π.stepsIn K n [] l s
  | .up, l, s => ⨆ π : Scheduler A, ⨆ n, π.stepsIn K n [] l s

end

end Caesar.Mc
