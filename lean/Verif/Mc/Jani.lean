import Verif.Spec

/-!
# JANI automata and their expected rewards

The part of the JANI format which the translation produces (`jani/src/{exprs,models}.rs`), and its meaning: the total expected
reward of a Markov decision process (https://jani-spec.org, "expected-value" properties without `reach`). The meaning is a
specification, it is not taken from the code.
-/

open scoped ENNReal NNReal

namespace Caesar.Mc

/-- The `BinaryOp`s used by the translation (`jani/src/exprs.rs:129-171`). -/
inductive JOp where
  | or | and | eq | ne | lt | le | gt | ge | plus | minus | times | mod | div | min | max
  deriving DecidableEq

/-- `Expression` (`jani/src/exprs.rs:194-209`). -/
inductive JExpr where
  | num (n : ℕ)
  | bool (b : Bool)
  | id (x : String)
  | ite (c a b : JExpr)
  | not (a : JExpr)
  | bin (op : JOp) (a b : JExpr)
  | call (f : String) {n : ℕ} (args : Fin n → JExpr)

/-- The names of the called functions. -/
def JExpr.calls : JExpr → List String
  | .num _ | .bool _ | .id _ => []
  | .ite c a b => c.calls ++ a.calls ++ b.calls
  | .not a => a.calls
  | .bin _ a b => a.calls ++ b.calls
  | .call f args => f :: (List.ofFn fun i => (args i).calls).flatten

/-- `FunctionDefinition` (`jani/src/models.rs`). The types stand for their JANI types (`translate_type`, `src/mc/mod.rs:352-376`). -/
structure JFun where
  name : String
  ty : Ty
  params : List (String × Ty)
  body : JExpr

/-- Location names (`src/mc/opsem.rs:50-54`, `src/mc/specs.rs:68-82`): `l{n}`, `↓`, `sink` and `↯`. -/
inductive Loc where
  | l (n : ℕ) | fin | sink | err
  deriving DecidableEq

/-- `Destination` (`jani/src/models.rs:305-313`) with its `Assignment`s (`jani/src/models.rs:293-301`). -/
structure JDest where
  loc : Loc
  prob : Option JExpr
  assigns : List (String × JExpr)

/-- `Destination::goto` (`jani/src/models.rs:318-325`). -/
def JDest.goto (l : Loc) : JDest := ⟨l, none, []⟩

/-- `Edge` (`jani/src/models.rs:330-341`); action, rate and comment are always `None`. -/
structure JEdge where
  loc : Loc
  guard : Option JExpr
  dests : List JDest

/-- `Edge::from_to` (`jani/src/models.rs:345-354`). -/
def JEdge.fromTo (a b : Loc) : JEdge := ⟨a, none, [.goto b]⟩

/-- `Edge::from_to_if` (`jani/src/models.rs:357-366`). -/
def JEdge.fromToIf (a b : Loc) (g : JExpr) : JEdge := ⟨a, some g, [.goto b]⟩

/-- The edges of an automaton and the value of the transient variable `reward` at its locations
(`Automaton`, `Location`, `jani/src/models.rs:262-278,389-403`). -/
structure JAutomaton where
  edges : List JEdge
  exit : Loc → Option JExpr

/-- Name of the transient variable that carries the rewards (`src/mc/specs.rs:64-66`). -/
def rewardVar : String := "reward"

/-- JANI values: Booleans and numbers (`int` is a subset of `real`). -/
inductive JVal where
  | bool (p : Prop)
  | num (r : ℝ)

/-- A truth value; a number is not one. -/
def JVal.holds : JVal → Prop
  | .bool p => p
  | .num _ => False

/-- A number; a Boolean is not one. -/
noncomputable def JVal.real : JVal → ℝ
  | .bool _ => 0
  | .num r => r

/-- JANI leaves division and modulo by zero open; `mod` is the remainder on natural numbers. `func` is the meaning of the functions. -/
class JOps where
  div0 : ℝ → ℝ
  mod : ℝ → ℝ → ℝ
  mod_nat : ∀ a b : ℕ, b ≠ 0 → mod a b = (a % b : ℕ)
  func : String → List JVal → JVal

/-- The values of the variables which are not transient. -/
abbrev JState := String → JVal

section
variable [JOps]

open Classical in
/-- Value of an operator. Equality is equality of values. -/
noncomputable def JOp.den : JOp → JVal → JVal → JVal
  | .or, a, b => .bool (a.holds ∨ b.holds)
  | .and, a, b => .bool (a.holds ∧ b.holds)
  | .eq, a, b => .bool (a = b)
  | .ne, a, b => .bool (a ≠ b)
  | .lt, a, b => .bool (a.real < b.real)
  | .le, a, b => .bool (a.real ≤ b.real)
  | .gt, a, b => .bool (a.real > b.real)
  | .ge, a, b => .bool (a.real ≥ b.real)
  | .plus, a, b => .num (a.real + b.real)
  | .minus, a, b => .num (a.real - b.real)
  | .times, a, b => .num (a.real * b.real)
  | .mod, a, b => .num (JOps.mod a.real b.real)
  | .div, a, b => .num (if b.real = 0 then JOps.div0 a.real else a.real / b.real)
  | .min, a, b => .num (Min.min a.real b.real)
  | .max, a, b => .num (Max.max a.real b.real)

open Classical in
/-- Value of an expression. -/
noncomputable def JExpr.eval (s : JState) : JExpr → JVal
  | .num n => .num n
  | .bool b => .bool (b = true)
  | .id x => s x
  | .ite c a b => if (c.eval s).holds then a.eval s else b.eval s
  | .not a => .bool (¬ (a.eval s).holds)
  | .bin op a b => op.den (a.eval s) (b.eval s)
  | .call f args => JOps.func f (List.ofFn fun i => (args i).eval s)

/-- The values of a JANI type: `bool`, `int`, `real`, and the bounded types for unsigned numbers. -/
def JVal.HasTy : Ty → JVal → Prop
  | .bool, .bool _ => True
  | .int, .num r => ∃ n : ℤ, r = n
  | .uint, .num r => ∃ n : ℤ, 0 ≤ r ∧ r = n
  | .real, .num _ => True
  | .ureal, .num r => 0 ≤ r
  | _, _ => False

/-- The meaning of a function is given by its definition, for arguments of the types of its parameters. -/
def JFun.Defined (f : JFun) : Prop :=
  ∀ s : JState, (∀ p ∈ f.params, (s p.1).HasTy p.2) → JOps.func f.name (f.params.map fun p => s p.1) = f.body.eval s

/-- A nonnegative number as a reward or a probability. -/
noncomputable def JExpr.weight (e : JExpr) (s : JState) : ℝ≥0∞ := ENNReal.ofReal (e.eval s).real

/-- An edge without guard is always enabled. -/
def JEdge.enabled (e : JEdge) (s : JState) : Prop :=
  match e.guard with
  | none => True
  | some g => (g.eval s).holds

open Classical in
/-- The enabled edges of a location. -/
noncomputable def JAutomaton.enabled (A : JAutomaton) (l : Loc) (s : JState) : List JEdge :=
  A.edges.filter fun e => decide (e.loc = l ∧ e.enabled s)

/-- The probability of a destination; `1` if it is not given. -/
noncomputable def JDest.weight (d : JDest) (s : JState) : ℝ≥0∞ :=
  match d.prob with
  | none => 1
  | some p => p.weight s

/-- The state after the assignments, all evaluated in the old state. Transient variables are not part of the state. -/
noncomputable def JDest.next (d : JDest) (s : JState) : JState :=
  fun x => if x = rewardVar then s x else
    match d.assigns.lookup x with
    | none => s x
    | some e => e.eval s

/-- The reward of taking a destination: the value assigned to `reward`, initially 0 (`src/mc/specs.rs:37-43`). -/
noncomputable def JDest.reward (d : JDest) (s : JState) : ℝ≥0∞ :=
  match d.assigns.lookup rewardVar with
  | none => 0
  | some e => e.weight s

/-- The reward of leaving a location. -/
noncomputable def JAutomaton.exitReward (A : JAutomaton) (l : Loc) (s : JState) : ℝ≥0∞ :=
  match A.exit l with
  | none => 0
  | some e => e.weight s

/-- Expected value of taking an edge, when `X` is the value of the states after it. -/
noncomputable def JEdge.expect (X : Loc → JState → ℝ≥0∞) (e : JEdge) (s : JState) : ℝ≥0∞ :=
  (e.dests.map fun d => d.weight s * (d.reward s + X d.loc (d.next s))).sum

/-- A scheduler picks an enabled edge, depending on the states visited so far. -/
structure Scheduler (A : JAutomaton) where
  pick : List (Loc × JState) → Loc → JState → JEdge
  valid : ∀ h l s, A.enabled l s ≠ [] → pick h l s ∈ A.enabled l s

open Classical in
/-- The expected reward of the first `n` steps from a state under a scheduler, after the history `h`. -/
noncomputable def Scheduler.steps {A : JAutomaton} (π : Scheduler A) : ℕ → List (Loc × JState) → Loc → JState → ℝ≥0∞
  | 0, _, _, _ => 0
  | n + 1, h, l, s => if A.enabled l s = [] then 0
    else A.exitReward l s + (π.pick h l s).expect (fun l' s' => π.steps n ((l, s) :: h) l' s') s

/-- The total expected reward from a state under a scheduler. -/
noncomputable def Scheduler.total {A : JAutomaton} (π : Scheduler A) (l : Loc) (s : JState) : ℝ≥0∞ :=
  ⨆ n, π.steps n [] l s

/-- The value of the JANI property `reward` (`src/mc/specs.rs:162-186`): the minimal (`Down`) or maximal (`Up`) total
expected reward. -/
noncomputable def JAutomaton.value (A : JAutomaton) : Dir → Loc → JState → ℝ≥0∞
  | .down, l, s => ⨅ π : Scheduler A, π.total l s
  | .up, l, s => ⨆ π : Scheduler A, π.total l s

end

end Caesar.Mc
