import Verif.Mc.ProcSound

/-!
# The properties of an exported model, and greatest fixed points

The properties that Caesar adds to a JANI model (`src/mc/specs.rs:140-237`) and their meaning, which does not refer to HeyVL. The second
half gives loops their greatest fixed point among the expectations below a bound, as in `website/docs/model-checking.md:301-306`.
-/

open scoped ENNReal NNReal

namespace Caesar.Mc

/-- `UnaryPathExpression` (`jani/src/properties.rs:117-126`) with `G`, which is the only one used. -/
inductive JPath where
  | globally (e : JExpr)

/-- `PropertyExpression` (`jani/src/properties.rs:169-178`): expected values of `reward`, probabilities of paths, and quantifiers over paths. -/
inductive JProp where
  | emin | emax
  | pmin (p : JPath) | pmax (p : JPath)
  | exists (p : JPath)

/-- `var_is_sink_state` (`src/mc/specs.rs:76-78`). -/
def sinkVar : String := "is_sink_state"

/-- `var_is_error_state` (`src/mc/specs.rs:84-86`). -/
def errVar : String := "is_error_location"

/-- `mk_diverge_path` (`src/mc/specs.rs:188-198`). -/
def divergePath : JPath := .globally (.not (.id sinkVar))

/-- `mk_expected_reward_property` (`src/mc/specs.rs:162-186`). -/
def rewardProp : Dir → JProp
  | .down => .emin
  | .up => .emax

/-- `mk_diverge_prob_property` (`src/mc/specs.rs:200-219`). -/
def divergeProb : Dir → JProp
  | .down => .pmin divergePath
  | .up => .pmax divergePath

/-- `mk_can_diverge_property` (`src/mc/specs.rs:221-237`). -/
def canDiverge : JProp := .exists divergePath

/-- The properties of a model (`src/mc/specs.rs:148-158`). All of them are filtered for initial states. -/
def properties (dir : Dir) : List (String × JProp) :=
  [("reward", rewardProp dir), ("diverge_prob", divergeProb dir), ("can_diverge", canDiverge)]

/-- The values of transient variables in a location (`src/mc/specs.rs:94-121`). -/
def JAutomaton.values (A : JAutomaton) (l : Loc) : List (String × JExpr) :=
  (match A.exit l with
    | some e => [(rewardVar, e)]
    | none => []) ++
  match l with
  | .sink => [(sinkVar, .bool true)]
  | .err => [(errVar, .bool true)]
  | _ => []

section
variable [JOps]

open Classical in
/-- The variables in a location: transient ones have the value given by the location or their initial value
(`src/mc/specs.rs:33-62`). -/
noncomputable def JAutomaton.view (A : JAutomaton) (l : Loc) (s : JState) : JState := fun x =>
  match (A.values l).lookup x with
  | some e => e.eval s
  | none => if x = rewardVar then .num 0 else if x = sinkVar ∨ x = errVar then .bool False else s x

/-- A condition holds in a state of the automaton. -/
def JAutomaton.Holds (A : JAutomaton) (e : JExpr) (l : Loc) (s : JState) : Prop := (e.eval (A.view l s)).holds

open Classical in
/-- The probability that `P` holds now and after each of the next `n` steps. Nothing happens in a state without enabled edges. -/
noncomputable def Scheduler.stay {A : JAutomaton} (π : Scheduler A) (P : Loc → JState → Prop) : ℕ → List (Loc × JState) → Loc → JState → ℝ≥0∞
  | 0, _, l, s => if P l s then 1 else 0
  | n + 1, h, l, s => if ¬ P l s then 0 else if A.enabled l s = [] then 1
    else ((π.pick h l s).dests.map fun d => d.weight s * π.stay P n ((l, s) :: h) d.loc (d.next s)).sum

/-- The probability that `P` always holds. -/
noncomputable def Scheduler.always {A : JAutomaton} (π : Scheduler A) (P : Loc → JState → Prop) (l : Loc) (s : JState) : ℝ≥0∞ :=
  ⨅ n, π.stay P n [] l s

/-- A step with positive probability. -/
def JAutomaton.Step (A : JAutomaton) (x y : Loc × JState) : Prop :=
  ∃ e ∈ A.enabled x.1 x.2, ∃ d ∈ e.dests, d.weight x.2 ≠ 0 ∧ y = (d.loc, d.next x.2)

/-- A path which always satisfies `P`; it stays where it is in a state without enabled edges. -/
structure JAutomaton.Path (A : JAutomaton) (P : Loc → JState → Prop) (ρ : ℕ → Loc × JState) : Prop where
  holds : ∀ n, P (ρ n).1 (ρ n).2
  step : ∀ n, A.Step (ρ n) (ρ (n + 1)) ∨ (A.enabled (ρ n).1 (ρ n).2 = [] ∧ ρ (n + 1) = ρ n)

/-- The value of a property. -/
inductive PVal where
  | number (x : ℝ≥0∞)
  | truth (b : Prop)

/-- The value of a property in a state. -/
noncomputable def JProp.eval (A : JAutomaton) (l : Loc) (s : JState) : JProp → PVal
  | .emin => .number (A.value .down l s)
  | .emax => .number (A.value .up l s)
  | .pmin (.globally e) => .number (⨅ π : Scheduler A, π.always (A.Holds e) l s)
  | .pmax (.globally e) => .number (⨆ π : Scheduler A, π.always (A.Holds e) l s)
  | .exists (.globally e) => .truth (∃ ρ, A.Path (A.Holds e) ρ ∧ ρ 0 = (l, s))

/-- The value of the property of a given name. -/
noncomputable def JModel.property (M : JModel) (dir : Dir) (name : String) (s : JState) : Option PVal :=
  ((properties dir).lookup name).map fun p => p.eval M.automaton M.initial s

/-- The states that are reached with positive probability. -/
inductive JAutomaton.Reach (A : JAutomaton) (l : Loc) (s : JState) : Loc → JState → Prop where
  | start : A.Reach l s l s
  | step {k t k' t'} : A.Reach l s k t → A.Step (k, t) (k', t') → A.Reach l s k' t'

/-- In all states reached from `(l, s)`, probabilities sum up to one, and there are rewards only for leaving locations, at most one.
Models are expected to satisfy the first condition. -/
structure JAutomaton.OneBounded (A : JAutomaton) (l : Loc) (s : JState) : Prop where
  mass : ∀ k t, A.Reach l s k t → ∀ e ∈ A.enabled k t, (e.dests.map fun d => d.weight t).sum = 1
  reward : ∀ k t, A.Reach l s k t → ∀ e ∈ A.enabled k t, ∀ d ∈ e.dests, d.reward t = 0
  exit : ∀ k t, A.Reach l s k t → A.exitReward k t ≤ 1

end

/-! ## Greatest fixed points below a bound -/

section
variable [Doms] [Interp]

open Classical in
/-- The verification condition semantics in which the meaning of a loop is the greatest fixed point below `T`: `1` for the one-bounded
wlp, `∞` without a bound. All other statements have their usual meaning. -/
noncomputable def liberal (T : ℝ≥0∞) (C : SemCtx) : Stmt → Exp → Exp
  | .seq a b, φ => liberal T C a (liberal T C b φ)
  | .demonic a b, φ => fun σ => min (liberal T C a φ σ) (liberal T C b φ σ)
  | .angelic a b, φ => fun σ => max (liberal T C a φ σ) (liberal T C b φ σ)
  | .additive a b, φ => fun σ => liberal T C a φ σ + liberal T C b φ σ
  | .ite c a b, φ => fun σ => if c.tv σ then liberal T C a φ σ else liberal T C b φ σ
  | .while c body, φ => sSup {X | (∀ σ, X σ ≤ T) ∧ X ≤ fun σ => if c.tv σ then liberal T C body X σ else φ σ}
  | .annot _ s, φ => liberal T C s φ
  | S, φ => vcSem C S φ

/-- Without a bound, this is the semantics with greatest fixed points. -/
theorem liberal_top (C : SemCtx) (hC : C.loop = .gfp) (S : Stmt) : liberal ⊤ C S = vcSem C S := by
  induction S with
  | seq a b iha ihb => funext φ; rw [liberal, vcSem, iha, ihb]
  | demonic a b iha ihb | angelic a b iha ihb | additive a b iha ihb | ite c a b iha ihb => funext φ; rw [liberal, vcSem, iha, ihb]
  | «while» c body ih =>
    funext φ
    rw [liberal, vcSem, hC, ih]
    show _ = sSup _
    congr 1
    ext X
    exact ⟨fun h => h.2, fun h => ⟨fun _ => le_top, h⟩⟩
  | annot _ s ih => funext φ; rw [liberal, vcSem, ih]
  | _ => rfl

end

/-- There is no `coassume`. -/
def NoCoassume : Stmt → Prop
  | .seq a b => NoCoassume a ∧ NoCoassume b
  | .assume d _ => d = .down
  | .demonic a b => NoCoassume a ∧ NoCoassume b
  | .angelic a b => NoCoassume a ∧ NoCoassume b
  | .additive a b => NoCoassume a ∧ NoCoassume b
  | .ite _ a b => NoCoassume a ∧ NoCoassume b
  | .while _ s => NoCoassume s
  | .annot _ s => NoCoassume s
  | _ => True

end Caesar.Mc
