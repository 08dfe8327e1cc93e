import Mathlib.Data.Real.Basic

/-!
# Model of the order structures of the SMT layer

Models `z3rro/src/orders.rs`, `z3rro/src/lib.rs:125-160`.

SMT terms are modelled by their value in an arbitrary SMT model: a term of sort `Bool` is a proposition, a
term of sort `Real` a real number, `Int` an integer. A Rust function which builds a term from terms is the
function on values which SMT-LIB assigns to it.
-/

namespace Caesar.Smt

/-- `SmtOrdering` (`z3rro/src/orders.rs:24-32`). -/
inductive Ordering where
  | less | lessOrEqual | equal | greaterOrEqual | greater
  deriving DecidableEq

/-- `SmtOrdering::reverse` (`z3rro/src/orders.rs:35-43`). -/
def Ordering.reverse : Ordering → Ordering
  | .less => .greater
  | .lessOrEqual => .greaterOrEqual
  | .equal => .equal
  | .greaterOrEqual => .lessOrEqual
  | .greater => .less

/-- `SmtPartialOrd` (`z3rro/src/orders.rs:47-55`). -/
class PartialOrd (α : Type) where
  cmp : α → α → Ordering → Prop

/-- `SmtPartialOrd::smt_le` (`z3rro/src/orders.rs:52-54`). -/
def smtLe {α : Type} [PartialOrd α] (a b : α) : Prop := PartialOrd.cmp a b .lessOrEqual

/-- `SmtBranch` (`z3rro/src/lib.rs:135-138`). -/
class Branch (α : Type) where
  branch : Prop → α → α → α
export Branch (branch)

open Classical in
/-- `Bool::ite`, the value of SMT-LIB's `ite`. -/
noncomputable def smtIte {α : Type} (c : Prop) (a b : α) : α := if c then a else b

/-- `SmtInvariant` (`z3rro/src/lib.rs:154-158`); `None` is `True`. -/
class Invariant (α : Type) where
  inv : α → Prop

/-- `SmtLattice` (`z3rro/src/orders.rs:113-121`). Factories are dropped. -/
class Lat (α : Type) extends PartialOrd α, Branch α where
  bot : α
  top : α
  inf : α → α → α
  sup : α → α → α

/-- `smt_min` (`z3rro/src/orders.rs:83-88`). -/
def smtMin {α : Type} [PartialOrd α] [Branch α] (a b : α) : α :=
  branch (PartialOrd.cmp a b .lessOrEqual) a b

/-- `smt_max` (`z3rro/src/orders.rs:92-97`). -/
def smtMax {α : Type} [PartialOrd α] [Branch α] (a b : α) : α :=
  branch (PartialOrd.cmp a b .greaterOrEqual) a b

/-- `smt_bool_embed` (`z3rro/src/orders.rs:126-131`). -/
def boolEmbed {α : Type} [Lat α] (c : Prop) : α := branch c Lat.top Lat.bot

/-! ## The built-in sorts -/

/-- `SmtBranch for T: Ast` (`z3rro/src/lib.rs:141-145`) at sort `Bool`. -/
noncomputable instance : Branch Prop := ⟨smtIte⟩
/-- `SmtBranch for T: Ast` at sort `Int`. -/
noncomputable instance : Branch ℤ := ⟨smtIte⟩
/-- `SmtBranch for T: Ast` at sort `Real`. -/
noncomputable instance : Branch ℝ := ⟨smtIte⟩

/-- `SmtPartialOrd for Int` (`z3rro/src/orders.rs:58-68`). -/
instance : PartialOrd ℤ := ⟨fun a b o => match o with
  | .less => a < b | .lessOrEqual => a ≤ b | .equal => a = b | .greaterOrEqual => a ≥ b | .greater => a > b⟩

/-- `SmtPartialOrd for Real` (`z3rro/src/orders.rs:70-80`). -/
instance : PartialOrd ℝ := ⟨fun a b o => match o with
  | .less => a < b | .lessOrEqual => a ≤ b | .equal => a = b | .greaterOrEqual => a ≥ b | .greater => a > b⟩

/-- `SmtPartialOrd for Bool` (`z3rro/src/orders.rs:99-109`). -/
instance : PartialOrd Prop := ⟨fun a b o => match o with
  | .less => ¬ a ∧ b
  | .lessOrEqual => a → b
  | .equal => a = b
  | .greaterOrEqual => b → a
  | .greater => a ∧ ¬ b⟩

/-- `z3_smt_invariant!(Bool)` (`z3rro/src/lib.rs:172`). -/
instance : Invariant Prop := ⟨fun _ => True⟩

/-- `SmtLattice for Bool` (`z3rro/src/orders.rs:135-151`). -/
noncomputable instance : Lat Prop where
  bot := False
  top := True
  inf a b := a ∧ b
  sup a b := a ∨ b

/-! ## The opposite lattice -/

/-- `Opp` (`z3rro/src/orders.rs:330`). -/
structure Opp (α : Type) where
  val : α

/-- `Opp::with_opp` (`z3rro/src/orders.rs:335-337`). -/
def withOpp {α : Type} (a : α) (f : Opp α → Opp α) : α := (f ⟨a⟩).val

/-- `Opp::with_opp2` (`z3rro/src/orders.rs:341-343`). -/
def withOpp2 {α : Type} (a b : α) (f : Opp α → Opp α → Opp α) : α := (f ⟨a⟩ ⟨b⟩).val

/-- `SmtInvariant for Opp` (`z3rro/src/orders.rs:354-358`). -/
instance {α : Type} [Invariant α] : Invariant (Opp α) := ⟨fun a => Invariant.inv a.val⟩

/-- `SmtLattice for Opp` (`z3rro/src/orders.rs:372-400`, with `SmtBranch` and `SmtPartialOrd`). -/
instance {α : Type} [Lat α] : Lat (Opp α) where
  cmp a b o := PartialOrd.cmp a.val b.val o.reverse
  branch c a b := ⟨branch c a.val b.val⟩
  bot := ⟨Lat.top⟩
  top := ⟨Lat.bot⟩
  inf a b := ⟨Lat.sup a.val b.val⟩
  sup a b := ⟨Lat.inf a.val b.val⟩

/-! ## Gödel operators -/

section
variable {α : Type} [Lat α]

/-- `SmtGodel::implication` (`z3rro/src/orders.rs:158-162`). -/
def implication (a b : α) : α := branch (smtLe a b) Lat.top b

/-- `SmtGodel::coimplication` (`z3rro/src/orders.rs:165-167`). -/
def coimplication (a b : α) : α := withOpp2 a b fun a b => implication a b

/-- `SmtGodel::compare` (`z3rro/src/orders.rs:170-175`). -/
def compare (a b : α) : α := branch (smtLe a b) Lat.top Lat.bot

/-- `SmtGodel::cocompare` (`z3rro/src/orders.rs:178-180`). -/
def cocompare (a b : α) : α := withOpp2 a b fun a b => compare a b

/-- `SmtGodel::negate` (`z3rro/src/orders.rs:183-188`). -/
def negate (a : α) : α := branch (smtLe a Lat.bot) Lat.top Lat.bot

/-- `SmtGodel::conegate` (`z3rro/src/orders.rs:191-193`). -/
def conegate (a : α) : α := withOpp a fun a => negate a

end

/-! ## Infimum and supremum -/

/-- The constraints emitted by `SmtCompleteLattice::infimum` (`z3rro/src/orders.rs:216-260` with the helper functions
`extremum_invariant_axiom`, `extremum_lower_bound_axiom`, `extremum_glb_axiom`, `z3rro/src/orders.rs:277-322`).

`A` are the values of the bound variables of `args_scope` and `cA` its constraints, `Q` and `cQ` the same for
`q_scope`; `body` is `self`; `ext` is the value of the Skolem function. `SmtScope::forall`
(`z3rro/src/scope.rs:93-105`) is `∀ bounds, constraints → …`. `SmtFresh::fresh`
(`z3rro/src/scope.rs:166-172`) adds the invariant of the candidate to the constraints of its scope. -/
def InfimumAxioms {α A Q : Type} [Lat α] [Invariant α] (cA : A → Prop) (cQ : A → Q → Prop)
    (body : A → Q → α) (ext : A → α) : Prop :=
  (∀ a, cA a → Invariant.inv (ext a)) ∧
  (∀ a, cA a → ∀ q, cQ a q → smtLe (ext a) (body a q)) ∧
  (∀ a cand, cA a ∧ Invariant.inv cand → (∀ q, cQ a q → smtLe cand (body a q)) → smtLe cand (ext a))

/-- The constraints emitted by `SmtCompleteLattice::supremum` (`z3rro/src/orders.rs:265-272`): those of the infimum in
the opposite lattice. -/
def SupremumAxioms {α A Q : Type} [Lat α] [Invariant α] (cA : A → Prop) (cQ : A → Q → Prop)
    (body : A → Q → α) (ext : A → α) : Prop :=
  InfimumAxioms (α := Opp α) cA cQ (fun a q => ⟨body a q⟩) (fun a => ⟨ext a⟩)

end Caesar.Smt
