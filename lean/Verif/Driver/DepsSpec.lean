import Verif.Driver.Deps
import Verif.Props.C72

/-!
# Specification for C82: which functions are called where
-/

namespace Caesar.Driver
open Smt

/-- Specification: all expressions of a statement without proof rules. -/
def exprsOf : Stmt → List ((t : Ty) × Expr t)
  | .seq a b => exprsOf a ++ exprsOf b
  | .varInit x e => [⟨x.ty, e⟩]
  | .assign x e => [⟨x.ty, e⟩]
  | .sample _ _ (.flip p) => [⟨_, p⟩]
  | .call _ _ _ args => args
  | .assert _ e => [⟨_, e⟩]
  | .assume _ e => [⟨_, e⟩]
  | .compare _ e => [⟨_, e⟩]
  | .tick e => [⟨_, e⟩]
  | .weigh e => [⟨_, e⟩]
  | .demonic a b => exprsOf a ++ exprsOf b
  | .angelic a b => exprsOf a ++ exprsOf b
  | .additive a b => exprsOf a ++ exprsOf b
  | .ite c a b => ⟨_, c⟩ :: (exprsOf a ++ exprsOf b)
  | .while c s => ⟨_, c⟩ :: exprsOf s
  | .annot _ s => exprsOf s
  | _ => []

/-- Specification: the procedures which a statement calls. -/
def calleesOf : Stmt → List Ident
  | .seq a b => calleesOf a ++ calleesOf b
  | .call _ _ f _ => [f]
  | .demonic a b => calleesOf a ++ calleesOf b
  | .angelic a b => calleesOf a ++ calleesOf b
  | .additive a b => calleesOf a ++ calleesOf b
  | .ite _ a b => calleesOf a ++ calleesOf b
  | .while _ s => calleesOf s
  | .annot _ s => calleesOf s
  | _ => []

/-- Specification: a function is called in an expression of the unit: in the specification or the body of a procedure, or in the statements. -/
def SourceUnit.CallsFn (f : Ident) : SourceUnit → Prop
  | .proc p => (∃ e, (.requires e ∈ p.spec ∨ .ensures e ∈ p.spec) ∧ CallIn f e) ∨ ∃ S, p.body = some S ∧ ∃ e ∈ exprsOf S, CallIn f e.2
  | .domain _ => False
  | .raw S => ∃ e ∈ exprsOf S, CallIn f e.2

/-- Specification: a function is called in the definition of the function, or in the axiom. -/
def NamedSpec.CallsFn (f : Ident) : NamedSpec → Prop
  | .func d => ∃ b, d.body = some b ∧ CallIn f b
  | .prop _ e => CallIn f e

/-- Specification: the function is declared in a domain of the program. -/
def IsFunc (items : List SourceUnit) (f : Ident) : Prop :=
  ∃ specs d, SourceUnit.domain specs ∈ items ∧ NamedSpec.func d ∈ specs ∧ d.func.name = f

/-- What name resolution guarantees (`src/front/resolve.rs`): all functions which are called in the program are declared in a domain. -/
structure Resolved (items : List SourceUnit) : Prop where
  units : ∀ u ∈ items, ∀ f, u.CallsFn f → IsFunc items f
  specs : ∀ specs, SourceUnit.domain specs ∈ items → ∀ s ∈ specs, ∀ f, s.CallsFn f → IsFunc items f

/-- The procedures of the symbol table are those of the program, under their names. -/
def ProcsOf (procs : ProcTable) (items : List SourceUnit) : Prop :=
  ∀ f p, procs f = some p → p.name = f ∧ SourceUnit.proc p ∈ items

/-- Specification of a successful translation: each function which is called in the formula, or in a definition or axiom which is translated for it, is
declared. Otherwise the process ends with the message "function … is not declared" (`src/smt/uninterpreted.rs:54-60`). -/
def AllDeclared (items : List SourceUnit) (deps : List Ident) (b : Expr .bool) : Prop :=
  ∀ f, CallIn f b ∨ (∃ s ∈ translatedSpecs deps (domainSpecs items), s.CallsFn f) → f ∈ declaredFuncs deps (domainSpecs items)

end Caesar.Driver
