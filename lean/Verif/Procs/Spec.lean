import Verif.Spec

/-!
# Specification: procedures, their specifications and calls that run the body

Written from `website/docs/heyvl/procs.md` ("Multiple Or No pre/post Annotations", "Calling Procedures"),
independently of the encodings in `src/procs/`.
-/

open scoped ENNReal NNReal

namespace Caesar

/-- `ProcSpec` (`src/ast/decl.rs:427-432`). -/
inductive ProcSpec where
  | requires (e : Expr .eureal)
  | ensures (e : Expr .eureal)

/-- `Param` (`src/ast/decl.rs:410-415`): a variable, and its span. The only use of the span is to build the
name of a temporary variable (`src/procs/spec_call.rs:224-228`); `span` is the number of `param.span.variant(SpecCall)`. -/
structure Param where
  var : Var
  span : Nat

/-- `ProcDecl` (`src/ast/decl.rs:317-328`), without the span and the calculus annotation. The parameters of kind
`Output` need no span. -/
structure Proc where
  name : Ident
  dir : Dir
  inputs : List Param
  outputs : List Var
  spec : List ProcSpec
  body : Option Stmt

/-- The input variables. -/
def Proc.ins (p : Proc) : List Var := p.inputs.map Param.var

/-- The preconditions, in order (`ProcDecl::requires`, `src/ast/decl.rs`). -/
def Proc.requires (p : Proc) : List (Expr .eureal) :=
  p.spec.filterMap fun s => match s with | .requires e => some e | .ensures _ => none

/-- The postconditions, in order (`ProcDecl::ensures`, `src/ast/decl.rs`). -/
def Proc.ensures (p : Proc) : List (Expr .eureal) :=
  p.spec.filterMap fun s => match s with | .ensures e => some e | .requires _ => none

/-- Combination of several preconditions or postconditions: the minimum in procs (`⊤` if there are none), the
maximum in coprocs (`0` if there are none) (`website/docs/heyvl/procs.md`). -/
noncomputable def combine [Doms] [Interp] (d : Dir) (es : List (Expr .eureal)) : Exp := fun σ =>
  match d with
  | .down => ⨅ e ∈ es, e.ev σ
  | .up => ⨆ e ∈ es, e.ev σ

/-- The precondition of a proc. -/
noncomputable def Proc.pre [Doms] [Interp] (p : Proc) : Exp := combine p.dir p.requires

/-- The postcondition of a proc. -/
noncomputable def Proc.post [Doms] [Interp] (p : Proc) : Exp := combine p.dir p.ensures

/-- The transformer `F` satisfies the specification of `p`: the precondition is a lower bound (upper bound for
coprocs) of `F` applied to the postcondition. -/
def Proc.Meets [Doms] [Interp] (p : Proc) (F : Exp → Exp) : Prop :=
  match p.dir with
  | .down => ∀ τ, p.pre τ ≤ F p.post τ
  | .up => ∀ τ, F p.post τ ≤ p.pre τ

section
variable [Doms]

open Classical in
/-- The state `τ` with the variables `xs` set to the values `vals`, all at once. -/
noncomputable def Env.pass (τ : Env) : List Var → List ((t : Ty) × t.den) → Env
  | x :: xs, ⟨t, a⟩ :: vals => if h : t = x.ty then (τ.pass xs vals).upd x (h ▸ a) else τ.pass xs vals
  | _, _ => τ

/-- Values of variables. -/
def Env.valuesOf (σ : Env) (xs : List Var) : List ((t : Ty) × t.den) := xs.map fun x => ⟨x.ty, σ x⟩

/-- Values of arguments. -/
noncomputable def evalArgs [Interp] (σ : Env) (args : List ((t : Ty) × Expr t)) : List ((t : Ty) × t.den) :=
  args.map fun a => ⟨a.1, a.2.eval σ⟩

/-- Running the callee: its body (the transformer `F`) is started with the inputs set to the values of the
arguments and all other variables as in `τ₀` (they are not initialised); afterwards the left-hand sides get the
values of the outputs and the caller continues with `φ`. -/
noncomputable def runCall [Interp] (p : Proc) (F : Exp → Exp) (lhs : List Var) (args : List ((t : Ty) × Expr t))
    (φ : Exp) (σ τ₀ : Env) : ℝ≥0∞ :=
  F (fun τ => φ (σ.pass lhs (τ.valuesOf p.outputs))) (τ₀.pass p.ins (evalArgs σ args))

end

end Caesar
