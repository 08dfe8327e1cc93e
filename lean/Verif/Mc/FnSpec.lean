import Verif.Mc.ExprSound

/-!
# The functions of exported models: specification
-/

namespace Caesar.Mc

/-- The functions called in an expression. -/
def exprCalls : {t : Ty} → Expr t → List Ident
  | _, .var _ => []
  | _, .lit _ => []
  | _, .call f args => f.name :: (List.ofFn fun i => exprCalls (args i)).flatten
  | _, .ite c a b => exprCalls c ++ exprCalls a ++ exprCalls b
  | _, .bin _ a b => exprCalls a ++ exprCalls b
  | _, .rel _ a b => exprCalls a ++ exprCalls b
  | _, .un _ a => exprCalls a
  | _, .embed a => exprCalls a
  | _, .iverson a => exprCalls a
  | _, .cast _ a => exprCalls a
  | _, .quant _ _ _ a => exprCalls a
  | _, .subst _ e a => exprCalls e ++ exprCalls a

variable [Fns]

/-- The functions which are needed: those for which `m` holds, and those called in the definitions of functions which are needed. -/
inductive Needed (m : String → Prop) : String → Prop where
  | mentioned {n : String} : m n → Needed m n
  | called {n : String} {d : FnDecl} {b : Expr d.out} {x : Ident} : Needed m n → findName n = some d → d.body = some b →
      x ∈ exprCalls b → Needed m x.name

/-- A function that can be exported: it is declared with a body that can be translated, and its types are supported. -/
def Exportable (n : String) : Prop :=
  ∃ d, findName n = some d ∧ isJaniTy d.out = true ∧ (∀ i, isJaniTy (d.func.args.get i) = true) ∧
    ∃ b, d.body = some b ∧ translate b ≠ none

/-- The functions called in a model: in `restrict-initial`, in the rewards of locations, on edges, in initial values. -/
def JModel.Calls (M : JModel) (n : String) : Prop :=
  n ∈ M.restrict.calls ∨ (∃ l e, M.automaton.exit l = some e ∧ n ∈ e.calls) ∨ (∃ e ∈ M.automaton.edges, n ∈ e.calls) ∨
    (∃ d ∈ M.decls, ∃ e, d.init = some e ∧ n ∈ e.calls)

/-- What the front end guarantees for the functions: they have different names, their parameters have different names, and the definitions
are expressions over the parameters. -/
structure FnsScoped : Prop where
  names : (Fns.decls.map fun d => d.func.name.name).Nodup
  params : ∀ d ∈ Fns.decls, ∀ i j, (d.ins i).name = (d.ins j).name → i = j
  bodies : ∀ d ∈ Fns.decls, ∀ b, d.body = some b → isJaniTy d.out = true → (∀ i, isJaniTy (d.func.args.get i) = true) →
    ExprOk (fun v => ∃ i, v = ⟨d.ins i, d.func.args.get i⟩) b

/-- In HeyVL, functions with a body are defined by it. -/
def FnsMeaning [Doms] [Interp] : Prop :=
  ∀ d ∈ Fns.decls, ∀ b, d.body = some b → ∀ σ : Env, Interp.func d.func (fun i => σ ⟨d.ins i, d.func.args.get i⟩) = b.eval σ

/-- The functions of the model are not recursive. -/
def JModel.NotRecursive (M : JModel) : Prop := ∃ rank : String → ℕ, ∀ f ∈ M.functions, ∀ n ∈ f.body.calls, rank n < rank f.name

/-- In JANI, the functions of the model are given by their definitions. -/
def JModel.FnsDefined [JOps] (M : JModel) : Prop := ∀ f ∈ M.functions, f.Defined

end Caesar.Mc
