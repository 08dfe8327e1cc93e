import Verif.Front.Resolve

/-!
# Lexical scoping

The specification of name resolution: an environment says which declaration a name stands for, and is handed down the syntax tree. There are no
scopes that have to be opened and closed, and no declarations are recorded.
-/

namespace Caesar
namespace Front

/-- What is in scope: the declaration that a name refers to, and whether the name was declared in the innermost block. -/
structure Env where
  vis : String → Option Ident
  here : String → Bool

namespace Env

/-- The environment at the beginning of a block. -/
def sub (env : Env) : Env := { env with here := fun _ => false }

/-- A declaration hides all declarations of the same name further out, but there may be only one in a block. -/
def bind (env : Env) (x : Ident) : Option Env :=
  if env.here x.name then none
  else some ⟨Function.update env.vis x.name (some x), Function.update env.here x.name true⟩

/-- Several declarations, one after the other. -/
def bindAll (env : Env) : List Ident → Option Env
  | [] => some env
  | x :: xs => do
    let env ← env.bind x
    env.bindAll xs

/-- The declarations that several names refer to. -/
def uses (env : Env) : List Ident → Option (List Ident)
  | [] => some []
  | x :: xs => do
    let y ← env.vis x.name
    let ys ← env.uses xs
    return y :: ys

end Env

mutual

/-- Every name in an expression is replaced by the declaration it refers to. Declarations are left as they are. The scope of a variable
of a quantifier is the triggers and the body, the scope of a variable of a `let` is its body. -/
def lexE (env : Env) : RExpr → Option RExpr
  | .var t x => do
    let y ← env.vis x.name
    return .var t y
  | .call t f args => do
    let g ← env.vis f.name
    let args ← lexL env args
    return .call t g args
  | .ite t c a b => do
    let c ← lexE env c
    let a ← lexE env a
    let b ← lexE env b
    return .ite t c a b
  | .bin t op a b => do
    let a ← lexE env a
    let b ← lexE env b
    return .bin t op a b
  | .un t op a => do
    let a ← lexE env a
    return .un t op a
  | .cast t a => do
    let a ← lexE env a
    return .cast t a
  | .quant t op vs tr a => do
    let inner ← env.sub.bindAll (vs.map (·.var.id))
    let tr ← lexLL inner tr
    let a ← lexE inner a
    return .quant t op vs tr a
  | .subst t x v a => do
    let v ← lexE env v
    let inner ← env.sub.bind x
    let a ← lexE inner a
    return .subst t x v a
  | .lit t l => return .lit t l

/-- `lexE` for lists. -/
def lexL (env : Env) : List RExpr → Option (List RExpr)
  | [] => return []
  | e :: es => do
    let e ← lexE env e
    let es ← lexL env es
    return e :: es

/-- `lexE` for triggers. -/
def lexLL (env : Env) : List (List RExpr) → Option (List (List RExpr))
  | [] => return []
  | es :: ess => do
    let es ← lexL env es
    let ess ← lexLL env ess
    return es :: ess

end

/-- Annotations have names of their own, which are not hidden by other declarations. -/
abbrev Anns := String → Option (Ident × AnnKind)

/-- The arguments of an annotation. `@omega_invariant` and `@ast` declare a variable; its scope is the rest of the block with the
annotation. The arguments of slicing annotations are messages. -/
def lexArgs (env : Env) : AnnKind → List RExpr → Option (List RExpr × Env)
  | .slice _ _, args => some (args, env)
  | .omegaInvariant, [] => some ([], env)
  | .omegaInvariant, .var t x :: as => do
    let env ← env.bind x
    let as ← lexL env as
    return (.var t x :: as, env)
  | .omegaInvariant, _ :: _ => none
  | .ast, [i, v, .var t x, p, d] => do
    let i ← lexE env i
    let v ← lexE env v
    let env ← env.bind x
    let p ← lexE env p
    let d ← lexE env d
    return ([i, v, .var t x, p, d], env)
  | .ast, _ => none
  | _, args => do
    let args ← lexL env args
    return (args, env)

mutual

/-- Names in statements. The result has the environment for the following statements of the block: the scope of a variable or label is the rest
of its block. -/
def lexS (anns : Anns) (env : Env) : RStmt → Option (RStmt × Env)
  | .seq ss => do
    let ss ← lexB anns env.sub ss
    return (.seq ss, env)
  | .var x t none => do
    let env ← env.bind x
    return (.var x t none, env)
  | .var x t (some e) => do
    let e ← lexE env e
    let env ← env.bind x
    return (.var x t (some e), env)
  | .assign lhs e => do
    let lhs ← env.uses lhs
    let e ← lexE env e
    return (.assign lhs e, env)
  | .havoc d xs => do
    let xs ← env.uses xs
    return (.havoc d xs, env)
  | .assert d e => do
    let e ← lexE env e
    return (.assert d e, env)
  | .assume d e => do
    let e ← lexE env e
    return (.assume d e, env)
  | .compare d e => do
    let e ← lexE env e
    return (.compare d e, env)
  | .negate d => return (.negate d, env)
  | .validate d => return (.validate d, env)
  | .tick e => do
    let e ← lexE env e
    return (.tick e, env)
  | .weigh e => do
    let e ← lexE env e
    return (.weigh e, env)
  | .demonic a b => do
    let a ← lexB anns env.sub a
    let b ← lexB anns env.sub b
    return (.demonic a b, env)
  | .angelic a b => do
    let a ← lexB anns env.sub a
    let b ← lexB anns env.sub b
    return (.angelic a b, env)
  | .additive a b => do
    let a ← lexB anns env.sub a
    let b ← lexB anns env.sub b
    return (.additive a b, env)
  | .ite c a b => do
    let c ← lexE env c
    let a ← lexB anns env.sub a
    let b ← lexB anns env.sub b
    return (.ite c a b, env)
  | .while c b => do
    let c ← lexE env c
    let b ← lexB anns env.sub b
    return (.while c b, env)
  | .annot f args s => do
    let (g, k) ← anns f.name
    let (args, env) ← lexArgs env k args
    let (s, _) ← lexS anns env.sub s
    return (.annot g args s, env)
  | .label l => do
    let env ← env.bind l
    return (.label l, env)

/-- `lexS` for blocks. -/
def lexB (anns : Anns) (env : Env) : List RStmt → Option (List RStmt)
  | [] => return []
  | s :: ss => do
    let (s, env) ← lexS anns env s
    let ss ← lexB anns env ss
    return s :: ss

end

/-! ## Declarations and files -/

/-- `lexE` for specifications. -/
def lexSpecs (env : Env) : List RSpec → Option (List RSpec)
  | [] => return []
  | .requires e :: ss => do
    let e ← lexE env e
    let ss ← lexSpecs env ss
    return .requires e :: ss
  | .ensures e :: ss => do
    let e ← lexE env e
    let ss ← lexSpecs env ss
    return .ensures e :: ss

/-- The calculus of a procedure is a built-in name. -/
def lexCalculus (builtin : String → Option Ident) : Option Ident → Option (Option Ident)
  | none => some none
  | some c => do
    let c ← builtin c.name
    return some c

/-- A body, if there is one. -/
def lexBody (anns : Anns) (env : Env) : Option (List RStmt) → Option (Option (List RStmt))
  | none => some none
  | some b => do
    let b ← lexB anns env b
    return some b

/-- The parameters of a procedure, inputs first. -/
def RProc.paramNames (p : RProc) : List Ident := p.inputs.map (·.var.id) ++ p.outputs.map (·.id)

/-- The parameters of a procedure are in scope in its specification and its body, and they belong to the block of the body. -/
def lexProc (builtin : String → Option Ident) (anns : Anns) (env : Env) (p : SProc) : Option SProc := do
  let inner ← env.sub.bindAll p.proc.paramNames
  let spec ← lexSpecs inner p.proc.spec
  let calculus ← lexCalculus builtin p.calculus
  let body ← lexBody anns inner p.proc.body
  return ⟨{ p.proc with spec := spec, body := body }, calculus⟩

/-- The body of a function, if there is one. -/
def lexFuncBody (env : Env) : Option RExpr → Option (Option RExpr)
  | none => some none
  | some e => do
    let e ← lexE env e
    return some e

/-- The parameters of a function are in scope in its definition. -/
def lexItem (env : Env) : DomItem → Option DomItem
  | .func f ins out body => do
    let inner ← env.sub.bindAll (ins.map (·.id))
    let body ← lexFuncBody inner body
    return .func f ins out body
  | .ax f e => do
    let e ← lexE env e
    return .ax f e

/-- `lexItem` for lists. -/
def lexItems (env : Env) : List DomItem → Option (List DomItem)
  | [] => return []
  | i :: is => do
    let i ← lexItem env i
    let is ← lexItems env is
    return i :: is

/-- `lexProc`, `lexItems` and `lexB` for the parts of a file. -/
def lexUnit (builtin : String → Option Ident) (anns : Anns) (env : Env) : RUnit → Option RUnit
  | .proc p => do
    let p ← lexProc builtin anns env p
    return .proc p
  | .domain d items => do
    let items ← lexItems env items
    return .domain d items
  | .raw b => do
    let b ← lexB anns env.sub b
    return .raw b

/-- `lexUnit` for lists. -/
def lexUnits (builtin : String → Option Ident) (anns : Anns) (env : Env) : List RUnit → Option (List RUnit)
  | [] => return []
  | u :: us => do
    let u ← lexUnit builtin anns env u
    let us ← lexUnits builtin anns env us
    return u :: us

/-- The name of an item of a domain. -/
def DomItem.name : DomItem → Ident
  | .func f _ _ _ => f
  | .ax f _ => f

/-- The names of procedures and domains. -/
def RUnit.names : RUnit → List Ident
  | .proc p => [p.proc.name]
  | .domain d _ => [d]
  | .raw _ => []

/-- The names of the functions and axioms of a domain. -/
def RUnit.items : RUnit → List Ident
  | .proc _ => []
  | .domain _ items => items.map DomItem.name
  | .raw _ => []

/-- A file: the scope of the names of its procedures and domains, and of the functions and axioms of domains, is the whole file. Built-in names are
further out. -/
def lexModule (builtin : String → Option Ident) (anns : Anns) (us : List RUnit) : Option (List RUnit) := do
  let env ← (Env.mk builtin fun _ => false).bindAll (us.flatMap RUnit.names ++ us.flatMap RUnit.items)
  lexUnits builtin anns env us

/-! ## The declarations in a tree -/

mutual

/-- The declarations in an expression, in the order of `Resolve`. -/
def bindsE : RExpr → List (Ident × RDecl)
  | .var _ _ => []
  | .call _ _ args => bindsL args
  | .ite _ c a b => bindsE c ++ (bindsE a ++ bindsE b)
  | .bin _ _ a b => bindsE a ++ bindsE b
  | .un _ _ a => bindsE a
  | .cast _ a => bindsE a
  | .quant _ _ vs tr a => vs.map (fun v => (v.var.id, .var (.val v.var.ty) .quant)) ++ (bindsLL tr ++ bindsE a)
  | .subst _ x v a => bindsE v ++ ((x, .var .none .subst) :: bindsE a)
  | .lit _ _ => []

/-- `bindsE` for lists. -/
def bindsL : List RExpr → List (Ident × RDecl)
  | [] => []
  | e :: es => bindsE e ++ bindsL es

/-- `bindsE` for triggers. -/
def bindsLL : List (List RExpr) → List (Ident × RDecl)
  | [] => []
  | es :: ess => bindsL es ++ bindsLL ess

end

/-- The declarations in the arguments of an annotation. -/
def bindsArgs : AnnKind → List RExpr → List (Ident × RDecl)
  | .slice _ _, _ => []
  | .omegaInvariant, .var _ x :: as => (x, .var (.val .uint) .mut) :: bindsL as
  | .ast, [i, v, .var _ x, p, d] => bindsE i ++ (bindsE v ++ ((x, .var (.val .ureal) .mut) :: (bindsE p ++ bindsE d)))
  | _, args => bindsL args

mutual

/-- The declarations in a statement. -/
def bindsS (anns : Anns) : RStmt → List (Ident × RDecl)
  | .seq ss => bindsB anns ss
  | .var x t none => [(x, .var (.val t) .mut)]
  | .var x t (some e) => bindsE e ++ [(x, .var (.val t) .mut)]
  | .assign _ e => bindsE e
  | .havoc _ _ => []
  | .assert _ e => bindsE e
  | .assume _ e => bindsE e
  | .compare _ e => bindsE e
  | .negate _ => []
  | .validate _ => []
  | .tick e => bindsE e
  | .weigh e => bindsE e
  | .demonic a b => bindsB anns a ++ bindsB anns b
  | .angelic a b => bindsB anns a ++ bindsB anns b
  | .additive a b => bindsB anns a ++ bindsB anns b
  | .ite c a b => bindsE c ++ (bindsB anns a ++ bindsB anns b)
  | .while c b => bindsE c ++ bindsB anns b
  | .annot f args s =>
    (match anns f.name with
      | some (_, k) => bindsArgs k args
      | none => []) ++ bindsS anns s
  | .label l => [(l, .other)]

/-- `bindsS` for blocks. -/
def bindsB (anns : Anns) : List RStmt → List (Ident × RDecl)
  | [] => []
  | s :: ss => bindsS anns s ++ bindsB anns ss

end

/-- The declarations in specifications. -/
def bindsSpecs : List RSpec → List (Ident × RDecl)
  | [] => []
  | s :: ss => bindsE s.expr ++ bindsSpecs ss

/-- The declarations in a procedure. -/
def bindsProc (anns : Anns) (p : SProc) : List (Ident × RDecl) :=
  paramDecls p.proc ++ (bindsSpecs p.proc.spec ++ bindsB anns p.proc.block)

/-- The declarations in an item of a domain. -/
def bindsItem : DomItem → List (Ident × RDecl)
  | .func _ ins _ none => funcParams ins
  | .func _ ins _ (some e) => funcParams ins ++ bindsE e
  | .ax _ e => bindsE e

/-- The declarations in a part of a file. -/
def bindsUnit (anns : Anns) : RUnit → List (Ident × RDecl)
  | .proc p => bindsProc anns p
  | .domain _ items => items.map DomItem.decl ++ items.flatMap bindsItem
  | .raw b => bindsB anns b

/-- All declarations in a file. -/
def bindsModule (anns : Anns) (us : List RUnit) : List (Ident × RDecl) := us.flatMap RUnit.decl ++ us.flatMap (bindsUnit anns)

/-- `Γ` with more declarations. -/
def declCtx (Γ : Ctx) : List (Ident × RDecl) → Ctx
  | [] => Γ
  | (x, d) :: ds => declCtx (Function.update Γ x (some d)) ds

/-- No identifier is declared twice. As identifiers have the place where they are written as their span, this holds for the declarations in a file. -/
structure Fresh (Γ : Ctx) (ds : List (Ident × RDecl)) : Prop where
  nodup : (ds.map Prod.fst).Nodup
  new : ∀ d ∈ ds, Γ d.1 = none

mutual

/-- `@ost` has four arguments and `@ast` has five. -/
def RStmt.ArgsOk (anns : Anns) : RStmt → Prop
  | .seq ss => ArgsOkB anns ss
  | .demonic a b => ArgsOkB anns a ∧ ArgsOkB anns b
  | .angelic a b => ArgsOkB anns a ∧ ArgsOkB anns b
  | .additive a b => ArgsOkB anns a ∧ ArgsOkB anns b
  | .ite _ a b => ArgsOkB anns a ∧ ArgsOkB anns b
  | .while _ b => ArgsOkB anns b
  | .annot f args s =>
    (∀ g, anns f.name = some (g, .ost) → args.length = 4) ∧ (∀ g, anns f.name = some (g, .ast) → args.length = 5) ∧ s.ArgsOk anns
  | _ => True

/-- `RStmt.ArgsOk` for blocks. -/
def ArgsOkB (anns : Anns) : List RStmt → Prop
  | [] => True
  | s :: ss => s.ArgsOk anns ∧ ArgsOkB anns ss

end

/-- `RStmt.ArgsOk` for parts of a file. -/
def RUnit.ArgsOk (anns : Anns) : RUnit → Prop
  | .proc p => ArgsOkB anns p.proc.block
  | .domain _ _ => True
  | .raw b => ArgsOkB anns b

end Front
end Caesar
