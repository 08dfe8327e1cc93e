import Verif.Front.Scoped
import Verif.ScopeMap

/-!
# Model of name resolution

Models `src/front/resolve.rs`, the part of `src/driver/front.rs` that calls it, and the methods `resolve` of the annotations. Before this phase
the span of an identifier is the place where it is written. Afterwards identifiers have the span of the declaration they refer to.

Simplifications: types are resolved already (`Resolve::visit_ty`, `src/front/resolve.rs:246-271`), the variables of
quantifiers are `Fresh` because the grammar builds no others (`src/front/parser/grammar.lalrpop:172-175`), and `TyCtx::add_global` is left out
because only the resolution of further files would look at it.
-/

namespace Caesar

namespace ScopeMap
variable {K V : Type} [DecidableEq K]

/-- The value that `ScopeMap::insert` returns (`src/scope_map.rs:86-91`). -/
def localGet (m : ScopeMap K V) (k : K) : Option V :=
  match m.scopes with
  | [] => none
  | s :: _ =>
    match s.get k with
    | some (.value v) => some v
    | _ => none

/-- The loop of `ScopeMap::find_map` (`src/scope_map.rs:120-126`). -/
def findMapIn {T : Type} (f : ScopeEntry V → Option T) : List (IndexMap K (ScopeEntry V)) → K → Option T
  | [], _ => none
  | s :: ss, k =>
    match s.get k with
    | some e =>
      match f e with
      | some t => some t
      | none => findMapIn f ss k
    | none => findMapIn f ss k

/-- `ScopeMap::find_map` (`src/scope_map.rs:110-128`). -/
def findMap {T : Type} (m : ScopeMap K V) (k : K) (f : ScopeEntry V → Option T) : Option T := findMapIn f m.scopes k

end ScopeMap

namespace Front

/-- `ResolveError` (`src/front/resolve.rs:68-73`), or a panic. The span in `NotIdent` is left out. -/
inductive ResErr where
  | alreadyDefined (x prev : Ident)
  | notFound (x : Ident)
  | notIdent
  | panic
  deriving DecidableEq

/-- `Resolve` (`src/front/resolve.rs:18-21`): the scopes and the declarations of the `TyCtx`. -/
structure RState where
  scopes : ScopeMap String Ident
  ctx : Ctx

/-- Results of visits. -/
abbrev M := Except ResErr

namespace RState

/-- `self.scope_map.push()` in `with_subscope` (`src/front/resolve.rs:37`). -/
def enter (st : RState) : RState := { st with scopes := st.scopes.push.1 }

/-- The depth in the token that `push` returns (`src/front/resolve.rs:37`). -/
def token (st : RState) : Nat := st.scopes.push.2

/-- `self.scope_map.pop(parent)` in `with_subscope` (`src/front/resolve.rs:36-41`). It also happens after an error; that is left out
because every error ends the resolution. -/
def leave (st : RState) (token : Nat) : M RState :=
  match st.scopes.pop token with
  | some m => .ok { st with scopes := m }
  | none => .error .panic

/-- `Resolve::declare` (`src/front/resolve.rs:45-61`), with `TyCtx::declare`, which panics if there is a declaration
already (`src/tyctx.rs:54-59`). -/
def declare (x : Ident) (d : RDecl) (st : RState) : M RState :=
  match st.scopes.insert x.name x with
  | none => .error .panic
  | some m =>
    match st.scopes.localGet x.name with
    | some prev => if prev = x then .ok { st with scopes := m } else .error (.alreadyDefined x prev)
    | none => if (st.ctx x).isSome then .error .panic else .ok ⟨m, Function.update st.ctx x (some d)⟩

/-- `Resolve::visit_ident` (`src/front/resolve.rs:296-303`). -/
def ident (x : Ident) (st : RState) : M Ident :=
  match st.scopes.get x.name with
  | some y => .ok y
  | none => .error (.notFound x)

/-- `Resolve::visit_ident` for several identifiers (`src/ast/visit.rs:233-235,239-241`). -/
def idents : List Ident → RState → M (List Ident)
  | [], _ => .ok []
  | x :: xs, st => do
    let y ← ident x st
    let ys ← idents xs st
    return y :: ys

/-- `Resolve::declare` for several declarations. -/
def declareAll : List (Ident × RDecl) → RState → M RState
  | [], st => .ok st
  | (x, d) :: ds, st => do
    let st ← st.declare x d
    declareAll ds st

/-- The closure in `visit_stmt`: the declaration if it is an annotation (`src/front/resolve.rs:224-230`). -/
def asAnnot (Γ : Ctx) : ScopeEntry Ident → Option (Ident × AnnKind)
  | .value v =>
    match Γ v with
    | some (.annot k) => some (v, k)
    | _ => none
  | .deleted => none

/-- The search for the declaration of an annotation (`src/front/resolve.rs:224-230`). The names of annotations and of their
declarations are the same (`src/intrinsic/annotations.rs:208-215`). -/
def annot (f : Ident) (st : RState) : M (Ident × AnnKind) :=
  match st.scopes.findMap f.name (asAnnot st.ctx) with
  | some r => .ok r
  | none => .error (.notFound f)

end RState

open RState

/-- The declarations of the variables of a quantifier (`src/front/parser/grammar.lalrpop:172-175`). -/
def quantDecls (vs : List QVar) : List (Ident × RDecl) := vs.map fun v => (v.var.id, .var (.val v.var.ty) .quant)

mutual

/-- `Resolve::visit_expr` (`src/front/resolve.rs:273-294`) and `walk_expr` (`src/ast/visit.rs:173-213`). -/
def resE : RExpr → RState → M (RExpr × RState)
  | .var t x, st => do
    let y ← ident x st
    return (.var t y, st)
  | .call t f args, st => do
    let g ← ident f st
    let (args, st) ← resL args st
    return (.call t g args, st)
  | .ite t c a b, st => do
    let (c, st) ← resE c st
    let (a, st) ← resE a st
    let (b, st) ← resE b st
    return (.ite t c a b, st)
  | .bin t op a b, st => do
    let (a, st) ← resE a st
    let (b, st) ← resE b st
    return (.bin t op a b, st)
  | .un t op a, st => do
    let (a, st) ← resE a st
    return (.un t op a, st)
  | .cast t a, st => do
    let (a, st) ← resE a st
    return (.cast t a, st)
  | .quant t op vs tr a, st => do
    let st₁ ← declareAll (quantDecls vs) st.enter
    let (tr, st₂) ← resLL tr st₁
    let (a, st₃) ← resE a st₂
    let st₄ ← st₃.leave st.token
    return (.quant t op vs tr a, st₄)
  | .subst t x v a, st => do
    let (v, st) ← resE v st
    let st₁ ← st.enter.declare x (.var .none .subst)
    let (a, st₂) ← resE a st₁
    let st₃ ← st₂.leave st.token
    return (.subst t x v a, st₃)
  | .lit t l, st => return (.lit t l, st)

/-- `visit_exprs` (`src/ast/visit.rs:83-88`). -/
def resL : List RExpr → RState → M (List RExpr × RState)
  | [], st => return ([], st)
  | e :: es, st => do
    let (e, st) ← resE e st
    let (es, st) ← resL es st
    return (e :: es, st)

/-- `walk_quant_ann` (`src/ast/visit.rs:215-222`). -/
def resLL : List (List RExpr) → RState → M (List (List RExpr) × RState)
  | [], st => return ([], st)
  | es :: ess, st => do
    let (es, st) ← resL es st
    let (ess, st) ← resLL ess st
    return (es :: ess, st)

end

/-- `AnnotationKind::resolve` (`src/intrinsic/annotations.rs:231-242`): `visit_exprs` for most encodings
(`src/proof_rules/induction.rs:78-85,168-175`, `src/proof_rules/unroll.rs:76-83`, `src/proof_rules/past.rs:70-77`), with the check of the number of
arguments for `@ost` (`src/proof_rules/ost.rs:83-94`), nothing for slicing, and for `@omega_invariant` (`src/proof_rules/omega.rs:66-91`) and
`@ast` (`src/proof_rules/mciver_ast.rs:86-113`) the declaration of the free variable. -/
def resArgs (k : AnnKind) (args : List RExpr) (st : RState) : M (List RExpr × RState) :=
  match k with
  | .invariant | .kInduction | .unroll | .past => resL args st
  | .ost =>
    match args with
    | [_, _, _, _] => resL args st
    | _ => .error .panic
  | .slice _ _ => return (args, st)
  | .omegaInvariant =>
    match args with
    | [] => return ([], st)
    | .var t x :: as => do
      let st ← st.declare x (.var (.val .uint) .mut)
      let (as, st) ← resL as st
      return (.var t x :: as, st)
    | _ => .error .notIdent
  | .ast =>
    match args with
    | [i, v, x, p, d] => do
      let (i, st) ← resE i st
      let (v, st) ← resE v st
      match x with
      | .var t x => do
        let st ← st.declare x (.var (.val .ureal) .mut)
        let (p, st) ← resE p st
        let (d, st) ← resE d st
        return ([i, v, .var t x, p, d], st)
      | _ => .error .notIdent
    | _ => .error .panic

mutual

/-- `Resolve::visit_stmt` (`src/front/resolve.rs:197-244`) and `walk_stmt` (`src/ast/visit.rs:224-291`). -/
def resS : RStmt → RState → M (RStmt × RState)
  | .seq ss, st => do
    let (ss, st₁) ← resB ss st.enter
    let st₂ ← st₁.leave st.token
    return (.seq ss, st₂)
  | .var x t none, st => do
    let st ← st.declare x (.var (.val t) .mut)
    return (.var x t none, st)
  | .var x t (some e), st => do
    let (e, st) ← resE e st
    let st ← st.declare x (.var (.val t) .mut)
    return (.var x t (some e), st)
  | .assign lhs e, st => do
    let lhs ← idents lhs st
    let (e, st) ← resE e st
    return (.assign lhs e, st)
  | .havoc d xs, st => do
    let xs ← idents xs st
    return (.havoc d xs, st)
  | .assert d e, st => do
    let (e, st) ← resE e st
    return (.assert d e, st)
  | .assume d e, st => do
    let (e, st) ← resE e st
    return (.assume d e, st)
  | .compare d e, st => do
    let (e, st) ← resE e st
    return (.compare d e, st)
  | .negate d, st => return (.negate d, st)
  | .validate d, st => return (.validate d, st)
  | .tick e, st => do
    let (e, st) ← resE e st
    return (.tick e, st)
  | .weigh e, st => do
    let (e, st) ← resE e st
    return (.weigh e, st)
  | .demonic a b, st => do
    let (a, st₁) ← resB a st.enter
    let st₂ ← st₁.leave st.token
    let (b, st₃) ← resB b st₂.enter
    let st₄ ← st₃.leave st₂.token
    return (.demonic a b, st₄)
  | .angelic a b, st => do
    let (a, st₁) ← resB a st.enter
    let st₂ ← st₁.leave st.token
    let (b, st₃) ← resB b st₂.enter
    let st₄ ← st₃.leave st₂.token
    return (.angelic a b, st₄)
  | .additive a b, st => do
    let (a, st₁) ← resB a st.enter
    let st₂ ← st₁.leave st.token
    let (b, st₃) ← resB b st₂.enter
    let st₄ ← st₃.leave st₂.token
    return (.additive a b, st₄)
  | .ite c a b, st => do
    let (c, st) ← resE c st
    let (a, st₁) ← resB a st.enter
    let st₂ ← st₁.leave st.token
    let (b, st₃) ← resB b st₂.enter
    let st₄ ← st₃.leave st₂.token
    return (.ite c a b, st₄)
  | .while c b, st => do
    let (c, st) ← resE c st
    let (b, st₁) ← resB b st.enter
    let st₂ ← st₁.leave st.token
    return (.while c b, st₂)
  | .annot f args s, st => do
    let (g, k) ← RState.annot f st
    let (args, st) ← resArgs k args st
    let (s, st₁) ← resS s st.enter
    let st₂ ← st₁.leave st.token
    return (.annot g args s, st₂)
  | .label l, st => do
    let st ← st.declare l .other
    return (.label l, st)

/-- `visit_stmts` (`src/ast/visit.rs:60-69`). -/
def resB : List RStmt → RState → M (List RStmt × RState)
  | [], st => return ([], st)
  | s :: ss, st => do
    let (s, st) ← resS s st
    let (ss, st) ← resB ss st
    return (s :: ss, st)

end

/-! ## Declarations and files -/

/-- `ProcDecl` with its annotation for the calculus (`src/ast/decl.rs:317-328`). -/
structure SProc where
  proc : RProc
  calculus : Option Ident

/-- `DomainSpec` (`src/ast/decl.rs:474-477`) with `FuncDecl` and `AxiomDecl`. -/
inductive DomItem where
  | func (name : Ident) (inputs : List Var) (out : Ty) (body : Option RExpr)
  | ax (name : Ident) (e : RExpr)

/-- `SourceUnit` (`src/driver/front.rs:311-314`). The grammar has procedures and domains as declarations
(`src/front/parser/grammar.lalrpop:245-251`). -/
inductive RUnit where
  | proc (p : SProc)
  | domain (name : Ident) (items : List DomItem)
  | raw (block : List RStmt)

/-- `VarDecl::from_param` (`src/ast/decl.rs:232-242`) for the parameters of a procedure. -/
def paramDecls (p : RProc) : List (Ident × RDecl) :=
  p.inputs.map (fun v => (v.var.id, .var (.val v.var.ty) .input)) ++ p.outputs.map fun v => (v.id, .var (.val v.ty) .output)

/-- The declaration of a procedure. -/
def procDecl (p : RProc) : RDecl := .proc (p.inputs.map (·.var.ty)) (p.outputs.map (·.ty))

/-- `Resolve::assert_declared` (`src/front/resolve.rs:63-65`). -/
def assertDeclared (x : Ident) (st : RState) : M Unit :=
  if st.scopes.get x.name = some x then .ok () else .error .panic

/-- The loop over the specifications (`src/front/resolve.rs:135-137`, `src/ast/visit.rs:122-128`). -/
def resSpecs : List RSpec → RState → M (List RSpec × RState)
  | [], st => return ([], st)
  | .requires e :: ss, st => do
    let (e, st) ← resE e st
    let (ss, st) ← resSpecs ss st
    return (.requires e :: ss, st)
  | .ensures e :: ss, st => do
    let (e, st) ← resE e st
    let (ss, st) ← resSpecs ss st
    return (.ensures e :: ss, st)

/-- The annotation for the calculus (`src/front/resolve.rs:139-141`). -/
def resCalculus : Option Ident → RState → M (Option Ident)
  | none, _ => .ok none
  | some c, st => do
    let c ← ident c st
    return some c

/-- The body (`src/front/resolve.rs:143-146`). -/
def resBody : Option (List RStmt) → RState → M (Option (List RStmt) × RState)
  | none, st => return (none, st)
  | some b, st => do
    let (b, st) ← resB b st
    return (some b, st)

/-- `Resolve::visit_proc` (`src/front/resolve.rs:121-153`). -/
def resProc (p : SProc) (st : RState) : M (SProc × RState) := do
  assertDeclared p.proc.name st
  let st₁ ← declareAll (paramDecls p.proc) st.enter
  let (spec, st₂) ← resSpecs p.proc.spec st₁
  let calculus ← resCalculus p.calculus st₂
  let (body, st₃) ← resBody p.proc.body st₂
  let st₄ ← st₃.leave st.token
  let st₅ ← st₄.declare p.proc.name (procDecl p.proc)
  return (⟨{ p.proc with spec := spec, body := body }, calculus⟩, st₅)

/-- The name and the declaration of an item (`src/front/resolve.rs:160-169`). -/
def DomItem.decl : DomItem → Ident × RDecl
  | .func f ins out _ => (f, .func (ins.map (·.ty)) out)
  | .ax f _ => (f, .other)

/-- The parameters of a function (`src/front/resolve.rs:180-184`). -/
def funcParams (ins : List Var) : List (Ident × RDecl) := ins.map fun v => (v.id, .var (.val v.ty) .input)

/-- The body of a function (`src/front/resolve.rs:186-189`). -/
def resFuncBody : Option RExpr → RState → M (Option RExpr × RState)
  | none, st => return (none, st)
  | some e, st => do
    let (e, st) ← resE e st
    return (some e, st)

/-- `Resolve::visit_func` (`src/front/resolve.rs:176-195`), and the visit of an axiom (`src/ast/visit.rs:135-139`). -/
def resItem : DomItem → RState → M (DomItem × RState)
  | .func f ins out body, st => do
    assertDeclared f st
    let st₁ ← declareAll (funcParams ins) st.enter
    let (body, st₂) ← resFuncBody body st₁
    let st₃ ← st₂.leave st.token
    let st₄ ← st₃.declare f (.func (ins.map (·.ty)) out)
    return (.func f ins out body, st₄)
  | .ax f e, st => do
    let g ← ident f st
    let (e, st) ← resE e st
    return (.ax g e, st)

/-- The loop of `walk_domain` (`src/ast/visit.rs:130-143`). -/
def resItems : List DomItem → RState → M (List DomItem × RState)
  | [], st => return ([], st)
  | i :: is, st => do
    let (i, st) ← resItem i st
    let (is, st) ← resItems is st
    return (i :: is, st)

/-- `SourceUnit::resolve` (`src/driver/front.rs:365-372`), with `Resolve::visit_domain` (`src/front/resolve.rs:155-174`). -/
def resUnit : RUnit → RState → M (RUnit × RState)
  | .proc p, st => do
    let (p, st) ← resProc p st
    return (.proc p, st)
  | .domain d items, st => do
    assertDeclared d st
    let st ← declareAll (items.map DomItem.decl) st
    let d ← ident d st
    let (items, st) ← resItems items st
    return (.domain d items, st)
  | .raw b, st => do
    let (b, st₁) ← resB b st.enter
    let st₂ ← st₁.leave st.token
    return (.raw b, st₂)

/-- `SourceUnit::forward_declare` (`src/driver/front.rs:354-361`): the declarations of a unit. -/
def RUnit.decl : RUnit → List (Ident × RDecl)
  | .proc p => [(p.proc.name, procDecl p.proc)]
  | .domain d _ => [(d, .other)]
  | .raw _ => []

/-- The second loop of `Module::resolve` (`src/driver/front.rs:164-172`). -/
def resUnits : List RUnit → RState → M (List RUnit × RState)
  | [], st => return ([], st)
  | u :: us, st => do
    let (u, st) ← resUnit u st
    let (us, st) ← resUnits us st
    return (u :: us, st)

/-- `Module::resolve` (`src/driver/front.rs:164-172`). -/
def resModule (us : List RUnit) (st : RState) : M (List RUnit × RState) := do
  let st ← declareAll (us.flatMap RUnit.decl) st
  resUnits us st

/-- `Resolve::new` (`src/front/resolve.rs:24-32`): a scope with the global names and an empty one. -/
def RState.new (globals : List Ident) (Γ : Ctx) : RState :=
  ⟨⟨[[], globals.map fun x => (x.name, .value x)]⟩, Γ⟩

end Front
end Caesar
