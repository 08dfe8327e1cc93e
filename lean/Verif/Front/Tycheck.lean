import Verif.Front.Raw

/-!
# The type checker

Models `src/front/tycheck.rs`, with the `tycheck` functions of the intrinsics (`src/intrinsic/distributions.rs:88-96`,
`src/intrinsic/list.rs:40-65,98-126,150-164`) and of the annotations (`src/intrinsic/annotations.rs:218-255`). Errors and panics
are `none`; warnings are left out.
-/

namespace Caesar
namespace Front

/-- `TyKind::partial_cmp` (`src/ast/ty.rs:111-136`). -/
def RTy.partialCmp : RTy → RTy → Option Ordering
  | .val a, .val b => a.partialCmp b
  | a, b => if a = b then some .eq else Option.none

/-- `wrap_cast_expr` (`src/front/tycheck.rs:203-212`). -/
def wrapCast (t : RTy) (e : RExpr) : RExpr := .cast (some t) e

/-- `Tycheck::try_cast` (`src/front/tycheck.rs:42-66`). -/
def tryCast (target : RTy) (e : RExpr) : Option RExpr := do
  let t ← e.ty
  match target.partialCmp t with
  | some .eq => some e
  | some .gt => some (wrapCast target e)
  | _ => none

/-- `Tycheck::try_unify` (`src/front/tycheck.rs:106-125`). -/
def tryUnify (a b : RExpr) : Option (RTy × RExpr × RExpr) := do
  let s ← a.ty
  let t ← b.ty
  match s.partialCmp t with
  | some .eq => some (s, a, b)
  | some .lt => some (t, wrapCast t a, b)
  | some .gt => some (s, a, wrapCast s b)
  | none => none

/-- The loop of `Tycheck::check_call` (`src/front/tycheck.rs:166-175`). -/
def checkArgs : List RParam → List RExpr → Option (List RExpr)
  | (t, literal) :: ps, a :: as => do
    if literal && !a.isLit then none
    let a ← tryCast t a
    let as ← checkArgs ps as
    return a :: as
  | _, as => some as

/-- `Tycheck::check_call` (`src/front/tycheck.rs:153-177`). -/
def checkCall (ps : List RParam) (as : List RExpr) : Option (List RExpr) :=
  if as.length ≠ ps.length then none else checkArgs ps as

/-- The `tycheck` functions of the functions on lists (`src/intrinsic/list.rs:40-65,98-126,150-164`). `len` does not look at the
type of its argument. -/
def checkListOp (k : ListOp) (as : List RExpr) : Option (List RExpr × RTy) :=
  match k, as with
  | .select, [l, i] =>
    match l.ty with
    | some (.val (.list t)) => do
      let i ← tryCast (.val .uint) i
      return ([l, i], .val t)
    | _ => none
  | .store, [l, i, v] =>
    match l.ty with
    | some (.val (.list t)) => do
      let i ← tryCast (.val .uint) i
      let v ← tryCast (.val t) v
      return ([l, i, v], .val (.list t))
    | _ => none
  | .len, [l] => some ([l], .val .uint)
  | _, _ => none

/-- The macro `op_ty_check` (`src/front/tycheck.rs:390-401`). -/
def opTy (allowed : Ty → Bool) (a : RExpr) : Option Unit :=
  match a.ty with
  | some (.val t) => if allowed t then some () else none
  | _ => none

/-- Operand types of `&&`, `||` (`src/front/tycheck.rs:702-705`). -/
def isBool : Ty → Bool
  | .bool => true
  | _ => false

/-- The case `Div` (`src/front/tycheck.rs:687-697`): both attempts to cast to `UReal` are made and keep their effect. -/
def checkDiv (a b : RExpr) : Option (RTy × RExpr × RExpr) :=
  let ra := tryCast (.val .ureal) a
  let rb := tryCast (.val .ureal) b
  let a := ra.getD a
  let b := rb.getD b
  if ra.isSome && rb.isSome then some (.val .ureal, a, b)
  else do
    let a ← tryCast (.val .real) a
    let b ← tryCast (.val .real) b
    return (.val .real, a, b)

/-- The case `Binary` (`src/front/tycheck.rs:664-733`): the type of the result and the operands with casts. -/
def checkBin (op : RBin) (a b : RExpr) : Option (RTy × RExpr × RExpr) :=
  match op with
  | .add | .sub | .mul | .inf | .sup => do
    opTy Ty.isNum a
    opTy Ty.isNum b
    tryUnify a b
  | .div => checkDiv a b
  | .mod => do
    opTy Ty.isInteger a
    opTy Ty.isInteger b
    tryUnify a b
  | .and | .or => do
    opTy isBool a
    opTy isBool b
    return (.val .bool, a, b)
  | .eq | .ne => do
    let (_, a, b) ← tryUnify a b
    return (.val .bool, a, b)
  | .lt | .le | .ge | .gt => do
    opTy Ty.isNum a
    opTy Ty.isNum b
    let (_, a, b) ← tryUnify a b
    return (.val .bool, a, b)
  | .impl | .coimpl | .compare | .cocompare => do
    opTy Ty.isLat a
    opTy Ty.isLat b
    tryUnify a b

/-- The case `Unary` (`src/front/tycheck.rs:734-749`). -/
def checkUn (op : RUn) (a : RExpr) : Option (RTy × RExpr) :=
  match op with
  | .not | .non => do
    opTy Ty.isLat a
    let t ← a.ty
    return (t, a)
  | .embed | .iverson => do
    let a ← tryCast (.val .bool) a
    return (.val .eureal, a)
  | .parens => do
    let t ← a.ty
    return (t, a)

/-- `TyCtx::lit_ty` (`src/tyctx.rs:150-158`). -/
def litTy : RLit → RTy
  | .str _ => .string
  | .uint _ => .val .uint
  | .frac _ => .val .ureal
  | .infinity => .val .eureal
  | .bool _ => .val .bool

/-- The end of `visit_expr` (`src/front/tycheck.rs:784-788`): an existing annotation must be the computed type. -/
def finish (t : RTy) (e : RExpr) : Option RExpr :=
  match e.ty with
  | some t' => if t' = t then some e else none
  | none => some (e.setTy t)

/-- The types that quantifiers allow (`src/front/tycheck.rs:756-763`). -/
def quantTy : QOp → Ty
  | .inf | .sup => .eureal
  | .forall | .exists => .bool

mutual

/-- The variables collected by `FreeVariableCollector` in a trigger (`src/ast/util.rs:31-63`), as a membership test: variables that are
not bound inside. The collector panics on `let`, see `RExpr.hasLet`. -/
def RExpr.freeIn (x : Ident) : RExpr → Bool
  | .var _ y => x = y
  | .call _ _ args => freeInL x args
  | .ite _ c a b => c.freeIn x || a.freeIn x || b.freeIn x
  | .bin _ _ a b => a.freeIn x || b.freeIn x
  | .un _ _ a => a.freeIn x
  | .cast _ a => a.freeIn x
  | .quant _ _ vs _ a => a.freeIn x && !(vs.map fun v => v.var.id).contains x
  | .subst _ _ _ _ => false
  | .lit _ _ => false

/-- `RExpr.freeIn` for lists. -/
def freeInL (x : Ident) : List RExpr → Bool
  | [] => false
  | e :: es => e.freeIn x || freeInL x es

end

mutual

/-- The panic of `FreeVariableCollector` on `let` (`src/ast/util.rs:58-60`): there is one outside of nested triggers. -/
def RExpr.hasLet : RExpr → Bool
  | .var _ _ => false
  | .call _ _ args => hasLetL args
  | .ite _ c a b => c.hasLet || a.hasLet || b.hasLet
  | .bin _ _ a b => a.hasLet || b.hasLet
  | .un _ _ a => a.hasLet
  | .cast _ a => a.hasLet
  | .quant _ _ _ _ a => a.hasLet
  | .subst _ _ _ _ => true
  | .lit _ _ => false

/-- `RExpr.hasLet` for lists. -/
def hasLetL : List RExpr → Bool
  | [] => false
  | e :: es => e.hasLet || hasLetL es

end

/-- The capture check of triggers (`src/front/tycheck.rs:764-777`): every trigger contains all quantified variables. -/
def captures (vs : List QVar) (triggers : List (List RExpr)) : Bool :=
  triggers.all fun tr => !hasLetL tr && vs.all fun v => freeInL v.var.id tr

/-- The part of the case `Subst` that sets the type of the variable (`src/front/tycheck.rs:591-598`). -/
def letTy (x : Ident) (v : RExpr) (Γ : Ctx) : Option Ctx :=
  match Γ x with
  | some (.var .none k) => do
    let t ← v.ty
    return Function.update Γ x (some (.var t k))
  | some (.var _ _) => some Γ
  | _ => none

mutual

/-- `Tycheck::visit_expr` (`src/front/tycheck.rs:582-789`). `pre` is `checking_pre`, `impure` is `allow_impure_calls`. The result contains
the declarations because `let` sets the type of its variable.

The code visits triggers twice, first in `walk_expr` and then in `walk_quant_ann`; the model visits them once. `C59_recheck`
shows that a second visit changes nothing. -/
def check (pre impure : Bool) : RExpr → Ctx → Option (RExpr × Ctx)
  | .var ty x, Γ =>
    match Γ x with
    | some (.var t k) => if pre && k = .output then none else do
      let e ← finish t (.var ty x)
      return (e, Γ)
    | _ => none
  | .call ty f args, Γ => do
    let (args, Γ) ← checkL pre args Γ
    let d ← Γ f
    if !impure && d.isProc then none
    match d with
    | .proc ins outs =>
      let args ← checkCall (plainParams ins) args
      let e ← finish (.tuple outs) (.call ty f args)
      return (e, Γ)
    | .func ins out =>
      let args ← checkCall (plainParams ins) args
      let e ← finish (.val out) (.call ty f args)
      return (e, Γ)
    | .dist k =>
      let args ← checkCall k.params args
      let e ← finish (.tuple [k.out]) (.call ty f args)
      return (e, Γ)
    | .listOp k =>
      let (args, t) ← checkListOp k args
      let e ← finish t (.call ty f args)
      return (e, Γ)
    | _ => none
  | .ite ty c a b, Γ => do
    let (c, Γ) ← check pre false c Γ
    let (a, Γ) ← check pre false a Γ
    let (b, Γ) ← check pre false b Γ
    let c ← tryCast (.val .bool) c
    let (t, a, b) ← tryUnify a b
    let e ← finish t (.ite ty c a b)
    return (e, Γ)
  | .bin ty op a b, Γ => do
    let (a, Γ) ← check pre false a Γ
    let (b, Γ) ← check pre false b Γ
    let (t, a, b) ← checkBin op a b
    let e ← finish t (.bin ty op a b)
    return (e, Γ)
  | .un ty op a, Γ => do
    let (a, Γ) ← check pre false a Γ
    let (t, a) ← checkUn op a
    let e ← finish t (.un ty op a)
    return (e, Γ)
  | .cast ty a, Γ => do
    let (a, Γ) ← check pre false a Γ
    let t ← ty.or a.ty
    let e ← finish t (.cast ty a)
    return (e, Γ)
  | .quant ty op vs triggers a, Γ => do
    let (triggers, Γ) ← checkLL pre triggers Γ
    let (a, Γ) ← check pre false a Γ
    opTy (fun t => t = quantTy op) a
    if !captures vs triggers then none
    let e ← finish (.val (quantTy op)) (.quant ty op vs triggers a)
    return (e, Γ)
  | .subst ty x v a, Γ => do
    let (v, Γ) ← check pre false v Γ
    let Γ ← letTy x v Γ
    let (a, Γ) ← check pre false a Γ
    let t ← a.ty
    let e ← finish t (.subst ty x v a)
    return (e, Γ)
  | .lit ty l, Γ => do
    let e ← finish (litTy l) (.lit ty l)
    return (e, Γ)

/-- `visit_exprs` (`src/ast/visit.rs:83-88`). -/
def checkL (pre : Bool) : List RExpr → Ctx → Option (List RExpr × Ctx)
  | [], Γ => some ([], Γ)
  | e :: es, Γ => do
    let (e, Γ) ← check pre false e Γ
    let (es, Γ) ← checkL pre es Γ
    return (e :: es, Γ)

/-- `walk_quant_ann` (`src/ast/visit.rs:215-222`). -/
def checkLL (pre : Bool) : List (List RExpr) → Ctx → Option (List (List RExpr) × Ctx)
  | [], Γ => some ([], Γ)
  | es :: ess, Γ => do
    let (es, Γ) ← checkL pre es Γ
    let (ess, Γ) ← checkLL pre ess Γ
    return (es :: ess, Γ)

end

/-! ## Statements -/

/-- `Tycheck::visit_var_decl` (`src/front/tycheck.rs:415-436`) for the initialiser. -/
def checkVarDecl (t : Ty) : Option RExpr → Ctx → Option (Option RExpr × Ctx)
  | none, Γ => some (none, Γ)
  | some e, Γ => do
    let (e, Γ) ← check false true e Γ
    if e.ty = some (.tuple [t]) then return (some e, Γ)
    let e ← tryCast (.val t) e
    return (some e, Γ)

/-- The loop of `try_assign_tuple` (`src/front/tycheck.rs:83-101`). -/
def assignTuple (Γ : Ctx) : List Ident → List Ty → Bool
  | [], [] => true
  | x :: xs, t :: ts =>
    match Γ x with
    | some (.var t' k) => k.isMutable && t' = .val t && assignTuple Γ xs ts
    | _ => false
  | _, _ => false

/-- The case `Assign` of `visit_stmt` (`src/front/tycheck.rs:494-540`), after the visit of the right-hand side. -/
def checkAssign (Γ : Ctx) (lhs : List Ident) (rhs : RExpr) : Option RExpr :=
  let single : Option RExpr :=
    match lhs with
    | [x] =>
      match Γ x with
      | some (.var t k) => if k.isMutable then tryCast t rhs else none
      | _ => none
    | _ => none
  match rhs.ty with
  | some (.tuple ts) =>
    if assignTuple Γ lhs ts then some rhs
    else if lhs.length ≠ 1 then none
    else single
  | some _ => single
  | none => none

/-- The case `Havoc` of `visit_stmt` (`src/front/tycheck.rs:541-552`). -/
def havocOk (Γ : Ctx) (xs : List Ident) : Bool :=
  xs.all fun x => match Γ x with | some (.var _ k) => k.isMutable | _ => false

/-- Visit an expression and cast it. -/
def checkCast (t : Ty) (e : RExpr) (Γ : Ctx) : Option (RExpr × Ctx) := do
  let (e, Γ) ← check false false e Γ
  let e ← tryCast (.val t) e
  return (e, Γ)

mutual

/-- `Tycheck::visit_stmt` (`src/front/tycheck.rs:482-580`). A variable declaration is visited by `walk_stmt` and once more. -/
def checkS : RStmt → Ctx → Option (RStmt × Ctx)
  | .seq ss, Γ => do
    let (ss, Γ) ← checkSL ss Γ
    return (.seq ss, Γ)
  | .var x t init, Γ => do
    let (init, Γ) ← checkVarDecl t init Γ
    let (init, Γ) ← checkVarDecl t init Γ
    return (.var x t init, Γ)
  | .assign lhs rhs, Γ => do
    let (rhs, Γ) ← check false true rhs Γ
    let rhs ← checkAssign Γ lhs rhs
    return (.assign lhs rhs, Γ)
  | .havoc d xs, Γ => if havocOk Γ xs then some (.havoc d xs, Γ) else none
  | .assert d e, Γ => do
    let (e, Γ) ← checkCast .eureal e Γ
    return (.assert d e, Γ)
  | .assume d e, Γ => do
    let (e, Γ) ← checkCast .eureal e Γ
    return (.assume d e, Γ)
  | .compare d e, Γ => do
    let (e, Γ) ← checkCast .eureal e Γ
    return (.compare d e, Γ)
  | .negate d, Γ => some (.negate d, Γ)
  | .validate d, Γ => some (.validate d, Γ)
  | .tick e, Γ => do
    let (e, Γ) ← checkCast .eureal e Γ
    return (.tick e, Γ)
  | .weigh e, Γ => do
    let (e, Γ) ← checkCast .eureal e Γ
    return (.weigh e, Γ)
  | .demonic a b, Γ => do
    let (a, Γ) ← checkSL a Γ
    let (b, Γ) ← checkSL b Γ
    return (.demonic a b, Γ)
  | .angelic a b, Γ => do
    let (a, Γ) ← checkSL a Γ
    let (b, Γ) ← checkSL b Γ
    return (.angelic a b, Γ)
  | .additive a b, Γ => do
    let (a, Γ) ← checkSL a Γ
    let (b, Γ) ← checkSL b Γ
    return (.additive a b, Γ)
  | .ite c a b, Γ => do
    let (c, Γ) ← check false false c Γ
    let (a, Γ) ← checkSL a Γ
    let (b, Γ) ← checkSL b Γ
    let c ← tryCast (.val .bool) c
    return (.ite c a b, Γ)
  | .while c b, Γ => do
    let (c, Γ) ← check false false c Γ
    let (b, Γ) ← checkSL b Γ
    let c ← tryCast (.val .bool) c
    return (.while c b, Γ)
  | .annot f args s, Γ => do
    let (args, Γ) ← checkL false args Γ
    let (s, Γ) ← checkS s Γ
    match Γ f with
    | some (.annot k) =>
      let args ← checkCall k.params args
      return (.annot f args s, Γ)
    | _ => return (.annot f args s, Γ)
  | .label l, Γ => some (.label l, Γ)

/-- `visit_stmts` (`src/ast/visit.rs:60-65`). -/
def checkSL : List RStmt → Ctx → Option (List RStmt × Ctx)
  | [], Γ => some ([], Γ)
  | s :: ss, Γ => do
    let (s, Γ) ← checkS s Γ
    let (ss, Γ) ← checkSL ss Γ
    return (s :: ss, Γ)

end

/-- One iteration of the loop over specifications (`src/front/tycheck.rs:440-453`). -/
def checkSpec : RSpec → Ctx → Option (RSpec × Ctx)
  | .requires e, Γ => do
    let (e, Γ) ← check true false e Γ
    let e ← tryCast (.val .eureal) e
    return (.requires e, Γ)
  | .ensures e, Γ => do
    let (e, Γ) ← check false false e Γ
    let e ← tryCast (.val .eureal) e
    return (.ensures e, Γ)

/-- The loop over specifications (`src/front/tycheck.rs:440-453`). -/
def checkSpecs : List RSpec → Ctx → Option (List RSpec × Ctx)
  | [], Γ => some ([], Γ)
  | s :: ss, Γ => do
    let (s, Γ) ← checkSpec s Γ
    let (ss, Γ) ← checkSpecs ss Γ
    return (s :: ss, Γ)

/-- `Tycheck::visit_proc` (`src/front/tycheck.rs:438-463`). -/
def checkProcDecl (p : RProc) (Γ : Ctx) : Option (RProc × Ctx) := do
  let (spec, Γ) ← checkSpecs p.spec Γ
  match p.body with
  | none => return ({ p with spec := spec }, Γ)
  | some b =>
    let (b, Γ) ← checkSL b Γ
    return ({ p with spec := spec, body := some b }, Γ)

/-- The axiom of a domain: `walk_domain` visits the expression and does not call `visit_axiom` (`src/ast/visit.rs:130-143`), so that it is not
cast to `Bool`. -/
def checkAxiom (e : RExpr) (Γ : Ctx) : Option (RExpr × Ctx) := check false false e Γ

/-- The body of a function: `visit_func` (`src/front/tycheck.rs:465-473`). -/
def checkFuncBody (out : Ty) (e : RExpr) (Γ : Ctx) : Option (RExpr × Ctx) := checkCast out e Γ

end Front
end Caesar
