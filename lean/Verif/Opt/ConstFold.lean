import Verif.Lattice
import Verif.Tot
import Verif.Smt.Concrete
import Mathlib.Data.Rat.Floor

/-!
# Model of constant folding

Models `src/opt/constfold.rs`.
-/

namespace Caesar

open Smt (Concrete)

/-- The literal with its type forgotten: `LitKind` (`src/ast/expr.rs:371-382`). -/
inductive LitKind where
  | bool (b : Bool) | uint (n : Nat) | frac (q : ℚ≥0) | infinity
  deriving DecidableEq

/-- `lit.node`. (`src/opt/constfold.rs:133,154,165`) -/
def Lit.kind : {t : Ty} → Lit t → LitKind
  | _, .bool b => .bool b
  | _, .uint n => .uint n
  | _, .ufrac q => .frac q
  | _, .rfrac q => .frac q
  | _, .efrac q => .frac q
  | _, .infty => .infinity

/-- The literal under any number of casts: `deref_cast` (`src/opt/constfold.rs:145-150`) followed by matching on `ExprKind::Lit`. -/
def Expr.derefLit : {t : Ty} → Expr t → Option LitKind
  | _, .lit l => some l.kind
  | _, .cast _ a => a.derefLit
  | _, _ => none

/-- `is_zero_lit` (`src/opt/constfold.rs:152-161`). -/
def Expr.isZeroLit {t : Ty} (e : Expr t) : Bool :=
  match e.derefLit with
  | some (.uint n) => n == 0
  | some (.frac q) => decide (q = 0)
  | _ => false

/-- `is_one_lit` (`src/opt/constfold.rs:163-172`). -/
def Expr.isOneLit {t : Ty} (e : Expr t) : Bool :=
  match e.derefLit with
  | some (.uint n) => n == 1
  | some (.frac q) => decide (q = 1)
  | _ => false

/-- `extract_const_number` (`src/opt/constfold.rs:174-187`). -/
def Expr.constNumber {t : Ty} (e : Expr t) : Option Concrete :=
  match e.derefLit with
  | some (.uint n) => some (.real n)
  | some (.frac q) => some (.real q)
  | some .infinity => some .infinity
  | _ => none

/-- `ExprBuilder::bot_lit` (`src/ast/expr.rs:596-612`) for all types; `none` is the `panic!`. -/
def botLit? : (t : Ty) → Option (Expr t)
  | .bool => some (Expr.boolLit false)
  | .uint => some (Expr.uintLit 0)
  | .ureal => some (.cast .uintUReal (Expr.uintLit 0))
  | .eureal => some (.cast .uintEUReal (Expr.uintLit 0))
  | _ => none

/-- `ExprBuilder::top_lit` (`src/ast/expr.rs:587-593`) for all types. -/
def topLit? : (t : Ty) → Option (Expr t)
  | .bool => some (Expr.boolLit true)
  | .eureal => some Expr.inftyLit
  | _ => none

/-- `ExprBuilder::zero_lit` (`src/ast/expr.rs:615-622`). For `Real` the code builds a cast of a literal of type `EUReal`; the model has the literal
of type `Real`. -/
def zeroLit? : (t : Ty) → Option (Expr t)
  | .int => some (.cast .uintInt (Expr.uintLit 0))
  | .real => some (.lit (.rfrac 0))
  | t => botLit? t

/-- The arithmetic of `const_binop` (`src/opt/constfold.rs:207-214`). -/
def BinOp.concrete : {t : Ty} → BinOp t → Concrete → Concrete → Option Concrete
  | _, .add _, a, b => some (a.add b)
  | _, .sub _, a, b => a.sub b
  | _, .mul _, a, b => some (a.mul b)
  | _, .and, a, b => some (if a.le b then a else b)
  | _, .or, a, b => some (if b.le a then a else b)
  | _, .inf _, a, b => some (if a.le b then a else b)
  | _, .sup _, a, b => some (if b.le a then a else b)
  | _, _, _, _ => none

/-- The literal for the result of `const_binop` (`src/opt/constfold.rs:216-240`). Outer `none`: `unreachable!`. -/
def resultLit : (t : Ty) → Concrete → Option (Option (Expr t))
  | .eureal, .real q => some (some (.lit (.efrac q.toNNRat)))
  | .eureal, .infinity => some (some (.lit .infty))
  | .ureal, .real q => some (some (.lit (.ufrac q.toNNRat)))
  | .uint, .real q => some (some (.lit (.uint q.floor.toNat)))
  | .ureal, .infinity => none
  | .uint, .infinity => none
  | _, _ => some none

/-- The operand types supported by `const_binop` (`src/opt/constfold.rs:199-205`). -/
def Ty.isUnsigned : Ty → Bool
  | .eureal | .ureal | .uint => true
  | _ => false

/-- `const_binop` (`src/opt/constfold.rs:188-241`). Both operands have the type of the result. Outer `none`: panic; inner `none`: not applicable. -/
def constBinop {t : Ty} (op : BinOp t) (a b : Expr t) : Option (Option (Expr t)) :=
  match a.constNumber, b.constNumber with
  | some x, some y =>
    if t.isUnsigned then
      match op.concrete x y with
      | some res => resultLit t res
      | none => some none
    else some none
  | _, _ => some none

/-- The first `match` of `visit_expr` (`src/opt/constfold.rs:29-121`), after the operands were visited. -/
def Expr.foldIdentities : {t : Ty} → Expr t → Option (Expr t)
  | _, .bin (.add h) a b =>
    if a.isZeroLit then some b else if b.isZeroLit then some a else some (.bin (.add h) a b)
  | _, .bin (.sub h) a b =>
    if a.isZeroLit then some b else if b.isZeroLit then some a else some (.bin (.sub h) a b)
  | t, .bin (.mul h) a b =>
    if a.isZeroLit || b.isZeroLit then zeroLit? t
    else if a.isOneLit then some b else if b.isOneLit then some a else some (.bin (.mul h) a b)
  | t, .bin (.div h) a b =>
    if a.isZeroLit then zeroLit? t else if b.isOneLit then some a else some (.bin (.div h) a b)
  | _, .bin .and a b =>
    if a.isBotLit || b.isBotLit then botLit? .bool
    else if a.isTopLit then some b else if b.isTopLit then some a else some (.bin .and a b)
  | t, .bin (.inf h) a b =>
    if a.isBotLit || b.isBotLit then botLit? t
    else if a.isTopLit then some b else if b.isTopLit then some a else some (.bin (.inf h) a b)
  | _, .bin .or a b =>
    if a.isTopLit || b.isTopLit then topLit? .bool
    else if a.isBotLit then some b else if b.isBotLit then some a else some (.bin .or a b)
  | t, .bin (.sup h) a b =>
    if a.isTopLit || b.isTopLit then topLit? t
    else if a.isBotLit then some b else if b.isBotLit then some a else some (.bin (.sup h) a b)
  | t, .un (.not h) a => if a.isZeroLit then topLit? t else some (.un (.not h) a)
  | t, .un (.non h) a => if a.isTopLit then botLit? t else some (.un (.non h) a)
  | _, .un .parens a => some a
  | _, .embed a => if a.isBotLit then zeroLit? .eureal else if a.isTopLit then topLit? .eureal else some (.embed a)
  | _, .iverson a =>
    if a.isZeroLit then zeroLit? .eureal
    else if a.isOneLit then some (.cast .uintEUReal (Expr.uintLit 1)) else some (.iverson a)
  | _, e => some e

/-- The second `match` of `visit_expr` (`src/opt/constfold.rs:123-141`). -/
def Expr.foldConsts : {t : Ty} → Expr t → Option (Expr t)
  | _, .bin op a b => (constBinop op a b).map fun r => r.getD (.bin op a b)
  | _, .ite c a b =>
    match a.derefLit, b.derefLit with
    | some k, some l => if k = l then some a else some (.ite c a b)
    | _, _ => some (.ite c a b)
  | _, e => some e

/-- One node of `visit_expr`, after `walk_expr`. (`src/opt/constfold.rs:24-143`) -/
def Expr.foldNode {t : Ty} (e : Expr t) : Option (Expr t) := e.foldIdentities.bind Expr.foldConsts

/-- `ConstFold::visit_expr` (`src/opt/constfold.rs:24-143`). `none` is a panic. -/
def Expr.constFold : {t : Ty} → Expr t → Option (Expr t)
  | _, .var x => some (.var x)
  | _, .lit l => some (.lit l)
  | _, .call f args => (optTraverse _ fun i => (args i).constFold).bind fun args => (Expr.call f args).foldNode
  | _, .ite c a b =>
    c.constFold.bind fun c => a.constFold.bind fun a => b.constFold.bind fun b => (Expr.ite c a b).foldNode
  | _, .bin op a b => a.constFold.bind fun a => b.constFold.bind fun b => (Expr.bin op a b).foldNode
  | _, .rel op a b => a.constFold.bind fun a => b.constFold.bind fun b => (Expr.rel op a b).foldNode
  | _, .un op a => a.constFold.bind fun a => (Expr.un op a).foldNode
  | _, .embed a => a.constFold.bind fun a => (Expr.embed a).foldNode
  | _, .iverson a => a.constFold.bind fun a => (Expr.iverson a).foldNode
  | _, .cast c a => a.constFold.bind fun a => (Expr.cast c a).foldNode
  | _, .quant op h vs a => a.constFold.bind fun a => (Expr.quant op h vs a).foldNode
  | _, .subst x e a => e.constFold.bind fun e => a.constFold.bind fun a => (Expr.subst x e a).foldNode

end Caesar
