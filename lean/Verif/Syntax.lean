import Mathlib.Data.NNRat.Defs

/-!
# Abstract syntax of HeyLo expressions and HeyVL statements

Models `src/ast/expr.rs`, `src/ast/stmt.rs`, `src/ast/ty.rs`, `src/ast/symbol.rs`.

Simplifications (global):
* Expressions are intrinsically typed: `Expr t` is the set of expressions which carry the
  annotation `ty = Some(t)` after type checking (`src/front/tycheck.rs:570-760`).  Nodes which the
  type checker rejects do not exist in the model.
* Sharing (`Shared<ExprData>`) is invisible: expressions are trees.
* Spans are dropped from expressions and statements; they are kept in identifiers because
  `Ident` equality compares the span.
-/

namespace Caesar

/-- `Ident` (`src/ast/symbol.rs:48-52`): a name and a span; equality is derived and compares both.
The span is an abstract number. -/
structure Ident where
  name : String
  span : Nat
  deriving DecidableEq, Repr

/-- `TyKind` (`src/ast/ty.rs:9-36`) restricted to the types values can have: Bool, UInt, Int,
UReal, Real, EUReal, lists and (uninterpreted) domain sorts, which are numbered.
`Str`, `Tuple`, `Unresolved`, `None`, `SpecTy` do not occur as the type of a value in
a verification condition and are left out. -/
inductive Ty where
  | bool | uint | int | ureal | real | eureal
  | list (t : Ty)
  | dom (n : Nat)
  deriving DecidableEq, Repr

namespace Ty

/-- `TyKind::is_complete_lattice` (`src/ast/ty.rs:50-57`). -/
@[reducible] def isLat : Ty → Bool
  | bool => true
  | eureal => true
  | _ => false

/-- Numeric types (`src/front/tycheck.rs`: operands of `Add`, `Sub`, `Mul`). -/
@[reducible] def isNum : Ty → Bool
  | uint | int | ureal | real | eureal => true
  | _ => false

/-- Types with an order: the numeric ones, and Bool (order used by `BinOpKind::Inf`, `Sup`, and by
`Le` comparisons generated by `src/opt/boolify.rs:97-179` on Booleans). -/
@[reducible] def isOrd : Ty → Bool
  | bool => true
  | t => t.isNum

/-- Result types of `/` (`src/front/tycheck.rs`: `Div` is cast to `UReal`, otherwise `Real`). -/
@[reducible] def isFrac : Ty → Bool
  | ureal | real => true
  | _ => false

/-- Operand types of `%`. (`src/front/tycheck.rs:698`) -/
@[reducible] def isInteger : Ty → Bool
  | uint | int => true
  | _ => false

end Ty

/-- A variable: an identifier together with its declared type.  In the code the type of an
identifier is looked up in the `TyCtx` (`src/tyctx.rs:25`), so an identifier has exactly one type;
the model allows a superset. -/
structure Var where
  id : Ident
  ty : Ty
  deriving DecidableEq, Repr

/-- Direction (`src/ast/stmt.rs:162-166`). -/
inductive Dir where
  | down | up
  deriving DecidableEq, Repr

/-- `Direction::toggle` (`src/ast/stmt.rs:175-180`). -/
def Dir.toggle : Dir → Dir
  | .down => .up
  | .up => .down

/-- `LitKind` (`src/ast/expr.rs:371-382`), indexed by the annotated type.  `Frac` literals occur with
type `UReal` (parsed), `EUReal` (`ExprBuilder::frac_lit`, `src/ast/expr.rs:652`) and `Real`
(`one_lit`, `src/ast/expr.rs:625`).  String literals are left out. -/
inductive Lit : Ty → Type where
  | bool (b : Bool) : Lit .bool
  | uint (n : Nat) : Lit .uint
  | ufrac (q : ℚ≥0) : Lit .ureal
  | rfrac (q : ℚ≥0) : Lit .real
  | efrac (q : ℚ≥0) : Lit .eureal
  | infty : Lit .eureal

/-- `BinOpKind` (`src/ast/expr.rs:147-186`), the operators whose result has the type of the operands.
The hypotheses are the typing rules of `src/front/tycheck.rs:570-700`. -/
inductive BinOp : Ty → Type where
  | add {t} (h : t.isNum = true) : BinOp t
  | sub {t} (h : t.isNum = true) : BinOp t
  | mul {t} (h : t.isNum = true) : BinOp t
  | div {t} (h : t.isFrac = true) : BinOp t
  | mod {t} (h : t.isInteger = true) : BinOp t
  | and : BinOp .bool
  | or : BinOp .bool
  | inf {t} (h : t.isOrd = true) : BinOp t
  | sup {t} (h : t.isOrd = true) : BinOp t
  | impl {t} (h : t.isLat = true) : BinOp t
  | coimpl {t} (h : t.isLat = true) : BinOp t
  | compare {t} (h : t.isLat = true) : BinOp t
  | cocompare {t} (h : t.isLat = true) : BinOp t

/-- `BinOpKind` (`src/ast/expr.rs:147-186`), the comparisons, with Bool as the result type. -/
inductive RelOp : Ty → Type where
  | eq {t} : RelOp t
  | ne {t} : RelOp t
  | lt {t} (h : t.isOrd = true) : RelOp t
  | le {t} (h : t.isOrd = true) : RelOp t
  | ge {t} (h : t.isOrd = true) : RelOp t
  | gt {t} (h : t.isOrd = true) : RelOp t

/-- `UnOpKind` (`src/ast/expr.rs:217-228`), the operators whose result has the type of the operand. -/
inductive UnOp : Ty → Type where
  | not {t} (h : t.isLat = true) : UnOp t
  | non {t} (h : t.isLat = true) : UnOp t
  | parens {t} : UnOp t

/-- `QuantOpKind` (`src/ast/expr.rs:249-258`). -/
inductive QOp where
  | inf | sup | forall | exists
  deriving DecidableEq, Repr

/-- `QuantVar` (`src/ast/expr.rs:279-292`): `Shadow(ident)` or `Fresh(decl)`. -/
structure QVar where
  fresh : Bool
  var : Var
  deriving DecidableEq, Repr

/-- The direct casts which the type checker inserts, i.e. the strict subtype relation
(`src/ast/ty.rs:111-136`, `src/front/tycheck.rs` `try_cast`). -/
inductive CastOp : Ty → Ty → Type where
  | uintInt : CastOp .uint .int
  | uintUReal : CastOp .uint .ureal
  | uintReal : CastOp .uint .real
  | uintEUReal : CastOp .uint .eureal
  | intReal : CastOp .int .real
  | urealReal : CastOp .ureal .real
  | urealEUReal : CastOp .ureal .eureal

/-- A function symbol (`FuncDecl` and function intrinsics, `src/ast/decl.rs`), with result type `t`. -/
structure Func (t : Ty) where
  name : Ident
  args : List Ty
  deriving DecidableEq

/-- `ExprKind` (`src/ast/expr.rs:51-71`).
`Binary` is split into `bin` (result type = operand type) and `rel` (Boolean result);
`Unary` into `un`, `embed` and `iverson`. Trigger annotations of quantifiers are left out. -/
inductive Expr : Ty → Type where
  | var {t : Ty} (x : Ident) : Expr t
  | lit {t : Ty} (l : Lit t) : Expr t
  | call {t : Ty} (f : Func t) (args : (i : Fin f.args.length) → Expr (f.args.get i)) : Expr t
  | ite {t : Ty} (c : Expr .bool) (a b : Expr t) : Expr t
  | bin {t : Ty} (op : BinOp t) (a b : Expr t) : Expr t
  | rel {s : Ty} (op : RelOp s) (a b : Expr s) : Expr .bool
  | un {t : Ty} (op : UnOp t) (a : Expr t) : Expr t
  | embed (a : Expr .bool) : Expr .eureal
  | iverson (a : Expr .bool) : Expr .eureal
  | cast {s t : Ty} (c : CastOp s t) (a : Expr s) : Expr t
  | quant {t : Ty} (op : QOp) (h : t.isLat = true) (vs : List QVar) (a : Expr t) : Expr t
  | subst {t : Ty} (x : Var) (e : Expr x.ty) (a : Expr t) : Expr t

namespace Expr

/-- `ExprBuilder::bool_lit` (`src/ast/expr.rs:569-575`). -/
def boolLit (b : Bool) : Expr .bool := .lit (.bool b)

/-- `ExprBuilder::infinity_lit` (`src/ast/expr.rs:644-650`). -/
def inftyLit : Expr .eureal := .lit .infty

/-- `ExprBuilder::uint` (`src/ast/expr.rs:577-584`). -/
def uintLit (n : Nat) : Expr .uint := .lit (.uint n)

/-- `ExprBuilder::top_lit` (`src/ast/expr.rs:587-593`).  The code panics on a type without top;
the model demands the proof that there is one. -/
def topLit : (t : Ty) → t.isLat = true → Expr t
  | .bool, _ => boolLit true
  | .eureal, _ => inftyLit

/-- `ExprBuilder::bot_lit` (`src/ast/expr.rs:596-612`), for the lattice types. -/
def botLit : (t : Ty) → t.isLat = true → Expr t
  | .bool, _ => boolLit false
  | .eureal, _ => .cast .uintEUReal (uintLit 0)

/-- `LitKind::is_top` (`src/ast/expr.rs:385-391`). -/
def _root_.Caesar.Lit.isTop : {t : Ty} → Lit t → Bool
  | _, .infty => true
  | _, .bool b => b
  | _, .uint _ => false
  | _, .ufrac _ => false
  | _, .rfrac _ => false
  | _, .efrac _ => false

/-- `LitKind::is_bot` (`src/ast/expr.rs:393-400`). -/
def _root_.Caesar.Lit.isBot : {t : Ty} → Lit t → Bool
  | _, .infty => false
  | _, .bool b => !b
  | _, .uint n => n == 0
  | _, .ufrac q => decide (q = 0)
  | _, .rfrac q => decide (q = 0)
  | _, .efrac q => decide (q = 0)

/-- `is_top_lit` (`src/ast/util.rs:122-127`). -/
def isTopLit : {t : Ty} → Expr t → Bool
  | _, .lit l => l.isTop
  | _, _ => false

/-- `is_bot_lit` (`src/ast/util.rs:131-140`): looks through one cast. -/
def isBotLit : {t : Ty} → Expr t → Bool
  | _, .lit l => l.isBot
  | _, .cast _ (.lit l) => l.isBot
  | _, _ => false

/-- Sum of finitely many numbers (not in the code). -/
def _root_.Caesar.finSum : (n : Nat) → (Fin n → Nat) → Nat
  | 0, _ => 0
  | n + 1, f => f 0 + finSum n fun i => f i.succ

theorem _root_.Caesar.le_finSum : {n : Nat} → (f : Fin n → Nat) → (i : Fin n) → f i ≤ finSum n f
  | n + 1, f, i => by
    unfold finSum
    refine Fin.cases ?_ (fun j => ?_) i
    · omega
    · have := le_finSum (fun i => f i.succ) j
      omega

/-- Number of nodes of an expression, used for termination proofs only (not in the code). -/
def size : {t : Ty} → Expr t → Nat
  | _, .var _ => 1
  | _, .lit _ => 1
  | _, .call f args => finSum f.args.length (fun i => (args i).size) + 1
  | _, .ite c a b => c.size + a.size + b.size + 1
  | _, .bin _ a b => a.size + b.size + 1
  | _, .rel _ a b => a.size + b.size + 1
  | _, .un _ a => a.size + 1
  | _, .embed a => a.size + 1
  | _, .iverson a => a.size + 1
  | _, .cast _ a => a.size + 1
  | _, .quant _ _ _ a => a.size + 1
  | _, .subst _ e a => e.size + a.size + 1

end Expr

/-- A call of a built-in distribution (`src/intrinsic/distributions.rs:114-178`), indexed by the type of
the result: `ber`, `unif`, `binom`, `hyper` take literals only, `flip` a symbolic probability. -/
inductive DistCall : Ty → Type where
  | ber (pa pb : Nat) : DistCall .bool
  | flip (p : Expr .ureal) : DistCall .bool
  | unif (a b : Nat) : DistCall .uint
  | binom (n pa pb : Nat) : DistCall .uint
  | hyper (pN k pn : Nat) : DistCall .uint

/-- Statement annotations (`src/intrinsic/annotations.rs`, `src/proof_rules/*.rs`,
`src/slicing/selection.rs:90-110`): the loop proof rules with their arguments and the slicing annotations. -/
inductive Annot where
  | invariant (I : Expr .eureal)
  | kInduction (k : Nat) (I : Expr .eureal)
  | unroll (k : Nat) (term : Expr .eureal)
  | omegaInvariant (n : Ident) (I : Expr .eureal)
  | past (I : Expr .eureal) (eps k : Expr .ureal)
  | ost (I pastI : Expr .eureal) (c : Expr .ureal) (post : Expr .eureal)
  | ast (I : Expr .bool) (V : Expr .ureal) (freeVar : Ident) (prob dec : Expr .ureal)
  | slicing (kind : Nat)

/-- `StmtKind` (`src/ast/stmt.rs:29-66`).
`Seq`/`Block` (vectors of statements) are right-nested `seq` ending in `skip`.
`Assign(lhses, rhs)` is split according to the shape of `rhs`, which is what
`generate_assign` (`src/vc/vcgen.rs:211-245`) does: a pure expression (then there must be exactly one
left-hand side), a distribution, or a procedure call. `Var` declarations may carry an initialiser of each
of these three shapes (`varInit`, and `isDecl := true` for the other two). -/
inductive Stmt where
  | skip
  | seq (a b : Stmt)
  | varDecl (x : Var)
  | varInit (x : Var) (e : Expr x.ty)
  | assign (x : Var) (e : Expr x.ty)
  | sample (isDecl : Bool) (x : Ident) {t : Ty} (d : DistCall t)
  | call (isDecl : Bool) (lhs : List Var) (callee : Ident) (args : List ((t : Ty) × Expr t))
  | havoc (d : Dir) (xs : List Var)
  | assert (d : Dir) (e : Expr .eureal)
  | assume (d : Dir) (e : Expr .eureal)
  | compare (d : Dir) (e : Expr .eureal)
  | negate (d : Dir)
  | validate (d : Dir)
  | tick (e : Expr .eureal)
  | weigh (e : Expr .eureal)
  | demonic (a b : Stmt)
  | angelic (a b : Stmt)
  | additive (a b : Stmt)
  | ite (c : Expr .bool) (a b : Stmt)
  | while (c : Expr .bool) (body : Stmt)
  | annot (an : Annot) (s : Stmt)
  | label (l : Ident)

/-- A block `{ s₁; …; sₙ }` as a right-nested sequence. (`src/ast/stmt.rs:7,31`) -/
def Stmt.block : List Stmt → Stmt
  | [] => .skip
  | s :: ss => .seq s (block ss)

end Caesar
