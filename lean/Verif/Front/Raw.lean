import Verif.Front.Casts
import Verif.Procs.Spec

/-!
# The syntax tree of the front end

Models the syntax tree as the parser builds it and as name resolution and the type checker rewrite it: every node has an
optional type (`ExprData`, `src/ast/expr.rs:38-48`), and nothing forces a tree to be well typed. `Verif.Syntax` has the typed
expressions of the later phases.
-/

namespace Caesar
namespace Front

/-- `TyKind` (`src/ast/ty.rs:7-36`): the types of values, the types of procedure calls, string literals, and the placeholder
`None`. Components of tuples are types of values because parameters have such types. `SpecTy` is `EUReal` and `Unresolved` types are
gone after name resolution (`src/front/resolve.rs:246-271`). -/
inductive RTy where
  | val (t : Ty)
  | tuple (ts : List Ty)
  | string
  | none
  deriving DecidableEq

/-- `LitKind` (`src/ast/expr.rs:371-382`). -/
inductive RLit where
  | str (s : String)
  | uint (n : Nat)
  | frac (q : ℚ≥0)
  | infinity
  | bool (b : Bool)

/-- `BinOpKind` (`src/ast/expr.rs:147-186`). -/
inductive RBin where
  | add | sub | mul | div | mod | and | or | eq | ne | lt | le | ge | gt | inf | sup | impl | coimpl | compare | cocompare
  deriving DecidableEq

/-- `UnOpKind` (`src/ast/expr.rs:217-228`). -/
inductive RUn where
  | not | non | embed | iverson | parens
  deriving DecidableEq

/-- `Expr` and `ExprKind` (`src/ast/expr.rs:38-71`). The first argument of each constructor is the type annotation `ty`. Spans of
expressions are dropped. Quantified variables carry their declared type. -/
inductive RExpr where
  | var (ty : Option RTy) (x : Ident)
  | call (ty : Option RTy) (f : Ident) (args : List RExpr)
  | ite (ty : Option RTy) (c a b : RExpr)
  | bin (ty : Option RTy) (op : RBin) (a b : RExpr)
  | un (ty : Option RTy) (op : RUn) (a : RExpr)
  | cast (ty : Option RTy) (a : RExpr)
  | quant (ty : Option RTy) (op : QOp) (vs : List QVar) (triggers : List (List RExpr)) (a : RExpr)
  | subst (ty : Option RTy) (x : Ident) (v a : RExpr)
  | lit (ty : Option RTy) (l : RLit)

/-- The field `ty` (`src/ast/expr.rs:44`). -/
def RExpr.ty : RExpr → Option RTy
  | .var t _ | .call t _ _ | .ite t _ _ _ | .bin t _ _ _ | .un t _ _ | .cast t _ | .quant t _ _ _ _ | .subst t _ _ _ | .lit t _ => t

/-- `expr.ty = Some(t)` (`src/front/tycheck.rs:787`). -/
def RExpr.setTy (t : RTy) : RExpr → RExpr
  | .var _ x => .var (some t) x
  | .call _ f args => .call (some t) f args
  | .ite _ c a b => .ite (some t) c a b
  | .bin _ op a b => .bin (some t) op a b
  | .un _ op a => .un (some t) op a
  | .cast _ a => .cast (some t) a
  | .quant _ op vs tr a => .quant (some t) op vs tr a
  | .subst _ x v a => .subst (some t) x v a
  | .lit _ l => .lit (some t) l

/-- `matches!(arg.kind, ExprKind::Lit(_))` (`src/front/tycheck.rs:167`). -/
def RExpr.isLit : RExpr → Bool
  | .lit _ _ => true
  | _ => false

/-- `StmtKind` (`src/ast/stmt.rs:29-66`). Blocks are lists of statements. -/
inductive RStmt where
  | seq (ss : List RStmt)
  | var (x : Ident) (ty : Ty) (init : Option RExpr)
  | assign (lhs : List Ident) (rhs : RExpr)
  | havoc (d : Dir) (xs : List Ident)
  | assert (d : Dir) (e : RExpr)
  | assume (d : Dir) (e : RExpr)
  | compare (d : Dir) (e : RExpr)
  | negate (d : Dir)
  | validate (d : Dir)
  | tick (e : RExpr)
  | weigh (e : RExpr)
  | demonic (a b : List RStmt)
  | angelic (a b : List RStmt)
  | additive (a b : List RStmt)
  | ite (c : RExpr) (a b : List RStmt)
  | while (c : RExpr) (body : List RStmt)
  | annot (f : Ident) (args : List RExpr) (s : RStmt)
  | label (l : Ident)

/-- `VarKind` (`src/ast/decl.rs:276-289`). -/
inductive VarKind where
  | input | output | mut | quant | subst | slice
  deriving DecidableEq

/-- `VarKind::is_mutable` (`src/ast/decl.rs:293-295`). -/
def VarKind.isMutable : VarKind → Bool
  | .mut | .output => true
  | _ => false

/-- The built-in distributions (`src/intrinsic/distributions.rs:115-175`). -/
inductive DistKind where
  | ber | flip | unif | binom | hyper
  deriving DecidableEq

/-- The built-in functions on lists (`src/intrinsic/list.rs`). -/
inductive ListOp where
  | select | store | len
  deriving DecidableEq

/-- The annotations of statements (`src/proof_rules/*.rs`, `src/slicing/selection.rs:90-100`). Annotations that name a
calculus are for procedures and are left out here. -/
inductive AnnKind where
  | invariant | kInduction | unroll | omegaInvariant | past | ost | ast
  | slice (kind : Nat) (message : Bool)
  deriving DecidableEq

/-- `DeclKind` (`src/ast/decl.rs:22-32`), as far as the type checker looks at it. Parameters of user declarations are never
`literal_only` (`src/front/parser/grammar.lalrpop:271`). -/
inductive RDecl where
  | var (ty : RTy) (kind : VarKind)
  | proc (ins outs : List Ty)
  | func (ins : List Ty) (out : Ty)
  | dist (k : DistKind)
  | listOp (k : ListOp)
  | annot (k : AnnKind)
  | other

/-- `DeclKindName::is_proc` (`src/ast/decl.rs:142-144`). -/
def RDecl.isProc : RDecl → Bool
  | .proc _ _ | .dist _ => true
  | _ => false

/-- The declarations of the `TyCtx` (`src/tyctx.rs:25`). -/
abbrev Ctx := Ident → Option RDecl

/-- A parameter as `check_call` sees it: type and `literal_only` (`src/ast/decl.rs:410-415`). -/
abbrev RParam := RTy × Bool

/-- Parameters of user declarations. -/
def plainParams (ts : List Ty) : List RParam := ts.map fun t => (.val t, false)

/-- The parameters of the distributions (`src/intrinsic/distributions.rs:115-175`). -/
def DistKind.params : DistKind → List RParam
  | .ber | .unif => [(.val .uint, true), (.val .uint, true)]
  | .flip => [(.val .ureal, false)]
  | .binom | .hyper => [(.val .uint, true), (.val .uint, true), (.val .uint, true)]

/-- The result types of the distributions (`src/intrinsic/distributions.rs:115-175`). -/
def DistKind.out : DistKind → Ty
  | .ber | .flip => .bool
  | .unif | .binom | .hyper => .uint

/-- The parameters of the annotations: `src/proof_rules/induction.rs:43,142-143`, `src/proof_rules/unroll.rs:40-41`,
`src/proof_rules/omega.rs:41-42`, `src/proof_rules/past.rs:43-45`, `src/proof_rules/ost.rs:42-45`,
`src/proof_rules/mciver_ast.rs:44-48`, `src/slicing/selection.rs:117-133`. -/
def AnnKind.params : AnnKind → List RParam
  | .invariant => [(.val .eureal, false)]
  | .kInduction | .unroll => [(.val .uint, true), (.val .eureal, false)]
  | .omegaInvariant => [(.val .uint, false), (.val .eureal, false)]
  | .past => [(.val .eureal, false), (.val .ureal, true), (.val .ureal, true)]
  | .ost => [(.val .eureal, false), (.val .eureal, false), (.val .ureal, true), (.val .eureal, false)]
  | .ast => [(.val .bool, false), (.val .ureal, false), (.val .ureal, false), (.val .ureal, false), (.val .ureal, false)]
  | .slice _ message => if message then [(.string, true)] else []

/-- `ProcSpec` (`src/ast/decl.rs:427-432`) before type checking. -/
inductive RSpec where
  | requires (e : RExpr)
  | ensures (e : RExpr)

/-- `ProcDecl` (`src/ast/decl.rs:317-328`) before type checking. -/
structure RProc where
  name : Ident
  dir : Dir
  inputs : List Param
  outputs : List Var
  spec : List RSpec
  body : Option (List RStmt)

end Front
end Caesar
