import Verif.Syntax

/-!
# Expressions as e-graphs

Models `src/opt/egraph.rs`: the language of the e-graph, the translation of expressions and the list of
rewrite rules.  The library `egg` itself (matching, the scheduler, extraction) is not modelled: a class of
the e-graph only ever contains terms which are equal under the congruence closure of the instances of the
rules (`EggEq`), whatever the order in which the rules are applied and however often.
-/

namespace Caesar

/-- The binary operators of `ExprLanguage` (`src/opt/egraph.rs:15-30`). -/
inductive EggBin where
  | add | sub | mul | div | mod | and | or | eq | lt | le | inf | sup
  | impl | coimpl | compare | cocompare
  deriving DecidableEq, Repr

/-- The unary operators of `ExprLanguage` (`src/opt/egraph.rs:32-35`).  `ToRealPlus` (line 39) is never
built and left out. -/
inductive EggUn where
  | not | non | embed | iverson
  deriving DecidableEq, Repr

/-- `LitKind` (`src/ast/expr.rs:371-382`), without a type and without strings. -/
inductive EggLit where
  | uint (n : Nat) | frac (q : ℚ≥0) | infty | bool (b : Bool)
  deriving DecidableEq

/-- `ExprLanguage` (`src/opt/egraph.rs:10-46`), with pattern variables from `V`: patterns are
`EggTerm String`, terms are `EggTerm Empty`.  Simplification: the callee of a call, which is its first child
in the code, is a name of the node. -/
inductive EggTerm (V : Type) where
  | pv (v : V)
  | var (name : String)
  | lit (l : EggLit)
  | call (name : String) (n : Nat) (args : Fin n → EggTerm V)
  | bin (op : EggBin) (a b : EggTerm V)
  | un (op : EggUn) (a : EggTerm V)
  | ite (c a b : EggTerm V)

/-- Instance of a pattern (`egg::Pattern`). -/
def EggTerm.inst {V W : Type} (s : V → EggTerm W) : EggTerm V → EggTerm W
  | .pv v => s v
  | .var x => .var x
  | .lit l => .lit l
  | .call f n args => .call f n fun i => (args i).inst s
  | .bin op a b => .bin op (a.inst s) (b.inst s)
  | .un op a => .un op (a.inst s)
  | .ite c a b => .ite (c.inst s) (a.inst s) (b.inst s)

/-- The literal of a typed literal (`LitKind` has no type). -/
def Lit.toEgg : {t : Ty} → Lit t → EggLit
  | _, .bool b => .bool b
  | _, .uint n => .uint n
  | _, .ufrac q => .frac q
  | _, .rfrac q => .frac q
  | _, .efrac q => .frac q
  | _, .infty => .infty

/-- Binary operators in `expr_to_egg` (`src/opt/egraph.rs:71-94`). -/
def BinOp.toEgg : {t : Ty} → BinOp t → EggBin
  | _, .add _ => .add
  | _, .sub _ => .sub
  | _, .mul _ => .mul
  | _, .div _ => .div
  | _, .mod _ => .mod
  | _, .and => .and
  | _, .or => .or
  | _, .inf _ => .inf
  | _, .sup _ => .sup
  | _, .impl _ => .impl
  | _, .coimpl _ => .coimpl
  | _, .compare _ => .compare
  | _, .cocompare _ => .cocompare

/-- Comparisons in `expr_to_egg` (`src/opt/egraph.rs:79-87`): `≠` is a negated equality, `≥` and `>` swap
their operands. -/
def RelOp.toEgg {t : Ty} (op : RelOp t) (a b : EggTerm Empty) : EggTerm Empty :=
  match op with
  | .eq => .bin .eq a b
  | .lt _ => .bin .lt a b
  | .le _ => .bin .le a b
  | .ne => .un .not (.bin .eq a b)
  | .ge _ => .bin .le b a
  | .gt _ => .bin .lt b a

/-- Unary operators in `expr_to_egg` (`src/opt/egraph.rs:96-105`); parentheses disappear. -/
def UnOp.toEgg {t : Ty} (op : UnOp t) (a : EggTerm Empty) : EggTerm Empty :=
  match op with
  | .not _ => .un .not a
  | .non _ => .un .non a
  | .parens => a

/-- `expr_to_egg` (`src/opt/egraph.rs:48-123`): identifiers lose their span, casts disappear.  On
quantifiers and substitutions the code panics (`todo!()`, lines 114-115), see `Expr.eggPanics`; the model
returns an arbitrary term. -/
def Expr.toEgg : {t : Ty} → Expr t → EggTerm Empty
  | _, .var x => .var x.name
  | _, .lit l => .lit l.toEgg
  | _, .call f args => .call f.name.name f.args.length fun i => (args i).toEgg
  | _, .ite c a b => .ite c.toEgg a.toEgg b.toEgg
  | _, .bin op a b => .bin op.toEgg a.toEgg b.toEgg
  | _, .rel op a b => op.toEgg a.toEgg b.toEgg
  | _, .un op a => op.toEgg a.toEgg
  | _, .embed a => .un .embed a.toEgg
  | _, .iverson a => .un .iverson a.toEgg
  | _, .cast _ a => a.toEgg
  | _, .quant _ _ _ a => a.toEgg
  | _, .subst _ _ a => a.toEgg

/-- `expr_to_egg` runs into a `todo!()` (`src/opt/egraph.rs:114-115`). -/
def Expr.eggPanics : {t : Ty} → Expr t → Prop
  | _, .var _ => False
  | _, .lit _ => False
  | _, .call _ args => ∃ i, (args i).eggPanics
  | _, .ite c a b => c.eggPanics ∨ a.eggPanics ∨ b.eggPanics
  | _, .bin _ a b => a.eggPanics ∨ b.eggPanics
  | _, .rel _ a b => a.eggPanics ∨ b.eggPanics
  | _, .un _ a => a.eggPanics
  | _, .embed a => a.eggPanics
  | _, .iverson a => a.eggPanics
  | _, .cast _ a => a.eggPanics
  | _, .quant _ _ _ _ => True
  | _, .subst _ _ _ => True

/-- `egg::Rewrite`: a name and two patterns. -/
structure EggRule where
  name : String
  lhs : EggTerm String
  rhs : EggTerm String

namespace Egg

/-- Abbreviations for patterns. -/
abbrev P := EggTerm String
def a : P := .pv "?a"
def b : P := .pv "?b"
def c : P := .pv "?c"
/-- `0`, `1`, `∞`, `true`, `false` in patterns are read by `LitKind::from_str` (`src/ast/expr.rs:417-423`,
`src/front/parser/grammar.lalrpop:75-82`): the numbers become `UInt` literals. -/
def zero : P := .lit (.uint 0)
def one : P := .lit (.uint 1)
def infty : P := .lit .infty
def tt : P := .lit (.bool true)
def ff : P := .lit (.bool false)
def add (x y : P) : P := .bin .add x y
def sub (x y : P) : P := .bin .sub x y
def mul (x y : P) : P := .bin .mul x y
def and (x y : P) : P := .bin .and x y
def or (x y : P) : P := .bin .or x y
def eq (x y : P) : P := .bin .eq x y
def le (x y : P) : P := .bin .le x y
def inf (x y : P) : P := .bin .inf x y
def sup (x y : P) : P := .bin .sup x y
def impl (x y : P) : P := .bin .impl x y
def compare (x y : P) : P := .bin .compare x y
def cocompare (x y : P) : P := .bin .cocompare x y
def not (x : P) : P := .un .not x
def non (x : P) : P := .un .non x
def embed (x : P) : P := .un .embed x
def iverson (x : P) : P := .un .iverson x
def ite (x y z : P) : P := .ite x y z

end Egg

open Egg in
/-- `make_rewrites` (`src/opt/egraph.rs:125-254`), in the order of the code. -/
def eggRules : List EggRule := [
  ⟨"true-ite", ite tt a b, a⟩,
  ⟨"false-ite", ite ff a b, b⟩,
  ⟨"const-ite", ite a b b, b⟩,
  ⟨"comm-and", and a b, and b a⟩,
  ⟨"true-and", and a tt, a⟩,
  ⟨"false-and", and a ff, ff⟩,
  ⟨"comm-or", or a b, or b a⟩,
  ⟨"true-or", or a tt, tt⟩,
  ⟨"false-or", or a ff, a⟩,
  ⟨"comm-eq", eq a b, eq b a⟩,
  ⟨"leq-true", le a a, tt⟩,
  ⟨"comm-inf", inf a b, inf b a⟩,
  ⟨"id-inf", inf a infty, a⟩,
  ⟨"leq-inf", le a (inf b c), and (le a b) (le a c)⟩,
  ⟨"geq-inf", le (inf a b) c, or (le a c) (le b c)⟩,
  ⟨"comm-sup", sup a b, sup b a⟩,
  ⟨"id-sup", sup a zero, a⟩,
  ⟨"leq-sup", le a (sup b c), or (le a b) (le a c)⟩,
  ⟨"geq-sup", le (sup a b) c, and (le a c) (le b c)⟩,
  ⟨"zero-impl", impl zero a, infty⟩,
  ⟨"inf-impl", impl infty a, a⟩,
  ⟨"impl-inf", impl a infty, infty⟩,
  ⟨"infty-compare", eq (compare a b) infty, le a b⟩,
  ⟨"compare-hey1", compare a a, infty⟩,
  ⟨"compare-hey4", compare a (inf b c), inf (compare a b) (compare a c)⟩,
  ⟨"zero-cocompare", eq (cocompare a b) zero, le b a⟩,
  ⟨"cocompare-hey1", cocompare a a, zero⟩,
  ⟨"cocompare-hey4", cocompare a (sup b c), sup (cocompare a b) (cocompare a c)⟩,
  ⟨"not-true", not tt, ff⟩,
  ⟨"not-false", not ff, tt⟩,
  ⟨"infty-not", eq (not a) infty, eq a zero⟩,
  ⟨"non-infty", non infty, zero⟩,
  ⟨"embed-true", embed tt, infty⟩,
  ⟨"embed-false", embed ff, zero⟩,
  ⟨"impl-intro-ite", inf (impl (embed a) b) (impl (embed (not a)) c), ite a b c⟩,
  ⟨"iverson-true", iverson tt, one⟩,
  ⟨"iverson-false", iverson ff, zero⟩,
  ⟨"iverson-intro-ite", add (mul (iverson a) b) (mul (iverson (not a)) c), ite a b c⟩,
  ⟨"zero-add", add a zero, a⟩,
  ⟨"add-sub", add (sub a b) b, a⟩,
  ⟨"zero-sub", sub a zero, a⟩,
  ⟨"sub-add", sub (add a b) b, a⟩,
  ⟨"zero-mul", mul a zero, zero⟩,
  ⟨"one-mul", mul a one, a⟩]

/-- What `Runner::run` (`src/opt/egraph.rs:266`) can put into one class: the congruence closure of the
instances of the rules.  (Upper bound: the runner stops at limits and never closes under more than this.)
`simplify` prints a term of the class of the start term (`find_best`, line 268). -/
inductive EggEq (rules : List EggRule) : EggTerm Empty → EggTerm Empty → Prop
  | rule {r : EggRule} (hr : r ∈ rules) (s : String → EggTerm Empty) :
      EggEq rules (r.lhs.inst s) (r.rhs.inst s)
  | refl (x : EggTerm Empty) : EggEq rules x x
  | symm {x y : EggTerm Empty} : EggEq rules x y → EggEq rules y x
  | trans {x y z : EggTerm Empty} : EggEq rules x y → EggEq rules y z → EggEq rules x z
  | call (f : String) (n : Nat) {x y : Fin n → EggTerm Empty} :
      (∀ i, EggEq rules (x i) (y i)) → EggEq rules (.call f n x) (.call f n y)
  | bin (op : EggBin) {x x' y y' : EggTerm Empty} :
      EggEq rules x x' → EggEq rules y y' → EggEq rules (.bin op x y) (.bin op x' y')
  | un (op : EggUn) {x x' : EggTerm Empty} :
      EggEq rules x x' → EggEq rules (.un op x) (.un op x')
  | ite {x x' y y' z z' : EggTerm Empty} :
      EggEq rules x x' → EggEq rules y y' → EggEq rules z z' →
        EggEq rules (.ite x y z) (.ite x' y' z')

end Caesar
