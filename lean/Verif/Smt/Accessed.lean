import Mathlib.Data.Rat.Defs
import Mathlib.Algebra.Order.Field.Rat

/-!
# Model of `InstrumentedModel`: accessed declarations and the parsing of rational numbers

Models `InstrumentedModel` and `AccessedDecls` (`z3rro/src/model.rs:36-162`), `pretty_unaccessed` (`src/smt/pretty_model.rs:262-280`), and
`SmtEval for Real` (`z3rro/src/model.rs:217-255`).
-/

namespace Caesar.Smt

/-- A Z3 expression: constants (applications without arguments), applications, and everything else (quantifiers and bound variables), which
is not an application. (`z3rro/src/model.rs:145-161`) -/
inductive Ast where
  | const (name : String)
  | app (f : String) (args : List Ast)
  | other (body : List Ast)

mutual
/-- Equality of expressions, by which the set of visited expressions works. (`z3rro/src/model.rs:133`) -/
def Ast.beq : Ast → Ast → Bool
  | .const a, .const b => decide (a = b)
  | .app f as, .app g bs => decide (f = g) && Ast.beqs as bs
  | .other as, .other bs => Ast.beqs as bs
  | .const _, .app _ _ => false
  | .const _, .other _ => false
  | .app _ _, .const _ => false
  | .app _ _, .other _ => false
  | .other _, .const _ => false
  | .other _, .app _ _ => false
/-- Equality of lists of expressions. (`z3rro/src/model.rs:133`) -/
def Ast.beqs : List Ast → List Ast → Bool
  | [], [] => true
  | a :: as, b :: bs => Ast.beq a b && Ast.beqs as bs
  | [], _ :: _ => false
  | _ :: _, [] => false
end

/-- `AccessedDecls` (`z3rro/src/model.rs:129-134`). -/
structure Accessed where
  decls : List String
  exprs : List Ast

/-- `accessed_exprs.contains`. (`z3rro/src/model.rs:154`) -/
def Accessed.seen (s : Accessed) (a : Ast) : Bool := s.exprs.any fun b => b.beq a

mutual
/-- `AccessedDecls::mark_expr` (`z3rro/src/model.rs:145-161`). -/
def mark : Ast → Accessed → Accessed
  | .const n, s => { s with decls := n :: s.decls }
  | .app _ args, s => markArgs args s
  | .other _, s => s
/-- The loop over the children (`z3rro/src/model.rs:149-159`). -/
def markArgs : List Ast → Accessed → Accessed
  | [], s => s
  | a :: as, s => markArgs as (if s.seen a then s else mark a { s with exprs := a :: s.exprs })
end

/-- One evaluation: the expressions which are passed to `eval_ast`, and whether the evaluation succeeded. -/
structure Access where
  asts : List Ast
  ok : Bool

/-- `atomically` (`z3rro/src/model.rs:65-75`) around calls to `eval_ast` (`z3rro/src/model.rs:80-84`): after an error the marks are rolled back. -/
def access (s : Accessed) (a : Access) : Accessed :=
  let s' := a.asts.foldl (fun s e => mark e s) s
  if a.ok then s' else s

/-- `iter_unaccessed` (`z3rro/src/model.rs:92-98`) after the given evaluations, with the declarations of Z3's model. -/
def unaccessed (model : List String) (as : List Access) : List String :=
  let s := as.foldl access ⟨[], []⟩
  model.filter fun n => decide (n ∉ s.decls)

/-! ## Rational numbers -/

/-- `str::split_ascii_whitespace` (`z3rro/src/model.rs:236`); `cur` is the current word in reverse. -/
def splitWords : List Char → List Char → List (List Char)
  | [], [] => []
  | [], cur => [cur.reverse]
  | c :: cs, cur => if c = ' ' ∨ c = '\t' ∨ c = '\n' then (if cur = [] then splitWords cs [] else cur.reverse :: splitWords cs []) else splitWords cs (c :: cur)

/-- `.replace(".0", "")` (`z3rro/src/model.rs:244`). -/
def dropPointZero : List Char → List Char
  | '.' :: '0' :: cs => dropPointZero cs
  | c :: cs => c :: dropPointZero cs
  | [] => []

/-- `.replace(".0)", "")` (`z3rro/src/model.rs:248`). -/
def dropPointZeroParen : List Char → List Char
  | '.' :: '0' :: ')' :: cs => dropPointZeroParen cs
  | c :: cs => c :: dropPointZeroParen cs
  | [] => []

/-- Digits in `BigInt::from_str` (`z3rro/src/model.rs:245`). -/
def parseDigits : Nat → List Char → Option Nat
  | n, [] => some n
  | n, c :: cs => if '0' ≤ c ∧ c ≤ '9' then parseDigits (10 * n + (c.toNat - 48)) cs else none

/-- `BigInt::from_str` (`z3rro/src/model.rs:245`), without underscores between digits, which Z3 does not print. -/
def parseBigInt (cs : List Char) : Option ℤ :=
  match cs with
  | [] => none
  | '-' :: [] => none
  | '+' :: [] => none
  | '-' :: ds => (parseDigits 0 ds).map fun n => -(n : ℤ)
  | '+' :: ds => (parseDigits 0 ds).map fun n => (n : ℤ)
  | ds => (parseDigits 0 ds).map fun n => (n : ℤ)

/-- The parsing of a division (`z3rro/src/model.rs:230-252`). The outer `none` is the panic of `BigRational::new` for a zero denominator, the
inner one is `ParseError`. -/
def parseReal (text : List Char) : Option (Option ℚ) :=
  if ¬ ("(/ ".toList.isPrefixOf text) ∨ ¬ (".0)".toList.isSuffixOf text) then some none else
  match splitWords text [] with
  | first :: second :: third :: _ =>
    if first ≠ "(/".toList then some none else
    match parseBigInt (dropPointZero second), parseBigInt (dropPointZeroParen third) with
    | some n, some d => if d = 0 then none else some (some (n / d))
    | _, _ => some none
  | _ => some none

/-- A decimal digit as text. (`z3rro/src/model.rs:231`) -/
def digitChar (n : Nat) : Char := Char.ofNat (48 + n)

/-- Z3's text of a natural number. (`z3rro/src/model.rs:231`) -/
def natText (n : Nat) : List Char := if n < 10 then [digitChar n] else natText (n / 10) ++ [digitChar (n % 10)]
decreasing_by omega

/-- Z3's text of a non-negative rational number. (`z3rro/src/model.rs:231`) -/
def posText (q : ℚ) : List Char :=
  if q.den = 1 then natText q.num.natAbs ++ ".0".toList
  else "(/ ".toList ++ natText q.num.natAbs ++ ".0 ".toList ++ natText q.den ++ ".0)".toList

/-- Z3's text of a rational number. (`z3rro/src/model.rs:231`) -/
def ratText (q : ℚ) : List Char := if q < 0 then "(- ".toList ++ posText (-q) ++ [')'] else posText q

/-- The numbers of type `i64`. (`z3rro/src/model.rs:227`) -/
def fitsI64 (z : ℤ) : Bool := decide (-2 ^ 63 ≤ z ∧ z < 2 ^ 63)

/-- `SmtEval for Real` (`z3rro/src/model.rs:217-255`) on a result of Z3 that is the given number. `as_real` succeeds if the numerator and the
denominator fit into `i64`. -/
def evalRat (q : ℚ) : Option (Option ℚ) :=
  if fitsI64 q.num && fitsI64 q.den then some (some q) else parseReal (ratText q)

end Caesar.Smt
