import Verif.Syntax
import Mathlib.Data.ENNReal.Operations
import Mathlib.Data.ENNReal.Inv
import Mathlib.Data.Real.Basic
import Mathlib.Data.NNRat.Lemmas
import Mathlib.Data.Rat.Cast.Order

/-!
# Meaning of HeyLo expressions

This file is a specification: it defines the mathematical value of an expression in a state,
following `website/docs/heyvl/expressions.md` (types and operators) and the comments of
`src/ast/expr.rs:147-258`.  Nothing here is taken from the transformations which are verified.
-/

open scoped ENNReal NNReal

namespace Caesar

/-- Interpretation of the uninterpreted domain sorts (`DomainDecl`): arbitrary nonempty types. -/
class Doms where
  dom : Nat → Type
  inh : ∀ n, Inhabited (dom n)

/-- Values of a type. -/
def Ty.den [Doms] : Ty → Type
  | .bool => Prop
  | .uint => ℕ
  | .int => ℤ
  | .ureal => ℝ≥0
  | .real => ℝ
  | .eureal => ℝ≥0∞
  | .list t => List (Ty.den t)
  | .dom n => Doms.dom n

/-- Every type has a value (used for ill-typed default cases only). -/
def Ty.default [Doms] : (t : Ty) → t.den
  | .bool => False
  | .uint => (0 : ℕ)
  | .int => (0 : ℤ)
  | .ureal => (0 : ℝ≥0)
  | .real => (0 : ℝ)
  | .eureal => (0 : ℝ≥0∞)
  | .list _ => ([] : List _)
  | .dom n => (Doms.inh n).default

instance [Doms] (t : Ty) : Inhabited t.den := ⟨t.default⟩

/-- Interpretation of function symbols and of the operations which SMT-LIB leaves
unspecified (division and modulo by zero). -/
class Interp [Doms] where
  func : {t : Ty} → (f : Func t) → ((i : Fin f.args.length) → (f.args.get i).den) → t.den
  divU0 : ℝ≥0 → ℝ≥0
  divR0 : ℝ → ℝ
  modN0 : ℕ → ℕ
  modZ0 : ℤ → ℤ

/-- A state assigns a value to every variable. -/
abbrev Env [Doms] := (v : Var) → v.ty.den

/-- Update of one variable. -/
abbrev Env.upd [Doms] (σ : Env) (v : Var) (a : v.ty.den) : Env := Function.update σ v a

@[simp] theorem Env.upd_same [Doms] (σ : Env) (v : Var) (a : v.ty.den) : σ.upd v a v = a :=
  Function.update_self ..

theorem Env.upd_ne [Doms] (σ : Env) {v w : Var} (h : w ≠ v) (a : v.ty.den) : σ.upd v a w = σ w :=
  Function.update_of_ne h ..

namespace Ty
variable [Doms]

/-- The order of a type (numeric order; `false ≤ true`). -/
def le : (t : Ty) → t.den → t.den → Prop
  | .bool => fun (p q : Prop) => (p → q)
  | .uint => fun (a b : ℕ) => (a ≤ b : Prop)
  | .int => fun (a b : ℤ) => (a ≤ b : Prop)
  | .ureal => fun (a b : ℝ≥0) => (a ≤ b : Prop)
  | .real => fun (a b : ℝ) => (a ≤ b : Prop)
  | .eureal => fun (a b : ℝ≥0∞) => (a ≤ b : Prop)
  | .list _ => fun a b => a = b
  | .dom _ => fun a b => a = b

/-- Addition. -/
noncomputable def add : (t : Ty) → t.den → t.den → t.den
  | .uint => fun (a b : ℕ) => (a + b : ℕ)
  | .int => fun (a b : ℤ) => (a + b : ℤ)
  | .ureal => fun (a b : ℝ≥0) => (a + b : ℝ≥0)
  | .real => fun (a b : ℝ) => (a + b : ℝ)
  | .eureal => fun (a b : ℝ≥0∞) => (a + b : ℝ≥0∞)
  | t => fun _ _ => t.default

/-- Subtraction, truncated at `0` on the unsigned types. -/
noncomputable def sub : (t : Ty) → t.den → t.den → t.den
  | .uint => fun (a b : ℕ) => (a - b : ℕ)
  | .int => fun (a b : ℤ) => (a - b : ℤ)
  | .ureal => fun (a b : ℝ≥0) => (a - b : ℝ≥0)
  | .real => fun (a b : ℝ) => (a - b : ℝ)
  | .eureal => fun (a b : ℝ≥0∞) => (a - b : ℝ≥0∞)
  | t => fun _ _ => t.default

/-- Multiplication, with `0 * ∞ = 0`. -/
noncomputable def mul : (t : Ty) → t.den → t.den → t.den
  | .uint => fun (a b : ℕ) => (a * b : ℕ)
  | .int => fun (a b : ℤ) => (a * b : ℤ)
  | .ureal => fun (a b : ℝ≥0) => (a * b : ℝ≥0)
  | .real => fun (a b : ℝ) => (a * b : ℝ)
  | .eureal => fun (a b : ℝ≥0∞) => (a * b : ℝ≥0∞)
  | t => fun _ _ => t.default

open Classical in
/-- Division; the value of `a / 0` is left open (`Interp`). -/
noncomputable def div [Interp] : (t : Ty) → t.den → t.den → t.den
  | .ureal => fun (a b : ℝ≥0) => if b = 0 then Interp.divU0 a else (a / b : ℝ≥0)
  | .real => fun (a b : ℝ) => if b = 0 then Interp.divR0 a else (a / b : ℝ)
  | t => fun _ _ => t.default

open Classical in
/-- Euclidean remainder; the value of `a % 0` is left open (`Interp`). -/
noncomputable def mod [Interp] : (t : Ty) → t.den → t.den → t.den
  | .uint => fun (a b : ℕ) => if b = 0 then Interp.modN0 a else (a % b : ℕ)
  | .int => fun (a b : ℤ) => if b = 0 then Interp.modZ0 a else (a % b : ℤ)
  | t => fun _ _ => t.default

/-- Greatest element of a lattice type. -/
noncomputable def top : (t : Ty) → t.den
  | .bool => True
  | .eureal => (⊤ : ℝ≥0∞)
  | t => t.default

/-- Least element of a lattice type. -/
noncomputable def bot : (t : Ty) → t.den
  | .bool => False
  | .eureal => (0 : ℝ≥0∞)
  | t => t.default

open Classical in
/-- Binary infimum. -/
noncomputable def inf (t : Ty) (a b : t.den) : t.den := if t.le a b then a else b

open Classical in
/-- Binary supremum. -/
noncomputable def sup (t : Ty) (a b : t.den) : t.den := if t.le a b then b else a

open Classical in
/-- Gödel implication: `⊤` if `a ≤ b`, otherwise `b`. -/
noncomputable def impl (t : Ty) (a b : t.den) : t.den := if t.le a b then t.top else b

open Classical in
/-- Gödel co-implication: `⊥` if `a ≥ b`, otherwise `b`. -/
noncomputable def coimpl (t : Ty) (a b : t.den) : t.den := if t.le b a then t.bot else b

open Classical in
/-- Comparison: `⊤` if `a ≤ b`, otherwise `⊥`. -/
noncomputable def compare (t : Ty) (a b : t.den) : t.den := if t.le a b then t.top else t.bot

open Classical in
/-- Co-comparison: `⊥` if `a ≥ b`, otherwise `⊤`. -/
noncomputable def cocompare (t : Ty) (a b : t.den) : t.den := if t.le b a then t.bot else t.top

open Classical in
/-- Negation `!a`: `⊤` if `a = ⊥`, otherwise `⊥`. -/
noncomputable def not (t : Ty) (a : t.den) : t.den := if a = t.bot then t.top else t.bot

open Classical in
/-- Co-negation `~a`: `⊥` if `a = ⊤`, otherwise `⊤`. -/
noncomputable def non (t : Ty) (a : t.den) : t.den := if a = t.top then t.bot else t.top

/-- Infimum of a family in a lattice type. -/
noncomputable def iInf : (t : Ty) → {ι : Type} → (ι → t.den) → t.den
  | .bool, _, f => ∀ i, (f i : Prop)
  | .eureal, _, f => (⨅ i, (f i : ℝ≥0∞) : ℝ≥0∞)
  | t, _, _ => t.default

/-- Supremum of a family in a lattice type. -/
noncomputable def iSup : (t : Ty) → {ι : Type} → (ι → t.den) → t.den
  | .bool, _, f => ∃ i, (f i : Prop)
  | .eureal, _, f => (⨆ i, (f i : ℝ≥0∞) : ℝ≥0∞)
  | t, _, _ => t.default

end Ty

variable [Doms] [Interp]

/-- Value of a literal. -/
noncomputable def Lit.den : {t : Ty} → Lit t → t.den
  | _, .bool b => (b = true : Prop)
  | _, .uint n => n
  | _, .ufrac q => ((q : ℝ≥0) : ℝ≥0)
  | _, .rfrac q => (((q : ℝ≥0) : ℝ) : ℝ)
  | _, .efrac q => (((q : ℝ≥0) : ℝ≥0∞) : ℝ≥0∞)
  | _, .infty => (⊤ : ℝ≥0∞)

/-- Meaning of the binary operators. -/
noncomputable def BinOp.den : {t : Ty} → BinOp t → t.den → t.den → t.den
  | t, .add _ => t.add
  | t, .sub _ => t.sub
  | t, .mul _ => t.mul
  | t, .div _ => t.div
  | t, .mod _ => t.mod
  | _, .and => fun (p q : Prop) => (p ∧ q : Prop)
  | _, .or => fun (p q : Prop) => (p ∨ q : Prop)
  | t, .inf _ => t.inf
  | t, .sup _ => t.sup
  | t, .impl _ => t.impl
  | t, .coimpl _ => t.coimpl
  | t, .compare _ => t.compare
  | t, .cocompare _ => t.cocompare

/-- Meaning of the comparisons. -/
def RelOp.den : {t : Ty} → RelOp t → t.den → t.den → Prop
  | _, .eq => fun a b => a = b
  | _, .ne => fun a b => a ≠ b
  | t, .lt _ => fun a b => t.le a b ∧ a ≠ b
  | t, .le _ => fun a b => t.le a b
  | t, .ge _ => fun a b => t.le b a
  | t, .gt _ => fun a b => t.le b a ∧ a ≠ b

/-- Meaning of the unary operators. -/
noncomputable def UnOp.den : {t : Ty} → UnOp t → t.den → t.den
  | t, .not _ => t.not
  | t, .non _ => t.non
  | _, .parens => id

/-- Meaning of casts: the canonical embeddings. -/
noncomputable def CastOp.den : {s t : Ty} → CastOp s t → s.den → t.den
  | _, _, .uintInt => fun (n : ℕ) => ((n : ℤ) : ℤ)
  | _, _, .uintUReal => fun (n : ℕ) => ((n : ℝ≥0) : ℝ≥0)
  | _, _, .uintReal => fun (n : ℕ) => ((n : ℝ) : ℝ)
  | _, _, .uintEUReal => fun (n : ℕ) => ((n : ℝ≥0∞) : ℝ≥0∞)
  | _, _, .intReal => fun (n : ℤ) => ((n : ℝ) : ℝ)
  | _, _, .urealReal => fun (r : ℝ≥0) => ((r : ℝ) : ℝ)
  | _, _, .urealEUReal => fun (r : ℝ≥0) => ((r : ℝ≥0∞) : ℝ≥0∞)

/-- One quantifier over all values. -/
noncomputable def QOp.den (op : QOp) (t : Ty) {ι : Type} (f : ι → t.den) : t.den :=
  match op with
  | .inf => t.iInf f
  | .forall => t.iInf f
  | .sup => t.iSup f
  | .exists => t.iSup f

/-- Quantifying over a list of variables. -/
noncomputable def quantVars (op : QOp) (t : Ty) : List Var → (Env → t.den) → Env → t.den
  | [], f, σ => f σ
  | v :: vs, f, σ => op.den t (fun a : v.ty.den => quantVars op t vs f (σ.upd v a))

/-- A truth value, as a proposition. -/
abbrev holds (p : Ty.bool.den) : Prop := p

open Classical in
/-- The value of an expression in a state. -/
noncomputable def Expr.eval : {t : Ty} → Expr t → Env → t.den
  | t, .var x, σ => σ ⟨x, t⟩
  | _, .lit l, _ => l.den
  | _, .call f args, σ => Interp.func f (fun i => (args i).eval σ)
  | _, .ite c a b, σ => if holds (c.eval σ) then a.eval σ else b.eval σ
  | _, .bin op a b, σ => op.den (a.eval σ) (b.eval σ)
  | _, .rel op a b, σ => op.den (a.eval σ) (b.eval σ)
  | _, .un op a, σ => op.den (a.eval σ)
  | _, .embed a, σ => (if holds (a.eval σ) then ⊤ else 0 : ℝ≥0∞)
  | _, .iverson a, σ => (if holds (a.eval σ) then 1 else 0 : ℝ≥0∞)
  | _, .cast c a, σ => c.den (a.eval σ)
  | t, .quant op _ vs a, σ => quantVars op t (vs.map QVar.var) a.eval σ
  | _, .subst x e a, σ => a.eval (σ.upd x (e.eval σ))

namespace Expr
variable {t : Ty} (σ : Env)

@[simp] theorem eval_var (x : Ident) : (Expr.var x : Expr t).eval σ = σ ⟨x, t⟩ := rfl
@[simp] theorem eval_lit (l : Lit t) : (Expr.lit l).eval σ = l.den := rfl
@[simp] theorem eval_call (f : Func t) (args) :
    (Expr.call f args).eval σ = Interp.func f (fun i => (args i).eval σ) := rfl
open Classical in
@[simp] theorem eval_ite (c : Expr .bool) (a b : Expr t) :
    (Expr.ite c a b).eval σ = if holds (c.eval σ) then a.eval σ else b.eval σ := rfl
@[simp] theorem eval_bin (op : BinOp t) (a b : Expr t) :
    (Expr.bin op a b).eval σ = op.den (a.eval σ) (b.eval σ) := rfl
@[simp] theorem eval_rel {s : Ty} (op : RelOp s) (a b : Expr s) :
    (Expr.rel op a b).eval σ = op.den (a.eval σ) (b.eval σ) := rfl
@[simp] theorem eval_un (op : UnOp t) (a : Expr t) :
    (Expr.un op a).eval σ = op.den (a.eval σ) := rfl
@[simp] theorem eval_cast {s : Ty} (c : CastOp s t) (a : Expr s) :
    (Expr.cast c a).eval σ = c.den (a.eval σ) := rfl
open Classical in
@[simp] theorem eval_embed (a : Expr .bool) :
    (Expr.embed a).eval σ = (if holds (a.eval σ) then (⊤ : ℝ≥0∞) else (0 : ℝ≥0∞) : ℝ≥0∞) := rfl
open Classical in
@[simp] theorem eval_iverson (a : Expr .bool) :
    (Expr.iverson a).eval σ = (if holds (a.eval σ) then (1 : ℝ≥0∞) else (0 : ℝ≥0∞) : ℝ≥0∞) := rfl
@[simp] theorem eval_quant (op : QOp) (h) (vs : List QVar) (a : Expr t) :
    (Expr.quant op h vs a).eval σ = quantVars op t (vs.map QVar.var) a.eval σ := rfl
@[simp] theorem eval_subst (x : Var) (e : Expr x.ty) (a : Expr t) :
    (Expr.subst x e a).eval σ = a.eval (σ.upd x (e.eval σ)) := rfl

end Expr

end Caesar
