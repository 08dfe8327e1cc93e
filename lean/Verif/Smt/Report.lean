import Verif.Smt.Translate
import Verif.Smt.Concrete
import Verif.Slicing.Failing
import Verif.Subst

/-!
# Model of the report of a counterexample

Models `src/smt/pretty_model.rs` (`pretty_globals`, `pretty_var_value`, `pretty_vc_value`), `Symbolic::eval` (`src/smt/symbolic.rs:150-166`) and
the implementations of `SmtEval` (`z3rro/src/model.rs`, `z3rro/src/eureal/pair.rs:142-157`).

Simplifications:
* A printed value is modelled by the value instead of its text; `none` is the message of an `SmtEvalError`. Layout, spans, the grouping of
  variables by their kinds and the order are left out.
* Lists, fuel and arrays are not modelled.
* Marking declarations as accessed has no influence on values; see `Smt/Accessed.lean`.
-/

namespace Caesar.Smt

variable [Doms]

/-- The values returned by `SmtEval` (`src/smt/symbolic.rs:150-166`). -/
def Shown : Ty → Type
  | .bool => Bool
  | .uint => ℤ
  | .int => ℤ
  | .ureal => ℚ
  | .real => ℚ
  | .eureal => Concrete
  | .list _ => Unit
  | .dom n => Doms.dom n

/-- The answers of `z3::Model::eval`, after the conversion to a value (`z3rro/src/model.rs:77-84`). `bool` is the evaluation without model
completion followed by `as_bool` (`z3rro/src/model.rs:176-179`), `real` is without model completion, too (`z3rro/src/model.rs:223-255`), `int`
and `dyn` are with model completion (`z3rro/src/model.rs:189-194, 206-214`). -/
structure SolverModel where
  bool : (Model → Prop) → Option Bool
  real : (Model → ℝ) → Option ℚ
  int : (Model → ℤ) → Option ℤ
  dyn : (n : Nat) → (Model → Doms.dom n) → Option (Doms.dom n)

namespace SolverModel

/-- `SmtEval for Bool` (`z3rro/src/model.rs:172-182`). -/
def evalBool (Z : SolverModel) (r : Model → Prop) : Bool := (Z.bool r).getD true

/-- `SmtEval for EUReal` (`z3rro/src/eureal/pair.rs:142-157`). -/
def evalEUReal (Z : SolverModel) (r : Term .eureal) : Option Concrete := do
  let isInfinite := Z.evalBool fun M => Pair.isInf (r M)
  let real ← Z.real fun M => Pair.num (r M)
  if isInfinite then some .infinity else some (.real real)

/-- `Symbolic::eval` (`src/smt/symbolic.rs:150-166`, `z3rro/src/uint.rs:95-101`, `z3rro/src/ureal.rs:81-87`). -/
def eval (Z : SolverModel) : (t : Ty) → Term t → Option (Shown t)
  | .bool => fun r => some (Z.evalBool r)
  | .uint => fun r => Z.int r
  | .int => fun r => Z.int r
  | .ureal => fun r => Z.real r
  | .real => fun r => Z.real r
  | .eureal => fun r => Z.evalEUReal r
  | .list _ => fun _ => none
  | .dom n => fun r => Z.dyn n r

/-- The value of a Boolean variable without model completion, as used for slice variables (`z3rro/src/model.rs:172-182`). A variable which
has not been translated before gets a new symbol, which has no value in the model. -/
def slices (Z : SolverModel) (st : TState) : Slicing.PModel := fun id =>
  match st.locals.get ⟨id, .bool⟩ with
  | some n => Z.bool fun M => M.val n .bool
  | none => none

end SolverModel

/-- `ScopeMap::local_iter` (`src/scope_map.rs:157-168`), only the keys. -/
def localKeys {K V : Type} (m : ScopeMap K V) : List K :=
  (m.scopes.headD []).filterMap fun p => match p.2 with
    | .value _ => some p.1
    | .deleted => none

/-- `SliceModel::count_sliced_stmts` (`src/slicing/model.rs:113-118`). -/
def countSliced (sm : Slicing.SliceModel) : Nat := (sm.stmts.filter fun p => !p.2).length

/-- The original program's verification condition (`src/smt/pretty_model.rs:72-90`): the slice variables of the slice model are substituted
by `true` (`ExprBuilder::subst_by`). -/
def originalVc (span : Nat) (sm : Slicing.SliceModel) (vc : Expr .eureal) : PM TyCtx (Expr .eureal) :=
  if countSliced sm = 0 then pure vc
  else applySubstTop span (sm.stmts.foldl (fun e s => .subst s.1.var (.lit (.bool true)) e) vc)

/-- What is printed. The terms are not printed; they are the ones whose values are `pre` and `sliced`. -/
structure Report where
  globals : List ((v : Var) × Option (Shown v.ty))
  slices : List (Slicing.SliceStmt × Slicing.SliceResult)
  preTerm : Term .eureal
  pre : Option Concrete
  sliced : Option (Term .eureal × Option Concrete)

/-- `pretty_globals` and `pretty_var_value` (`src/smt/pretty_model.rs:121-189`). The expression for the variable is new, so it is not in the
cache. -/
def reportGlobals (Z : SolverModel) (stmts : List Slicing.SliceStmt) (st : TState) : List ((v : Var) × Option (Shown v.ty)) :=
  ((localKeys st.locals).filter fun v => v ∉ stmts.map Slicing.SliceStmt.var).filterMap fun v =>
    (st.locals.get v).map fun n => ⟨v, Z.eval v.ty fun M => M.val n v.ty⟩

/-- `pretty_model` (`src/smt/pretty_model.rs:31-64`) with `pretty_vc_value` (`src/smt/pretty_model.rs:66-120`) for the slice model of a failing
slice. `st` is the state of the translator after the translation of the formula. -/
noncomputable def report [SmtInterp] (O : Oracle) (Z : SolverModel) (consistent : Bool) (span : Nat) (stmts : List Slicing.SliceStmt) (vc : Expr .eureal)
    (c : TyCtx) (st : TState) : Option Report := do
  let sm := Slicing.SliceModel.fromModel .error stmts Slicing.Selection.failure consistent (Z.slices st)
  let (original, _) ← originalVc span sm vc c
  let (r, st1) ← trans O original st
  if countSliced sm > 0 then do
    let (r', _) ← trans O vc st1
    some ⟨reportGlobals Z stmts st, sm.results, r, Z.evalEUReal r, some (r', Z.evalEUReal r')⟩
  else some ⟨reportGlobals Z stmts st, sm.results, r, Z.evalEUReal r, none⟩

end Caesar.Smt
