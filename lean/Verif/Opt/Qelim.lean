import Verif.Subst

/-!
# Model of quantifier elimination

Models `src/opt/qelim.rs`.
-/

namespace Caesar

/-- Types without infinite values: the first test of `is_finite` (`src/opt/qelim.rs:147-149`). -/
def Ty.isFinTy : Ty → Bool
  | .uint | .ureal => true
  | _ => false

/-- `is_finite` (`src/opt/qelim.rs:145-165`). -/
def Expr.isFinite : {t : Ty} → Expr t → Bool
  | t, .bin (.add _) a b => t.isFinTy || (a.isFinite && b.isFinite)
  | t, .bin (.mul _) a b => t.isFinTy || (a.isFinite && b.isFinite)
  | t, .bin (.sup _) a b => t.isFinTy || (a.isFinite && b.isFinite)
  | t, .bin (.inf _) a b => t.isFinTy || (a.isFinite || b.isFinite)
  | t, .bin (.sub _) a _ => t.isFinTy || a.isFinite
  | _, .iverson _ => true
  | t, .un .parens a => t.isFinTy || a.isFinite
  | t, .cast _ a => t.isFinTy || a.isFinite
  | _, .lit (.uint _) => true
  | _, .lit (.ufrac _) => true
  | _, .lit (.rfrac _) => true
  | _, .lit (.efrac _) => true
  | t, _ => t.isFinTy

/-- The quantifiers which `qelim_inf` (`Down`) resp. `qelim_sup` (`Up`) eliminates (`src/opt/qelim.rs:65-71`, `112-118`). -/
def QOp.isDir : QOp → Dir → Bool
  | .inf, .down | .forall, .down => true
  | .sup, .up | .exists, .up => true
  | _, _ => false

/-- The calls of `clone_var` and the nested substitutions of `elim_quant` (`src/opt/qelim.rs:135-139`,
`src/ast/expr.rs:540-558`): the first variable is the innermost substitution. -/
def elimVars (span : Nat) : List Var → {t : Ty} → Expr t → PM TyCtx (Expr t)
  | [], _, e => pure e
  | x :: xs, _, e => do
      let v ← (fun c => c.cloneVar x span : PM TyCtx Var)
      elimVars span xs (.subst x (.var v.id) e)

/-- `elim_quant` (`src/opt/qelim.rs:124-140`): `Fresh` variables are simply left free. -/
def elimQuant (span : Nat) (vs : List QVar) {t : Ty} (e : Expr t) : PM TyCtx (Expr t) :=
  elimVars span ((vs.filter fun q => !q.fresh).map QVar.var) e

/-- `qelim_inf` (`src/opt/qelim.rs:30-75`, direction `Down`) and `qelim_sup` (`src/opt/qelim.rs:77-122`, direction `Up`).
Nothing is done for types other than `Bool` and `EUReal`. `none` is the `panic!` on substitutions. -/
def Expr.qelim (span : Nat) : {t : Ty} → Expr t → Dir → PM TyCtx (Expr t)
  | t, .ite c a b, d => if t.isLat then do
        let a ← a.qelim span d
        let b ← b.qelim span d
        return .ite c a b
      else pure (.ite c a b)
  | t, .bin op a b, d => if t.isLat then
        match d, op with
        | d, .add h => do
            let a ← a.qelim span d
            let b ← b.qelim span d
            return .bin (.add h) a b
        | d, .and => do
            let a ← a.qelim span d
            let b ← b.qelim span d
            return .bin .and a b
        | d, .or => do
            let a ← a.qelim span d
            let b ← b.qelim span d
            return .bin .or a b
        | d, .inf h => do
            let a ← a.qelim span d
            let b ← b.qelim span d
            return .bin (.inf h) a b
        | d, .sup h => do
            let a ← a.qelim span d
            let b ← b.qelim span d
            return .bin (.sup h) a b
        | d, .mul h =>
            if a.isFinite then do return .bin (.mul h) a (← b.qelim span d)
            else if b.isFinite then do return .bin (.mul h) (← a.qelim span d) b
            else pure (.bin (.mul h) a b)
        | .down, .impl h => do
            let a ← a.qelim span .up
            let b ← b.qelim span .down
            return .bin (.impl h) a b
        | .down, .compare h => do
            let a ← a.qelim span .up
            let b ← b.qelim span .down
            return .bin (.compare h) a b
        | .up, .coimpl h => do
            let a ← a.qelim span .down
            let b ← b.qelim span .up
            return .bin (.coimpl h) a b
        | .up, .cocompare h => do
            let a ← a.qelim span .down
            let b ← b.qelim span .up
            return .bin (.cocompare h) a b
        | _, op => pure (.bin op a b)
      else pure (.bin op a b)
  | t, .un op a, d => if t.isLat then
        match d, op with
        | .down, .not h => do return .un (.not h) (← a.qelim span .up)
        | .up, .non h => do return .un (.non h) (← a.qelim span .down)
        | d, .parens => do return .un .parens (← a.qelim span d)
        | _, op => pure (.un op a)
      else pure (.un op a)
  | t, .cast c a, d => if t.isLat then do return .cast c (← a.qelim span d) else pure (.cast c a)
  | _, .quant op h vs a, d => if op.isDir d then do
        let a ← a.qelim span d
        elimQuant span vs a
      else pure (.quant op h vs a)
  | t, .subst x e a, _ => if t.isLat then (fun _ => none) else pure (.subst x e a)
  | _, e, _ => pure e

end Caesar
