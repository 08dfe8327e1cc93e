import Verif.Semantics

/-!
# Model of `RemoveParens`

Models `src/opt/mod.rs:31-48` together with `walk_expr` (`src/ast/visit.rs:173-213`).
-/

namespace Caesar

/-- `RemoveParens::visit_expr` (`src/opt/mod.rs:36-47`) is `removeParensAux true`; `walk_expr` with this visitor
(`src/ast/visit.rs:173-213`), which visits the children only, is `removeParensAux false`.
On `Parens(operand)` the visitor calls `walk_expr(operand)`, *not* `visit_expr(operand)`. -/
def Expr.removeParensAux (visit : Bool) : {t : Ty} → Expr t → Expr t
  | _, .var x => .var x
  | _, .lit l => .lit l
  | _, .call f args => .call f fun i => (args i).removeParensAux true
  | _, .ite c a b => .ite (c.removeParensAux true) (a.removeParensAux true) (b.removeParensAux true)
  | _, .bin op a b => .bin op (a.removeParensAux true) (b.removeParensAux true)
  | _, .rel op a b => .rel op (a.removeParensAux true) (b.removeParensAux true)
  | _, .un .parens a =>
      if visit then a.removeParensAux false else .un .parens (a.removeParensAux true)
  | _, .un (.not h) a => .un (.not h) (a.removeParensAux true)
  | _, .un (.non h) a => .un (.non h) (a.removeParensAux true)
  | _, .embed a => .embed (a.removeParensAux true)
  | _, .iverson a => .iverson (a.removeParensAux true)
  | _, .cast c a => .cast c (a.removeParensAux true)
  | _, .quant op h vs a => .quant op h vs (a.removeParensAux true)
  | _, .subst x e a => .subst x (e.removeParensAux true) (a.removeParensAux true)

/-- `RemoveParens.visit_expr(e)` (`src/opt/mod.rs:36-47`). -/
def Expr.removeParens {t : Ty} (e : Expr t) : Expr t := e.removeParensAux true

theorem Expr.eval_removeParensAux [Doms] [Interp] {t : Ty} (e : Expr t) :
    ∀ (v : Bool) (σ : Env), (e.removeParensAux v).eval σ = e.eval σ := by
  induction e with
  | var x => intro v σ; rfl
  | lit l => intro v σ; rfl
  | call f args ih =>
    intro v σ
    unfold removeParensAux
    rw [eval_call, eval_call]
    congr 1
    funext i
    exact ih i true σ
  | ite c a b ih1 ih2 ih3 => intro v σ; unfold removeParensAux; rw [eval_ite, eval_ite, ih1, ih2, ih3]
  | bin op a b ih1 ih2 => intro v σ; unfold removeParensAux; rw [eval_bin, eval_bin, ih1, ih2]
  | rel op a b ih1 ih2 => intro v σ; unfold removeParensAux; rw [eval_rel, eval_rel, ih1, ih2]
  | un op a ih =>
    intro v σ
    cases op with
    | parens =>
      unfold removeParensAux
      cases v
      · exact ih true σ
      · exact ih false σ
    | not h => unfold removeParensAux; rw [eval_un, eval_un, ih]
    | non h => unfold removeParensAux; rw [eval_un, eval_un, ih]
  | embed a ih => intro v σ; unfold removeParensAux; rw [eval_embed, eval_embed, ih]
  | iverson a ih => intro v σ; unfold removeParensAux; rw [eval_iverson, eval_iverson, ih]
  | cast c a ih => intro v σ; unfold removeParensAux; rw [eval_cast, eval_cast, ih]
  | quant op h vs a ih =>
    intro v σ
    unfold removeParensAux
    rw [eval_quant, eval_quant, funext (ih true)]
  | subst x e a ih1 ih2 => intro v σ; unfold removeParensAux; rw [eval_subst, eval_subst, ih1, ih2]

end Caesar
