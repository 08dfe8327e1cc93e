import Verif.Opt.RemoveParens
import Verif.FreeVars
import Verif.Witness

/-!
# C05: parenthesis removal is invisible
-/

namespace Caesar

/-- Specification: no parenthesis node occurs anywhere in the expression. -/
def Expr.NoParens : {t : Ty} → Expr t → Prop
  | _, .var _ => True
  | _, .lit _ => True
  | _, .call _ args => ∀ i, (args i).NoParens
  | _, .ite c a b => c.NoParens ∧ a.NoParens ∧ b.NoParens
  | _, .bin _ a b => a.NoParens ∧ b.NoParens
  | _, .rel _ a b => a.NoParens ∧ b.NoParens
  | _, .un .parens _ => False
  | _, .un _ a => a.NoParens
  | _, .embed a => a.NoParens
  | _, .iverson a => a.NoParens
  | _, .cast _ a => a.NoParens
  | _, .quant _ _ _ a => a.NoParens
  | _, .subst _ e a => e.NoParens ∧ a.NoParens

/-- The expression is not itself a parenthesis node. -/
def Expr.NotParens : {t : Ty} → Expr t → Prop
  | _, .un .parens _ => False
  | _, _ => True

/-- No parenthesis directly inside a parenthesis (`((e))` does not occur). -/
def Expr.NoDoubleParens : {t : Ty} → Expr t → Prop
  | _, .var _ => True
  | _, .lit _ => True
  | _, .call _ args => ∀ i, (args i).NoDoubleParens
  | _, .ite c a b => c.NoDoubleParens ∧ a.NoDoubleParens ∧ b.NoDoubleParens
  | _, .bin _ a b => a.NoDoubleParens ∧ b.NoDoubleParens
  | _, .rel _ a b => a.NoDoubleParens ∧ b.NoDoubleParens
  | _, .un .parens a => a.NotParens ∧ a.NoDoubleParens
  | _, .un _ a => a.NoDoubleParens
  | _, .embed a => a.NoDoubleParens
  | _, .iverson a => a.NoDoubleParens
  | _, .cast _ a => a.NoDoubleParens
  | _, .quant _ _ _ a => a.NoDoubleParens
  | _, .subst _ e a => e.NoDoubleParens ∧ a.NoDoubleParens

/-- The full property: the value is unchanged in all states and no parenthesis is left. -/
def C05_full : Prop := ∀ (_ : Doms) (_ : Interp) (t : Ty) (e : Expr t),
  (∀ σ : Env, e.removeParens.eval σ = e.eval σ) ∧ e.removeParens.NoParens

/-- The first half holds for all expressions and states. -/
theorem C05_value_preserved [Doms] [Interp] {t : Ty} (e : Expr t) (σ : Env) :
    e.removeParens.eval σ = e.eval σ := e.eval_removeParensAux true σ

theorem Expr.removeParensAux_noParens {t : Ty} (e : Expr t) (h : e.NoDoubleParens) :
    ∀ v : Bool, (v = true ∨ e.NotParens) → (e.removeParensAux v).NoParens := by
  induction e with
  | var x => intro v _; trivial
  | lit l => intro v _; trivial
  | call f args ih => intro v _ i; exact ih i (h i) true (Or.inl rfl)
  | ite c a b ih1 ih2 ih3 =>
    intro v _
    exact ⟨ih1 h.1 true (Or.inl rfl), ih2 h.2.1 true (Or.inl rfl), ih3 h.2.2 true (Or.inl rfl)⟩
  | bin op a b ih1 ih2 => intro v _; exact ⟨ih1 h.1 true (Or.inl rfl), ih2 h.2 true (Or.inl rfl)⟩
  | rel op a b ih1 ih2 => intro v _; exact ⟨ih1 h.1 true (Or.inl rfl), ih2 h.2 true (Or.inl rfl)⟩
  | un op a ih =>
    intro v hv
    cases op with
    | parens =>
      cases v
      · exact (hv.resolve_left Bool.false_ne_true).elim
      · exact ih h.2 false (Or.inr h.1)
    | not h' => exact ih h true (Or.inl rfl)
    | non h' => exact ih h true (Or.inl rfl)
  | embed a ih => intro v _; exact ih h true (Or.inl rfl)
  | iverson a ih => intro v _; exact ih h true (Or.inl rfl)
  | cast c a ih => intro v _; exact ih h true (Or.inl rfl)
  | quant op h' vs a ih => intro v _; exact ih h true (Or.inl rfl)
  | subst x e a ih1 ih2 => intro v _; exact ⟨ih1 h.1 true (Or.inl rfl), ih2 h.2 true (Or.inl rfl)⟩

/-- The second half, restricted to expressions without a parenthesis directly inside a parenthesis.
Missing: `((e))`, see `C05_not_full`. -/
theorem C05_no_parens_partial {t : Ty} (e : Expr t) (h : e.NoDoubleParens) : e.removeParens.NoParens :=
  e.removeParensAux_noParens h true (Or.inl rfl)

/-- The property fails: `((x))` is turned into `(x)`. -/
theorem C05_not_full : ¬ C05_full := by
  intro h
  exact (h unitDoms unitInterp .bool (.un .parens (.un .parens (.var ⟨"x", 0⟩)))).2

/-- Non-vacuity: an expression with (single) parentheses at several places. -/
example : (Expr.un (t := .eureal) .parens (.bin (.add rfl) (.un .parens (.var ⟨"x", 0⟩))
    (.embed (.un .parens (.lit (.bool true)))))).NoDoubleParens :=
  ⟨trivial, ⟨trivial, trivial⟩, ⟨trivial, trivial⟩⟩

example : (Expr.un (t := .eureal) .parens (.bin (.add rfl) (.un .parens (.var ⟨"x", 0⟩))
    (.embed (.un .parens (.lit (.bool true)))))).removeParens =
    .bin (.add rfl) (.var ⟨"x", 0⟩) (.embed (.lit (.bool true))) := rfl

end Caesar
