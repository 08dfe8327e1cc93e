import Verif.Subst
import Verif.Witness

/-!
# C04: eliminating explicit substitutions preserves meaning
-/

open scoped ENNReal NNReal

namespace Caesar
set_option linter.unusedSectionVars false

section
variable [Doms] [Interp]

/-- For every expression whose variables are declared, `apply_subst` does not panic; the result contains no
substitution, has the same value in every state, and all its free variables are declared afterwards. -/
theorem C04_apply_subst (span : Nat) {t : Ty} (e : Expr t) (c : TyCtx) (hc : ∀ v, e.Occurs v → v.id ∈ c.decls) :
    ∃ e' c', applySubstTop span e c = some (e', c') ∧ e'.NoSubst ∧ (∀ σ : Env, e'.eval σ = e.eval σ) ∧
      c.decls ⊆ c'.decls ∧ (∀ v, e'.Free v → v.id ∈ c'.decls) := by
  obtain ⟨e', c', h1, h2, h3, h4, h5⟩ := applySubst_spec span e .empty c (FrameOk.empty _ _) hc
  exact ⟨e', c', h1, h3, fun σ => h5 σ σ fun v _ => rfl, h2, h4⟩

/-- A single pending substitution on top: the result is the body with the value of `e` for `x`. -/
theorem C04_substitution_lemma (span : Nat) {t : Ty} (x : Var) (e : Expr x.ty) (a : Expr t) (c : TyCtx)
    (hc : ∀ v, (Expr.subst x e a).Occurs v → v.id ∈ c.decls) :
    ∃ a' c', applySubstTop span (.subst x e a) c = some (a', c') ∧ a'.NoSubst ∧
      ∀ σ : Env, a'.eval σ = a.eval (σ.upd x (e.eval σ)) := by
  obtain ⟨e', c', h1, h2, h3, -⟩ := C04_apply_subst span (.subst x e a) c hc
  exact ⟨e', c', h1, h2, h3⟩

end

/-- Non-vacuity and capture avoidance: `(inf y. x + y)[x ↦ y]` becomes `inf y_0. y + y_0`. -/
example :
    (applySubstTop 7 (t := .eureal)
      (.subst ⟨⟨"x", 0⟩, .eureal⟩ (.var ⟨"y", 0⟩)
        (.quant .inf rfl [⟨false, ⟨⟨"y", 0⟩, .eureal⟩⟩] (.bin (.add rfl) (.var ⟨"x", 0⟩) (.var ⟨"y", 0⟩))))
      ⟨[⟨"x", 0⟩, ⟨"y", 0⟩], fun _ => none⟩).map Prod.fst
    = some (.quant .inf rfl [⟨false, ⟨⟨"y_0", 7⟩, .eureal⟩⟩]
        (.bin (.add rfl) (.var ⟨"y", 0⟩) (.var ⟨"y_0", 7⟩))) := rfl

/-- The hypothesis on declared variables holds for it. -/
example : ∀ v, (Expr.subst (t := .eureal) ⟨⟨"x", 0⟩, .eureal⟩ (.var ⟨"y", 0⟩)
        (.quant .inf rfl [⟨false, ⟨⟨"y", 0⟩, .eureal⟩⟩] (.bin (.add rfl) (.var ⟨"x", 0⟩) (.var ⟨"y", 0⟩)))).Occurs v →
    v.id ∈ [(⟨"x", 0⟩ : Ident), ⟨"y", 0⟩] := by
  intro v h
  simp only [Expr.Occurs, List.map_cons, List.map_nil, List.mem_singleton] at h
  rcases h with rfl | ((rfl | rfl) | rfl) | rfl <;> simp

end Caesar
