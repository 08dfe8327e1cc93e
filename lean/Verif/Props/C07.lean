import Verif.Opt.BoolifySound
import Verif.Witness

/-!
# C07: boolification preserves the truth value
-/

namespace Caesar

/-- `Boolify::visit_expr` turns `e` into `e'`: for all large enough bounds on the recursion depth the model
returns `e'`. -/
def Expr.BoolifiesTo {t : Ty} (e e' : Expr t) : Prop := ∃ N, ∀ n, N ≤ n → boolify n e = some e'

theorem Expr.BoolifiesTo.unique {t : Ty} {e a b : Expr t} (ha : e.BoolifiesTo a) (hb : e.BoolifiesTo b) : a = b := by
  obtain ⟨N, h1⟩ := ha
  obtain ⟨M, h2⟩ := hb
  exact Option.some.inj ((h1 (max N M) (by omega)).symm.trans (h2 (max N M) (by omega)))

/-- The recursion terminates: every expression is turned into some expression. -/
theorem C07_terminates [Doms] [Interp] {t : Ty} (e : Expr t) : ∃ e', e.BoolifiesTo e' := by
  obtain ⟨N, e', h, _⟩ := boolify_ev e
  exact ⟨e', N, h⟩

/-- The result has the same value in all states. -/
theorem C07_value_preserved [Doms] [Interp] {t : Ty} (e e' : Expr t) (h : e.BoolifiesTo e') (σ : Env) :
    e'.eval σ = e.eval σ := by
  obtain ⟨N, e'', h1, _, h2⟩ := boolify_ev e
  rw [h.unique ⟨N, h1⟩]
  exact h2 σ

/-- Special case which the driver uses: a Boolean formula stays valid, and stays invalid. -/
theorem C07_verdict [Doms] [Interp] (e e' : Expr .bool) (h : e.BoolifiesTo e') :
    (∀ σ : Env, e'.tv σ) ↔ (∀ σ : Env, e.tv σ) := by
  refine forall_congr' fun σ => ?_
  unfold Expr.tv
  rw [C07_value_preserved e e' h σ]
  exact Iff.rfl

/-- Non-vacuity: `∞ == (?(b) -> x)` becomes `b ==> (∞ == x)`. -/
example : (Expr.rel (s := .eureal) .eq (Expr.topLit .eureal rfl)
      (Expr.bin (.impl rfl) (Expr.embed (.var ⟨"b", 0⟩)) (.var ⟨"x", 0⟩))).BoolifiesTo
    (Expr.bin (.impl rfl) (.var ⟨"b", 0⟩) (Expr.rel (s := .eureal) .eq (Expr.topLit .eureal rfl) (.var ⟨"x", 0⟩))) := by
  refine ⟨10, fun n hn => ?_⟩
  obtain ⟨m, rfl⟩ : ∃ m, n = m + 10 := ⟨n - 10, by omega⟩
  rfl

end Caesar
