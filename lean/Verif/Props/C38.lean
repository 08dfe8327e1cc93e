import Verif.FreeVars
import Verif.Witness

/-!
# C38: collected free variables determine the value
-/

open scoped ENNReal NNReal

namespace Caesar

section
variable [Doms] [Interp]

/-- Two states which agree on the collected variables give the expression the same value. -/
theorem C38_collected_determine_value {t : Ty} (e : Expr t) {fv : List Var} (h : e.collect [] = some fv)
    {σ σ' : Env} (hσ : ∀ v ∈ fv, σ v = σ' v) : e.eval σ = e.eval σ' := by
  by_cases hn : e.NoSubst
  · obtain ⟨fv', h1, h2⟩ := e.collect_spec hn []
    rw [h] at h1
    cases h1
    exact e.eval_congr fun v hv => hσ v ((h2 v).2 (Or.inr hv))
  · rw [e.collect_panics hn] at h; cases h

end

/-- Exactly the variables which occur free are collected (added to those collected before). -/
theorem C38_collects_exactly_free {t : Ty} (e : Expr t) {acc fv : List Var} (h : e.collect acc = some fv) (v : Var) :
    v ∈ fv ↔ v ∈ acc ∨ e.Free v := by
  by_cases hn : e.NoSubst
  · obtain ⟨fv', h1, h2⟩ := e.collect_spec hn acc
    rw [h] at h1
    cases h1
    exact h2 v
  · rw [e.collect_panics hn] at h; cases h

/-- The collector panics exactly on expressions with substitutions. -/
theorem C38_panics_iff_subst {t : Ty} (e : Expr t) (acc : List Var) : e.collect acc = none ↔ ¬ e.NoSubst := by
  constructor
  · intro h hn
    obtain ⟨fv, h1, -⟩ := e.collect_spec hn acc
    rw [h] at h1; cases h1
  · exact fun h => e.collect_panics h acc

/-- Non-vacuity: in `x + inf x. x` the variable is free although it is also quantified, and
in `inf y. y` nothing is free. -/
example : (Expr.bin (.add rfl) (.var ⟨"x", 0⟩)
      (.quant .inf rfl [⟨false, ⟨⟨"x", 0⟩, .eureal⟩⟩] (.var ⟨"x", 0⟩)) : Expr .eureal).collect []
    = some [⟨⟨"x", 0⟩, .eureal⟩] := rfl
example : (Expr.quant .inf rfl [⟨false, ⟨⟨"y", 0⟩, .eureal⟩⟩] (.var ⟨"y", 0⟩) : Expr .eureal).collect []
    = some [] := rfl

end Caesar
