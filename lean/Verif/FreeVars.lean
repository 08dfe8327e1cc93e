import Verif.Lattice
import Mathlib.Data.List.FinRange

/-!
# Free variables

Models `FreeVariableCollector` (`src/ast/util.rs:13-66`); the specification of free variables is
`Expr.Free`.
-/

open scoped ENNReal NNReal

namespace Caesar

/-- Specification: `v` occurs free in the expression. -/
def Expr.Free (v : Var) : {t : Ty} → Expr t → Prop
  | t, .var x => v = ⟨x, t⟩
  | _, .lit _ => False
  | _, .call _ args => ∃ i, (args i).Free v
  | _, .ite c a b => c.Free v ∨ a.Free v ∨ b.Free v
  | _, .bin _ a b => a.Free v ∨ b.Free v
  | _, .rel _ a b => a.Free v ∨ b.Free v
  | _, .un _ a => a.Free v
  | _, .embed a => a.Free v
  | _, .iverson a => a.Free v
  | _, .cast _ a => a.Free v
  | _, .quant _ _ vs a => a.Free v ∧ v ∉ vs.map QVar.var
  | _, .subst x e a => e.Free v ∨ (a.Free v ∧ v ≠ x)

/-- Specification: `v` occurs in the expression at all (free, quantified, or as a substituted variable). -/
def Expr.Occurs (v : Var) : {t : Ty} → Expr t → Prop
  | t, .var x => v = ⟨x, t⟩
  | _, .lit _ => False
  | _, .call _ args => ∃ i, (args i).Occurs v
  | _, .ite c a b => c.Occurs v ∨ a.Occurs v ∨ b.Occurs v
  | _, .bin _ a b => a.Occurs v ∨ b.Occurs v
  | _, .rel _ a b => a.Occurs v ∨ b.Occurs v
  | _, .un _ a => a.Occurs v
  | _, .embed a => a.Occurs v
  | _, .iverson a => a.Occurs v
  | _, .cast _ a => a.Occurs v
  | _, .quant _ _ vs a => a.Occurs v ∨ v ∈ vs.map QVar.var
  | _, .subst x e a => e.Occurs v ∨ a.Occurs v ∨ v = x

/-- Specification: there are no substitution nodes. -/
def Expr.NoSubst : {t : Ty} → Expr t → Prop
  | _, .var _ => True
  | _, .lit _ => True
  | _, .call _ args => ∀ i, (args i).NoSubst
  | _, .ite c a b => c.NoSubst ∧ a.NoSubst ∧ b.NoSubst
  | _, .bin _ a b => a.NoSubst ∧ b.NoSubst
  | _, .rel _ a b => a.NoSubst ∧ b.NoSubst
  | _, .un _ a => a.NoSubst
  | _, .embed a => a.NoSubst
  | _, .iverson a => a.NoSubst
  | _, .cast _ a => a.NoSubst
  | _, .quant _ _ _ a => a.NoSubst
  | _, .subst _ _ _ => False

/-- Visiting the arguments of a call in order. (`src/ast/visit.rs:176`) -/
def visitFin {S : Type} {n : Nat} (f : Fin n → S → Option S) (s : S) : Option S :=
  (List.finRange n).foldlM (fun s i => f i s) s

/-- `FreeVariableCollector::visit_expr` (`src/ast/util.rs:35-65`), as a function from the set collected so far
(`variables`) to the new one; `none` is the panic on substitutions. Sets are lists, identifiers are paired with
their type. `walk_expr` (`src/ast/visit.rs:173-213`) visits the children in order. -/
def Expr.collect : {t : Ty} → Expr t → List Var → Option (List Var)
  | t, .var x, acc => some (if ⟨x, t⟩ ∈ acc then acc else acc ++ [⟨x, t⟩])
  | _, .lit _, acc => some acc
  | _, .call _ args, acc => visitFin (fun i acc => (args i).collect acc) acc
  | _, .ite c a b, acc => do
      let acc ← c.collect acc
      let acc ← a.collect acc
      b.collect acc
  | _, .bin _ a b, acc => do
      let acc ← a.collect acc
      b.collect acc
  | _, .rel _ a b, acc => do
      let acc ← a.collect acc
      b.collect acc
  | _, .un _ a, acc => a.collect acc
  | _, .embed a, acc => a.collect acc
  | _, .iverson a, acc => a.collect acc
  | _, .cast _ a, acc => a.collect acc
  | _, .quant _ _ vs a, acc => do
      let boundAndNotFree := (vs.map QVar.var).filter (· ∉ acc)
      let acc' ← a.collect acc
      return acc'.filter (· ∉ boundAndNotFree)
  | _, .subst _ _ _, _ => none

/-! ## Helper lemmas -/

theorem Expr.Free.occurs {v : Var} {t : Ty} {e : Expr t} (h : e.Free v) : e.Occurs v := by
  induction e with
  | var => exact h
  | lit => exact h
  | call f args ih => obtain ⟨i, hi⟩ := h; exact ⟨i, ih i hi⟩
  | ite c a b ih1 ih2 ih3 => exact h.imp ih1 (Or.imp ih2 ih3)
  | bin op a b ih1 ih2 => exact h.imp ih1 ih2
  | rel op a b ih1 ih2 => exact h.imp ih1 ih2
  | un op a ih => exact ih h
  | embed a ih => exact ih h
  | iverson a ih => exact ih h
  | cast c a ih => exact ih h
  | quant op hl vs a ih => exact Or.inl (ih h.1)
  | subst x e a ih1 ih2 => exact h.imp ih1 (fun h => Or.inl (ih2 h.1))

theorem foldlM_spec {S I : Type} (f : S → I → Option S) (M : S → Var → Prop) (P : I → Var → Prop)
    (l : List I) (h : ∀ i ∈ l, ∀ s, ∃ s', f s i = some s' ∧ ∀ v, M s' v ↔ M s v ∨ P i v) (s : S) :
    ∃ s', l.foldlM f s = some s' ∧ ∀ v, M s' v ↔ M s v ∨ ∃ i ∈ l, P i v := by
  induction l generalizing s with
  | nil => exact ⟨s, rfl, by simp⟩
  | cons i l ih =>
    obtain ⟨s1, h1, h2⟩ := h i List.mem_cons_self s
    obtain ⟨s2, h3, h4⟩ := ih (fun j hj => h j (List.mem_cons_of_mem _ hj)) s1
    refine ⟨s2, by simp [List.foldlM_cons, h1, h3], fun v => ?_⟩
    rw [h4, h2]
    simp [or_assoc]

theorem Expr.collect_spec {t : Ty} (e : Expr t) (h : e.NoSubst) (acc : List Var) :
    ∃ acc', e.collect acc = some acc' ∧ ∀ v, v ∈ acc' ↔ v ∈ acc ∨ e.Free v := by
  induction e generalizing acc with
  | @var t x =>
    refine ⟨_, rfl, fun v => ?_⟩
    simp only [Expr.Free]
    split
    next hm => exact ⟨Or.inl, fun h => h.elim id (fun h => h ▸ hm)⟩
    next => simp
  | lit l => exact ⟨acc, rfl, fun v => by simp [Expr.Free]⟩
  | call f args ih =>
    obtain ⟨s', h1, h2⟩ := foldlM_spec (fun s i => (args i).collect s) (fun s v => v ∈ s)
      (fun i v => (args i).Free v) (List.finRange _) (fun i _ s => ih i (h i) s) acc
    exact ⟨s', h1, fun v => by rw [h2]; simp [Expr.Free]⟩
  | ite c a b ih1 ih2 ih3 =>
    obtain ⟨s1, h1, h1'⟩ := ih1 h.1 acc
    obtain ⟨s2, h2, h2'⟩ := ih2 h.2.1 s1
    obtain ⟨s3, h3, h3'⟩ := ih3 h.2.2 s2
    exact ⟨s3, by simp [Expr.collect, h1, h2, h3], fun v => by
      simp only [h3', h2', h1', Expr.Free, or_assoc]⟩
  | bin op a b ih1 ih2 =>
    obtain ⟨s1, h1, h1'⟩ := ih1 h.1 acc
    obtain ⟨s2, h2, h2'⟩ := ih2 h.2 s1
    exact ⟨s2, by simp [Expr.collect, h1, h2], fun v => by simp only [h2', h1', Expr.Free, or_assoc]⟩
  | rel op a b ih1 ih2 =>
    obtain ⟨s1, h1, h1'⟩ := ih1 h.1 acc
    obtain ⟨s2, h2, h2'⟩ := ih2 h.2 s1
    exact ⟨s2, by simp [Expr.collect, h1, h2], fun v => by simp only [h2', h1', Expr.Free, or_assoc]⟩
  | un op a ih => exact ih h acc
  | embed a ih => exact ih h acc
  | iverson a ih => exact ih h acc
  | cast c a ih => exact ih h acc
  | quant op hl vs a ih =>
    obtain ⟨s1, h1, h1'⟩ := ih h acc
    refine ⟨_, by simp only [Expr.collect, h1]; rfl, fun v => ?_⟩
    simp only [List.mem_filter, decide_eq_true_eq, h1', Expr.Free]
    by_cases hv : v ∈ acc
    · simp [hv]
    · simp [hv]
  | subst => exact h.elim

theorem foldlM_none {S I : Type} (f : S → I → Option S) (l : List I) (i : I) (hi : i ∈ l)
    (h : ∀ s, f s i = none) (s : S) : l.foldlM f s = none := by
  induction l generalizing s with
  | nil => cases hi
  | cons j l ih =>
    rw [List.foldlM_cons]
    cases hj : f s j with
    | none => rfl
    | some s' =>
      rcases List.mem_cons.1 hi with rfl | hi
      · rw [h] at hj; cases hj
      · exact ih hi s'

theorem Expr.collect_panics {t : Ty} (e : Expr t) (h : ¬ e.NoSubst) (acc : List Var) :
    e.collect acc = none := by
  induction e generalizing acc with
  | var => exact absurd trivial h
  | lit => exact absurd trivial h
  | call f args ih =>
    simp only [Expr.NoSubst, not_forall] at h
    obtain ⟨i, hi⟩ := h
    exact foldlM_none _ _ i (List.mem_finRange i) (fun s => ih i hi s) acc
  | ite c a b ih1 ih2 ih3 =>
    simp only [Expr.collect]
    by_cases hc : c.NoSubst
    · obtain ⟨s1, h1, -⟩ := c.collect_spec hc acc
      by_cases ha : a.NoSubst
      · obtain ⟨s2, h2, -⟩ := a.collect_spec ha s1
        have : ¬ b.NoSubst := fun hb => h ⟨hc, ha, hb⟩
        simp [h1, ih3 this]
      · simp [h1, ih2 ha]
    · simp [ih1 hc]
  | bin op a b ih1 ih2 | rel op a b ih1 ih2 =>
    simp only [Expr.collect]
    by_cases ha : a.NoSubst
    · obtain ⟨s2, h2, -⟩ := a.collect_spec ha acc
      have : ¬ b.NoSubst := fun hb => h ⟨ha, hb⟩
      simp [h2, ih2 this]
    · simp [ih1 ha]
  | un op a ih => exact ih h acc
  | embed a ih => exact ih h acc
  | iverson a ih => exact ih h acc
  | cast c a ih => exact ih h acc
  | quant op hl vs a ih => simp [Expr.collect, ih h acc]
  | subst => rfl

section
variable [Doms] [Interp]
set_option linter.unusedSectionVars false

theorem quantVars_congr {op : QOp} {t : Ty} {vs : List Var} {F : Var → Prop} {f g : Env → t.den}
    (hf : ∀ σ σ' : Env, (∀ v, F v → σ v = σ' v) → f σ = g σ') {σ σ' : Env}
    (h : ∀ v, F v → v ∉ vs → σ v = σ' v) : quantVars op t vs f σ = quantVars op t vs g σ' := by
  induction vs generalizing σ σ' with
  | nil => exact hf σ σ' fun v hv => h v hv (by simp)
  | cons w vs ih =>
    unfold quantVars
    congr 1
    funext a
    apply ih
    intro v hv hn
    by_cases hw : v = w
    · subst hw; simp
    · rw [Env.upd_ne _ hw, Env.upd_ne _ hw]
      exact h v hv (by simp [hw, hn])

/-- The value of an expression depends only on its free variables. -/
theorem Expr.eval_congr {t : Ty} (e : Expr t) {σ σ' : Env} (h : ∀ v, e.Free v → σ v = σ' v) :
    e.eval σ = e.eval σ' := by
  classical
  induction e generalizing σ σ' with
  | var x => exact h _ rfl
  | lit => rfl
  | call f args ih =>
    rw [eval_call, eval_call]
    congr 1
    funext i
    exact ih i fun v hv => h v ⟨i, hv⟩
  | ite c a b ih1 ih2 ih3 =>
    rw [eval_ite, eval_ite, ih1 fun v hv => h v (Or.inl hv), ih2 fun v hv => h v (Or.inr (Or.inl hv)),
      ih3 fun v hv => h v (Or.inr (Or.inr hv))]
  | bin op a b ih1 ih2 =>
    rw [eval_bin, eval_bin, ih1 fun v hv => h v (Or.inl hv), ih2 fun v hv => h v (Or.inr hv)]
  | rel op a b ih1 ih2 =>
    rw [eval_rel, eval_rel, ih1 fun v hv => h v (Or.inl hv), ih2 fun v hv => h v (Or.inr hv)]
  | un op a ih => rw [eval_un, eval_un, ih h]
  | embed a ih => rw [eval_embed, eval_embed, ih h]
  | iverson a ih => rw [eval_iverson, eval_iverson, ih h]
  | cast c a ih => rw [eval_cast, eval_cast, ih h]
  | quant op hl vs a ih =>
    rw [eval_quant, eval_quant]
    exact quantVars_congr (F := fun v => a.Free v) (fun σ σ' h => ih h) fun v hv hn => h v ⟨hv, hn⟩
  | subst x e a ih1 ih2 =>
    rw [eval_subst, eval_subst, ih1 fun v hv => h v (Or.inl hv)]
    apply ih2
    intro v hv
    by_cases hx : v = x
    · subst hx; simp
    · rw [Env.upd_ne _ hx, Env.upd_ne _ hx]
      exact h v (Or.inr ⟨hv, hx⟩)

end
end Caesar
