import Verif.Procs.SpecCallSound
import Verif.Witness

/-!
# C25: arguments are passed simultaneously

`σ.pass xs (evalArgs σ args)` is the state `σ` in which all parameters have been replaced by the values of the
arguments at once (`Procs/Spec.lean`).
-/

open scoped ENNReal NNReal

namespace Caesar
set_option linter.unusedSectionVars false

/-- C25: a specification in which the code substitutes arguments for parameters has the value of the
specification with the parameters bound, all at once, to the values of the arguments. -/
def C25_full : Prop :=
  ∀ (_ : Doms) (_ : Interp) (e : Expr .eureal) (xs : List Var) (args : List ((t : Ty) × Expr t)), xs.Nodup →
    xs.map Var.ty = args.map Sigma.fst →
    ∀ σ, (substPairs e (zipArgs xs args)).ev σ = e.ev (σ.pass xs (evalArgs σ args))

/-- C25 is violated: in `swap(b, a)`, called from `swap(a, b)`, the precondition `a` becomes `a` instead of `b`. -/
theorem C25_not_full : ¬ C25_full := by
  intro h
  let _ := unitDoms
  let _ := unitInterp
  let a : Var := ⟨⟨"a", 0⟩, .eureal⟩
  let b : Var := ⟨⟨"b", 0⟩, .eureal⟩
  have h1 := h unitDoms unitInterp (varExpr a) [a, b] [⟨.eureal, varExpr b⟩, ⟨.eureal, varExpr a⟩] (by decide) rfl
    (zeroEnv.upd a (⊤ : ℝ≥0∞))
  rw [substPairs_ev] at h1
  set σ : Env := zeroEnv.upd a (⊤ : ℝ≥0∞) with hσ
  have ha : σ a = (⊤ : ℝ≥0∞) := Env.upd_same _ _ _
  have hb : σ b = (0 : ℝ≥0∞) := Env.upd_ne _ (by decide) _
  have l1 : (varExpr a).ev (seqEnv σ (zipArgs [a, b] [⟨.eureal, varExpr b⟩, ⟨.eureal, varExpr a⟩])) = (⊤ : ℝ≥0∞) := by
    show ((σ.upd b (σ a)).upd a ((σ.upd b (σ a)) b)) a = (⊤ : ℝ≥0∞)
    rw [Env.upd_same, Env.upd_same, ha]
  have l2 : (varExpr a).ev (σ.pass [a, b] (evalArgs σ [⟨.eureal, varExpr b⟩, ⟨.eureal, varExpr a⟩])) = (0 : ℝ≥0∞) := by
    show (σ.pass [a, b] [⟨.eureal, σ b⟩, ⟨.eureal, σ a⟩]) a = (0 : ℝ≥0∞)
    unfold Env.pass
    rw [dif_pos rfl, Env.upd_same]
    exact hb
  rw [l1, l2] at h1
  exact ENNReal.top_ne_zero h1

variable [Doms] [Interp]

/-- C25, if no argument for a parameter that occurs in the specification mentions a later parameter, unless that
parameter is passed on unchanged. Missing: all other recursive calls (`C25_not_full`). -/
theorem C25_partial (e : Expr .eureal) (xs : List Var) (args : List ((t : Ty) × Expr t))
    (h : SeqOkOn (fun v => e.Free v) (zipArgs xs args)) (σ : Env) :
    (substPairs e (zipArgs xs args)).ev σ = e.ev (σ.pass xs (evalArgs σ args)) :=
  substPairs_pass e xs args σ h

theorem seqOkOn_of_fresh {xs : List Var} {args : List ((t : Ty) × Expr t)} (h : ∀ a ∈ args, ∀ x ∈ xs, ¬ a.2.Free x)
    (F : Var → Prop) : SeqOkOn F (zipArgs xs args) := by
  have key : ∀ (xs ys : List Var) (args : List ((t : Ty) × Expr t)), (∀ y ∈ xs, y ∈ ys) →
      (∀ a ∈ args, ∀ x ∈ ys, ¬ a.2.Free x) → SeqOkOn F (zipArgs xs args) := by
    intro xs ys
    induction xs with
    | nil => intro args _ _; cases args <;> trivial
    | cons x xs ih =>
      intro args hs h
      cases args with
      | nil => trivial
      | cons a args =>
        obtain ⟨t, e⟩ := a
        have ih := ih args (fun y hy => hs y (List.mem_cons_of_mem _ hy)) fun a ha => h a (List.mem_cons_of_mem _ ha)
        unfold zipArgs
        split
        · next ht =>
          subst ht
          exact ⟨fun _ q hq hf => absurd hf (h _ List.mem_cons_self _ (hs _ (List.mem_cons_of_mem _ (zipArgs_keys hq)))), ih⟩
        · exact ih
  exact key xs xs args (fun _ h => h) h

/-- C25 for calls whose arguments mention no parameter of the callee: in particular all calls of other procedures. -/
theorem C25_otherCallee (e : Expr .eureal) (xs : List Var) (args : List ((t : Ty) × Expr t))
    (h : ∀ a ∈ args, ∀ x ∈ xs, ¬ a.2.Free x) (σ : Env) :
    (substPairs e (zipArgs xs args)).ev σ = e.ev (σ.pass xs (evalArgs σ args)) :=
  substPairs_pass e xs args σ (seqOkOn_of_fresh h _)

/-- The recursive call `f(a, b + b)` from `f(a, b)`: `C25_partial` applies. -/
example (e : Expr .eureal) (σ : Env) :
    let a : Var := ⟨⟨"a", 0⟩, .eureal⟩
    let b : Var := ⟨⟨"b", 0⟩, .eureal⟩
    let args : List ((t : Ty) × Expr t) := [⟨.eureal, varExpr a⟩, ⟨.eureal, .bin (.add rfl) (varExpr b) (varExpr b)⟩]
    (substPairs e (zipArgs [a, b] args)).ev σ = e.ev (σ.pass [a, b] (evalArgs σ args)) := by
  intro a b args
  refine C25_partial e [a, b] args ⟨fun _ q hq hf => ?_, fun _ q hq => absurd hq List.not_mem_nil, trivial⟩ σ
  have := zipArgs_keys (xs := [b]) (args := [⟨.eureal, .bin (.add rfl) (varExpr b) (varExpr b)⟩]) hq
  rw [List.mem_singleton] at this
  rw [this] at hf
  exact absurd hf (show ¬ (b = a) by decide)

end Caesar
