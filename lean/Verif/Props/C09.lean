import Verif.Opt.UnfolderSound
import Verif.Witness

/-!
# C09: the unfolder preserves the value for every sound solver
-/

open scoped ENNReal NNReal

namespace Caesar
set_option linter.unusedSectionVars false

section
variable [Doms] [Interp]

/-- The full property: for all answers of the solver (also inconsistent ones and `Unknown`) of which only the answer `Unsat` is required to be
correct, unfolding an expression whose variables are declared succeeds, the result contains no substitutions and has the same value in all states. -/
theorem C09_unfold {o : Oracle} (ho : o.Sound) (span : Nat) {t : Ty} (e : Expr t) (s : UState) (hd : ∀ v, e.Occurs v → v.id ∈ s.1.decls) :
    ∃ e' s', unfoldTop o span e s = some (e', s') ∧ e'.NoSubst ∧ (∀ v, e'.Free v → v.id ∈ s'.1.decls) ∧ ∀ σ : Env, e'.eval σ = e.eval σ := by
  obtain ⟨e', s', h1, h2, h3, h4, h5⟩ := unfold_spec ho span e {} .empty s Path.ok_empty (FrameOk.empty _ _) hd
  exact ⟨e', s', h1, h3, h4, fun σ => h5 σ σ (Path.reach_empty σ) fun v _ => rfl⟩

/-- The same when the unfolding is known to have terminated with a result. -/
theorem C09_value {o : Oracle} (ho : o.Sound) (span : Nat) {t : Ty} (e e' : Expr t) (s s' : UState)
    (hd : ∀ v, e.Occurs v → v.id ∈ s.1.decls) (h : unfoldTop o span e s = some (e', s')) (σ : Env) : e'.eval σ = e.eval σ := by
  obtain ⟨e1, s1, h1, -, -, h2⟩ := C09_unfold ho span e s hd
  obtain ⟨rfl, rfl⟩ := Prod.mk.inj (Option.some.inj (h1.symm.trans h))
  exact h2 σ

/-- A solver which never answers `Unsat` is sound. -/
theorem sound_unknown : Oracle.Sound fun _ _ => false := fun _ _ h => nomatch h

end

/-! ## Soundness of the solver is needed, and the pruning takes place -/

/-- `b`, a Boolean variable. -/
def c09b : Expr .bool := .var ⟨"b", 0⟩

/-- `if b then (if b then x else y) else z`. -/
def c09E : Expr .eureal := .ite c09b (.ite c09b (.var ⟨"x", 0⟩) (.var ⟨"y", 0⟩)) (.var ⟨"z", 0⟩)

/-- A solver which recognises a condition together with its negation: sound, and answers differently for the same query at other times. -/
def c09Oracle : Oracle := fun n q =>
  match n, q with
  | 2, [⟨.un (.not _) (.var x), f⟩, ⟨.var y, g⟩] => decide (x = y ∧ f ⟨x, .bool⟩ = g ⟨x, .bool⟩)
  | _, _ => false

theorem c09Oracle_sound [Doms] [Interp] : c09Oracle.Sound := by
  intro n q h ⟨ρ, hρ⟩
  unfold c09Oracle at h
  split at h
  · next x f y g =>
    obtain ⟨rfl, hfg⟩ := of_decide_eq_true h
    have h1 : Ty.not .bool (ρ ⟨x, .bool⟩ (f ⟨x, .bool⟩)) := hρ _ List.mem_cons_self
    have h2 : (ρ ⟨x, .bool⟩ (g ⟨x, .bool⟩) : Prop) := hρ _ (List.mem_cons_of_mem _ List.mem_cons_self)
    have h3 : Ty.not .bool (ρ ⟨x, .bool⟩ (f ⟨x, .bool⟩)) = False := by
      refine if_neg fun hf => ?_
      rw [hfg] at hf
      exact (iff_of_eq hf).mp h2
    exact (iff_of_eq h3).mp h1
  · nomatch h

/-- Non-vacuity: the inner `if` is pruned by this solver. -/
example : ((unfoldTop c09Oracle 0 c09E (⟨[⟨"b", 0⟩, ⟨"x", 0⟩, ⟨"y", 0⟩, ⟨"z", 0⟩], fun _ => none⟩, 0)).map Prod.fst) =
    some (.ite c09b (.var ⟨"x", 0⟩) (.var ⟨"z", 0⟩)) := rfl

/-- Without soundness of the answer `Unsat` the value changes. -/
theorem C09_needs_sound : ∃ (o : Oracle) (e e' : Expr .eureal) (s s' : UState), unfoldTop o 0 e s = some (e', s') ∧
    (let _ := unitDoms; let _ := unitInterp; ∃ σ : Env, e'.eval σ ≠ e.eval σ) := by
  refine ⟨fun _ _ => true, .ite (.boolLit true) (.botLit .eureal rfl) (.topLit .eureal rfl), _, (TyCtx.new, 0), _, rfl, ?_⟩
  intro _ _
  refine ⟨zeroEnv, fun h => ?_⟩
  have h1 : (Expr.ite (.boolLit true) (.botLit .eureal rfl) (.topLit .eureal rfl)).ev zeroEnv = 0 :=
    (if_pos (rfl : true = true)).trans (Expr.eval_botLit rfl zeroEnv)
  have h2 : (Expr.topLit .eureal rfl).ev zeroEnv = ⊤ := Expr.eval_topLit rfl zeroEnv
  exact ENNReal.top_ne_zero ((h2.symm.trans h).trans h1)

/-- Non-vacuity for quantifiers: the knowledge about an outer variable is not used for the quantified variable of the same name. -/
example : ((unfoldTop (fun n q => n == 2 && q.length == 2 && q.all fun a => a.names ⟨⟨"b", 0⟩, .bool⟩ == 0) 0
      (.ite c09b (.quant (t := .eureal) .inf rfl [⟨false, ⟨⟨"b", 0⟩, .bool⟩⟩] (.ite c09b (.var ⟨"x", 0⟩) (.var ⟨"y", 0⟩))) (.var ⟨"z", 0⟩))
      (⟨[⟨"b", 0⟩, ⟨"x", 0⟩, ⟨"y", 0⟩, ⟨"z", 0⟩], fun _ => none⟩, 0)).map Prod.fst) =
    some (.ite c09b (.quant (t := .eureal) .inf rfl [⟨false, ⟨⟨"b", 0⟩, .bool⟩⟩] (.ite c09b (.var ⟨"x", 0⟩) (.var ⟨"y", 0⟩))) (.var ⟨"z", 0⟩)) := rfl

end Caesar
