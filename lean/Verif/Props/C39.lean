import Verif.ProofRules.LoopsSem
import Verif.Witness

/-!
# C39: collected modified variables cover all effects of a statement

Specification: `vcSem` and agreement of states outside a list of variables (`Agree`).
Model: `Stmt.modified` and `Stmt.declared` (`ModifiedVariableCollector`).

The property is false because the collector has no case for `havoc` (`C39_not_full`); it is proved for statements whose
havocked variables are also reported for another reason (in particular, for statements without `havoc`).
-/

open scoped ENNReal NNReal

namespace Caesar
set_option linter.unusedSectionVars false

/-- The full property: two posts that agree in all states which differ from `σ` in reported variables only have the same
verification condition in `σ`. -/
def C39_full : Prop :=
  ∀ (_ : Doms) (_ : Interp) (C : SemCtx), C.Regular → ∀ (S : Stmt) (φ ψ : Exp) (σ : Env),
    (∀ σ', Agree (S.modified ++ S.declared) σ σ' → φ σ' = ψ σ') → vcSem C S φ σ = vcSem C S ψ σ

section
variable [Doms] [Interp]

theorem C39_reported_partial {C : SemCtx} (hC : C.Regular) {S : Stmt}
    (hH : ∀ v, S.Havocs v → v ∈ S.modified ++ S.declared) {φ ψ : Exp} {σ : Env}
    (h : ∀ σ', Agree (S.modified ++ S.declared) σ σ' → φ σ' = ψ σ') : vcSem C S φ σ = vcSem C S ψ σ := by
  refine vcSem_frame hC (M := (· ∈ S.modified ++ S.declared)) (fun v hv => ?_) h
  rcases Stmt.touched_cases hv with h | h | h
  · exact List.mem_append_left _ h
  · exact List.mem_append_right _ h
  · exact hH v h

/-- The way the loop rules use it (`modified_variables - declared_variables`): for posts that do not depend on the
declared variables, only the other modified variables matter. -/
theorem C39_undeclared_partial {C : SemCtx} (hC : C.Regular) {S : Stmt}
    (hH : ∀ v, S.Havocs v → v ∈ S.modified ++ S.declared) {φ ψ : Exp} {σ : Env}
    (hφ : Ignores (· ∈ S.declared) φ) (hψ : Ignores (· ∈ S.declared) ψ)
    (h : ∀ σ', Agree (S.modified.filter (· ∉ S.declared)) σ σ' → φ σ' = ψ σ') : vcSem C S φ σ = vcSem C S ψ σ := by
  refine C39_reported_partial hC hH fun σ'' hs => ?_
  have hs' : AgreeOff (fun v => v ∈ S.modified.filter (· ∉ S.declared) ∨ v ∈ S.declared) σ σ'' := by
    intro v hv
    refine hs v fun hm => hv ?_
    by_cases hd : v ∈ S.declared
    · exact Or.inr hd
    · exact Or.inl (List.mem_filter.2 ⟨(List.mem_append.1 hm).resolve_right hd, by simpa using hd⟩)
  obtain ⟨σ', h1, h2⟩ := agreeOff_split hs'
  rw [hφ _ _ h2, hψ _ _ h2]
  exact h σ' h1

end

/-- `havoc x` reports nothing. -/
theorem C39_not_full : ¬ C39_full := by
  classical
  intro h
  let _ := unitDoms
  let _ := unitInterp
  let x : Var := ⟨⟨"x", 0⟩, .uint⟩
  let C : SemCtx := ⟨.lfp, fun l _ _ φ σ => ⨅ σ' ∈ {σ' | Agree l σ σ'}, φ σ'⟩
  let φ : Exp := fun σ => if σ x = (0 : ℕ) then ⊤ else 0
  have hx : zeroEnv x = (0 : ℕ) := rfl
  have h1 := h unitDoms unitInterp C (regular_havoc .lfp) (.havoc .down [x]) φ (fun _ => ⊤) zeroEnv fun σ' hs => by
    have : σ' = zeroEnv := funext fun v => hs v List.not_mem_nil
    rw [this]
    exact if_pos hx
  have h2 : vcSem C (.havoc .down [x]) (fun _ => ⊤) zeroEnv = ⊤ := top_le_iff.1 (le_iInf₂ fun _ _ => le_rfl)
  have h3 : vcSem C (.havoc .down [x]) φ zeroEnv ≤ 0 := by
    refine (iInf₂_le (f := fun σ' (_ : σ' ∈ {σ' | Agree [x] zeroEnv σ'}) => φ σ') (zeroEnv.upd x (1 : ℕ))
      fun v hv => Env.upd_ne _ (by simpa using hv) _).trans (le_of_eq (if_neg fun h4 => ?_))
    have h5 : (zeroEnv.upd x (1 : ℕ)) x = (1 : ℕ) := Env.upd_same _ _ _
    exact absurd (h5.symm.trans h4 : (1 : ℕ) = 0) Nat.one_ne_zero
  rw [h1, h2] at h3
  exact absurd h3 (by simp)

/-- Non-vacuity: a loop with a local variable, a sample, a `negate`, and a `havoc` of a variable that is also assigned
to. -/
example : let y : Var := ⟨⟨"y", 0⟩, .uint⟩
    let x : Var := ⟨⟨"x", 0⟩, .uint⟩
    let S : Stmt := .while (.var ⟨"b", 0⟩) (.seq (.varInit y (.var ⟨"x", 0⟩)) (.seq (.havoc .down [x])
      (.seq (.assign x (.var ⟨"y", 0⟩)) (.seq (.sample false ⟨"b", 0⟩ (.ber 1 2)) (.negate .down)))))
    (∀ v, S.Havocs v → v ∈ S.modified ++ S.declared) ∧ S.modified = [x, ⟨⟨"b", 0⟩, .bool⟩] ∧ S.declared = [y] := by
  refine ⟨fun v hv => ?_, rfl, rfl⟩
  simp [Stmt.Havocs] at hv
  simp [Stmt.modified, hv]

end Caesar
