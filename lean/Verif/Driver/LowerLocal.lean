import Verif.Props.C10

/-!
# Lowering to a formula, state by state

`C10_lowering_partial` compares validity of the formula with the verdict in all states. For slicing, the values of some variables are
fixed, so here the comparison is made for each assignment of the variables declared before lowering.
-/

open scoped ENNReal NNReal

namespace Caesar
set_option linter.unusedSectionVars false

section
variable [Doms] [Interp]

/-- The verification condition holds in the state. -/
def HoldsAt (d : Dir) (e : Expr .eureal) (σ : Env) : Prop :=
  match d with
  | .down => e.ev σ = ⊤
  | .up => e.ev σ = 0

/-- Quantifier elimination, for each assignment of the declared variables. -/
theorem qelimPass_local (span span' : Nat) (e : Expr .eureal) (d : Dir) (c : TyCtx)
    (hc : ∀ v, e.Occurs v → v.id ∈ c.decls) (hn : e.NoSubst) (hf : e.freshVars = []) :
    ∃ e' c', qelimPass span span' e d c = some (e', c') ∧ c.decls ⊆ c'.decls ∧
      ∃ W : Var → Prop, (∀ v, W v → v.id ∉ c.decls) ∧ ∀ σ : Env, HoldsAt d e σ ↔ ∀ τ : Ext W σ, HoldsAt d e' τ.1 := by
  have ht : Ty.eureal.isLat = true := rfl
  obtain ⟨e1, c1, h1, W, hW⟩ := qelim_spec span ht e d c hc hn (freshOk_of_nil e hf d)
  obtain ⟨e2, c2, h2, h3, h4, h5, h6⟩ := applySubst_spec span' e1 .empty c1 (FrameOk.empty _ _) hW.occurs
  have hv : ∀ σ, e2.eval σ = e1.eval σ := fun σ => h6 σ σ fun v _ => rfl
  refine ⟨e2, c2, ?_, hW.grows.trans h3, W, fun v hv => ?_, fun σ => ?_⟩
  · show (e.qelim span d c).bind _ = _
    rw [h1]
    exact h2
  · rcases (hW.new v hv).2 with h | h
    · exact h
    · rw [hf] at h; cases h
  · have hval : e.ev σ = _ := hW.value σ
    cases d with
    | down =>
      show e.ev σ = ⊤ ↔ ∀ τ : Ext W σ, e2.ev τ.1 = ⊤
      rw [hval]
      constructor
      · intro h τ
        have h' := (Ty.le_iInf_iff ht).1 ((Ty.top_le_iff ht).2 h) τ
        exact (hv τ.1).trans ((Ty.top_le_iff ht).1 h')
      · intro h
        refine (Ty.top_le_iff ht).1 ((Ty.le_iInf_iff ht).2 fun τ => ?_)
        exact (Ty.top_le_iff ht).2 ((hv τ.1).symm.trans (h τ))
    | up =>
      show e.ev σ = 0 ↔ ∀ τ : Ext W σ, e2.ev τ.1 = 0
      rw [hval]
      constructor
      · intro h τ
        have h' := (Ty.iSup_le_iff ht).1 ((Ty.le_bot_iff ht).2 h) τ
        exact (hv τ.1).trans ((Ty.le_bot_iff ht).1 h')
      · intro h
        refine (Ty.le_bot_iff ht).1 ((Ty.iSup_le_iff ht).2 fun τ => ?_)
        exact (Ty.le_bot_iff ht).2 ((hv τ.1).symm.trans (h τ))

theorem holdsAt_congr {d : Dir} {e : Expr .eureal} {σ τ : Env} (h : e.ev σ = e.ev τ) : HoldsAt d e σ ↔ HoldsAt d e τ := by
  cases d with
  | down => exact iff_of_eq (congrArg (fun x : ℝ≥0∞ => x = ⊤) h)
  | up => exact iff_of_eq (congrArg (fun x : ℝ≥0∞ => x = 0) h)

/-- The formula holds for all values of the variables added by the lowering iff the verification condition holds, for each assignment of
the variables declared before. The conditions are those of `C10_lowering_partial`. -/
theorem lowering_local {o : Oracle} (ho : o.Sound) (span span' span'' : Nat) (opts : LowerOptions) (d : Dir) (e : Expr .eureal) (s : UState)
    (hd : ∀ v, e.Occurs v → v.id ∈ s.1.decls) (hq : opts.noQelim = false → e.freshVars = []) (hr : opts.optRel = true → e.CmpTypes RelCmp) :
    ∃ N, ∀ n ≥ N, ∃ b s', lowerQuant o span span' span'' opts n d e s = some (b, s') ∧
      ∀ σ : Env, HoldsAt d e σ ↔ ∀ τ : Env, (∀ v : Var, v.id ∈ s.1.decls → τ v = σ v) → b.tv τ := by
  have hclean : ∀ D, s.1.decls ⊆ D → e.Clean ⟨opts.noQelim = true, fun t => opts.optRel = true → RelCmp t, D, fun _ => True⟩ := by
    intro D hD
    refine (Expr.clean_iff _ (fun _ => trivial) e).2 ⟨fun hf => ?_, ?_, fun v hv => hD (hd v hv)⟩
    · by_contra h
      exact hf (hq (Bool.eq_false_iff.2 h))
    · by_cases h : opts.optRel = true
      · exact CmpTypes.imp (fun t ht _ => ht) e (hr h)
      · exact CmpTypes.imp (fun t _ h' => absurd h' h) e (cmpTypes_true e)
  obtain ⟨e1, s1, r1, g1, n1, v1⟩ : ∃ e1 s1, unfoldStep o span opts e s = some (e1, s1) ∧
      s.1.decls ⊆ s1.1.decls ∧ e1.NoSubst ∧ ∀ σ : Env, e1.eval σ = e.eval σ := by
    unfold unfoldStep
    split
    · obtain ⟨e1, s1, h1, h2, h3, h4, h5⟩ := (applySubst_spec span e .empty s.1 (FrameOk.empty _ _) hd).lift
      exact ⟨e1, s1, h1, h2, h3, fun σ => h5 σ σ fun v _ => rfl⟩
    · obtain ⟨e1, s1, h1, h2, h3, h4, h5⟩ := unfold_spec ho span e {} .empty s Path.ok_empty (FrameOk.empty _ _) hd
      exact ⟨e1, s1, h1, h2, h3, fun σ => h5 σ σ (Path.reach_empty σ) fun v _ => rfl⟩
  have c1 : e1.Clean ⟨opts.noQelim = true, fun t => opts.optRel = true → RelCmp t, s1.1.decls, fun _ => True⟩ := by
    have key : Par s1.1.decls (unfoldStep o span opts e) fun e' =>
        e.Clean ⟨opts.noQelim = true, fun t => opts.optRel = true → RelCmp t, s1.1.decls, fun _ => True⟩ →
        e'.Clean ⟨opts.noQelim = true, fun t => opts.optRel = true → RelCmp t, s1.1.decls, fun _ => True⟩ := by
      unfold unfoldStep
      split
      · exact (applySubst_clean (K := ⟨opts.noQelim = true, fun t => opts.optRel = true → RelCmp t, s1.1.decls, fun _ => True⟩) span e .empty).lift.imp fun _ h he => h SubstFrame.Clean.empty he
      · exact (unfold_clean (K := ⟨opts.noQelim = true, fun t => opts.optRel = true → RelCmp t, s1.1.decls, fun _ => True⟩) o span e {} .empty).imp fun _ h he => h SubstFrame.Clean.empty he
    exact (key s e1 s1 r1).2 (fun _ h => h) (hclean _ g1)
  obtain ⟨e2, s2, r2, ⟨W, hW, v2⟩, c2⟩ : ∃ e2 s2, qelimStep span' span'' opts d e1 s1 = some (e2, s2) ∧
      (∃ W : Var → Prop, (∀ v, W v → v.id ∉ s1.1.decls) ∧ ∀ σ : Env, HoldsAt d e1 σ ↔ ∀ τ : Ext W σ, HoldsAt d e2 τ.1) ∧
      e2.Clean ⟨opts.noQelim = true, fun t => opts.optRel = true → RelCmp t, s2.1.decls, fun _ => True⟩ := by
    by_cases h : opts.noQelim = true
    · refine ⟨e1, s1, by rw [qelimStep, if_pos h]; rfl, ⟨fun _ => False, fun _ h => h.elim, fun σ => ?_⟩, c1⟩
      have : ∀ τ : Ext (fun _ => False) σ, τ.1 = σ := fun τ => funext fun v => τ.2 v (fun h => h)
      exact ⟨fun h τ => by rw [this τ]; exact h, fun h => h ⟨σ, fun _ _ => rfl⟩⟩
    · have c1' := (Expr.clean_iff _ (fun _ => trivial) e1).1 c1
      have hf : e1.freshVars = [] := by
        by_contra hf
        exact h (c1'.1 hf)
      obtain ⟨e2, t2, h1, h3, W, h2⟩ := qelimPass_local span' span'' e1 d s1.1 c1'.2.2 n1 hf
      have hl : liftTcx (qelimPass span' span'' e1 d) s1 = some (e2, (t2, s1.2)) := by simp [liftTcx, h1]
      refine ⟨e2, (t2, s1.2), by rw [qelimStep, if_neg h, hl], ⟨W, h2⟩, ?_⟩
      refine ((qelimPass_clean (K := ⟨opts.noQelim = true, fun t => opts.optRel = true → RelCmp t, t2.decls, fun _ => True⟩) span' span'' e1 d) s1.1 e2 t2 h1).2 (fun _ h => h) ?_
      exact (Expr.clean_iff _ (fun _ => trivial) e1).2 ⟨c1'.1, c1'.2.1, fun v hv => h3 (c1'.2.2 v hv)⟩
  have cb : opts.optRel = true → (intoBoolVc d e2).Clean ⟨opts.noQelim = true, fun t => opts.optRel = true → RelCmp t, s2.1.decls, fun _ => True⟩ := by
    intro _
    cases d with
    | down => exact ⟨fun _ _ => by simp [RelCmp], topLit_clean rfl, c2⟩
    | up => exact ⟨fun _ _ => by simp [RelCmp], topLit_clean rfl, c2⟩
  obtain ⟨N, hN⟩ := optBool_spec opts (intoBoolVc d e2) cb fun h t ht => ht h
  refine ⟨N, fun n hn => ?_⟩
  obtain ⟨b, h1, h2⟩ := hN n hn
  have hb : ∀ σ, b.tv σ ↔ HoldsAt d e2 σ := by
    intro σ
    rw [h2 σ, intoBoolVc_tv]
    cases d <;> exact Iff.rfl
  have h12 : ∀ σ, HoldsAt d e σ ↔ HoldsAt d e1 σ := by
    intro σ
    have := v1 σ
    cases d with
    | down => exact iff_of_eq (congrArg (fun x : ℝ≥0∞ => x = ⊤) this.symm)
    | up => exact iff_of_eq (congrArg (fun x : ℝ≥0∞ => x = 0) this.symm)
  refine ⟨b, s2, lowerQuant_eq r1 r2 |>.trans (by rw [h1]; rfl), fun σ => ⟨fun h τ hτ => ?_, fun h => ?_⟩⟩
  · have he : e.ev τ = e.ev σ := by
      refine Expr.eval_congr e fun v hv => hτ v (hd v ?_)
      exact hv.occurs
    exact (hb τ).2 ((v2 τ).1 ((h12 τ).1 ((holdsAt_congr he).2 h)) ⟨τ, fun _ _ => rfl⟩)
  · refine (h12 σ).2 ((v2 σ).2 fun τ => (hb τ.1).1 (h τ.1 fun v hv => τ.2 v fun hw => hW v hw (g1 hv)))

end

end Caesar
