import Verif.Procs.RecSpec
import Verif.Procs.SpecCallSound
import Verif.Procs.ProcVerify
import Verif.ProofRules.LoopsSound

/-!
# Helper lemmas for recursive procedures
-/

open scoped ENNReal NNReal

namespace Caesar
set_option linter.unusedSectionVars false

variable [Doms] [Interp]

/-! ## The context of calls -/

theorem callCtx_frame (k : LoopSem) (procs : ProcTable) (Γ : ProcSem) :
    ∀ l f a φ ψ σ, (∀ σ', Agree l σ σ' → φ σ' = ψ σ') → (callCtx k procs Γ).call l f a φ σ = (callCtx k procs Γ).call l f a ψ σ := by
  intro l f a φ ψ σ h
  have hr : ∀ p τ₀, runCall p (Γ f) l a φ σ τ₀ = runCall p (Γ f) l a ψ σ τ₀ := by
    intro p τ₀
    unfold runCall
    congr 1
    funext τ
    exact h _ (agree_pass σ l _)
  unfold callCtx
  simp only [hr]

theorem callCtx_le {k : LoopSem} {procs : ProcTable} {Γ Γ' : ProcSem} (h : ∀ f φ, Γ f φ ≤ Γ' f φ) (l : List Var) (f : Ident)
    (a : List ((t : Ty) × Expr t)) (φ : Exp) : (callCtx k procs Γ).call l f a φ ≤ (callCtx k procs Γ').call l f a φ := by
  intro σ
  unfold callCtx
  show (match procs f with | none => _ | some p => _) ≤ (match procs f with | none => _ | some p => _)
  cases procs f with
  | none => exact le_rfl
  | some p =>
    dsimp only
    split
    · cases hd : p.dir
      · exact iInf_mono fun τ₀ => h f _ _
      · exact iSup_mono fun τ₀ => h f _ _
    · exact le_rfl

theorem callCtx_mono {k : LoopSem} {procs : ProcTable} {Γ : ProcSem} (h : ∀ f, Monotone (Γ f)) (l : List Var) (f : Ident)
    (a : List ((t : Ty) × Expr t)) : Monotone ((callCtx k procs Γ).call l f a) := by
  intro φ ψ hφ σ
  have hr : ∀ p τ₀, runCall p (Γ f) l a φ σ τ₀ ≤ runCall p (Γ f) l a ψ σ τ₀ := fun p τ₀ =>
    h f (fun τ => hφ _) _
  unfold callCtx
  show (match procs f with | none => _ | some p => _) ≤ (match procs f with | none => _ | some p => _)
  cases procs f with
  | none => exact le_rfl
  | some p =>
    dsimp only
    split
    · cases hd : p.dir
      · exact iInf_mono fun τ₀ => hr p τ₀
      · exact iSup_mono fun τ₀ => hr p τ₀
    · exact le_rfl

/-- Calls are monotone, only change their left-hand sides and only read their arguments. -/
theorem callCtx_regular {k : LoopSem} {procs : ProcTable} {Γ : ProcSem} (h : ∀ f, Monotone (Γ f)) :
    (callCtx k procs Γ).Regular := by
  refine ⟨callCtx_mono h, callCtx_frame k procs Γ, fun l f a φ D A hD hA hφ σ σ' hs => ?_⟩
  have hargs : evalArgs σ' a = evalArgs σ a := evalArgs_congr fun e he v hv => hs v fun hd => hD v hd e he hv
  have hr : ∀ p : Proc, p.outputs.map Var.ty = l.map Var.ty → ∀ τ₀, runCall p (Γ f) l a φ σ' τ₀ = runCall p (Γ f) l a φ σ τ₀ := by
    intro p hp τ₀
    unfold runCall
    rw [hargs]
    congr 1
    funext τ
    refine hφ _ _ fun v hv => ?_
    by_cases hl : v ∈ l
    · exact pass_mem _ _ hl (by rw [← hp]; unfold Env.valuesOf; rw [List.map_map]; rfl)
    · rw [pass_notMem _ hl, pass_notMem _ hl]
      exact hs v fun hd => (hA v hd).elim hv hl
  unfold callCtx
  show (match procs f with | none => _ | some p => _) = (match procs f with | none => _ | some p => _)
  cases procs f with
  | none => rfl
  | some p =>
    dsimp only
    split
    · next hp => simp only [hr p hp]
    · rfl

/-- Larger meanings of calls make statements without negations larger. -/
theorem vcSem_ctx_mono {C C' : SemCtx} (hl : C.loop = C'.loop) (hc : ∀ l f a φ, C.call l f a φ ≤ C'.call l f a φ)
    (hm : ∀ l f a, Monotone (C.call l f a)) {S : Stmt} (hS : S.NoNeg) (φ : Exp) : vcSem C S φ ≤ vcSem C' S φ := by
  classical
  induction S generalizing φ with
  | call b l f a => exact hc l f a φ
  | seq a b iha ihb => exact (vcSem_mono C hm hS.1 (ihb hS.2 φ)).trans (iha hS.1 _)
  | demonic a b iha ihb => exact fun σ => min_le_min (iha hS.1 φ σ) (ihb hS.2 φ σ)
  | angelic a b iha ihb => exact fun σ => max_le_max (iha hS.1 φ σ) (ihb hS.2 φ σ)
  | additive a b iha ihb => exact fun σ => add_le_add (iha hS.1 φ σ) (ihb hS.2 φ σ)
  | ite c a b iha ihb =>
    intro σ
    show ite _ _ _ ≤ ite _ _ _
    split
    · exact iha hS.1 φ σ
    · exact ihb hS.2 φ σ
  | «while» c s ih =>
    rw [vcSem_while, vcSem_while, ← hl]
    refine fixpoint_mono fun X σ => ?_
    show ite _ _ _ ≤ ite _ _ _
    split
    · exact ih hS X σ
    · exact le_rfl
  | annot an s ih => exact ih hS φ
  | negate d => exact hS.elim
  | havoc d xs => cases d <;> exact le_refl (α := Exp) _
  | assert d e => cases d <;> exact le_refl (α := Exp) _
  | assume d e => cases d <;> exact le_refl (α := Exp) _
  | compare d e => cases d <;> exact le_refl (α := Exp) _
  | validate d => cases d <;> exact le_refl (α := Exp) _
  | _ => exact le_refl (α := Exp) _

/-- Statements which nowhere mention the variables `D` do not depend on them. -/
theorem vcSem_ignores_all {k : LoopSem} {procs : ProcTable} {Γ : ProcSem} (hΓ : ∀ f, Monotone (Γ f)) {D : Var → Prop} {S : Stmt}
    (hS : S.NoNeg) (hD : ∀ v, D v → ¬ S.ReadsSome v) {φ : Exp} (hφ : Ignores D φ) :
    Ignores D (vcSem (callCtx k procs Γ) S φ) := by
  classical
  induction S generalizing φ with
  | skip | varDecl | label => exact hφ
  | varInit x e | assign x e =>
    intro σ σ' h
    show φ _ = φ _
    rw [eval_agreeOff (e := e) hD h]
    exact hφ _ _ (upd_agreeOff (fun v hv => Or.inl hv) h _)
  | sample b x d =>
    intro σ σ' h
    show d.expect σ' _ = d.expect σ _
    unfold DistCall.expect
    rw [pmf_agreeOff (d := d) hD h]
    congr 1
    funext a
    exact congrArg (d.pmf σ a * ·) (hφ _ _ (upd_agreeOff (x := ⟨x, _⟩) (fun v hv => Or.inl hv) h a))
  | call b l f a =>
    intro σ σ' h
    have hargs : evalArgs σ' a = evalArgs σ a := evalArgs_congr fun e he v hv =>
      h v fun hd => hD v hd ⟨e, he, hv⟩
    have hr : ∀ p τ₀, runCall p (Γ f) l a φ σ' τ₀ = runCall p (Γ f) l a φ σ τ₀ := by
      intro p τ₀
      unfold runCall
      rw [hargs]
      congr 1
      funext τ
      exact hφ _ _ (pass_agree h l _)
    unfold vcSem callCtx
    simp only [hr]
  | havoc d xs =>
    intro σ σ' h
    have k1 := fun τ' (hτ : Agree xs σ' τ') => havoc_reads (l := xs) (D := D) (fun v hv => Or.inl hv) hφ h hτ
    have k2 := fun τ' (hτ : Agree xs σ τ') => havoc_reads (l := xs) (D := D) (fun v hv => Or.inl hv) hφ h.symm hτ
    cases d
    · show (⨅ τ ∈ {τ | Agree xs σ' τ}, φ τ) = ⨅ τ ∈ {τ | Agree xs σ τ}, φ τ
      apply le_antisymm
      · refine le_iInf₂ fun τ ht => ?_
        obtain ⟨τ', h1, h2⟩ := k2 τ ht
        rw [h2]; exact iInf₂_le (f := fun τ (_ : Agree xs σ' τ) => φ τ) τ' h1
      · refine le_iInf₂ fun τ ht => ?_
        obtain ⟨τ', h1, h2⟩ := k1 τ ht
        rw [h2]; exact iInf₂_le (f := fun τ (_ : Agree xs σ τ) => φ τ) τ' h1
    · show (⨆ τ ∈ {τ | Agree xs σ' τ}, φ τ) = ⨆ τ ∈ {τ | Agree xs σ τ}, φ τ
      apply le_antisymm
      · refine iSup₂_le fun τ ht => ?_
        obtain ⟨τ', h1, h2⟩ := k1 τ ht
        rw [h2]; exact le_iSup₂ (f := fun τ (_ : Agree xs σ τ) => φ τ) τ' h1
      · refine iSup₂_le fun τ ht => ?_
        obtain ⟨τ', h1, h2⟩ := k2 τ ht
        rw [h2]; exact le_iSup₂ (f := fun τ (_ : Agree xs σ' τ) => φ τ) τ' h1
  | assert d e | assume d e | compare d e =>
    intro σ σ' h
    have h1 := ev_agreeOff (e := e) hD h
    have h2 := hφ _ _ h
    cases d <;> simp only [vcSem, h1, h2]
  | tick e | weigh e =>
    intro σ σ' h
    have h1 := ev_agreeOff (e := e) hD h
    have h2 := hφ _ _ h
    simp only [vcSem, h1, h2]
  | negate d => exact hS.elim
  | validate d =>
    intro σ σ' h
    have h2 := hφ _ _ h
    cases d <;> simp only [vcSem, h2]
  | seq a b iha ihb =>
    exact iha hS.1 (fun v hv h => hD v hv (Or.inl h)) (ihb hS.2 (fun v hv h => hD v hv (Or.inr h)) hφ)
  | demonic a b iha ihb | angelic a b iha ihb | additive a b iha ihb =>
    intro σ σ' h
    have h1 := iha hS.1 (fun v hv h => hD v hv (Or.inl h)) hφ σ σ' h
    have h2 := ihb hS.2 (fun v hv h => hD v hv (Or.inr h)) hφ σ σ' h
    simp only [vcSem, h1, h2]
  | ite c a b iha ihb =>
    intro σ σ' h
    have h0 := tv_agreeOff (e := c) (fun v hv hf => hD v hv (Or.inl hf)) h
    have h1 := iha hS.1 (fun v hv h => hD v hv (Or.inr (Or.inl h))) hφ σ σ' h
    have h2 := ihb hS.2 (fun v hv h => hD v hv (Or.inr (Or.inr h))) hφ σ σ' h
    simp only [vcSem, h0, h1, h2]
  | «while» c s ih =>
    rw [vcSem_while]
    refine fixpoint_ignores (loopFun_mono (vcSem_mono _ (callCtx_mono hΓ) (S := s) hS) c φ) fun X hX σ σ' h => ?_
    have h0 := tv_agreeOff (e := c) (fun v hv hf => hD v hv (Or.inl hf)) h
    have h1 := ih hS (fun v hv h => hD v hv (Or.inr h)) hX σ σ' h
    have h2 := hφ _ _ h
    simp only [loopFun, h0, h1, h2]
  | annot an s ih => exact ih hS (fun v hv h => hD v hv (Or.inr h)) hφ

/-! ## Fixed points up to variables that are not mentioned -/

theorem fixpoint_le_ignoring {d : Dir} {k : LoopSem} {Φ Ψ : Exp → Exp} (hΦ : Monotone Φ) (hΨ : Monotone Ψ) {D : Var → Prop}
    (hI : ∀ X, Ignores D X → Ignores D (Ψ X)) (h : ∀ X, Ignores D X → d.Le (Φ X) (Ψ X)) :
    d.Le (fixpoint k Φ) (fixpoint k Ψ) := by
  have hG : Ignores D (fixpoint k Ψ) := fixpoint_ignores hΨ hI
  cases d with
  | down =>
    cases k with
    | lfp => exact sInf_le (a := fixpoint .lfp Ψ) (s := {X | Φ X ≤ X}) ((h _ hG).trans (lfp_prefixed hΨ))
    | gfp =>
      let F := fixpoint .gfp Φ
      let F' : Exp := fun σ => ⨆ σ' ∈ {σ' | AgreeOff D σ σ'}, F σ'
      have hF' : Ignores D F' := by
        intro σ σ' h
        apply le_antisymm
        · exact iSup₂_le fun τ ht => le_iSup₂ (f := fun σ' (_ : AgreeOff D _ σ') => F σ') τ (h.trans ht)
        · exact iSup₂_le fun τ ht => le_iSup₂ (f := fun σ' (_ : AgreeOff D _ σ') => F σ') τ (h.symm.trans ht)
      have h1 : F ≤ F' := fun σ => le_iSup₂ (f := fun σ' (_ : AgreeOff D _ σ') => F σ') σ (AgreeOff.refl D σ)
      refine le_trans (α := Exp) h1 (le_sSup (show F' ≤ Ψ F' from fun σ => iSup₂_le fun σ' (hs : AgreeOff D σ σ') => ?_))
      rw [← hI F' hF' σ σ' hs]
      exact (((gfp_postfixed hΦ).trans (hΦ h1)).trans (h F' hF')) σ'
  | up =>
    cases k with
    | gfp => exact le_sSup (a := fixpoint .gfp Ψ) (s := {X | X ≤ Φ X}) ((gfp_postfixed hΨ).trans (h _ hG))
    | lfp =>
      let F := fixpoint .lfp Φ
      let F' : Exp := fun σ => ⨅ σ' ∈ {σ' | AgreeOff D σ σ'}, F σ'
      have hF' : Ignores D F' := by
        intro σ σ' h
        apply le_antisymm
        · exact le_iInf₂ fun τ ht => iInf₂_le (f := fun σ' (_ : AgreeOff D _ σ') => F σ') τ (h.symm.trans ht)
        · exact le_iInf₂ fun τ ht => iInf₂_le (f := fun σ' (_ : AgreeOff D _ σ') => F σ') τ (h.trans ht)
      have h1 : F' ≤ F := fun σ => iInf₂_le (f := fun σ' (_ : AgreeOff D _ σ') => F σ') σ (AgreeOff.refl D σ)
      refine le_trans (α := Exp) (sInf_le (show Ψ F' ≤ F' from fun σ => le_iInf₂ fun σ' (hs : AgreeOff D σ σ') => ?_)) h1
      rw [← hI F' hF' σ σ' hs]
      exact ((le_trans (α := Exp) (h F' hF') (hΦ h1)).trans (lfp_prefixed hΦ)) σ'

/-! ## Calls replaced by specifications in a whole body -/

omit [Doms] [Interp] in
theorem noNeg_block {ss : List Stmt} (h : ∀ s ∈ ss, s.NoNeg) : (Stmt.block ss).NoNeg := by
  induction ss with
  | nil => trivial
  | cons s ss ih => exact ⟨h s List.mem_cons_self, ih fun s hs => h s (List.mem_cons_of_mem _ hs)⟩

omit [Doms] [Interp] in
theorem stableInputs_noNeg (free : List Var) {ps : List Param} : ∀ {declared : List Var} {args : List ((t : Ty) × Expr t)},
    ∀ s ∈ (stableInputs free declared ps args).1, s.NoNeg := by
  induction ps with
  | nil => intro declared args s hs; unfold stableInputs at hs; exact absurd hs List.not_mem_nil
  | cons p ps ih =>
    intro declared args s hs
    cases args with
    | nil => unfold stableInputs at hs; exact absurd hs List.not_mem_nil
    | cons a args =>
      obtain ⟨t, e⟩ := a
      unfold stableInputs at hs
      split at hs
      · split at hs
        · rcases List.mem_cons.mp hs with rfl | h
          · unfold assignToTemp
            split <;> trivial
          · exact ih s h
        · exact ih s hs
      · exact ih s hs

omit [Doms] [Interp] in
theorem encodeAssign_noNeg (declared : List Var) (p : Proc) (lhs : List Var) (args : List ((t : Ty) × Expr t)) :
    ∀ s ∈ (encodeAssign declared p lhs args).1, s.NoNeg := by
  intro s hs
  unfold encodeAssign at hs
  rcases List.mem_append.mp hs with hs | hs
  · rcases List.mem_append.mp hs with hs | hs
    · rcases List.mem_append.mp hs with hs | hs
      · obtain ⟨e, -, rfl⟩ := List.mem_map.mp hs; trivial
      · exact stableInputs_noNeg _ s hs
    · rw [List.mem_singleton.mp hs]; trivial
  · obtain ⟨e, -, rfl⟩ := List.mem_map.mp hs; trivial

omit [Doms] [Interp] in
theorem specCall_noNeg {procs : ProcTable} {d : Dir} {B : Stmt} (hB : B.NoNeg) : ∀ {decl : List Var} {S : Stmt} {decl' : List Var},
    specCall procs d B decl = some (S, decl') → S.NoNeg := by
  induction B with
  | call b l f a =>
    intro decl S decl' h
    unfold specCall at h
    cases hp : procs f with
    | none => simp only [hp, Option.some.injEq, Prod.mk.injEq] at h; rw [← h.1]; trivial
    | some p =>
      simp only [hp] at h
      split at h
      · simp only [Option.some.injEq, Prod.mk.injEq] at h
        rw [← h.1]
        refine noNeg_block fun s hs => ?_
        rcases List.mem_append.mp hs with hs | hs
        · obtain ⟨x, -, rfl⟩ := List.mem_map.mp hs; trivial
        · exact encodeAssign_noNeg _ _ _ _ s hs
      · split at h
        · exact nomatch h
        · simp only [Option.some.injEq, Prod.mk.injEq] at h
          rw [← h.1]
          exact noNeg_block (encodeAssign_noNeg _ _ _ _)
  | seq a b iha ihb | demonic a b iha ihb | angelic a b iha ihb | additive a b iha ihb | ite c a b iha ihb =>
    intro decl S decl' h
    unfold specCall at h
    cases h1 : specCall procs d a decl with
    | none => rw [h1] at h; exact nomatch h
    | some r1 =>
      rw [h1] at h
      cases h2 : specCall procs d b r1.2 with
      | none =>
        have h : ((specCall procs d b r1.2).bind _ : Option _) = _ := h
        rw [h2] at h; exact nomatch h
      | some r2 =>
        have h : ((specCall procs d b r1.2).bind _ : Option _) = _ := h
        rw [h2] at h
        obtain ⟨rfl, -⟩ := Prod.mk.inj (Option.some.inj h)
        exact ⟨iha hB.1 h1, ihb hB.2 h2⟩
  | «while» c s ih =>
    intro decl S decl' h
    unfold specCall at h
    cases h1 : specCall procs d s decl with
    | none => rw [h1] at h; exact nomatch h
    | some r1 =>
      rw [h1] at h
      obtain ⟨rfl, -⟩ := Prod.mk.inj (Option.some.inj h)
      exact (ih hB h1 : r1.1.NoNeg)
  | annot an s ih =>
    intro decl S decl' h
    unfold specCall at h
    cases h1 : specCall procs d s decl with
    | none => rw [h1] at h; exact nomatch h
    | some r1 =>
      rw [h1] at h
      obtain ⟨rfl, -⟩ := Prod.mk.inj (Option.some.inj h)
      exact (ih hB h1 : r1.1.NoNeg)
  | negate d => exact hB.elim
  | _ =>
    intro decl S decl' h
    unfold specCall at h
    obtain ⟨rfl, -⟩ := Prod.mk.inj (Option.some.inj h)
    trivial

theorem vcSem_varDecls (C : SemCtx) (xs : List Var) (ss : List Stmt) (φ : Exp) :
    vcSem C (Stmt.block (xs.map .varDecl ++ ss)) φ = vcSem C (Stmt.block ss) φ := by
  induction xs with
  | nil => rfl
  | cons x xs ih => exact ih

/-- A call site of a body: the callee exists, and the call is well-formed and does not clash. -/
def CallsOk (procs : ProcTable) (B : Stmt) : Prop :=
  ∀ lhs f args, B.Calls lhs f args → ∃ p, procs f = some p ∧ CallWF p lhs args ∧ NoClash p lhs args

/-- The temporaries of all procedures. -/
def Temp (procs : ProcTable) (v : Var) : Prop := ∃ f p, procs f = some p ∧ v ∈ p.inputs.map Param.old

/-- The body with calls replaced by specifications is on the safe side of the body whose calls have a meaning `Γ` that
satisfies the specifications. -/
theorem specCall_le {procs : ProcTable} {d : Dir} {k : LoopSem} (hdir : ∀ f p, procs f = some p → p.dir = d)
    (hwf : ∀ f p, procs f = some p → p.WF) (hpost : ∀ f p, procs f = some p → p.ensures ≠ [])
    {Γ : ProcSem} (hΓ : ∀ f, Monotone (Γ f)) (hK : ∀ f p, procs f = some p → KeepsIns p (Γ f))
    (hM : ∀ f p, procs f = some p → p.Meets (Γ f))
    {C : SemCtx} (hC : ∀ l f a, Monotone (C.call l f a)) (hl : C.loop = k) {B : Stmt} (hB : B.NoNeg)
    (hT : ∀ v, Temp procs v → ¬ B.ReadsSome v) (hcalls : CallsOk procs B) :
    ∀ {decl : List Var} {S : Stmt} {decl' : List Var}, specCall procs d B decl = some (S, decl') →
    ∀ {φ : Exp}, Ignores (Temp procs) φ → d.Le (vcSem C S φ) (vcSem (callCtx k procs Γ) B φ) := by
  induction B with
  | call b l f a =>
    intro decl S decl' h φ hφ
    obtain ⟨p, hp, hc, hcl⟩ := hcalls l f a ⟨rfl, rfl, rfl⟩
    have hφ' : Ignores (· ∈ p.inputs.map Param.old) φ := hφ.anti fun v hv => ⟨f, p, hp, hv⟩
    have hS : vcSem C S φ = vcSem C (Stmt.block (encodeAssign decl p l a).1) φ := by
      unfold specCall at h
      simp only [hp] at h
      split at h
      · obtain ⟨rfl, -⟩ := Prod.mk.inj (Option.some.inj h)
        exact vcSem_varDecls C l _ φ
      · split at h
        · exact nomatch h
        · obtain ⟨rfl, -⟩ := Prod.mk.inj (Option.some.inj h)
          rfl
    rw [hS]
    have hd := hdir f p hp
    cases d with
    | down =>
      intro σ
      show _ ≤ (match procs f with | none => _ | some p => _)
      simp only [hp, hd, hc.lhsTypes, if_true]
      exact le_iInf fun τ₀ => encodeAssign_le_run C (hwf f p hp) hd (hpost f p hp) hc hcl (hΓ f) (hK f p hp) (hM f p hp) decl hφ' σ τ₀
    | up =>
      intro σ
      show (match procs f with | none => _ | some p => _) ≤ _
      simp only [hp, hd, hc.lhsTypes, if_true]
      exact iSup_le fun τ₀ => run_le_encodeAssign C (hwf f p hp) hd (hpost f p hp) hc hcl (hΓ f) (hK f p hp) (hM f p hp) decl hφ' σ τ₀
  | seq a b iha ihb =>
    intro decl S decl' h φ hφ
    unfold specCall at h
    cases h1 : specCall procs d a decl with
    | none => rw [h1] at h; exact nomatch h
    | some r1 =>
      rw [h1] at h
      have h : ((specCall procs d b r1.2).bind _ : Option _) = _ := h
      cases h2 : specCall procs d b r1.2 with
      | none => rw [h2] at h; exact nomatch h
      | some r2 =>
        rw [h2] at h
        obtain ⟨rfl, -⟩ := Prod.mk.inj (Option.some.inj h)
        have hTb : ∀ v, Temp procs v → ¬ b.ReadsSome v := fun v hv h => hT v hv (Or.inr h)
        have ih2 := ihb hB.2 hTb (fun l f a h => hcalls l f a (Or.inr h)) h2 hφ
        have ih1 := iha hB.1 (fun v hv h => hT v hv (Or.inl h)) (fun l f a h => hcalls l f a (Or.inl h)) h1
          (vcSem_ignores_all (k := k) (procs := procs) hΓ hB.2 hTb hφ)
        exact (Dir.Le.apply (vcSem_mono C hC (specCall_noNeg hB.1 h1)) ih2).trans ih1
  | demonic a b iha ihb =>
    intro decl S decl' h φ hφ
    unfold specCall at h
    cases h1 : specCall procs d a decl with
    | none => rw [h1] at h; exact nomatch h
    | some r1 =>
      rw [h1] at h
      have h : ((specCall procs d b r1.2).bind _ : Option _) = _ := h
      cases h2 : specCall procs d b r1.2 with
      | none => rw [h2] at h; exact nomatch h
      | some r2 =>
        rw [h2] at h
        obtain ⟨rfl, -⟩ := Prod.mk.inj (Option.some.inj h)
        exact Dir.Le.pointwise (f := fun _ x y => min x y) (fun _ _ _ _ _ => min_le_min)
          (iha hB.1 (fun v hv h => hT v hv (Or.inl h)) (fun l f a h => hcalls l f a (Or.inl h)) h1 hφ)
          (ihb hB.2 (fun v hv h => hT v hv (Or.inr h)) (fun l f a h => hcalls l f a (Or.inr h)) h2 hφ)
  | angelic a b iha ihb =>
    intro decl S decl' h φ hφ
    unfold specCall at h
    cases h1 : specCall procs d a decl with
    | none => rw [h1] at h; exact nomatch h
    | some r1 =>
      rw [h1] at h
      have h : ((specCall procs d b r1.2).bind _ : Option _) = _ := h
      cases h2 : specCall procs d b r1.2 with
      | none => rw [h2] at h; exact nomatch h
      | some r2 =>
        rw [h2] at h
        obtain ⟨rfl, -⟩ := Prod.mk.inj (Option.some.inj h)
        exact Dir.Le.pointwise (f := fun _ x y => max x y) (fun _ _ _ _ _ => max_le_max)
          (iha hB.1 (fun v hv h => hT v hv (Or.inl h)) (fun l f a h => hcalls l f a (Or.inl h)) h1 hφ)
          (ihb hB.2 (fun v hv h => hT v hv (Or.inr h)) (fun l f a h => hcalls l f a (Or.inr h)) h2 hφ)
  | additive a b iha ihb =>
    intro decl S decl' h φ hφ
    unfold specCall at h
    cases h1 : specCall procs d a decl with
    | none => rw [h1] at h; exact nomatch h
    | some r1 =>
      rw [h1] at h
      have h : ((specCall procs d b r1.2).bind _ : Option _) = _ := h
      cases h2 : specCall procs d b r1.2 with
      | none => rw [h2] at h; exact nomatch h
      | some r2 =>
        rw [h2] at h
        obtain ⟨rfl, -⟩ := Prod.mk.inj (Option.some.inj h)
        exact Dir.Le.pointwise (f := fun _ x y => x + y) (fun _ _ _ _ _ => add_le_add)
          (iha hB.1 (fun v hv h => hT v hv (Or.inl h)) (fun l f a h => hcalls l f a (Or.inl h)) h1 hφ)
          (ihb hB.2 (fun v hv h => hT v hv (Or.inr h)) (fun l f a h => hcalls l f a (Or.inr h)) h2 hφ)
  | ite c a b iha ihb =>
    intro decl S decl' h φ hφ
    unfold specCall at h
    cases h1 : specCall procs d a decl with
    | none => rw [h1] at h; exact nomatch h
    | some r1 =>
      rw [h1] at h
      have h : ((specCall procs d b r1.2).bind _ : Option _) = _ := h
      cases h2 : specCall procs d b r1.2 with
      | none => rw [h2] at h; exact nomatch h
      | some r2 =>
        rw [h2] at h
        obtain ⟨rfl, -⟩ := Prod.mk.inj (Option.some.inj h)
        classical
        exact Dir.Le.pointwise (f := fun σ x y => if c.tv σ then x else y)
          (fun _ _ _ _ _ h1 h2 => by split <;> assumption)
          (iha hB.1 (fun v hv h => hT v hv (Or.inr (Or.inl h))) (fun l f a h => hcalls l f a (Or.inl h)) h1 hφ)
          (ihb hB.2 (fun v hv h => hT v hv (Or.inr (Or.inr h))) (fun l f a h => hcalls l f a (Or.inr h)) h2 hφ)
  | «while» c s ih =>
    intro decl S decl' h φ hφ
    unfold specCall at h
    cases h1 : specCall procs d s decl with
    | none => rw [h1] at h; exact nomatch h
    | some r1 =>
      rw [h1] at h
      obtain ⟨rfl, -⟩ := Prod.mk.inj (Option.some.inj h)
      have hTs : ∀ v, Temp procs v → ¬ s.ReadsSome v := fun v hv h => hT v hv (Or.inr h)
      rw [vcSem_while, vcSem_while, hl]
      refine fixpoint_le_ignoring (D := Temp procs) (loopFun_mono (vcSem_mono C hC (specCall_noNeg (B := s) hB h1)) c φ)
        (loopFun_mono (vcSem_mono _ (callCtx_mono hΓ) (S := s) hB) c φ) (fun X hX => ?_) fun X hX => ?_
      · intro σ σ' hs
        classical
        exact if_congr (tv_agreeOff (e := c) (fun v hv hf => hT v hv (Or.inl hf)) hs)
          (vcSem_ignores_all hΓ (S := s) hB hTs hX σ σ' hs) (hφ _ _ hs)
      · classical
        exact Dir.Le.pointwise (f := fun σ x y => if c.tv σ then x else y)
          (fun _ _ _ _ _ h1 h2 => by split <;> assumption) (ih hB hTs hcalls h1 hX) (Dir.Le.refl d φ)
  | annot an s ih =>
    intro decl S decl' h φ hφ
    unfold specCall at h
    cases h1 : specCall procs d s decl with
    | none => rw [h1] at h; exact nomatch h
    | some r1 =>
      rw [h1] at h
      obtain ⟨rfl, -⟩ := Prod.mk.inj (Option.some.inj h)
      exact ih hB (fun v hv h => hT v hv (Or.inr h)) hcalls h1 hφ
  | negate d => exact hB.elim
  | havoc d' xs =>
    intro decl S decl' h φ hφ
    unfold specCall at h
    obtain ⟨rfl, -⟩ := Prod.mk.inj (Option.some.inj h)
    cases d' <;> exact Dir.Le.refl _ _
  | assert d' xs | assume d' xs | compare d' xs =>
    intro decl S decl' h φ hφ
    unfold specCall at h
    obtain ⟨rfl, -⟩ := Prod.mk.inj (Option.some.inj h)
    cases d' <;> exact Dir.Le.refl _ _
  | validate d' =>
    intro decl S decl' h φ hφ
    unfold specCall at h
    obtain ⟨rfl, -⟩ := Prod.mk.inj (Option.some.inj h)
    cases d' <;> exact Dir.Le.refl _ _
  | _ =>
    intro decl S decl' h φ hφ
    unfold specCall at h
    obtain ⟨rfl, -⟩ := Prod.mk.inj (Option.some.inj h)
    exact Dir.Le.refl _ _

/-! ## The specification as a transformer -/

open Classical in
/-- The strongest (for lower bounds: smallest) transformer that satisfies the specification. -/
noncomputable def specT (p : Proc) (φ : Exp) : Exp := fun τ =>
  match p.dir with
  | .down => if ∀ τ', (∀ x ∈ p.ins, τ' x = τ x) → p.post τ' ≤ φ τ' then p.pre τ else 0
  | .up => if ∀ τ', (∀ x ∈ p.ins, τ' x = τ x) → φ τ' ≤ p.post τ' then p.pre τ else ⊤

theorem specT_mono (p : Proc) : Monotone (specT p) := by
  classical
  intro φ ψ h τ
  unfold specT
  cases p.dir with
  | down =>
    show ite _ _ _ ≤ ite _ _ _
    by_cases h1 : ∀ τ', (∀ x ∈ p.ins, τ' x = τ x) → p.post τ' ≤ φ τ'
    · rw [if_pos h1, if_pos fun τ' hτ' => (h1 τ' hτ').trans (h τ')]
    · rw [if_neg h1]; exact zero_le
  | up =>
    show ite _ _ _ ≤ ite _ _ _
    by_cases h1 : ∀ τ', (∀ x ∈ p.ins, τ' x = τ x) → ψ τ' ≤ p.post τ'
    · rw [if_pos h1, if_pos fun τ' hτ' => (h τ').trans (h1 τ' hτ')]
    · rw [if_neg h1]; exact le_top

theorem specT_keepsIns (p : Proc) : KeepsIns p (specT p) := by
  classical
  intro φ ψ τ h
  unfold specT
  cases p.dir with
  | down =>
    refine if_congr (forall_congr' fun τ' => forall_congr' fun hτ' => ?_) rfl rfl
    rw [h τ' hτ']
  | up =>
    refine if_congr (forall_congr' fun τ' => forall_congr' fun hτ' => ?_) rfl rfl
    rw [h τ' hτ']

theorem specT_meets (p : Proc) : p.Meets (specT p) := by
  classical
  unfold Proc.Meets specT
  cases p.dir with
  | down =>
    intro τ
    show _ ≤ ite _ _ _
    rw [if_pos fun _ _ => le_rfl]
  | up =>
    intro τ
    show ite _ _ _ ≤ _
    rw [if_pos fun _ _ => le_rfl]

/-- Every transformer that satisfies the specification is on the safe side of it. -/
theorem specT_le {p : Proc} {F : Exp → Exp} (hF : Monotone F) (hK : KeepsIns p F) (hM : p.Meets F) (φ : Exp) :
    p.dir.Le (specT p φ) (F φ) := by
  classical
  unfold Proc.Meets at hM
  cases hd : p.dir with
  | down =>
    intro τ
    rw [hd] at hM
    unfold specT
    rw [hd]
    show ite _ _ _ ≤ _
    split
    · next h =>
      refine (hM τ).trans ?_
      rw [hK p.post (fun τ' => if ∀ x ∈ p.ins, τ' x = τ x then p.post τ' else 0) τ fun τ' hτ' => (if_pos hτ').symm]
      refine hF (fun τ' => ?_) τ
      show ite _ _ _ ≤ _
      split
      · next h' => exact h τ' h'
      · exact zero_le
    · exact zero_le
  | up =>
    intro τ
    rw [hd] at hM
    unfold specT
    rw [hd]
    show _ ≤ ite _ _ _
    split
    · next h =>
      refine le_trans ?_ (hM τ)
      rw [hK p.post (fun τ' => if ∀ x ∈ p.ins, τ' x = τ x then p.post τ' else ⊤) τ fun τ' hτ' => (if_pos hτ').symm]
      refine hF (fun τ' => ?_) τ
      show _ ≤ ite _ _ _
      split
      · next h' => exact h τ' h'
      · exact le_top
    · exact le_top

/-! ## Specification calls in the statements of a verification task -/

omit [Doms] [Interp] in
/-- The calls of the task are those of the body. -/
theorem specCall_prefix {procs : ProcTable} {d : Dir} {as : List Stmt} (ha : ∀ s ∈ as, ∀ decl, specCall procs d s decl = some (s, decl)) :
    ∀ {rest : List Stmt} {decl decl' : List Var} {T : Stmt}, specCall procs d (Stmt.block (as ++ rest)) decl = some (T, decl') →
      ∃ R, specCall procs d (Stmt.block rest) decl = some (R, decl') ∧ T = as.foldr .seq R := by
  induction as with
  | nil => intro rest decl decl' T h; exact ⟨T, h, rfl⟩
  | cons s as ih =>
    intro rest decl decl' T h
    have h : ((specCall procs d s decl).bind _ : Option _) = _ := h
    rw [ha s List.mem_cons_self decl] at h
    have h : ((specCall procs d (Stmt.block (as ++ rest)) decl).bind _ : Option _) = _ := h
    cases h1 : specCall procs d (Stmt.block (as ++ rest)) decl with
    | none => rw [h1] at h; exact nomatch h
    | some r =>
      rw [h1] at h
      obtain ⟨rfl, rfl⟩ := Prod.mk.inj (Option.some.inj h)
      obtain ⟨R, h2, h3⟩ := ih (fun s hs => ha s (List.mem_cons_of_mem _ hs)) h1
      exact ⟨R, h2, by rw [h3]; rfl⟩

omit [Doms] [Interp] in
theorem foldr_seq_block (as bs : List Stmt) : as.foldr Stmt.seq (Stmt.block bs) = Stmt.block (as ++ bs) := by
  induction as with
  | nil => rfl
  | cons a as ih => exact congrArg (Stmt.seq a) ih

omit [Doms] [Interp] in
theorem specCall_task {procs : ProcTable} {d : Dir} {as bs : List Stmt} {B : Stmt}
    (ha : ∀ s ∈ as, ∀ decl, specCall procs d s decl = some (s, decl)) (hb : ∀ s ∈ bs, ∀ decl, specCall procs d s decl = some (s, decl))
    {decl decl' : List Var} {T : Stmt} (h : specCall procs d (Stmt.block (as ++ [B] ++ bs)) decl = some (T, decl')) :
    ∃ S declB, specCall procs d B decl = some (S, declB) ∧ T = Stmt.block (as ++ [S] ++ bs) := by
  rw [List.append_assoc] at h
  obtain ⟨R, h1, rfl⟩ := specCall_prefix ha h
  have h1 : ((specCall procs d B decl).bind _ : Option _) = _ := h1
  cases h2 : specCall procs d B decl with
  | none => rw [h2] at h1; exact nomatch h1
  | some r =>
    rw [h2] at h1
    have h1 : ((specCall procs d (Stmt.block bs) r.2).bind _ : Option _) = _ := h1
    rw [← List.append_nil bs] at h1
    cases h3 : specCall procs d (Stmt.block (bs ++ [])) r.2 with
    | none => rw [h3] at h1; exact nomatch h1
    | some r' =>
      rw [h3] at h1
      obtain ⟨rfl, rfl⟩ := Prod.mk.inj (Option.some.inj h1)
      obtain ⟨R', h4, h5⟩ := specCall_prefix hb h3
      obtain ⟨rfl, -⟩ := Prod.mk.inj (Option.some.inj h4)
      refine ⟨r.1, r.2, rfl, ?_⟩
      have h6 : r'.1 = Stmt.block bs := by
        rw [h5]
        have := foldr_seq_block bs []
        rw [List.append_nil] at this
        exact this
      show as.foldr Stmt.seq (Stmt.seq r.1 r'.1) = _
      rw [h6, List.append_assoc]
      exact foldr_seq_block as (r.1 :: bs)

end Caesar
