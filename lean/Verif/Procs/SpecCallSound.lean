import Verif.Procs.SpecCall
import Verif.ProofRules.Frame
import Verif.Props.C26

/-!
# Helper lemmas for calls replaced by specifications
-/

open scoped ENNReal NNReal

namespace Caesar
set_option linter.unusedSectionVars false

/-- In the nested substitution of `pairs`, the right-hand side of a pair whose variable is in `F` does not mention
the variable of a later pair, unless that pair replaces a variable by itself. -/
def SeqOkOn (F : Var → Prop) : List ((x : Var) × Expr x.ty) → Prop
  | [] => True
  | p :: ps => (F p.1 → ∀ q ∈ ps, p.2.Free q.1 → q.2 = varExpr q.1) ∧ SeqOkOn F ps

theorem SeqOkOn.anti {F G : Var → Prop} (h : ∀ v, G v → F v) {ps} (hs : SeqOkOn F ps) : SeqOkOn G ps := by
  induction ps with
  | nil => trivial
  | cons p ps ih => exact ⟨fun hg => hs.1 (h _ hg), ih hs.2⟩

variable [Doms]

/-! ## Simultaneous updates -/

theorem pass_notMem (τ : Env) {v : Var} {xs : List Var} (h : v ∉ xs) (vals : List ((t : Ty) × t.den)) :
    τ.pass xs vals v = τ v := by
  induction xs generalizing vals with
  | nil => cases vals <;> rfl
  | cons x xs ih =>
    cases vals with
    | nil => rfl
    | cons a vals =>
      obtain ⟨t, a⟩ := a
      unfold Env.pass
      split
      · rw [Env.upd_ne _ (fun hv : v = x => h (hv ▸ List.mem_cons_self))]
        exact ih (fun hv => h (List.mem_cons_of_mem _ hv)) vals
      · exact ih (fun hv => h (List.mem_cons_of_mem _ hv)) vals

theorem pass_mem (τ τ' : Env) {v : Var} {xs : List Var} (h : v ∈ xs) {vals : List ((t : Ty) × t.den)}
    (ht : xs.map Var.ty = vals.map Sigma.fst) : τ.pass xs vals v = τ'.pass xs vals v := by
  induction xs generalizing vals with
  | nil => exact absurd h List.not_mem_nil
  | cons x xs ih =>
    cases vals with
    | nil => exact nomatch ht
    | cons a vals =>
      obtain ⟨t, a⟩ := a
      simp only [List.map_cons, List.cons.injEq] at ht
      obtain ⟨h1, h2⟩ := ht
      subst h1
      unfold Env.pass
      rw [dif_pos rfl, dif_pos rfl]
      by_cases hv : v = x
      · subst hv; rw [Env.upd_same, Env.upd_same]
      · rw [Env.upd_ne _ hv, Env.upd_ne _ hv]
        exact ih ((List.mem_cons.mp h).resolve_left hv) h2

theorem pass_agree {D : Var → Prop} {σ σ' : Env} (h : AgreeOff D σ σ') (xs : List Var) (vals : List ((t : Ty) × t.den)) :
    AgreeOff D (σ.pass xs vals) (σ'.pass xs vals) := by
  induction xs generalizing vals with
  | nil => cases vals <;> exact h
  | cons x xs ih =>
    cases vals with
    | nil => exact h
    | cons a vals =>
      obtain ⟨t, a⟩ := a
      unfold Env.pass
      split
      · exact upd_agreeOff (fun v hv => Or.inl hv) (ih vals) _
      · exact ih vals

theorem agree_pass (σ : Env) (xs : List Var) (vals : List ((t : Ty) × t.den)) : Agree xs σ (σ.pass xs vals) :=
  fun _ hv => pass_notMem σ hv vals

theorem pass_valuesOf_self (β τ : Env) {v : Var} {xs : List Var} (h : v ∈ xs) : β.pass xs (τ.valuesOf xs) v = τ v := by
  induction xs with
  | nil => exact absurd h List.not_mem_nil
  | cons x xs ih =>
    unfold Env.valuesOf
    rw [List.map_cons]
    unfold Env.pass
    rw [dif_pos rfl]
    by_cases hv : v = x
    · subst hv; rw [Env.upd_same]
    · rw [Env.upd_ne _ hv]
      exact ih ((List.mem_cons.mp h).resolve_left hv)

theorem valuesOf_pass (σ : Env) {xs : List Var} (hn : xs.Nodup) {vals : List ((t : Ty) × t.den)}
    (ht : xs.map Var.ty = vals.map Sigma.fst) : (σ.pass xs vals).valuesOf xs = vals := by
  induction xs generalizing vals with
  | nil =>
    cases vals with
    | nil => rfl
    | cons => exact nomatch ht
  | cons x xs ih =>
    cases vals with
    | nil => exact nomatch ht
    | cons a vals =>
      obtain ⟨t, a⟩ := a
      simp only [List.map_cons, List.cons.injEq] at ht
      obtain ⟨h1, h2⟩ := ht
      subst h1
      have hn := List.nodup_cons.mp hn
      unfold Env.valuesOf Env.pass
      rw [dif_pos rfl, List.map_cons, Env.upd_same]
      congr 1
      rw [← ih hn.2 h2]
      refine List.map_congr_left fun y hy => ?_
      rw [Env.upd_ne _ (fun h : y = x => hn.1 (h ▸ hy)), ih hn.2 h2]

variable [Interp]

/-- The state in which nested substitutions evaluate the expression. -/
noncomputable def seqEnv (σ : Env) : List ((x : Var) × Expr x.ty) → Env
  | [] => σ
  | p :: ps => (seqEnv σ ps).upd p.1 (p.2.eval (seqEnv σ ps))

/-- The state `β` with all variables replaced at once by values in `σ`. -/
noncomputable def simEnv (β σ : Env) : List ((x : Var) × Expr x.ty) → Env
  | [] => β
  | p :: ps => (simEnv β σ ps).upd p.1 (p.2.eval σ)

theorem substPairs_ev (e : Expr .eureal) (pairs : List ((x : Var) × Expr x.ty)) (σ : Env) :
    (substPairs e pairs).ev σ = e.ev (seqEnv σ pairs) := by
  induction pairs generalizing e with
  | nil => rfl
  | cons p ps ih => exact ih (.subst p.1 p.2 e)

theorem seqEnv_id (σ : Env) {ps : List ((x : Var) × Expr x.ty)} {w : Var} (h : ∀ q ∈ ps, w = q.1 → q.2 = varExpr q.1) :
    seqEnv σ ps w = σ w := by
  induction ps with
  | nil => rfl
  | cons q qs ih =>
    have ih := ih fun q hq => h q (List.mem_cons_of_mem _ hq)
    unfold seqEnv
    by_cases hw : w = q.1
    · subst hw
      rw [Env.upd_same, h q List.mem_cons_self rfl]
      exact ih
    · rw [Env.upd_ne _ hw]
      exact ih

theorem seqEnv_eq_simEnv (σ : Env) {F : Var → Prop} {ps : List ((x : Var) × Expr x.ty)} (h : SeqOkOn F ps) {v : Var} (hv : F v) :
    seqEnv σ ps v = simEnv σ σ ps v := by
  induction ps with
  | nil => rfl
  | cons p ps ih =>
    unfold seqEnv simEnv
    by_cases hw : v = p.1
    · subst hw
      rw [Env.upd_same, Env.upd_same]
      exact Expr.eval_congr _ fun w hw => seqEnv_id σ fun q hq hwq => h.1 hv q hq (hwq ▸ hw)
    · rw [Env.upd_ne _ hw, Env.upd_ne _ hw]
      exact ih h.2

theorem simEnv_append (β σ : Env) (as bs : List ((x : Var) × Expr x.ty)) :
    simEnv β σ (as ++ bs) = simEnv (simEnv β σ bs) σ as := by
  induction as with
  | nil => rfl
  | cons a as ih =>
    show (simEnv β σ (as ++ bs)).upd _ _ = (simEnv _ σ as).upd _ _
    rw [ih]

theorem simEnv_zipArgs (β σ : Env) (xs : List Var) (args : List ((t : Ty) × Expr t)) :
    simEnv β σ (zipArgs xs args) = β.pass xs (evalArgs σ args) := by
  induction xs generalizing args with
  | nil => cases args <;> rfl
  | cons x xs ih =>
    cases args with
    | nil => rfl
    | cons a args =>
      obtain ⟨t, e⟩ := a
      unfold zipArgs evalArgs
      rw [List.map_cons]
      unfold Env.pass
      by_cases h : t = x.ty
      · subst h
        rw [dif_pos rfl, dif_pos rfl]
        show (simEnv β σ (zipArgs xs args)).upd x _ = _
        rw [ih]
        rfl
      · rw [dif_neg h, dif_neg h]
        exact ih args

theorem substPairs_pass (e : Expr .eureal) (xs : List Var) (args : List ((t : Ty) × Expr t)) (σ : Env)
    (h : SeqOkOn (fun v => e.Free v) (zipArgs xs args)) :
    (substPairs e (zipArgs xs args)).ev σ = e.ev (σ.pass xs (evalArgs σ args)) := by
  rw [substPairs_ev]
  refine Expr.eval_congr e fun v hv => ?_
  rw [seqEnv_eq_simEnv σ h hv, simEnv_zipArgs]

/-! ## The generated statements -/

theorem vcSem_wrapAsserts_down (C : SemCtx) (es : List (Expr .eureal)) (g : Expr .eureal → Expr .eureal) (φ : Exp) (σ : Env) :
    vcSem C (Stmt.block (es.map fun e => wrapError (.assert .down (g e)))) φ σ = min (⨅ e ∈ es, (g e).ev σ) (φ σ) := by
  induction es with
  | nil =>
    show φ σ = _
    rw [show (⨅ e ∈ ([] : List (Expr .eureal)), (g e).ev σ) = ⊤ by simp, top_inf_eq]
  | cons e es ih =>
    show min ((g e).ev σ) (vcSem C (Stmt.block (es.map fun e => wrapError (.assert .down (g e)))) φ σ) = _
    rw [ih, show (⨅ e' ∈ e :: es, (g e').ev σ) = min ((g e).ev σ) (⨅ e' ∈ es, (g e').ev σ) by simp [iInf_or, iInf_inf_eq],
      min_assoc]

theorem vcSem_wrapAsserts_up (C : SemCtx) (es : List (Expr .eureal)) (g : Expr .eureal → Expr .eureal) (φ : Exp) (σ : Env) :
    vcSem C (Stmt.block (es.map fun e => wrapError (.assert .up (g e)))) φ σ = max (⨆ e ∈ es, (g e).ev σ) (φ σ) := by
  induction es with
  | nil =>
    show φ σ = _
    rw [show (⨆ e ∈ ([] : List (Expr .eureal)), (g e).ev σ) = ⊥ by simp, bot_sup_eq]
  | cons e es ih =>
    show max ((g e).ev σ) (vcSem C (Stmt.block (es.map fun e => wrapError (.assert .up (g e)))) φ σ) = _
    rw [ih, show (⨆ e' ∈ e :: es, (g e').ev σ) = max ((g e).ev σ) (⨆ e' ∈ es, (g e').ev σ) by simp [iSup_or, iSup_sup_eq],
      max_assoc]

theorem vcSem_compares_down (C : SemCtx) {es : List (Expr .eureal)} (hne : es ≠ []) (g : Expr .eureal → Expr .eureal) (φ : Exp)
    (σ : Env) (h : vcSem C (Stmt.block (es.map fun e => wrapSuccess (.compare .down (g e)))) φ σ ≠ 0) :
    ∃ e ∈ es, (g e).ev σ ≤ φ σ := by
  classical
  induction es with
  | nil => exact absurd rfl hne
  | cons e es ih =>
    have h' : (if (g e).ev σ ≤ vcSem C (Stmt.block (es.map fun e => wrapSuccess (.compare .down (g e)))) φ σ then (⊤ : ℝ≥0∞)
      else 0) ≠ 0 := h
    have hle : (g e).ev σ ≤ vcSem C (Stmt.block (es.map fun e => wrapSuccess (.compare .down (g e)))) φ σ := by
      by_contra hc
      exact h' (if_neg hc)
    by_cases he : es = []
    · subst he; exact ⟨e, List.mem_cons_self, hle⟩
    · by_cases h0 : vcSem C (Stmt.block (es.map fun e => wrapSuccess (.compare .down (g e)))) φ σ = 0
      · rw [h0] at hle
        exact ⟨e, List.mem_cons_self, hle.trans zero_le⟩
      · obtain ⟨e', he', hle'⟩ := ih he h0
        exact ⟨e', List.mem_cons_of_mem _ he', hle'⟩

theorem vcSem_compares_up (C : SemCtx) {es : List (Expr .eureal)} (hne : es ≠ []) (g : Expr .eureal → Expr .eureal) (φ : Exp)
    (σ : Env) (h : vcSem C (Stmt.block (es.map fun e => wrapSuccess (.compare .up (g e)))) φ σ ≠ ⊤) :
    ∃ e ∈ es, φ σ ≤ (g e).ev σ := by
  classical
  induction es with
  | nil => exact absurd rfl hne
  | cons e es ih =>
    have h' : (if (g e).ev σ ≥ vcSem C (Stmt.block (es.map fun e => wrapSuccess (.compare .up (g e)))) φ σ then (0 : ℝ≥0∞)
      else ⊤) ≠ ⊤ := h
    have hle : vcSem C (Stmt.block (es.map fun e => wrapSuccess (.compare .up (g e)))) φ σ ≤ (g e).ev σ := by
      by_contra hc
      exact h' (if_neg hc)
    by_cases he : es = []
    · subst he; exact ⟨e, List.mem_cons_self, hle⟩
    · by_cases h0 : vcSem C (Stmt.block (es.map fun e => wrapSuccess (.compare .up (g e)))) φ σ = ⊤
      · rw [h0] at hle
        exact ⟨e, List.mem_cons_self, le_top.trans hle⟩
      · obtain ⟨e', he', hle'⟩ := ih he h0
        exact ⟨e', List.mem_cons_of_mem _ he', hle'⟩

theorem evalArgs_congr {σ σ' : Env} {args : List ((t : Ty) × Expr t)} (h : ∀ a ∈ args, ∀ v, a.2.Free v → σ v = σ' v) :
    evalArgs σ args = evalArgs σ' args :=
  List.map_congr_left fun a ha => by rw [Expr.eval_congr a.2 (h a ha)]

/-- What the assignments to temporaries achieve. -/
theorem stableInputs_spec (C : SemCtx) (free : List Var) {ps : List Param} : ∀ {declared : List Var}
    {args : List ((t : Ty) × Expr t)} (σ : Env), ps.map (fun p => p.var.ty) = args.map Sigma.fst → (ps.map Param.old).Nodup →
    (∀ a ∈ args, ∀ p ∈ ps, ¬ a.2.Free p.old) →
    ∃ σt, (∀ φ, vcSem C (Stmt.block (stableInputs free declared ps args).1) φ σ = φ σt) ∧
      AgreeOff (· ∈ ps.map Param.old) σ σt ∧
      ∀ σ' β, (∀ p ∈ ps, σ' p.old = σt p.old) → ∀ v ∈ free,
        simEnv β σ' (stableInputs free declared ps args).2.1 v = β.pass (ps.map Param.var) (evalArgs σ args) v := by
  induction ps with
  | nil =>
    intro declared args σ ht _ _
    refine ⟨σ, fun φ => ?_, AgreeOff.refl _ σ, fun σ' β _ v _ => ?_⟩
    · unfold stableInputs; rfl
    · unfold stableInputs
      rfl
  | cons p ps ih =>
    intro declared args σ ht hn hfree
    cases args with
    | nil => exact nomatch ht
    | cons a args =>
      obtain ⟨t, e⟩ := a
      simp only [List.map_cons, List.cons.injEq] at ht
      obtain ⟨h1, h2⟩ := ht
      subst h1
      have hn := List.nodup_cons.mp hn
      have hf' : ∀ a ∈ args, ∀ q ∈ ps, ¬ a.2.Free q.old := fun a ha q hq =>
        hfree a (List.mem_cons_of_mem _ ha) q (List.mem_cons_of_mem _ hq)
      by_cases hp : p.var ∈ free
      · -- assigned to a temporary
        have hargs : evalArgs (σ.upd p.old (e.eval σ)) args = evalArgs σ args :=
          evalArgs_congr fun a ha v hv => Env.upd_ne _ (fun hc : v = p.old =>
            hfree a (List.mem_cons_of_mem _ ha) p List.mem_cons_self (hc ▸ hv)) _
        have main : ∀ (s : Stmt) (decl : List Var), (∀ φ, vcSem C s φ σ = φ (σ.upd p.old (e.eval σ))) →
            ∃ σt, (∀ φ, vcSem C (.seq s (Stmt.block (stableInputs free decl ps args).1)) φ σ = φ σt) ∧
              AgreeOff (· ∈ p.old :: ps.map Param.old) σ σt ∧
              ∀ σ' β, (∀ q ∈ p :: ps, σ' q.old = σt q.old) → ∀ v ∈ free,
                simEnv β σ' (⟨p.var, varExpr p.old⟩ :: (stableInputs free decl ps args).2.1) v =
                  β.pass (p.var :: ps.map Param.var) (⟨p.var.ty, e.eval σ⟩ :: evalArgs σ args) v := by
          intro s decl hs
          obtain ⟨σt, g1, g2, g3⟩ := ih (declared := decl) (σ.upd p.old (e.eval σ)) h2 hn.2 hf'
          refine ⟨σt, fun φ => (hs _).trans (g1 φ), fun v hv => ?_, fun σ' β hσ' v hv => ?_⟩
          · rw [g2 v fun h => hv (List.mem_cons_of_mem _ h)]
            exact Env.upd_ne _ (fun hc : v = p.old => hv (hc ▸ List.mem_cons_self)) _
          · unfold simEnv Env.pass
            rw [dif_pos rfl]
            by_cases hvp : v = p.var
            · subst hvp
              rw [Env.upd_same, Env.upd_same]
              show σ' p.old = e.eval σ
              rw [hσ' p List.mem_cons_self, g2 p.old hn.1]
              exact Env.upd_same _ _ _
            · rw [Env.upd_ne _ hvp, Env.upd_ne _ hvp, g3 σ' β (fun q hq => hσ' q (List.mem_cons_of_mem _ hq)) v hv, hargs]
        unfold stableInputs
        rw [dif_pos rfl, if_pos hp]
        unfold assignToTemp
        by_cases hd : p.old ∈ declared
        · rw [if_pos hd]
          exact main (.assign p.old e) declared fun φ => rfl
        · rw [if_neg hd]
          exact main (.varInit p.old e) (p.old :: declared) fun φ => rfl
      · -- passed directly
        obtain ⟨σt, g1, g2, g3⟩ := ih (declared := declared) σ h2 hn.2 hf'
        unfold stableInputs
        rw [dif_pos rfl, if_neg hp]
        refine ⟨σt, g1, fun v hv => g2 v fun h => hv (List.mem_cons_of_mem _ h), fun σ' β hσ' v hv => ?_⟩
        have hvp : v ≠ p.var := fun hc => hp (hc ▸ hv)
        show (simEnv β σ' (stableInputs free declared ps args).2.1).upd p.var _ v =
          β.pass (p.var :: ps.map Param.var) (⟨p.var.ty, e.eval σ⟩ :: evalArgs σ args) v
        unfold Env.pass
        rw [dif_pos rfl, Env.upd_ne _ hvp, Env.upd_ne _ hvp]
        exact g3 σ' β (fun q hq => hσ' q (List.mem_cons_of_mem _ hq)) v hv

/-! ## Calls -/

/-- What name resolution and type checking guarantee for a procedure (`src/front/resolve.rs`, `src/front/tycheck.rs`): parameters are
distinct, preconditions mention inputs only, postconditions mention parameters only and contain no substitutions; the
temporaries `old_…` are not parameters and differ from each other. -/
structure Proc.WF (p : Proc) : Prop where
  params : (p.ins ++ p.outputs).Nodup
  requires : ∀ e ∈ p.requires, ∀ v, e.Free v → v ∈ p.ins
  ensures : ∀ e ∈ p.ensures, ∀ v, e.Free v → v ∈ p.ins ∨ v ∈ p.outputs
  noSubst : ∀ e ∈ p.ensures, e.NoSubst
  oldNodup : (p.inputs.map Param.old).Nodup
  oldFresh : ∀ x ∈ p.inputs.map Param.old, x ∉ p.ins ∧ x ∉ p.outputs

/-- What type checking guarantees for a call: the types of arguments and left-hand sides; and the temporaries do not
occur in the program. -/
structure CallWF (p : Proc) (lhs : List Var) (args : List ((t : Ty) × Expr t)) : Prop where
  argTypes : p.ins.map Var.ty = args.map Sigma.fst
  lhsTypes : p.outputs.map Var.ty = lhs.map Var.ty
  oldArgs : ∀ a ∈ args, ∀ x ∈ p.inputs.map Param.old, ¬ a.2.Free x
  oldLhs : ∀ x ∈ p.inputs.map Param.old, x ∉ lhs

/-- No argument mentions a later parameter of the callee, unless that parameter is passed on unchanged; likewise for
the left-hand sides and output parameters (both are always satisfied if the callee is not the caller). Left-hand sides
are distinct. None of this is checked by the code. -/
structure NoClash (p : Proc) (lhs : List Var) (args : List ((t : Ty) × Expr t)) : Prop where
  nodup : lhs.Nodup
  args : SeqOkOn (fun _ => True) (zipArgs p.ins args)
  lhs : SeqOkOn (fun _ => True) (zipArgs p.outputs (lhs.map fun x => ⟨x.ty, varExpr x⟩))

theorem ensuresVars_spec (p : Proc) (hp : ∀ e ∈ p.ensures, e.NoSubst) {e : Expr .eureal} (he : e ∈ p.ensures) {v : Var}
    (hv : e.Free v) : v ∈ p.ensuresVars := by
  obtain ⟨s', h1, h2⟩ := foldlM_spec (fun acc (e : Expr .eureal) => e.collect acc) (fun s v => v ∈ s)
    (fun (e : Expr .eureal) v => e.Free v) p.ensures (fun e he acc => e.collect_spec (hp e he) acc) []
  unfold Proc.ensuresVars
  rw [h1]
  exact (h2 v).mpr (Or.inr ⟨e, he, hv⟩)

theorem seqOkOn_append {F : Var → Prop} {as bs : List ((x : Var) × Expr x.ty)} (ha : SeqOkOn F as) (hb : SeqOkOn F bs)
    (h : ∀ p ∈ as, F p.1 → ∀ q ∈ bs, ¬ p.2.Free q.1) : SeqOkOn F (as ++ bs) := by
  induction as with
  | nil => exact hb
  | cons p as ih =>
    refine ⟨fun hF q hq hfree => ?_, ih ha.2 fun p hp => h p (List.mem_cons_of_mem _ hp)⟩
    rcases List.mem_append.mp hq with hq | hq
    · exact ha.1 hF q hq hfree
    · exact absurd hfree (h p List.mem_cons_self hF q hq)

theorem zipArgs_keys {xs : List Var} {args : List ((t : Ty) × Expr t)} {q : (x : Var) × Expr x.ty} (h : q ∈ zipArgs xs args) :
    q.1 ∈ xs := by
  induction xs generalizing args with
  | nil => cases args <;> exact absurd h List.not_mem_nil
  | cons x xs ih =>
    cases args with
    | nil => exact absurd h List.not_mem_nil
    | cons a args =>
      obtain ⟨t, e⟩ := a
      unfold zipArgs at h
      split at h
      · rcases List.mem_cons.mp h with rfl | h
        · exact List.mem_cons_self
        · exact List.mem_cons_of_mem _ (ih h)
      · exact List.mem_cons_of_mem _ (ih h)

/-- The pairs of `stable_inputs`: the keys are parameters, and those in `free` are replaced by temporaries. -/
theorem stableInputs_pairs (free : List Var) {ps : List Param} : ∀ {declared : List Var} {args : List ((t : Ty) × Expr t)},
    ∀ q ∈ (stableInputs free declared ps args).2.1, ∃ p ∈ ps, q.1 = p.var ∧ (p.var ∈ free → ∀ v, q.2.Free v → v = p.old) := by
  induction ps with
  | nil => intro declared args q hq; unfold stableInputs at hq; exact absurd hq List.not_mem_nil
  | cons p ps ih =>
    intro declared args q hq
    cases args with
    | nil => unfold stableInputs at hq; exact absurd hq List.not_mem_nil
    | cons a args =>
      obtain ⟨t, e⟩ := a
      unfold stableInputs at hq
      have lift : ∀ {decl}, q ∈ (stableInputs free decl ps args).2.1 →
          ∃ p' ∈ p :: ps, q.1 = p'.var ∧ (p'.var ∈ free → ∀ v, q.2.Free v → v = p'.old) := fun h =>
        let ⟨p', h1, h2⟩ := ih q h
        ⟨p', List.mem_cons_of_mem _ h1, h2⟩
      split at hq
      · split at hq
        · rcases List.mem_cons.mp hq with rfl | h
          · exact ⟨p, List.mem_cons_self, rfl, fun _ v hv => hv⟩
          · exact lift h
        · next hp =>
          rcases List.mem_cons.mp hq with rfl | h
          · exact ⟨p, List.mem_cons_self, rfl, fun hc => absurd hc hp⟩
          · exact lift h
      · exact lift hq

theorem stable_seqOk {p : Proc} (hp : p.WF) : ∀ (pairs : List ((x : Var) × Expr x.ty)),
    (∀ q ∈ pairs, ∃ pr ∈ p.inputs, q.1 = pr.var ∧ (pr.var ∈ p.ensuresVars → ∀ v, q.2.Free v → v = pr.old)) →
    SeqOkOn (· ∈ p.ensuresVars) pairs := by
  intro pairs h
  induction pairs with
  | nil => trivial
  | cons q qs ih =>
    refine ⟨fun hF q' hq' hfree => ?_, ih fun q hq => h q (List.mem_cons_of_mem _ hq)⟩
    obtain ⟨pr, hpr, h1, h2⟩ := h q List.mem_cons_self
    obtain ⟨pr', hpr', h1', -⟩ := h q' (List.mem_cons_of_mem _ hq')
    have := h2 (h1 ▸ hF) _ hfree
    exact absurd (show q'.1 ∈ p.ins from h1' ▸ List.mem_map_of_mem hpr')
      (hp.oldFresh q'.1 (this ▸ List.mem_map_of_mem hpr)).1

/-- The postconditions of the encoding, in a state after the `havoc`, have the value of the callee's postconditions in
the callee's final state. -/
theorem compare_value {p : Proc} (hp : p.WF) {lhs : List Var} {args : List ((t : Ty) × Expr t)} (hc : CallWF p lhs args)
    (hcl : NoClash p lhs args) {declared : List Var} {σ σt : Env}
    (hσt : ∀ σ' β, (∀ q ∈ p.inputs, σ' q.old = σt q.old) → ∀ v ∈ p.ensuresVars,
        simEnv β σ' (stableInputs p.ensuresVars declared p.inputs args).2.1 v = β.pass p.ins (evalArgs σ args) v)
    (τ₀ τ : Env) (hτ : ∀ x ∈ p.ins, τ x = τ₀.pass p.ins (evalArgs σ args) x) {e : Expr .eureal} (he : e ∈ p.ensures) :
    (substPairs e ((stableInputs p.ensuresVars declared p.inputs args).2.1 ++
      zipArgs p.outputs (lhs.map fun x => ⟨x.ty, varExpr x⟩))).ev (σt.pass lhs (τ.valuesOf p.outputs)) = e.ev τ := by
  set σ' := σt.pass lhs (τ.valuesOf p.outputs) with hσ'
  have hst := stableInputs_pairs p.ensuresVars (ps := p.inputs) (declared := declared) (args := args)
  have hseq : SeqOkOn (· ∈ p.ensuresVars) ((stableInputs p.ensuresVars declared p.inputs args).2.1 ++
      zipArgs p.outputs (lhs.map fun x => ⟨x.ty, varExpr x⟩)) := by
    refine seqOkOn_append (stable_seqOk hp _ hst) (hcl.lhs.anti fun _ _ => trivial) ?_
    intro q hq hF q' hq' hfree
    obtain ⟨pr, hpr, h1, h2⟩ := hst q hq
    have := h2 (h1 ▸ hF) _ hfree
    exact (hp.oldFresh q'.1 (this ▸ List.mem_map_of_mem hpr)).2 (zipArgs_keys hq')
  rw [substPairs_ev]
  refine Expr.eval_congr e fun v hv => ?_
  have hvF := ensuresVars_spec p hp.noSubst he hv
  have hold : ∀ q ∈ p.inputs, σ' q.old = σt q.old := fun q hq =>
    pass_notMem σt (hc.oldLhs _ (List.mem_map_of_mem hq)) _
  have hat : p.ins.map Var.ty = (evalArgs σ args).map Sigma.fst := by
    rw [hc.argTypes]; unfold evalArgs; rw [List.map_map]; rfl
  rw [seqEnv_eq_simEnv σ' hseq hvF, simEnv_append, hσt σ' _ hold v hvF]
  by_cases hin : v ∈ p.ins
  · rw [hτ v hin]
    exact pass_mem _ _ hin hat
  · have hout := (hp.ensures e he v hv).resolve_left hin
    rw [pass_notMem _ hin, simEnv_zipArgs]
    have hvals : evalArgs σ' (lhs.map fun x => ⟨x.ty, varExpr x⟩) = τ.valuesOf p.outputs := by
      have h1 : evalArgs σ' (lhs.map fun x => ⟨x.ty, varExpr x⟩) = σ'.valuesOf lhs := by
        unfold evalArgs Env.valuesOf; rw [List.map_map]; rfl
      rw [h1]
      refine valuesOf_pass σt hcl.nodup ?_
      unfold Env.valuesOf
      rw [List.map_map]
      exact hc.lhsTypes.symm
    rw [hvals]
    exact pass_valuesOf_self _ _ hout

/-- A transformer that looks at its postexpectation only in states with the initial values of the inputs. -/
def KeepsIns (p : Proc) (F : Exp → Exp) : Prop :=
  ∀ φ ψ τ, (∀ τ', (∀ x ∈ p.ins, τ' x = τ x) → φ τ' = ψ τ') → F φ τ = F ψ τ

theorem encodeAssign_sem (C : SemCtx) (declared : List Var) (p : Proc) (lhs : List Var) (args : List ((t : Ty) × Expr t)) (φ : Exp) :
    vcSem C (Stmt.block (encodeAssign declared p lhs args).1) φ =
      vcSem C (Stmt.block (p.requires.map fun e => wrapError (.assert p.dir (substPairs e (zipArgs p.ins args)))))
        (vcSem C (Stmt.block (stableInputs p.ensuresVars declared p.inputs args).1)
          (vcSem C (.havoc p.dir lhs)
            (vcSem C (Stmt.block (p.ensures.map fun e => wrapSuccess (.compare p.dir (substPairs e
              ((stableInputs p.ensuresVars declared p.inputs args).2.1 ++
                zipArgs p.outputs (lhs.map fun x => ⟨x.ty, varExpr x⟩)))))) φ))) := by
  unfold encodeAssign
  show vcSem C (Stmt.block (_ ++ _ ++ _ ++ _)) φ = _
  rw [vcSem_block_append, vcSem_block_append, vcSem_block_append]
  rfl

theorem pre_pass {p : Proc} (hp : p.WF) {args : List ((t : Ty) × Expr t)} (ht : p.ins.map Var.ty = args.map Sigma.fst)
    (hcl : SeqOkOn (fun _ => True) (zipArgs p.ins args)) (σ τ₀ : Env) {e : Expr .eureal} (he : e ∈ p.requires) :
    (substPairs e (zipArgs p.ins args)).ev σ = e.ev (τ₀.pass p.ins (evalArgs σ args)) := by
  rw [substPairs_pass e _ _ _ (hcl.anti fun _ _ => trivial)]
  refine Expr.eval_congr e fun v hv => ?_
  exact pass_mem _ _ (hp.requires e he v hv) (by rw [ht]; unfold evalArgs; rw [List.map_map]; rfl)

/-- The encoding of a call of a proc is at most a run of a transformer that satisfies the specification. -/
theorem encodeAssign_le_run (C : SemCtx) {p : Proc} (hp : p.WF) (hd : p.dir = .down) (hne : p.ensures ≠ [])
    {lhs : List Var} {args : List ((t : Ty) × Expr t)} (hc : CallWF p lhs args) (hcl : NoClash p lhs args)
    {F : Exp → Exp} (hF : Monotone F) (hK : KeepsIns p F) (hm : p.Meets F) (declared : List Var) {φ : Exp}
    (hφ : Ignores (· ∈ p.inputs.map Param.old) φ) (σ τ₀ : Env) :
    vcSem C (Stmt.block (encodeAssign declared p lhs args).1) φ σ ≤ runCall p F lhs args φ σ τ₀ := by
  classical
  have hat : p.inputs.map (fun q => q.var.ty) = args.map Sigma.fst := by
    rw [← hc.argTypes]; unfold Proc.ins; rw [List.map_map]; rfl
  obtain ⟨σt, g1, g2, g3⟩ := stableInputs_spec C p.ensuresVars (declared := declared) σ hat hp.oldNodup
    (fun a ha q hq => hc.oldArgs a ha _ (List.mem_map_of_mem hq))
  rw [encodeAssign_sem, hd, vcSem_wrapAsserts_down, g1]
  set K := Stmt.block (p.ensures.map fun e => wrapSuccess (.compare .down (substPairs e
    ((stableInputs p.ensuresVars declared p.inputs args).2.1 ++ zipArgs p.outputs (lhs.map fun x => ⟨x.ty, varExpr x⟩))))) with hK'
  have hpre : (⨅ e ∈ p.requires, (substPairs e (zipArgs p.ins args)).ev σ) =
      p.pre (τ₀.pass p.ins (evalArgs σ args)) := by
    unfold Proc.pre combine
    rw [hd]
    exact iInf_congr fun e => iInf_congr fun he => pre_pass hp hc.argTypes hcl.args σ τ₀ he
  have hmeets : ∀ τ, p.pre τ ≤ F p.post τ := by
    unfold Proc.Meets at hm
    rw [hd] at hm
    exact hm
  by_cases h0 : vcSem C (.havoc .down lhs) (vcSem C K φ) σt = 0
  · rw [h0]; exact (min_le_right _ _).trans zero_le
  · refine (min_le_left _ _).trans (hpre.le.trans ((hmeets _).trans ?_))
    unfold runCall
    set τ₁ := τ₀.pass p.ins (evalArgs σ args) with hτ₁
    have hstep : F (fun τ => φ (σ.pass lhs (τ.valuesOf p.outputs))) τ₁ =
        F (fun τ => if ∀ x ∈ p.ins, τ x = τ₁ x then φ (σ.pass lhs (τ.valuesOf p.outputs)) else ⊤) τ₁ :=
      hK _ _ τ₁ fun τ' hτ' => (if_pos hτ').symm
    rw [hstep]
    refine hF (fun τ => ?_) τ₁
    show p.post τ ≤ if ∀ x ∈ p.ins, τ x = τ₁ x then φ (σ.pass lhs (τ.valuesOf p.outputs)) else ⊤
    by_cases hτ : ∀ x ∈ p.ins, τ x = τ₁ x
    · rw [if_pos hτ]
      have hne' : vcSem C K φ (σt.pass lhs (τ.valuesOf p.outputs)) ≠ 0 := by
        intro hc0
        apply h0
        refine le_zero_iff.mp (le_trans ?_ hc0.le)
        exact iInf₂_le (f := fun σ' (_ : σ' ∈ {σ' | Agree lhs σt σ'}) => vcSem C K φ σ') _ (agree_pass σt lhs _)
      obtain ⟨e, he, hle⟩ := vcSem_compares_down C hne _ φ _ hne'
      rw [compare_value hp hc hcl g3 τ₀ τ hτ he] at hle
      have hφ' : φ (σt.pass lhs (τ.valuesOf p.outputs)) = φ (σ.pass lhs (τ.valuesOf p.outputs)) :=
        hφ _ _ (pass_agree g2 lhs _)
      rw [hφ'] at hle
      refine le_trans ?_ hle
      unfold Proc.post combine
      rw [hd]
      exact iInf₂_le (f := fun e (_ : e ∈ p.ensures) => e.ev τ) e he
    · rw [if_neg hτ]; exact le_top

/-- The dual for coprocs. -/
theorem run_le_encodeAssign (C : SemCtx) {p : Proc} (hp : p.WF) (hd : p.dir = .up) (hne : p.ensures ≠ [])
    {lhs : List Var} {args : List ((t : Ty) × Expr t)} (hc : CallWF p lhs args) (hcl : NoClash p lhs args)
    {F : Exp → Exp} (hF : Monotone F) (hK : KeepsIns p F) (hm : p.Meets F) (declared : List Var) {φ : Exp}
    (hφ : Ignores (· ∈ p.inputs.map Param.old) φ) (σ τ₀ : Env) :
    runCall p F lhs args φ σ τ₀ ≤ vcSem C (Stmt.block (encodeAssign declared p lhs args).1) φ σ := by
  classical
  have hat : p.inputs.map (fun q => q.var.ty) = args.map Sigma.fst := by
    rw [← hc.argTypes]; unfold Proc.ins; rw [List.map_map]; rfl
  obtain ⟨σt, g1, g2, g3⟩ := stableInputs_spec C p.ensuresVars (declared := declared) σ hat hp.oldNodup
    (fun a ha q hq => hc.oldArgs a ha _ (List.mem_map_of_mem hq))
  rw [encodeAssign_sem, hd, vcSem_wrapAsserts_up, g1]
  set K := Stmt.block (p.ensures.map fun e => wrapSuccess (.compare .up (substPairs e
    ((stableInputs p.ensuresVars declared p.inputs args).2.1 ++ zipArgs p.outputs (lhs.map fun x => ⟨x.ty, varExpr x⟩))))) with hK'
  have hpre : (⨆ e ∈ p.requires, (substPairs e (zipArgs p.ins args)).ev σ) =
      p.pre (τ₀.pass p.ins (evalArgs σ args)) := by
    unfold Proc.pre combine
    rw [hd]
    exact iSup_congr fun e => iSup_congr fun he => pre_pass hp hc.argTypes hcl.args σ τ₀ he
  have hmeets : ∀ τ, F p.post τ ≤ p.pre τ := by
    unfold Proc.Meets at hm
    rw [hd] at hm
    exact hm
  by_cases h0 : vcSem C (.havoc .up lhs) (vcSem C K φ) σt = ⊤
  · rw [h0]; exact le_top.trans (le_max_right _ _)
  · refine le_trans ?_ (((hmeets _).trans hpre.ge).trans (le_max_left _ _))
    unfold runCall
    set τ₁ := τ₀.pass p.ins (evalArgs σ args) with hτ₁
    have hstep : F (fun τ => φ (σ.pass lhs (τ.valuesOf p.outputs))) τ₁ =
        F (fun τ => if ∀ x ∈ p.ins, τ x = τ₁ x then φ (σ.pass lhs (τ.valuesOf p.outputs)) else 0) τ₁ :=
      hK _ _ τ₁ fun τ' hτ' => (if_pos hτ').symm
    rw [hstep]
    refine hF (fun τ => ?_) τ₁
    show (if ∀ x ∈ p.ins, τ x = τ₁ x then φ (σ.pass lhs (τ.valuesOf p.outputs)) else 0) ≤ p.post τ
    by_cases hτ : ∀ x ∈ p.ins, τ x = τ₁ x
    · rw [if_pos hτ]
      have hne' : vcSem C K φ (σt.pass lhs (τ.valuesOf p.outputs)) ≠ ⊤ := by
        intro hc0
        apply h0
        refine top_le_iff.mp (hc0.ge.trans ?_)
        exact le_iSup₂ (f := fun σ' (_ : σ' ∈ {σ' | Agree lhs σt σ'}) => vcSem C K φ σ') _ (agree_pass σt lhs _)
      obtain ⟨e, he, hle⟩ := vcSem_compares_up C hne _ φ _ hne'
      rw [compare_value hp hc hcl g3 τ₀ τ hτ he] at hle
      have hφ' : φ (σt.pass lhs (τ.valuesOf p.outputs)) = φ (σ.pass lhs (τ.valuesOf p.outputs)) :=
        hφ _ _ (pass_agree g2 lhs _)
      rw [hφ'] at hle
      refine le_trans hle ?_
      unfold Proc.post combine
      rw [hd]
      exact le_iSup₂ (f := fun e (_ : e ∈ p.ensures) => e.ev τ) e he
    · rw [if_neg hτ]; exact zero_le

end Caesar
