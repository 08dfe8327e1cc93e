import Verif.ProofRules.InitVars
import Verif.ProofRules.LoopsSem
import Verif.ProofRules.Omega
import Verif.ProofRules.OstTheory

/-!
# The `@ost` encoding

Models `src/proof_rules/ost.rs:124-394`, and its meaning (proofs).
-/

open scoped ENNReal NNReal

namespace Caesar
set_option linter.unusedSectionVars false

/-- The arguments of `@ost(inv, past_inv, c, post)` (`src/proof_rules/ost.rs:36-56`). `c` must be a literal of type `UReal`
(`literal_only`); it is represented by its value. -/
structure OstArgs where
  inv : Expr .eureal
  past : Expr .eureal
  c : ℚ≥0
  post : Expr .eureal

/-- `cast(EUReal, 1)` (`src/proof_rules/ost.rs:235`). -/
def oneSpec : Expr .eureal := .cast .uintEUReal (Expr.uintLit 1)

/-- `cast(EUReal, c)` (`src/proof_rules/ost.rs:287`). -/
def OstArgs.bound (a : OstArgs) : Expr .eureal := .cast .urealEUReal (.lit (.ufrac a.c))

/-- `?(past_I < ∞)` (`src/proof_rules/ost.rs:186-196`). -/
def OstArgs.finite (a : OstArgs) : Expr .eureal := .embed (.rel (.lt rfl) a.past (Expr.topLit .eureal rfl))

/-- `?(!guard ==> (I = f))` (`src/proof_rules/ost.rs:198-208`). -/
def OstArgs.harmonize (a : OstArgs) (c : Expr .bool) : Expr .eureal :=
  .embed (.bin (.impl rfl) (.un (.not rfl) c) (.rel .eq a.inv a.post))

/-- `init_inv` (`src/proof_rules/ost.rs:181`). -/
def OstArgs.initInv (a : OstArgs) (sp : Spans) : Expr .eureal := toInitExpr sp a.inv a.inv.freeVars

/-- `init_past_inv` (`src/proof_rules/ost.rs:184`). -/
def OstArgs.initPast (a : OstArgs) (sp : Spans) : Expr .eureal := toInitExpr sp a.past a.past.freeVars

/-- `ite(I(s) <= I, I - I(s), I(s) - I)` (`src/proof_rules/ost.rs:259-279`). -/
def OstArgs.difference (a : OstArgs) (sp : Spans) : Expr .eureal :=
  .ite (.rel (.le rfl) (a.initInv sp) a.inv) (.bin (.sub rfl) a.inv (a.initInv sp)) (.bin (.sub rfl) (a.initInv sp) a.inv)

/-- Condition 1, `lt_infinity` (`src/proof_rules/ost.rs:216-231`). Names of generated procedures are made fresh
(`generate_proc`, `src/proof_rules/util.rs:210-240`), which plays no role here. -/
def ostProc1 (sp : Spans) (a : OstArgs) : Proc where
  name := ⟨"lt_infinity", 0⟩
  dir := .down
  inputs := paramsFrom sp a.past.freeVars
  outputs := []
  spec := []
  body := some (Stmt.block [.assert .down a.finite])

/-- Condition 2, `past` (`src/proof_rules/ost.rs:233-253`). -/
def ostProc2 (sp : Spans) (a : OstArgs) (c : Expr .bool) (body : Stmt) : Proc where
  name := ⟨"past", 0⟩
  dir := .up
  inputs := paramsFrom sp ((loopVars body).map (initVar sp))
  outputs := loopVars body
  spec := [.requires (a.initPast sp), .ensures zeroSpec]
  body := some (Stmt.block (initAssigns sp (loopVars body) ++
    [encodeIter c body (.seq (.tick oneSpec) (heyConst a.past .up))]))

/-- Condition 3, `conditional_difference_bounded` (`src/proof_rules/ost.rs:255-294`). -/
def ostProc3 (sp : Spans) (a : OstArgs) (body : Stmt) : Proc where
  name := ⟨"conditional_difference_bounded", 0⟩
  dir := .up
  inputs := paramsFrom sp ((loopVars body).map (initVar sp))
  outputs := loopVars body
  spec := [.requires a.bound, .ensures (a.difference sp)]
  body := some (Stmt.block (initAssigns sp (loopVars body) ++ [body]))

/-- Condition 4, `harmonize_I_f` (`src/proof_rules/ost.rs:296-312`). -/
def ostProc4 (sp : Spans) (a : OstArgs) (c : Expr .bool) : Proc where
  name := ⟨"harmonize_I_f", 0⟩
  dir := .down
  inputs := paramsFrom sp (a.harmonize c).freeVars
  outputs := []
  spec := []
  body := some (Stmt.block [.assert .down (a.harmonize c)])

/-- Condition 5, `loopiter_lt_infty` (`src/proof_rules/ost.rs:314-348`). -/
def ostProc5 (sp : Spans) (a : OstArgs) (c : Expr .bool) (body : Stmt) : Proc where
  name := ⟨"loopiter_lt_infty", 0⟩
  dir := .up
  inputs := paramsFrom sp ((loopVars body).map (initVar sp))
  outputs := loopVars body
  spec := [.requires zeroSpec, .ensures a.post]
  body := some (Stmt.block (initAssigns sp (loopVars body) ++
    [.validate .down, .assume .down (Expr.topLit .eureal rfl), encodeIter c body (heyConst a.inv .up)]))

/-- Condition 6, `lower_bound` (`src/proof_rules/ost.rs:350-372`). -/
def ostProc6 (sp : Spans) (a : OstArgs) (c : Expr .bool) (body : Stmt) : Proc where
  name := ⟨"lower_bound", 0⟩
  dir := .down
  inputs := paramsFrom sp ((loopVars body).map (initVar sp))
  outputs := loopVars body
  spec := [.requires (a.initInv sp), .ensures a.post]
  body := some (Stmt.block (initAssigns sp (loopVars body) ++ [encodeIter c body (heyConst a.inv .down)]))

/-- The procedures generated by `OSTAnnotation::transform` on `while c { body }` (`src/proof_rules/ost.rs:389-393`). -/
def ostProcs (sp : Spans) (a : OstArgs) (c : Expr .bool) (body : Stmt) : List Proc :=
  [ostProc1 sp a, ostProc2 sp a c body, ostProc3 sp a body, ostProc4 sp a c, ostProc5 sp a c body, ostProc6 sp a c body]

/-- The statement that replaces the loop, `modified_vars = lower_bound(modified_vars)`
(`src/proof_rules/ost.rs:374-388`), after the later replacement of calls by specifications (`src/procs/spec_call.rs`);
`declared` are the temporaries declared so far. -/
def ostCall (sp : Spans) (a : OstArgs) (c : Expr .bool) (body : Stmt) (declared : List Var) : Stmt :=
  Stmt.block (encodeAssign declared (ostProc6 sp a c body) (loopVars body)
    ((loopVars body).map fun x => ⟨x.ty, varExpr x⟩)).1

section
variable [Doms] [Interp]

/-! ## What the six procedures check -/

/-- The `init_` variables are not used by the program: the arguments of the annotation and the loop do not mention
them. Arguments are source expressions, without substitutions. -/
structure OstArgs.Fresh (sp : Spans) (a : OstArgs) (c : Expr .bool) (body : Stmt) : Prop where
  inv : ∀ v, sp.IsInit v → ¬ a.inv.Free v
  past : ∀ v, sp.IsInit v → ¬ a.past.Free v
  post : ∀ v, sp.IsInit v → ¬ a.post.Free v
  guard : ∀ v, sp.IsInit v → ¬ c.Free v
  reads : ∀ v, sp.IsInit v → ¬ body.Reads v
  touched : ∀ v, sp.IsInit v → ¬ body.Touched v
  noSubst : a.inv.NoSubst ∧ a.past.NoSubst ∧ a.post.NoSubst ∧ c.NoSubst

/-- The six conditions, as inequalities between expectations. -/
structure OstConditions (C : SemCtx) (a : OstArgs) (c : Expr .bool) (body : Stmt) : Prop where
  pastFinite : ∀ σ, a.past.ev σ ≠ ⊤
  past : ∀ σ, c.tv σ → vcSem C body (fun τ => a.past.ev τ + 1) σ ≤ a.past.ev σ
  diff : ∀ σ, vcSem C body (fun τ => dist' (a.inv.ev σ) (a.inv.ev τ)) σ ≤ ((a.c : ℝ≥0) : ℝ≥0∞)
  exit : ∀ σ, ¬ c.tv σ → a.inv.ev σ = a.post.ev σ
  finite : ∀ σ, loopFun C c body a.post.ev a.inv.ev σ ≠ ⊤
  lower : ∀ σ, a.inv.ev σ ≤ loopFun C c body a.post.ev a.inv.ev σ

theorem iInf_one (e : Expr .eureal) (σ : Env) : (⨅ x ∈ [e], Expr.ev x σ) = e.ev σ := by simp

theorem iSup_one (e : Expr .eureal) (σ : Env) : (⨆ x ∈ [e], Expr.ev x σ) = e.ev σ := by simp

theorem oneSpec_ev (σ : Env) : oneSpec.ev σ = 1 := by
  show ((1 : ℕ) : ℝ≥0∞) = 1
  exact Nat.cast_one

theorem difference_ev {sp : Spans} {a : OstArgs} {c : Expr .bool} {body : Stmt} (hf : a.Fresh sp c body) {σ τ : Env}
    (h : ∀ x, a.inv.Free x → τ (initVar sp x) = σ x) : (a.difference sp).ev τ = dist' (a.inv.ev σ) (a.inv.ev τ) := by
  have h1 : (a.initInv sp).ev τ = a.inv.ev σ :=
    toInitExpr_ev hf.noSubst.1 (fun v hv hi => hf.inv v hi hv) h
  unfold OstArgs.difference dist'
  rw [Expr.ev_ite, Expr.ev_sub, Expr.ev_sub, h1, Expr.tv_le_rel]
  have h2 : Ty.le .eureal ((a.initInv sp).eval τ) (a.inv.eval τ) = (a.inv.ev σ ≤ a.inv.ev τ) := by
    rw [← h1]; rfl
  rw [h2]
  exact ite_inst

theorem inv_ignores {sp : Spans} {a : OstArgs} {c : Expr .bool} {body : Stmt} (hf : a.Fresh sp c body) :
    Ignores sp.IsInit a.inv.ev := fun _ _ h => ev_agreeOff hf.inv h

theorem loopFun_sync {C : SemCtx} (hC : C.Regular) {sp : Spans} {c : Expr .bool} {body : Stmt} (hb : body.NoNeg)
    (hc : ∀ v, sp.IsInit v → ¬ c.Free v) (hr : ∀ v, sp.IsInit v → ¬ body.Reads v) {φ X : Exp}
    (hφ : Ignores sp.IsInit φ) (hX : Ignores sp.IsInit X) (σ : Env) :
    loopFun C c body φ X (σ.sync sp) = loopFun C c body φ X σ := by
  classical
  have hag := sync_agreeOff (sp := sp) σ
  have h1 : vcSem C body X (σ.sync sp) = vcSem C body X σ :=
    vcSem_ignores hC hb hX σ _ (hag.mono fun v hv => ⟨hr v hv, Or.inl hv⟩)
  have h2 : c.tv (σ.sync sp) ↔ c.tv σ := tv_agreeOff hc hag
  unfold loopFun
  by_cases hg : c.tv σ
  · rw [if_pos hg, if_pos (h2.2 hg), h1]
  · rw [if_neg hg, if_neg fun h => hg (h2.1 h), hφ σ _ hag]

variable {C : SemCtx} {sp : Spans} {a : OstArgs} {c : Expr .bool} {body : Stmt}

theorem ost_cond1 (h : (ostProc1 sp a).Verified C) (σ : Env) : a.past.ev σ ≠ ⊤ := by
  classical
  have := verified_down rfl rfl h σ
  have h1 : (⊤ : ℝ≥0∞) ≤ min (a.finite.ev σ) ⊤ := by
    refine le_trans (le_of_eq ?_) (this.trans (le_of_eq ?_))
    · simp [ostProc1, Proc.requires]
    · show min (a.finite.ev σ) (⨅ e ∈ ([] : List (Expr .eureal)), e.ev σ) = _
      simp
  rw [min_eq_left le_top, OstArgs.finite, Expr.ev_embed] at h1
  by_contra hc
  rw [if_neg] at h1
  · exact absurd (le_zero_iff.1 h1) ENNReal.top_ne_zero
  · exact fun h => h.2 hc

theorem ost_cond4 (h : (ostProc4 sp a c).Verified C) (σ : Env) (hg : ¬ c.tv σ) : a.inv.ev σ = a.post.ev σ := by
  classical
  have := verified_down rfl rfl h σ
  have h1 : (⊤ : ℝ≥0∞) ≤ min ((a.harmonize c).ev σ) ⊤ := by
    refine le_trans (le_of_eq ?_) (this.trans (le_of_eq ?_))
    · simp [ostProc4, Proc.requires]
    · show min ((a.harmonize c).ev σ) (⨅ e ∈ ([] : List (Expr .eureal)), e.ev σ) = _
      simp
  rw [min_eq_left le_top, OstArgs.harmonize, Expr.ev_embed] at h1
  by_contra hc
  rw [if_neg] at h1
  · exact absurd (le_zero_iff.1 h1) ENNReal.top_ne_zero
  · rw [Expr.tv_impl]
    exact fun h => hc (h ((Expr.tv_not _ _ _).2 hg))

theorem modified_touched {S : Stmt} {v : Var} (h : v ∈ S.modified) : S.Touched v := by
  induction S with
  | assign x e => exact List.mem_singleton.1 h
  | sample b x d =>
    unfold Stmt.modified at h
    split at h
    · exact nomatch h
    · exact List.mem_singleton.1 h
  | call b l f a =>
    unfold Stmt.modified at h
    split at h
    · exact nomatch h
    · exact h
  | seq a b iha ihb | demonic a b iha ihb | angelic a b iha ihb | additive a b iha ihb | ite c a b iha ihb =>
    exact (List.mem_append.1 h).imp iha ihb
  | «while» c s ih | annot an s ih => exact ih h
  | _ => exact nomatch h

theorem loopVars_notInit (hf : a.Fresh sp c body) {x : Var} (hx : x ∈ loopVars body) : ¬ sp.IsInit x := fun h =>
  hf.touched x h (modified_touched (mem_loopVars.1 hx).1)

theorem inits_sync (hsp : sp.Ok) (hf : a.Fresh sp c body) (rest : List Stmt) (φ : Exp) (σ : Env) :
    vcSem C (Stmt.block (initAssigns sp (loopVars body) ++ rest)) φ (σ.sync sp)
      = vcSem C (Stmt.block rest) φ (σ.sync sp) := by
  rw [vcSem_block_append]
  refine initAssigns_sync C sp (fun x hx => ?_) _
  rw [sync_init hsp, sync_other σ (loopVars_notInit hf hx)]

theorem initInv_sync (hsp : sp.Ok) (hf : a.Fresh sp c body) (σ : Env) : (a.initInv sp).ev (σ.sync sp) = a.inv.ev σ :=
  toInitExpr_ev hf.noSubst.1 (fun v hv hi => hf.inv v hi hv) fun x _ => sync_init hsp σ x

theorem initPast_sync (hsp : sp.Ok) (hf : a.Fresh sp c body) (σ : Env) : (a.initPast sp).ev (σ.sync sp) = a.past.ev σ :=
  toInitExpr_ev hf.noSubst.2.1 (fun v hv hi => hf.past v hi hv) fun x _ => sync_init hsp σ x

theorem post_ignores_init (hf : a.Fresh sp c body) : Ignores sp.IsInit a.post.ev := fun _ _ h => ev_agreeOff hf.post h

theorem past_ignores (hf : a.Fresh sp c body) : Ignores sp.IsInit a.past.ev := fun _ _ h => ev_agreeOff hf.past h

theorem tick_past_sem (a : OstArgs) (φ : Exp) :
    vcSem C (.seq (.tick oneSpec) (heyConst a.past .up)) φ = fun τ => a.past.ev τ + 1 := by
  funext τ
  show vcSem C (heyConst a.past .up) φ τ + oneSpec.ev τ = _
  rw [heyConst_sem, oneSpec_ev]

theorem ost_cond2 (hC : C.Regular) (hsp : sp.Ok) (hb : body.NoNeg) (hf : a.Fresh sp c body)
    (h : (ostProc2 sp a c body).Verified C) (σ : Env) (hg : c.tv σ) :
    vcSem C body (fun τ => a.past.ev τ + 1) σ ≤ a.past.ev σ := by
  have h1 := verified_up rfl rfl h (σ.sync sp)
  have h2 : (⨆ e ∈ (ostProc2 sp a c body).requires, Expr.ev e (σ.sync sp)) = a.past.ev σ :=
    (iSup_one _ _).trans (initPast_sync hsp hf σ)
  rw [h2, inits_sync hsp hf] at h1
  have h3 : vcSem C (Stmt.block [encodeIter c body (.seq (.tick oneSpec) (heyConst a.past .up))])
      (fun τ => ⨆ e ∈ (ostProc2 sp a c body).ensures, Expr.ev e τ) (σ.sync sp)
      = loopFun C c body (fun _ => 0) (fun τ => a.past.ev τ + 1) (σ.sync sp) := by
    show loopFun C c body _ (vcSem C (.seq (.tick oneSpec) (heyConst a.past .up)) _) _ = _
    rw [tick_past_sem]
    congr 1
    funext τ
    exact (iSup_one zeroSpec τ).trans (zeroSpec_ev τ)
  rw [h3, loopFun_sync hC hb hf.guard hf.reads (fun _ _ _ => rfl)
    (fun τ τ' ht => by rw [past_ignores hf τ τ' ht])] at h1
  unfold loopFun at h1
  rwa [if_pos hg] at h1

theorem ost_cond3 (hC : C.Regular) (hsp : sp.Ok) (hb : body.NoNeg) (hf : a.Fresh sp c body)
    (h : (ostProc3 sp a body).Verified C) (σ : Env) :
    vcSem C body (fun τ => dist' (a.inv.ev σ) (a.inv.ev τ)) σ ≤ ((a.c : ℝ≥0) : ℝ≥0∞) := by
  have h1 := verified_up rfl rfl h (σ.sync sp)
  have h2 : (⨆ e ∈ (ostProc3 sp a body).requires, Expr.ev e (σ.sync sp)) = ((a.c : ℝ≥0) : ℝ≥0∞) :=
    (iSup_one _ _).trans rfl
  rw [h2, inits_sync hsp hf] at h1
  refine le_trans (le_of_eq ?_) h1
  show _ = vcSem C body (fun τ => ⨆ e ∈ [a.difference sp], Expr.ev e τ) (σ.sync sp)
  have h3 : vcSem C body (fun τ => ⨆ e ∈ [a.difference sp], Expr.ev e τ) (σ.sync sp)
      = vcSem C body (fun τ => dist' (a.inv.ev σ) (a.inv.ev τ)) (σ.sync sp) := by
    refine vcSem_frame hC (M := fun v => ¬ sp.IsInit v) (fun v hv hi => hf.touched v hi hv) fun τ hτ => ?_
    rw [iSup_one]
    refine difference_ev hf fun x _ => ?_
    rw [hτ _ (fun h => h (isInit_initVar sp x)), sync_init hsp]
  rw [h3]
  exact (vcSem_ignores hC hb (A := sp.IsInit) (fun τ τ' ht => by rw [inv_ignores hf τ τ' ht]) σ _
    ((sync_agreeOff σ).mono fun v hv => ⟨hf.reads v hv, Or.inl hv⟩)).symm

theorem ost_cond5 (hC : C.Regular) (hsp : sp.Ok) (hb : body.NoNeg) (hf : a.Fresh sp c body)
    (h : (ostProc5 sp a c body).Verified C) (σ : Env) : loopFun C c body a.post.ev a.inv.ev σ ≠ ⊤ := by
  classical
  have h1 := verified_up rfl rfl h (σ.sync sp)
  have h2 : (⨆ e ∈ (ostProc5 sp a c body).requires, Expr.ev e (σ.sync sp)) = 0 :=
    (iSup_one _ _).trans (zeroSpec_ev _)
  rw [h2, inits_sync hsp hf] at h1
  have h3 : vcSem C (Stmt.block [.validate .down, .assume .down (Expr.topLit .eureal rfl),
        encodeIter c body (heyConst a.inv .up)])
      (fun τ => ⨆ e ∈ (ostProc5 sp a c body).ensures, Expr.ev e τ) (σ.sync sp)
      = if (if (⊤ : ℝ≥0∞) ≤ loopFun C c body a.post.ev a.inv.ev (σ.sync sp) then (⊤ : ℝ≥0∞)
          else loopFun C c body a.post.ev a.inv.ev (σ.sync sp)) = ⊤ then ⊤ else 0 := by
    have h4 : vcSem C (encodeIter c body (heyConst a.inv .up)) (fun τ => ⨆ e ∈ (ostProc5 sp a c body).ensures, Expr.ev e τ)
        = loopFun C c body a.post.ev a.inv.ev := by
      rw [encodeIter_sem, heyConst_sem]
      congr 1
      funext τ
      exact iSup_one a.post τ
    rw [← h4]
    rfl
  rw [h3, loopFun_sync hC hb hf.guard hf.reads (post_ignores_init hf) (inv_ignores hf)] at h1
  intro htop
  rw [htop, if_pos le_top, if_pos rfl] at h1
  exact absurd (le_zero_iff.1 h1) ENNReal.top_ne_zero

theorem ost_cond6 (hC : C.Regular) (hsp : sp.Ok) (hb : body.NoNeg) (hf : a.Fresh sp c body)
    (h : (ostProc6 sp a c body).Verified C) (σ : Env) : a.inv.ev σ ≤ loopFun C c body a.post.ev a.inv.ev σ := by
  have h1 := verified_down rfl rfl h (σ.sync sp)
  have h2 : (⨅ e ∈ (ostProc6 sp a c body).requires, Expr.ev e (σ.sync sp)) = a.inv.ev σ :=
    (iInf_one _ _).trans (initInv_sync hsp hf σ)
  rw [h2, inits_sync hsp hf] at h1
  have h3 : vcSem C (Stmt.block [encodeIter c body (heyConst a.inv .down)])
      (fun τ => ⨅ e ∈ (ostProc6 sp a c body).ensures, Expr.ev e τ) (σ.sync sp)
      = loopFun C c body a.post.ev a.inv.ev (σ.sync sp) := by
    show loopFun C c body _ (vcSem C (heyConst a.inv .down) _) _ = _
    rw [heyConst_sem]
    congr 1
    funext τ
    exact iInf_one a.post τ
  rwa [h3, loopFun_sync hC hb hf.guard hf.reads (post_ignores_init hf) (inv_ignores hf)] at h1

/-- The generated procedures check the six conditions. -/
theorem ost_conditions (hC : C.Regular) (hsp : sp.Ok) (hb : body.NoNeg) (hf : a.Fresh sp c body)
    (h : ∀ p ∈ ostProcs sp a c body, p.Verified C) : OstConditions C a c body where
  pastFinite := ost_cond1 (h (ostProc1 sp a) (by simp [ostProcs]))
  past := ost_cond2 hC hsp hb hf (h (ostProc2 sp a c body) (by simp [ostProcs]))
  diff := ost_cond3 hC hsp hb hf (h (ostProc3 sp a body) (by simp [ostProcs]))
  exit := ost_cond4 (h (ostProc4 sp a c) (by simp [ostProcs]))
  finite := ost_cond5 hC hsp hb hf (h (ostProc5 sp a c body) (by simp [ostProcs]))
  lower := ost_cond6 hC hsp hb hf (h (ostProc6 sp a c body) (by simp [ostProcs]))

/-- If the arguments only mention variables modified by the loop, the procedures check nothing else. -/
theorem ost_verified (hC : C.Regular) (hf : a.Fresh sp c body)
    (hv : ∀ v, a.inv.Free v ∨ a.past.Free v → v ∈ loopVars body) (h : OstConditions C a c body) :
    ∀ p ∈ ostProcs sp a c body, p.Verified C := by
  classical
  have hnot : ∀ x ∈ loopVars body, ¬ sp.IsInit x := fun x hx => loopVars_notInit hf hx
  have hseq : ∀ (rest : List Stmt) (φ : Exp) (σ : Env),
      vcSem C (Stmt.block (initAssigns sp (loopVars body) ++ rest)) φ σ
        = vcSem C (Stmt.block rest) φ (σ.inits sp (loopVars body)) := by
    intro rest φ σ
    rw [vcSem_block_append, initAssigns_sem]
  have hinv : ∀ σ, (a.initInv sp).ev σ = a.inv.ev (σ.inits sp (loopVars body)) := fun σ =>
    toInitExpr_ev hf.noSubst.1 (fun v hv hi => hf.inv v hi hv) fun x hx => (inits_mem sp hnot (hv x (Or.inl hx)) σ).symm
  have hpast : ∀ σ, (a.initPast sp).ev σ = a.past.ev (σ.inits sp (loopVars body)) := fun σ =>
    toInitExpr_ev hf.noSubst.2.1 (fun v hv hi => hf.past v hi hv) fun x hx => (inits_mem sp hnot (hv x (Or.inr hx)) σ).symm
  intro p hp
  simp only [ostProcs, List.mem_cons, List.not_mem_nil, or_false] at hp
  rcases hp with rfl | rfl | rfl | rfl | rfl | rfl
  · refine verified_of_down rfl rfl fun σ => ?_
    refine le_trans le_top (le_of_eq ?_)
    show _ = min (a.finite.ev σ) (⨅ e ∈ ([] : List (Expr .eureal)), e.ev σ)
    rw [OstArgs.finite, Expr.ev_embed, if_pos]
    · simp
    · exact ⟨(le_top : a.past.ev σ ≤ ⊤), h.pastFinite σ⟩
  · refine verified_of_up rfl rfl fun σ => ?_
    rw [hseq, show (⨆ e ∈ (ostProc2 sp a c body).requires, Expr.ev e σ) = _ from (iSup_one _ _).trans (hpast σ)]
    show loopFun C c body _ (vcSem C (.seq (.tick oneSpec) (heyConst a.past .up)) _) _ ≤ _
    rw [tick_past_sem]
    unfold loopFun
    split
    next hg => exact h.past _ hg
    next hg =>
      refine le_trans (le_of_eq ?_) zero_le
      exact (iSup_one zeroSpec _).trans (zeroSpec_ev _)
  · refine verified_of_up rfl rfl fun σ => ?_
    rw [hseq, show (⨆ e ∈ (ostProc3 sp a body).requires, Expr.ev e σ) = ((a.c : ℝ≥0) : ℝ≥0∞) from iSup_one _ _]
    refine le_trans (le_of_eq ?_) (h.diff (σ.inits sp (loopVars body)))
    show vcSem C body (fun τ => ⨆ e ∈ [a.difference sp], Expr.ev e τ) _ = _
    refine vcSem_frame hC (M := fun v => ¬ sp.IsInit v) (fun v hv hi => hf.touched v hi hv) fun τ hτ => ?_
    rw [iSup_one]
    refine difference_ev hf fun x hx => ?_
    rw [hτ _ (fun h => h (isInit_initVar sp x)), inits_notMem sp fun hm => hnot _ hm (isInit_initVar sp x),
      inits_mem sp hnot (hv x (Or.inl hx))]
  · refine verified_of_down rfl rfl fun σ => ?_
    refine le_trans le_top (le_of_eq ?_)
    show _ = min ((a.harmonize c).ev σ) (⨅ e ∈ ([] : List (Expr .eureal)), e.ev σ)
    rw [OstArgs.harmonize, Expr.ev_embed, if_pos]
    · simp
    · rw [Expr.tv_impl, Expr.tv_not]
      exact h.exit σ
  · refine verified_of_up rfl rfl fun σ => ?_
    rw [hseq]
    refine le_trans (le_of_eq ?_) zero_le
    have h4 : vcSem C (encodeIter c body (heyConst a.inv .up)) (fun τ => ⨆ e ∈ (ostProc5 sp a c body).ensures, Expr.ev e τ)
        = loopFun C c body a.post.ev a.inv.ev := by
      rw [encodeIter_sem, heyConst_sem]
      congr 1
      funext τ
      exact iSup_one a.post τ
    have h6 : ∀ τ, vcSem C (encodeIter c body (heyConst a.inv .up)) (vcSem C (Stmt.block [])
        fun τ => ⨆ e ∈ (ostProc5 sp a c body).ensures, Expr.ev e τ) τ = loopFun C c body a.post.ev a.inv.ev τ :=
      fun τ => congrFun h4 τ
    show (if (if (⊤ : ℝ≥0∞) ≤ vcSem C (encodeIter c body (heyConst a.inv .up)) _ _ then (⊤ : ℝ≥0∞)
      else vcSem C (encodeIter c body (heyConst a.inv .up)) _ _) = ⊤ then (⊤ : ℝ≥0∞) else 0) = 0
    rw [h6, if_neg fun h' => h.finite _ (top_le_iff.1 h'), if_neg (h.finite _)]
  · refine verified_of_down rfl rfl fun σ => ?_
    rw [hseq, show (⨅ e ∈ (ostProc6 sp a c body).requires, Expr.ev e σ) = _ from (iInf_one _ _).trans (hinv σ)]
    refine (h.lower _).trans (le_of_eq ?_)
    show _ = loopFun C c body _ (vcSem C (heyConst a.inv .down) _) _
    rw [heyConst_sem]
    congr 1
    funext τ
    exact (iInf_one a.post τ).symm

/-! ## The statement that replaces the loop -/

theorem stableInputs_init (sp : Spans) (free declared : List Var) {xs : List Var}
    (h : ∀ x ∈ xs, initVar sp x ∉ free) :
    stableInputs free declared (paramsFrom sp (xs.map (initVar sp))) (xs.map fun x => ⟨x.ty, varExpr x⟩)
      = ([], xs.map fun x => ⟨initVar sp x, varExpr x⟩, declared) := by
  induction xs with
  | nil => rfl
  | cons x xs ih =>
    have ih := ih fun y hy => h y (List.mem_cons_of_mem _ hy)
    show stableInputs free declared (⟨initVar sp x, _⟩ :: paramsFrom sp (xs.map (initVar sp)))
      (⟨x.ty, varExpr x⟩ :: xs.map fun x => ⟨x.ty, varExpr x⟩) = _
    unfold stableInputs
    rw [dif_pos (show x.ty = (initVar sp x).ty from rfl), if_neg (h x List.mem_cons_self), ih]
    rfl

theorem zipArgs_vars (xs : List Var) :
    zipArgs xs (xs.map fun x => ⟨x.ty, varExpr x⟩) = xs.map fun x => ⟨x, varExpr x⟩ := by
  induction xs with
  | nil => rfl
  | cons x xs ih =>
    show zipArgs (x :: xs) (⟨x.ty, varExpr x⟩ :: xs.map fun x => ⟨x.ty, varExpr x⟩) = _
    unfold zipArgs
    rw [dif_pos rfl, ih]
    rfl

theorem zipArgs_inits (sp : Spans) (xs : List Var) :
    zipArgs (xs.map (initVar sp)) (xs.map fun x => ⟨x.ty, varExpr x⟩)
      = xs.map fun x => ⟨initVar sp x, (varExpr x : Expr (initVar sp x).ty)⟩ := by
  induction xs with
  | nil => rfl
  | cons x xs ih =>
    show zipArgs (initVar sp x :: xs.map (initVar sp)) (⟨x.ty, varExpr x⟩ :: xs.map fun x => ⟨x.ty, varExpr x⟩) = _
    unfold zipArgs
    rw [dif_pos (show x.ty = (initVar sp x).ty from rfl), ih]
    rfl

theorem seqEnv_same {ps : List ((x : Var) × Expr x.ty)} {σ : Env} (h : ∀ q ∈ ps, q.2.eval σ = σ q.1) :
    seqEnv σ ps = σ := by
  induction ps with
  | nil => rfl
  | cons q qs ih =>
    unfold seqEnv
    rw [ih fun r hr => h r (List.mem_cons_of_mem _ hr), h q List.mem_cons_self, Env.upd_eta]

/-- In states where `init_x` and `x` agree, the call has the value of the invariant if the postexpectation is at least
`post` in all states the loop can reach, and `0` otherwise. -/
theorem ostCall_sem (hf : a.Fresh sp c body) (declared : List Var) (φ : Exp) {σ : Env}
    (hσ : ∀ x, ¬ sp.IsInit x → σ (initVar sp x) = σ x) :
    vcSem C (ostCall sp a c body declared) φ σ = open Classical in
      if ∀ σ', Agree (loopVars body) σ σ' → a.post.ev σ' ≤ φ σ' then a.inv.ev σ else 0 := by
  classical
  have hnot : ∀ x ∈ loopVars body, ¬ sp.IsInit x := fun x hx => loopVars_notInit hf hx
  have hpostfree : ∀ x, a.post.Free x → ¬ sp.IsInit x := fun x hx hi => hf.post x hi hx
  have hens : (ostProc6 sp a c body).ensuresVars = a.post.freeVars := by
    show ([a.post].foldlM (fun acc (e : Expr .eureal) => e.collect acc) []).getD [] = _
    unfold Expr.freeVars
    rw [List.foldlM_cons]
    cases a.post.collect [] <;> rfl
  have hst := stableInputs_init sp (ostProc6 sp a c body).ensuresVars declared (xs := loopVars body) fun x hx hm =>
    hpostfree _ ((mem_freeVars hf.noSubst.2.2.1).1 (hens ▸ hm)) (isInit_initVar sp x)
  unfold ostCall
  rw [encodeAssign_sem]
  rw [show (ostProc6 sp a c body).inputs = paramsFrom sp ((loopVars body).map (initVar sp)) from rfl, hst]
  rw [show (ostProc6 sp a c body).ins = (loopVars body).map (initVar sp) by
    show (paramsFrom sp ((loopVars body).map (initVar sp))).map Param.var = _
    simp [paramsFrom, Function.comp_def]]
  rw [zipArgs_inits, show (ostProc6 sp a c body).outputs = loopVars body from rfl, zipArgs_vars]
  have hpre : (substPairs (a.initInv sp) ((loopVars body).map fun x =>
      (⟨initVar sp x, (varExpr x : Expr (initVar sp x).ty)⟩ : (x : Var) × Expr x.ty))).ev σ = a.inv.ev σ := by
    rw [substPairs_ev, seqEnv_same]
    · exact toInitExpr_ev hf.noSubst.1 (fun v hv hi => hf.inv v hi hv) fun x hx => hσ x fun hi => hf.inv x hi hx
    · intro q hq
      obtain ⟨x, hx, rfl⟩ := List.mem_map.1 hq
      exact (hσ x (hnot x hx)).symm
  have hpost : ∀ σ', (substPairs a.post (((loopVars body).map fun x =>
      (⟨initVar sp x, (varExpr x : Expr (initVar sp x).ty)⟩ : (x : Var) × Expr x.ty)) ++
      (loopVars body).map fun x => ⟨x, varExpr x⟩)).ev σ' = a.post.ev σ' := by
    intro σ'
    rw [substPairs_ev]
    refine Expr.eval_congr a.post fun v hv => seqEnv_id σ' fun q hq hvq => ?_
    rcases List.mem_append.1 hq with hq | hq
    · obtain ⟨x, hx, rfl⟩ := List.mem_map.1 hq
      subst hvq
      exact absurd (isInit_initVar sp x) (hpostfree _ hv)
    · obtain ⟨x, hx, rfl⟩ := List.mem_map.1 hq
      rfl
  show min ((substPairs (a.initInv sp) _).ev σ) (⨅ σ' ∈ {σ' | Agree (loopVars body) σ σ'},
    if (substPairs a.post _).ev σ' ≤ φ σ' then (⊤ : ℝ≥0∞) else 0) = _
  rw [hpre]
  simp only [hpost]
  by_cases hall : ∀ σ', Agree (loopVars body) σ σ' → a.post.ev σ' ≤ φ σ'
  · rw [if_pos hall]
    refine min_eq_left (le_iInf₂ fun σ' hs => ?_)
    rw [if_pos (hall σ' hs)]
    exact le_top
  · rw [if_neg hall]
    push Not at hall
    obtain ⟨σ', hs, hlt⟩ := hall
    refine le_zero_iff.1 ((min_le_right _ _).trans ((iInf₂_le σ' hs).trans ?_))
    rw [if_neg (not_le.2 hlt)]

end

end Caesar
