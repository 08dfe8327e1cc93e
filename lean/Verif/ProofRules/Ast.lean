import Verif.ProofRules.Ost
import Verif.ProofRules.Stochastic
import Verif.ProofRules.AstTheory

/-!
# The `@ast` encoding

Models `src/proof_rules/mciver_ast.rs:150-486`, and its meaning (proofs).
-/

open scoped ENNReal NNReal

namespace Caesar
set_option linter.unusedSectionVars false

/-- The arguments of `@ast(inv, variant, free_var, prob, decrease)` (`src/proof_rules/mciver_ast.rs:33-80`). -/
structure AstArgs where
  inv : Expr .bool
  variant : Expr .ureal
  fv : Ident
  prob : Expr .ureal
  decrease : Expr .ureal

/-- The identifiers `a` and `b` made by `new_ident_with_name` (`src/proof_rules/mciver_ast.rs:238-242`). -/
structure AstNames where
  a : Ident
  b : Ident

/-- `to_init_expr` with the given variables (`src/proof_rules/util.rs:186-203`), at any type; `ExprBuilder::subst` nests
substitutions, the first one being the innermost. -/
def toInit (sp : Spans) {t : Ty} (e : Expr t) (xs : List Var) : Expr t :=
  xs.foldl (fun acc x => .subst x (initExpr sp x) acc) e

/-- The free variable, declared with type `UReal` (`src/proof_rules/mciver_ast.rs:97-107`). -/
def AstArgs.fvVar (a : AstArgs) : Var := ⟨a.fv, .ureal⟩

/-- `builder.subst(e, [(free_var, by)])` (`src/proof_rules/mciver_ast.rs:263-264,275-276,435,452`). -/
def AstArgs.at (a : AstArgs) (e by' : Expr .ureal) : Expr .ureal := .subst a.fvVar by' e

/-- `?(a <= b)` (`src/proof_rules/mciver_ast.rs:244-254`). -/
def AstNames.pre (n : AstNames) : Expr .eureal :=
  .embed (.rel (.le rfl) (.var n.a : Expr .ureal) (.var n.b))

/-- `?(e(a) >= e(b))` (`src/proof_rules/mciver_ast.rs:256-278`). -/
def AstArgs.antitone (a : AstArgs) (n : AstNames) (e : Expr .ureal) : Expr .eureal :=
  .embed (.rel (.ge rfl) (a.at e (.var n.a)) (a.at e (.var n.b)))

/-- `?(loop_guard ==> (variant > 0))` (`src/proof_rules/mciver_ast.rs:344-359`). -/
def AstArgs.positive (a : AstArgs) (c : Expr .bool) : Expr .eureal :=
  .embed (.bin (.impl rfl) c (.rel (.gt rfl) a.variant (.cast .uintUReal (Expr.uintLit 0))))

/-- `[I] * [G] * (p o V)` (`src/proof_rules/mciver_ast.rs:416-438`). -/
def AstArgs.progressPre (a : AstArgs) (c : Expr .bool) : Expr .eureal :=
  .bin (.mul rfl) (.iverson a.inv) (.bin (.mul rfl) (.iverson c) (.cast .urealEUReal (a.at a.prob a.variant)))

/-- `init_variant` (`src/proof_rules/mciver_ast.rs:236`). -/
def AstArgs.initVariant (sp : Spans) (a : AstArgs) (body : Stmt) : Expr .ureal := toInit sp a.variant (loopVars body)

/-- `[V <= V(init) - d(V(init))]` (`src/proof_rules/mciver_ast.rs:440-455`). -/
def AstArgs.progressPost (sp : Spans) (a : AstArgs) (body : Stmt) : Expr .eureal :=
  .iverson (.rel (.le rfl) a.variant
    (.bin (.sub rfl) (a.initVariant sp body) (a.at a.decrease (a.initVariant sp body))))

/-- `prob_antitone` and `decrease_antitone` (`src/proof_rules/mciver_ast.rs:280-308`). -/
def astProcAntitone (name : String) (sp : Spans) (n : AstNames) (a : AstArgs) (e : Expr .ureal) : Proc where
  name := ⟨name, 0⟩
  dir := .down
  inputs := paramsFrom sp [⟨n.a, .ureal⟩, ⟨n.b, .ureal⟩]
  outputs := []
  spec := [.requires n.pre, .ensures (a.antitone n e)]
  body := some (Stmt.block [])

/-- `I_wp_subinvariant` (`src/proof_rules/mciver_ast.rs:310-342`). The parameters for the variables which the loop only
uses (`only_used_idents`) are left out here and below; the verification task does not depend on the parameters. -/
def astProc3 (sp : Spans) (a : AstArgs) (c : Expr .bool) (body : Stmt) : Proc where
  name := ⟨"I_wp_subinvariant", 0⟩
  dir := .down
  inputs := paramsFrom sp ((loopVars body).map (initVar sp))
  outputs := loopVars body
  spec := [.requires (toInit sp (.iverson a.inv) (loopVars body)), .ensures (.iverson a.inv)]
  body := some (Stmt.block (initAssigns sp (loopVars body) ++ [encodeIter c body (Stmt.block [])]))

/-- `termination_condition` (`src/proof_rules/mciver_ast.rs:361-381`). -/
def astProc4 (sp : Spans) (a : AstArgs) (c : Expr .bool) (body : Stmt) : Proc where
  name := ⟨"termination_condition", 0⟩
  dir := .down
  inputs := paramsFrom sp (loopVars body)
  outputs := []
  spec := [.requires (.embed a.inv)]
  body := some (Stmt.block [.assert .down (a.positive c)])

/-- `V_wp_superinvariant` (`src/proof_rules/mciver_ast.rs:383-414`). -/
def astProc5 (sp : Spans) (a : AstArgs) (c : Expr .bool) (body : Stmt) : Proc where
  name := ⟨"V_wp_superinvariant", 0⟩
  dir := .up
  inputs := paramsFrom sp ((loopVars body).map (initVar sp))
  outputs := loopVars body
  spec := [.requires (.cast .urealEUReal (toInit sp a.variant (loopVars body))), .ensures (.cast .urealEUReal a.variant)]
  body := some (Stmt.block (initAssigns sp (loopVars body) ++
    [.assume .up (.embed (.un (.not rfl) a.inv)), encodeIter c body (Stmt.block [])]))

/-- `progress_condition` (`src/proof_rules/mciver_ast.rs:457-478`). -/
def astProc6 (sp : Spans) (a : AstArgs) (c : Expr .bool) (body : Stmt) : Proc where
  name := ⟨"progress_condition", 0⟩
  dir := .down
  inputs := paramsFrom sp ((loopVars body).map (initVar sp))
  outputs := loopVars body
  spec := [.requires (toInit sp (a.progressPre c) (loopVars body)), .ensures (a.progressPost sp body)]
  body := some (Stmt.block (initAssigns sp (loopVars body) ++ [body]))

/-- The procedures generated by `ASTAnnotation::transform` on `while c { body }` (`src/proof_rules/mciver_ast.rs:480-485`). -/
def astProcs (sp : Spans) (n : AstNames) (a : AstArgs) (c : Expr .bool) (body : Stmt) : List Proc :=
  [astProcAntitone "prob_antitone" sp n a a.prob, astProcAntitone "decrease_antitone" sp n a a.decrease,
   astProc3 sp a c body, astProc4 sp a c body, astProc5 sp a c body, astProc6 sp a c body]

/-- The statement that replaces the loop: an empty block (`src/proof_rules/mciver_ast.rs:481`). -/
def astBlock : Stmt := Stmt.block []

section
variable [Doms]

/-- The state with the free variable set to a number. -/
noncomputable def Env.setU (σ : Env) (x : Ident) (r : ℝ≥0) : Env := σ.upd ⟨x, .ureal⟩ r

/-- The value of a variable of type `UReal`. -/
def Env.getU (σ : Env) (x : Ident) : ℝ≥0 := σ ⟨x, .ureal⟩

theorem Env.setU_same (σ : Env) (x : Ident) (r : ℝ≥0) : σ.setU x r ⟨x, .ureal⟩ = (r : Ty.den .ureal) := Env.upd_same _ _ _

theorem Env.setU_ne (σ : Env) {x : Ident} {v : Var} (h : v ≠ ⟨x, .ureal⟩) (r : ℝ≥0) : σ.setU x r v = σ v := Env.upd_ne _ h _

variable [Interp]

/-- The value of an expression of type `UReal`. -/
noncomputable def Expr.uv (e : Expr .ureal) (σ : Env) : ℝ≥0 := e.eval σ

/-- The names made by the encoding are not used by the program: neither the annotation nor the loop mention `init_x`, and
`a`, `b` do not occur in `prob` and `decrease`. Variables declared in the body are out of scope in the variant. The
functions `prob` and `decrease` mention, besides their argument, only variables which the loop does not change. -/
structure AstArgs.Fresh (sp : Spans) (n : AstNames) (a : AstArgs) (c : Expr .bool) (body : Stmt) : Prop where
  inv : ∀ v, sp.IsInit v → ¬ a.inv.Free v
  variant : ∀ v, sp.IsInit v → ¬ a.variant.Free v
  prob : ∀ v, sp.IsInit v → ¬ a.prob.Free v
  decrease : ∀ v, sp.IsInit v → ¬ a.decrease.Free v
  guard : ∀ v, sp.IsInit v → ¬ c.Free v
  reads : ∀ v, sp.IsInit v → ¬ body.Reads v
  touched : ∀ v, sp.IsInit v → ¬ body.Touched v
  locals : ∀ v ∈ body.declared, ¬ a.variant.Free v
  names : n.a ≠ n.b ∧ ∀ x ∈ [n.a, n.b], ¬ a.prob.Free ⟨x, .ureal⟩ ∧ ¬ a.decrease.Free ⟨x, .ureal⟩
  probFix : ∀ v, a.prob.Free v → v = a.fvVar ∨ ¬ body.Touched v
  decreaseFix : ∀ v, a.decrease.Free v → v = a.fvVar ∨ ¬ body.Touched v

open Classical in
/-- The conditions of the rule (`website/docs/proof-rules/ast.md`), about the states of the program. -/
structure AstConditions (C : SemCtx) (a : AstArgs) (c : Expr .bool) (body : Stmt) : Prop where
  prob : ∀ σ : Env, Antitone fun r => a.prob.uv (σ.setU a.fv r)
  decrease : ∀ σ : Env, Antitone fun r => a.decrease.uv (σ.setU a.fv r)
  inv : ∀ σ, a.inv.tv σ → c.tv σ → 1 ≤ vcSem C body (fun τ => if a.inv.tv τ then 1 else 0) σ
  positive : ∀ σ, a.inv.tv σ → c.tv σ → 0 < a.variant.uv σ
  super : ∀ σ, a.inv.tv σ → c.tv σ → vcSem C body (fun τ => (a.variant.uv τ : ℝ≥0∞)) σ ≤ a.variant.uv σ
  progress : ∀ σ, a.inv.tv σ → c.tv σ → (a.prob.uv (σ.setU a.fv (a.variant.uv σ)) : ℝ≥0∞) ≤
    vcSem C body (fun τ =>
      if a.variant.uv τ ≤ a.variant.uv σ - a.decrease.uv (σ.setU a.fv (a.variant.uv σ)) then 1 else 0) σ

theorem toInit_eval {sp : Spans} {xs : List Var} (hx : ∀ x ∈ xs, ¬ sp.IsInit x) {t : Ty} (e : Expr t) (τ : Env) :
    (toInit sp e xs).eval τ = e.eval (τ.inits sp xs) := by
  have key : ∀ (xs : List Var) {t : Ty} (e : Expr t), (toInit sp e xs).eval τ
      = e.eval (seqEnv τ (xs.map fun x => ⟨x, initExpr sp x⟩)) := by
    intro xs
    induction xs with
    | nil => exact fun e => rfl
    | cons x xs ih => exact fun e => ih (.subst x (initExpr sp x) e)
  rw [key]
  congr 1
  have h2 : ∀ xs : List Var, (∀ x ∈ xs, ¬ sp.IsInit x) →
      (∀ w, w ∉ xs → seqEnv τ (xs.map fun x => ⟨x, initExpr sp x⟩) w = τ w) ∧
      ∀ w ∈ xs, seqEnv τ (xs.map fun x => ⟨x, initExpr sp x⟩) w = τ (initVar sp w) := by
    intro xs
    induction xs with
    | nil => exact fun _ => ⟨fun _ _ => rfl, fun _ h => nomatch h⟩
    | cons x xs ih =>
      intro hx
      obtain ⟨ih1, ih2⟩ := ih fun y hy => hx y (List.mem_cons_of_mem _ hy)
      have hval : (initExpr sp x).eval (seqEnv τ (xs.map fun x => ⟨x, initExpr sp x⟩)) = τ (initVar sp x) :=
        ih1 _ fun h => hx _ (List.mem_cons_of_mem _ h) (isInit_initVar sp x)
      refine ⟨fun w hw => ?_, fun w hw => ?_⟩
      · show (seqEnv τ (xs.map fun x => (⟨x, initExpr sp x⟩ : (x : Var) × Expr x.ty))).upd x _ w = τ w
        rw [List.mem_cons, not_or] at hw
        rw [Env.upd_ne _ hw.1]
        exact ih1 w hw.2
      · show (seqEnv τ (xs.map fun x => (⟨x, initExpr sp x⟩ : (x : Var) × Expr x.ty))).upd x _ w = τ (initVar sp w)
        by_cases hwx : w = x
        · subst hwx
          rw [Env.upd_same]
          exact hval
        · rw [Env.upd_ne _ hwx]
          exact ih2 w ((List.mem_cons.1 hw).resolve_left hwx)
  funext w
  by_cases hw : w ∈ xs
  · rw [(h2 xs hx).2 w hw, inits_mem sp hx hw]
  · rw [(h2 xs hx).1 w hw, inits_notMem sp hw]

variable {C : SemCtx} {sp : Spans} {n : AstNames} {a : AstArgs} {c : Expr .bool} {body : Stmt}

theorem AstArgs.Fresh.vars (hf : a.Fresh sp n c body) {x : Var} (hx : x ∈ loopVars body) : ¬ sp.IsInit x := fun h =>
  hf.touched x h (modified_touched (mem_loopVars.1 hx).1)

theorem inits_sync_eq (hsp : sp.Ok) (hf : a.Fresh sp n c body) (σ : Env) :
    (σ.sync sp).inits sp (loopVars body) = σ.sync sp := by
  funext v
  by_cases hv : v ∈ loopVars body
  · rw [inits_mem sp (fun x hx => hf.vars hx) hv, sync_init hsp, sync_other σ (hf.vars hv)]
  · exact inits_notMem sp hv _

/-- Procedures of the shape used here check an inequality in states where `init_x` is `x`. -/
theorem inits_forall {A B : Exp} (hf : a.Fresh sp n c body) :
    (∀ τ : Env, A (τ.inits sp (loopVars body)) ≤ B (τ.inits sp (loopVars body))) ↔
      ∀ σ : Env, (∀ x ∈ loopVars body, σ (initVar sp x) = σ x) → A σ ≤ B σ := by
  constructor
  · intro h σ hσ
    have : σ.inits sp (loopVars body) = σ := by
      funext v
      by_cases hv : v ∈ loopVars body
      · rw [inits_mem sp (fun x hx => hf.vars hx) hv, hσ v hv]
      · exact inits_notMem sp hv _
    have h1 := h σ
    rwa [this] at h1
  · intro h τ
    refine h _ fun x hx => ?_
    rw [inits_mem sp (fun x hx => hf.vars hx) hx,
      inits_notMem sp fun h' => hf.vars h' (isInit_initVar sp x)]

theorem astProcAntitone_iff {name : String} {e : Expr .ureal} (hab : n.a ≠ n.b)
    (he : ∀ x ∈ [n.a, n.b], ¬ e.Free ⟨x, .ureal⟩) :
    (astProcAntitone name sp n a e).Verified C ↔ ∀ σ : Env, Antitone fun r => e.uv (σ.setU a.fv r) := by
  classical
  have hpre : ∀ σ, (⨅ x ∈ (astProcAntitone name sp n a e).requires, Expr.ev x σ) = n.pre.ev σ := iInf_one _
  have hpost : ∀ σ, (⨅ x ∈ (astProcAntitone name sp n a e).ensures, Expr.ev x σ) = (a.antitone n e).ev σ := iInf_one _
  have hval : ∀ σ x, (a.at e (.var x)).eval σ = e.uv (σ.setU a.fv (σ.getU x)) := fun _ _ => rfl
  have e1 : ∀ σ, n.pre.ev σ = if (σ.getU n.a) ≤ (σ.getU n.b) then ⊤ else 0 := fun σ => by
    unfold AstNames.pre
    rw [Expr.ev_embed]
    exact if_congr Iff.rfl rfl rfl
  have e2 : ∀ σ, (a.antitone n e).ev σ = if e.uv (σ.setU a.fv (σ.getU n.b))
      ≤ e.uv (σ.setU a.fv (σ.getU n.a)) then ⊤ else 0 := fun σ => by
    unfold AstArgs.antitone
    rw [Expr.ev_embed]
    exact if_congr Iff.rfl rfl rfl
  constructor
  · intro h σ r s hrs
    let τ : Env := (σ.upd ⟨n.a, .ureal⟩ r).upd ⟨n.b, .ureal⟩ s
    have ha : τ.getU n.a = r :=
      (Env.upd_ne _ (fun h' => hab (congrArg Var.id h')) _).trans (Env.upd_same _ _ _)
    have hb : τ.getU n.b = s := Env.upd_same _ _ _
    have h1 := verified_down rfl rfl h τ
    have h2 : n.pre.ev τ ≤ (a.antitone n e).ev τ := by
      rw [hpre] at h1
      exact h1.trans (hpost τ).le
    rw [e1, e2, if_pos (by rw [ha, hb]; exact hrs), ha, hb] at h2
    have h3 : e.uv (τ.setU a.fv s) ≤ e.uv (τ.setU a.fv r) := by
      by_contra hc
      rw [if_neg hc] at h2
      exact absurd (le_zero_iff.1 h2) ENNReal.top_ne_zero
    have h4 : ∀ q, e.uv (τ.setU a.fv q) = e.uv (σ.setU a.fv q) := by
      intro q
      refine Expr.eval_congr e fun v hv => ?_
      by_cases hvf : v = ⟨a.fv, .ureal⟩
      · subst hvf
        rw [Env.setU_same, Env.setU_same]
      · rw [Env.setU_ne _ hvf, Env.setU_ne _ hvf]
        refine (Env.upd_ne _ (fun h' => ?_) _).trans (Env.upd_ne _ (fun h' => ?_) _)
        · exact he n.b (by simp) (h' ▸ hv)
        · exact he n.a (by simp) (h' ▸ hv)
    rw [h4, h4] at h3
    exact h3
  · intro h
    refine verified_of_down rfl rfl fun σ => ?_
    rw [hpre]
    refine le_trans ?_ (hpost σ).symm.le
    rw [e1, e2]
    split
    next hrs => rw [if_pos (h σ hrs)]
    next => exact zero_le

open Classical in
theorem iverson_uv (b : Expr .bool) : (Expr.iverson b).ev = fun σ => if b.tv σ then 1 else 0 :=
  funext fun _ => Expr.ev_iverson ..

theorem inv_ignores_ast (hf : a.Fresh sp n c body) : Ignores sp.IsInit (Expr.iverson a.inv).ev :=
  fun _ _ h => ev_agreeOff (e := .iverson a.inv) hf.inv h

theorem variant_ignores (hf : a.Fresh sp n c body) : Ignores sp.IsInit (Expr.cast .urealEUReal a.variant).ev :=
  fun _ _ h => ev_agreeOff (e := .cast .urealEUReal a.variant) hf.variant h

/-- States where `init_x` is `x` are representative of all states, for things that do not mention `init_x`. -/
theorem sync_forall {P : Env → Prop} (hsp : sp.Ok) (hf : a.Fresh sp n c body) (hP : ∀ σ, P (σ.sync sp) ↔ P σ) :
    (∀ σ : Env, (∀ x ∈ loopVars body, σ (initVar sp x) = σ x) → P σ) ↔ ∀ σ, P σ := by
  refine ⟨fun h σ => (hP σ).1 (h _ fun x hx => ?_), fun h σ _ => h σ⟩
  rw [sync_init hsp, sync_other σ (hf.vars hx)]

theorem astProc3_iff (hC : C.Regular) (hsp : sp.Ok) (hb : body.NoNeg) (hf : a.Fresh sp n c body) :
    (astProc3 sp a c body).Verified C ↔
      ∀ σ, (Expr.iverson a.inv).ev σ ≤ loopFun C c body (Expr.iverson a.inv).ev (Expr.iverson a.inv).ev σ := by
  have hval : ∀ τ, vcSem C (Stmt.block (initAssigns sp (loopVars body) ++ [encodeIter c body (Stmt.block [])]))
      (fun τ => ⨅ e ∈ (astProc3 sp a c body).ensures, Expr.ev e τ) τ
      = loopFun C c body (Expr.iverson a.inv).ev (Expr.iverson a.inv).ev (τ.inits sp (loopVars body)) := by
    intro τ
    rw [vcSem_block_append, initAssigns_sem,
      show (fun τ => ⨅ e ∈ (astProc3 sp a c body).ensures, Expr.ev e τ) = (Expr.iverson a.inv).ev from
        funext fun τ => iInf_one _ τ]
    rfl
  have hpre : ∀ τ, (⨅ e ∈ (astProc3 sp a c body).requires, Expr.ev e τ)
      = (Expr.iverson a.inv).ev (τ.inits sp (loopVars body)) := fun τ =>
    (iInf_one _ τ).trans (toInit_eval (fun x hx => hf.vars hx) _ τ)
  have hsync : ∀ σ : Env, ((Expr.iverson a.inv).ev (σ.sync sp)
        ≤ loopFun C c body (Expr.iverson a.inv).ev (Expr.iverson a.inv).ev (σ.sync sp)) ↔
      (Expr.iverson a.inv).ev σ ≤ loopFun C c body (Expr.iverson a.inv).ev (Expr.iverson a.inv).ev σ := by
    intro σ
    rw [loopFun_sync hC hb hf.guard hf.reads (inv_ignores_ast hf) (inv_ignores_ast hf),
      inv_ignores_ast hf σ _ (sync_agreeOff σ)]
  rw [← sync_forall hsp hf hsync, ← inits_forall hf]
  constructor
  · intro h τ
    have h1 := verified_down rfl rfl h τ
    rwa [hval, hpre] at h1
  · intro h
    refine verified_of_down rfl rfl fun τ => ?_
    rw [hval, hpre]
    exact h τ

theorem astProc4_iff : (astProc4 sp a c body).Verified C ↔ ∀ σ, a.inv.tv σ → c.tv σ → 0 < a.variant.uv σ := by
  classical
  have hpre : ∀ τ, (⨅ e ∈ (astProc4 sp a c body).requires, Expr.ev e τ) = if a.inv.tv τ then ⊤ else 0 := fun τ =>
    (iInf_one _ τ).trans (Expr.ev_embed _ _)
  have htv : ∀ τ, (Expr.rel (.gt rfl) a.variant (.cast .uintUReal (Expr.uintLit 0))).tv τ ↔ 0 < a.variant.uv τ := by
    intro τ
    show (((0 : ℕ) : ℝ≥0) ≤ a.variant.uv τ ∧ a.variant.uv τ ≠ ((0 : ℕ) : ℝ≥0)) ↔ _
    rw [Nat.cast_zero, lt_iff_le_and_ne, ne_comm]
  have hval : ∀ τ, vcSem C (Stmt.block [.assert .down (a.positive c)])
      (fun τ => ⨅ e ∈ (astProc4 sp a c body).ensures, Expr.ev e τ) τ
      = if c.tv τ → 0 < a.variant.uv τ then ⊤ else 0 := by
    intro τ
    show min ((a.positive c).ev τ) (⨅ e ∈ ([] : List (Expr .eureal)), e.ev τ) = _
    unfold AstArgs.positive
    rw [Expr.ev_embed]
    simp only [List.not_mem_nil, iInf_false, iInf_top, min_top_right]
    refine if_congr ?_ rfl rfl
    rw [Expr.tv_impl, htv]
  constructor
  · intro h σ hi hc
    have h1 := verified_down rfl rfl h σ
    rw [hpre, hval, if_pos hi] at h1
    by_contra hv
    rw [if_neg fun h => hv (h hc)] at h1
    exact absurd (le_zero_iff.1 h1) ENNReal.top_ne_zero
  · intro h
    refine verified_of_down rfl rfl fun τ => ?_
    rw [hpre, hval]
    split
    next hi => rw [if_pos (h τ hi)]
    next => exact zero_le

theorem astProc5_iff (hC : C.Regular) (hsp : sp.Ok) (hb : body.NoNeg) (hf : a.Fresh sp n c body) :
    (astProc5 sp a c body).Verified C ↔ ∀ σ, a.inv.tv σ →
      loopFun C c body (fun τ => (a.variant.uv τ : ℝ≥0∞)) (fun τ => (a.variant.uv τ : ℝ≥0∞)) σ ≤ a.variant.uv σ := by
  classical
  have hV : (Expr.cast .urealEUReal a.variant).ev = fun τ => (a.variant.uv τ : ℝ≥0∞) := rfl
  have hval : ∀ τ, vcSem C (Stmt.block (initAssigns sp (loopVars body) ++
        [.assume .up (.embed (.un (.not rfl) a.inv)), encodeIter c body (Stmt.block [])]))
      (fun τ => ⨆ e ∈ (astProc5 sp a c body).ensures, Expr.ev e τ) τ
      = if a.inv.tv (τ.inits sp (loopVars body)) then
          loopFun C c body (fun τ => (a.variant.uv τ : ℝ≥0∞)) (fun τ => (a.variant.uv τ : ℝ≥0∞)) (τ.inits sp (loopVars body))
        else 0 := by
    intro τ
    rw [vcSem_block_append, initAssigns_sem,
      show (fun τ => ⨆ e ∈ (astProc5 sp a c body).ensures, Expr.ev e τ) = fun τ => (a.variant.uv τ : ℝ≥0∞) from
        funext fun τ => iSup_one _ τ]
    set σ := τ.inits sp (loopVars body)
    show (if (Expr.embed (.un (.not rfl) a.inv)).ev σ ≥ loopFun C c body _ _ σ then (0 : ℝ≥0∞) else loopFun C c body _ _ σ) = _
    rw [Expr.ev_embed]
    by_cases hi : a.inv.tv σ
    · rw [if_pos hi, if_neg fun h => (Expr.tv_not _ _ _).1 h hi]
      split
      next h0 => exact (le_zero_iff.1 h0).symm
      next => rfl
    · rw [if_neg hi, if_pos ((Expr.tv_not _ _ _).2 hi), if_pos le_top]
  have hpre : ∀ τ, (⨆ e ∈ (astProc5 sp a c body).requires, Expr.ev e τ)
      = (a.variant.uv (τ.inits sp (loopVars body)) : ℝ≥0∞) := fun τ =>
    (iSup_one _ τ).trans (congrArg (fun r : ℝ≥0 => (r : ℝ≥0∞)) (toInit_eval (fun x hx => hf.vars hx) a.variant τ))
  have hig : Ignores sp.IsInit fun τ => (a.variant.uv τ : ℝ≥0∞) := variant_ignores hf
  have hsync : ∀ σ : Env, ((if a.inv.tv (σ.sync sp) then
        loopFun C c body (fun τ => (a.variant.uv τ : ℝ≥0∞)) (fun τ => (a.variant.uv τ : ℝ≥0∞)) (σ.sync sp) else 0)
        ≤ (a.variant.uv (σ.sync sp) : ℝ≥0∞)) ↔
      (if a.inv.tv σ then
        loopFun C c body (fun τ => (a.variant.uv τ : ℝ≥0∞)) (fun τ => (a.variant.uv τ : ℝ≥0∞)) σ else 0)
        ≤ (a.variant.uv σ : ℝ≥0∞) := by
    intro σ
    have h1 : (a.variant.uv (σ.sync sp) : ℝ≥0∞) = a.variant.uv σ := hig σ _ (sync_agreeOff σ)
    have h2 : a.inv.tv (σ.sync sp) ↔ a.inv.tv σ := tv_agreeOff hf.inv (sync_agreeOff σ)
    rw [loopFun_sync hC hb hf.guard hf.reads hig hig, h1, if_congr h2 rfl rfl]
  have hrw : (∀ σ, a.inv.tv σ →
      loopFun C c body (fun τ => (a.variant.uv τ : ℝ≥0∞)) (fun τ => (a.variant.uv τ : ℝ≥0∞)) σ ≤ a.variant.uv σ) ↔
      ∀ σ, (if a.inv.tv σ then
        loopFun C c body (fun τ => (a.variant.uv τ : ℝ≥0∞)) (fun τ => (a.variant.uv τ : ℝ≥0∞)) σ else 0)
        ≤ (a.variant.uv σ : ℝ≥0∞) := by
    refine forall_congr' fun σ => ?_
    by_cases hi : a.inv.tv σ
    · rw [if_pos hi]; exact ⟨fun h => h hi, fun h _ => h⟩
    · rw [if_neg hi]; exact ⟨fun _ => zero_le, fun _ h => absurd h hi⟩
  rw [hrw, ← sync_forall hsp hf hsync, ← inits_forall hf]
  constructor
  · intro h τ
    have h1 := verified_up rfl rfl h τ
    rwa [hval, hpre] at h1
  · intro h
    refine verified_of_up rfl rfl fun τ => ?_
    rw [hval, hpre]
    exact h τ

/-- The function `e` of the variant's value, in states that agree outside of the body. -/
theorem uv_setU_congr {e : Expr .ureal} (hfix : ∀ v, e.Free v → v = a.fvVar ∨ ¬ body.Touched v) {σ τ : Env}
    (h : AgreeOff body.Touched σ τ) (r : ℝ≥0) : e.uv (τ.setU a.fv r) = e.uv (σ.setU a.fv r) := by
  refine Expr.eval_congr e fun v hv => ?_
  by_cases hvf : v = ⟨a.fv, .ureal⟩
  · subst hvf
    rw [Env.setU_same, Env.setU_same]
  · rw [Env.setU_ne _ hvf, Env.setU_ne _ hvf]
    exact h v ((hfix v hv).resolve_left hvf)

theorem uv_setU_sync {e : Expr .ureal} (hi : ∀ v, sp.IsInit v → ¬ e.Free v) (σ : Env) (x : Ident) (r : ℝ≥0) :
    e.uv ((σ.sync sp).setU x r) = e.uv (σ.setU x r) := by
  refine Expr.eval_congr e fun v hv => ?_
  by_cases hvf : v = ⟨x, .ureal⟩
  · subst hvf
    rw [Env.setU_same, Env.setU_same]
  · rw [Env.setU_ne _ hvf, Env.setU_ne _ hvf]
    exact sync_other σ fun h => hi v h hv

open Classical in
theorem progressPost_ev (hH : ∀ v, ¬ body.Havocs v) (hf : a.Fresh sp n c body) {σ τ : Env}
    (hσ : ∀ x ∈ loopVars body, σ (initVar sp x) = σ x) (h : AgreeOff body.Touched σ τ) :
    (a.progressPost sp body).ev τ
      = if a.variant.uv τ ≤ a.variant.uv σ - a.decrease.uv (σ.setU a.fv (a.variant.uv σ)) then 1 else 0 := by
  have h1 : (a.initVariant sp body).uv τ = a.variant.uv σ := by
    refine (toInit_eval (fun x hx => hf.vars hx) a.variant τ).trans (Expr.eval_congr _ fun v hv => ?_)
    by_cases hm : v ∈ loopVars body
    · rw [inits_mem sp (fun x hx => hf.vars hx) hm, h _ fun ht => hf.touched _ (isInit_initVar sp v) ht, hσ v hm]
    · rw [inits_notMem sp hm]
      refine h v fun ht => ?_
      have hd : v ∉ body.declared := fun hd => hf.locals v hd hv
      rcases Stmt.touched_cases ht with h' | h' | h'
      · exact hm (mem_loopVars.2 ⟨h', hd⟩)
      · exact hd h'
      · exact hH v h'
  have h2 : (a.at a.decrease (a.initVariant sp body)).uv τ = a.decrease.uv (σ.setU a.fv (a.variant.uv σ)) := by
    rw [← h1, ← uv_setU_congr hf.decreaseFix h]
    rfl
  unfold AstArgs.progressPost
  rw [Expr.ev_iverson]
  refine if_congr ?_ rfl rfl
  rw [← h2, ← h1]
  exact Iff.rfl

open Classical in
theorem progressPre_ev (σ : Env) : (a.progressPre c).ev σ
    = if a.inv.tv σ ∧ c.tv σ then (a.prob.uv (σ.setU a.fv (a.variant.uv σ)) : ℝ≥0∞) else 0 := by
  have h1 : (Expr.cast .urealEUReal (a.at a.prob a.variant)).ev σ = a.prob.uv (σ.setU a.fv (a.variant.uv σ)) := rfl
  unfold AstArgs.progressPre
  rw [Expr.ev_mul, Expr.ev_mul, Expr.ev_iverson, Expr.ev_iverson, h1]
  by_cases hi : a.inv.tv σ
  · by_cases hc : c.tv σ
    · rw [if_pos hi, if_pos hc, if_pos ⟨hi, hc⟩, one_mul, one_mul]
    · rw [if_neg hc, if_neg (fun h : a.inv.tv σ ∧ c.tv σ => hc h.2), zero_mul, mul_zero]
  · rw [if_neg hi, if_neg (fun h : a.inv.tv σ ∧ c.tv σ => hi h.1), zero_mul]

open Classical in
theorem astProc6_iff (hC : C.Regular) (hsp : sp.Ok) (hb : body.NoNeg) (hH : ∀ v, ¬ body.Havocs v)
    (hf : a.Fresh sp n c body) :
    (astProc6 sp a c body).Verified C ↔ ∀ σ, a.inv.tv σ → c.tv σ →
      (a.prob.uv (σ.setU a.fv (a.variant.uv σ)) : ℝ≥0∞) ≤ vcSem C body (fun τ =>
        if a.variant.uv τ ≤ a.variant.uv σ - a.decrease.uv (σ.setU a.fv (a.variant.uv σ)) then 1 else 0) σ := by
  have hval : ∀ τ, vcSem C (Stmt.block (initAssigns sp (loopVars body) ++ [body]))
      (fun τ => ⨅ e ∈ (astProc6 sp a c body).ensures, Expr.ev e τ) τ
      = vcSem C body (a.progressPost sp body).ev (τ.inits sp (loopVars body)) := by
    intro τ
    rw [vcSem_block_append, initAssigns_sem,
      show (fun τ => ⨅ e ∈ (astProc6 sp a c body).ensures, Expr.ev e τ) = (a.progressPost sp body).ev from
        funext fun τ => iInf_one _ τ]
    rfl
  have hpre : ∀ τ, (⨅ e ∈ (astProc6 sp a c body).requires, Expr.ev e τ)
      = (a.progressPre c).ev (τ.inits sp (loopVars body)) := fun τ =>
    (iInf_one _ τ).trans (toInit_eval (fun x hx => hf.vars hx) _ τ)
  have hbody : ∀ σ : Env, (∀ x ∈ loopVars body, σ (initVar sp x) = σ x) →
      vcSem C body (a.progressPost sp body).ev σ = vcSem C body (fun τ =>
        if a.variant.uv τ ≤ a.variant.uv σ - a.decrease.uv (σ.setU a.fv (a.variant.uv σ)) then 1 else 0) σ := fun σ hσ =>
    vcSem_frame hC (M := body.Touched) (fun _ h => h) fun τ hτ => progressPost_ev hH hf hσ hτ
  have hsync : ∀ σ : Env, ((a.progressPre c).ev (σ.sync sp) ≤ vcSem C body (fun τ =>
        if a.variant.uv τ ≤ a.variant.uv (σ.sync sp) - a.decrease.uv ((σ.sync sp).setU a.fv (a.variant.uv (σ.sync sp))) then 1 else 0)
        (σ.sync sp)) ↔ (a.progressPre c).ev σ ≤ vcSem C body (fun τ =>
        if a.variant.uv τ ≤ a.variant.uv σ - a.decrease.uv (σ.setU a.fv (a.variant.uv σ)) then 1 else 0) σ := by
    intro σ
    have h1 : a.variant.uv (σ.sync sp) = a.variant.uv σ := eval_agreeOff hf.variant (sync_agreeOff σ)
    have h2 : a.inv.tv (σ.sync sp) ↔ a.inv.tv σ := tv_agreeOff hf.inv (sync_agreeOff σ)
    have h3 : c.tv (σ.sync sp) ↔ c.tv σ := tv_agreeOff hf.guard (sync_agreeOff σ)
    rw [progressPre_ev, progressPre_ev, h1, uv_setU_sync hf.decrease, uv_setU_sync hf.prob,
      if_congr (and_congr h2 h3) rfl rfl]
    have h4 := vcSem_ignores hC hb (A := sp.IsInit) (φ := fun τ =>
        if a.variant.uv τ ≤ a.variant.uv σ - a.decrease.uv (σ.setU a.fv (a.variant.uv σ)) then 1 else 0)
      (fun τ τ' ht => by
        beta_reduce
        rw [show a.variant.uv τ' = a.variant.uv τ from eval_agreeOff hf.variant ht]) σ _
      ((sync_agreeOff σ).mono fun v hv => ⟨hf.reads v hv, Or.inl hv⟩)
    rw [h4]
  have hrw : (∀ σ, a.inv.tv σ → c.tv σ →
      (a.prob.uv (σ.setU a.fv (a.variant.uv σ)) : ℝ≥0∞) ≤ vcSem C body (fun τ =>
        if a.variant.uv τ ≤ a.variant.uv σ - a.decrease.uv (σ.setU a.fv (a.variant.uv σ)) then 1 else 0) σ) ↔
      ∀ σ, (a.progressPre c).ev σ ≤ vcSem C body (fun τ =>
        if a.variant.uv τ ≤ a.variant.uv σ - a.decrease.uv (σ.setU a.fv (a.variant.uv σ)) then 1 else 0) σ := by
    refine forall_congr' fun σ => ?_
    rw [progressPre_ev]
    by_cases hi : a.inv.tv σ ∧ c.tv σ
    · rw [if_pos hi]; exact ⟨fun h => h hi.1 hi.2, fun h _ _ => h⟩
    · rw [if_neg hi]; exact ⟨fun _ => zero_le, fun _ h h' => absurd ⟨h, h'⟩ hi⟩
  have hmid : (∀ σ : Env, (∀ x ∈ loopVars body, σ (initVar sp x) = σ x) →
        (a.progressPre c).ev σ ≤ vcSem C body (fun τ =>
        if a.variant.uv τ ≤ a.variant.uv σ - a.decrease.uv (σ.setU a.fv (a.variant.uv σ)) then 1 else 0) σ) ↔
      ∀ σ : Env, (∀ x ∈ loopVars body, σ (initVar sp x) = σ x) →
        (a.progressPre c).ev σ ≤ vcSem C body (a.progressPost sp body).ev σ :=
    forall₂_congr fun σ hσ => by rw [hbody σ hσ]
  rw [hrw, ← sync_forall hsp hf hsync, hmid, ← inits_forall hf]
  constructor
  · intro h τ
    have h1 := verified_down rfl rfl h τ
    rwa [hval, hpre] at h1
  · intro h
    refine verified_of_down rfl rfl fun τ => ?_
    rw [hval, hpre]
    exact h τ

/-- The generated procedures verify if and only if the conditions of the rule hold. -/
theorem ast_conditions (hC : C.Regular) (hsp : sp.Ok) (hb : body.NoNeg) (hH : ∀ v, ¬ body.Havocs v)
    (hf : a.Fresh sp n c body) : (∀ p ∈ astProcs sp n a c body, p.Verified C) ↔ AstConditions C a c body := by
  classical
  have e1 := astProcAntitone_iff (C := C) (sp := sp) (a := a) (name := "prob_antitone") hf.names.1
    (fun x hx => (hf.names.2 x hx).1)
  have e2 := astProcAntitone_iff (C := C) (sp := sp) (a := a) (name := "decrease_antitone") hf.names.1
    (fun x hx => (hf.names.2 x hx).2)
  have e3 := astProc3_iff hC hsp hb hf
  have e4 := astProc4_iff (C := C) (sp := sp) (a := a) (c := c) (body := body)
  have e5 := astProc5_iff hC hsp hb hf
  have e6 := astProc6_iff hC hsp hb hH hf
  have e3' : (∀ σ, (Expr.iverson a.inv).ev σ ≤ loopFun C c body (Expr.iverson a.inv).ev (Expr.iverson a.inv).ev σ) ↔
      ∀ σ, a.inv.tv σ → c.tv σ → 1 ≤ vcSem C body (fun τ => if a.inv.tv τ then 1 else 0) σ := by
    refine forall_congr' fun σ => ?_
    rw [iverson_uv]
    unfold loopFun
    by_cases hi : a.inv.tv σ
    · by_cases hc : c.tv σ
      · simp only [if_pos hi, if_pos hc]; exact ⟨fun h _ _ => h, fun h => h hi hc⟩
      · simp only [if_pos hi, if_neg hc]; exact ⟨fun _ _ h => absurd h hc, fun _ => le_rfl⟩
    · simp only [if_neg hi]; exact ⟨fun _ h => absurd h hi, fun _ => zero_le⟩
  have e5' : (∀ σ, a.inv.tv σ →
      loopFun C c body (fun τ => (a.variant.uv τ : ℝ≥0∞)) (fun τ => (a.variant.uv τ : ℝ≥0∞)) σ ≤ a.variant.uv σ) ↔
      ∀ σ, a.inv.tv σ → c.tv σ → vcSem C body (fun τ => (a.variant.uv τ : ℝ≥0∞)) σ ≤ a.variant.uv σ := by
    refine forall₂_congr fun σ hi => ?_
    unfold loopFun
    by_cases hc : c.tv σ
    · rw [if_pos hc]; exact ⟨fun h _ => h, fun h => h hc⟩
    · rw [if_neg hc]; exact ⟨fun _ h => absurd h hc, fun _ => le_rfl⟩
  constructor
  · intro h
    exact ⟨e1.1 (h _ (by simp [astProcs])), e2.1 (h _ (by simp [astProcs])), e3'.1 (e3.1 (h _ (by simp [astProcs]))),
      e4.1 (h _ (by simp [astProcs])), e5'.1 (e5.1 (h _ (by simp [astProcs]))), e6.1 (h _ (by simp [astProcs]))⟩
  · intro h p hp
    simp only [astProcs, List.mem_cons, List.not_mem_nil, or_false] at hp
    rcases hp with rfl | rfl | rfl | rfl | rfl | rfl
    · exact e1.2 h.prob
    · exact e2.2 h.decrease
    · exact e3.2 (e3'.2 h.inv)
    · exact e4.2 h.positive
    · exact e5.2 (e5'.2 h.super)
    · exact e6.2 h.progress

/-! ## Bodies without nondeterminism -/

/-- Statements without nondeterminism and without rewards: assignments, sampling from (sub-)probability distributions,
sequences, conditionals, loops, weights at most one, and assertions of Boolean conditions. -/
def Stmt.Kernel : Stmt → Prop
  | .skip => True
  | .varDecl _ => True
  | .varInit _ _ => True
  | .assign _ _ => True
  | .label _ => True
  | .sample _ _ d => ∀ σ, ∑' a, d.pmf σ a ≤ 1
  | .seq a b => a.Kernel ∧ b.Kernel
  | .ite _ a b => a.Kernel ∧ b.Kernel
  | .while _ s => s.Kernel
  | .annot _ s => s.Kernel
  | .weigh e => ∀ σ, e.ev σ ≤ 1
  | .assert .down (.embed _) => True
  | _ => False

theorem Stmt.Kernel.noNeg {S : Stmt} (h : S.Kernel) : S.NoNeg := by
  induction S with
  | seq a b iha ihb | ite c a b iha ihb => exact ⟨iha h.1, ihb h.2⟩
  | «while» c s ih | annot an s ih => exact ih h
  | demonic | additive | angelic | negate => exact h.elim
  | _ => trivial

theorem Stmt.Kernel.noHavoc {S : Stmt} (h : S.Kernel) (v : Var) : ¬ S.Havocs v := by
  induction S with
  | seq a b iha ihb | ite c a b iha ihb => exact fun h' => h'.elim (iha h.1) (ihb h.2)
  | «while» c s ih | annot an s ih => exact ih h
  | demonic | additive | angelic | havoc => exact h.elim
  | _ => exact fun h => h

theorem Stmt.Kernel.probT {C : SemCtx} (hl : C.loop = .lfp) {S : Stmt} (h : S.Kernel) : ProbT (vcSem C S) := by
  classical
  induction S with
  | skip | varDecl | label => exact ProbT.id
  | varInit x e | assign x e => exact probT_upd x fun σ => e.eval σ
  | sample b x d => exact probT_sample x d h
  | weigh e => exact probT_weigh e.ev h
  | annot an s ih => exact ih h
  | seq a b iha ihb => exact (iha h.1).comp (ihb h.2)
  | ite c a b iha ihb => exact (iha h.1).ite (ihb h.2) c.tv
  | «while» c s ih =>
    have h1 := (ih h).lfp c.tv
    have h2 : vcSem C (.while c s) = fun X => sInf {Y : Exp | (fun σ => if c.tv σ then vcSem C s Y σ else X σ) ≤ Y} := by
      funext X
      rw [vcSem_while, hl]
      rfl
    rw [h2]
    exact h1
  | assert d e =>
    cases d with
    | up => exact h.elim
    | down =>
      cases e with
      | embed b =>
        have key : vcSem C (.assert .down (.embed b)) = fun X σ => if b.tv σ then X σ else 0 := by
          funext X σ
          show min ((Expr.embed b).ev σ) (X σ) = _
          rw [Expr.ev_embed]
          by_cases hc : b.tv σ
          · rw [if_pos hc, if_pos hc, min_eq_right le_top]
          · rw [if_neg hc, if_neg hc, min_eq_left zero_le]
        rw [key]
        exact ProbT.id.ite ProbT.nothing b.tv
      | _ => exact h.elim
  | _ => exact h.elim

end

end Caesar
