import Verif.Procs.SpecCallSound
import Verif.Props.C26

/-!
# Procedures generated by proof rules

Models the parts of `src/proof_rules/util.rs` used by the rules which generate procedures (`@past`, `@ost`), and their
meaning (proofs).
-/

open scoped ENNReal NNReal

namespace Caesar
set_option linter.unusedSectionVars false

/-- The two span variants used for names: `SpanVariant::Encoding` (`src/proof_rules/util.rs:137-141`) and
`SpanVariant::SpecCall` (`src/procs/spec_call.rs:224-228`), as maps on the numbers that stand for spans. -/
structure Spans where
  enc : Nat → Nat
  call : Nat → Nat

/-- The variable `init_x` (`get_init_idents`, `src/proof_rules/util.rs:127-160`). -/
def initVar (sp : Spans) (x : Var) : Var := ⟨⟨"init_" ++ x.id.name, sp.enc x.id.span⟩, x.ty⟩

/-- `ident_to_expr` of an `init_` variable, at the type of the original variable. (`src/proof_rules/util.rs:172`) -/
def initExpr (sp : Spans) (x : Var) : Expr x.ty := .var (initVar sp x).id

/-- `multiple_assign(span, modified_vars, init_exprs)` (`src/proof_rules/util.rs:161-169`): `x = init_x` for each variable. -/
def initAssigns (sp : Spans) (xs : List Var) : List Stmt := xs.map fun x => .assign x (initExpr sp x)

/-- `to_init_expr` (`src/proof_rules/util.rs:186-203`); `ExprBuilder::subst` nests substitutions, the first one being the
innermost. -/
def toInitExpr (sp : Spans) (e : Expr .eureal) (xs : List Var) : Expr .eureal :=
  substPairs e (xs.map fun x => ⟨x, initExpr sp x⟩)

/-- `collect_and_clear` of the `FreeVariableCollector` (`src/ast/util.rs:29-33`); source expressions contain no
substitutions, so that the collector does not panic. -/
def Expr.freeVars {t : Ty} (e : Expr t) : List Var := (e.collect []).getD []

/-- Insertion into an insertion-ordered set. -/
def insertNew (acc : List Var) (x : Var) : List Var := if x ∈ acc then acc else acc ++ [x]

/-- `modified_variables - declared_variables` (`src/proof_rules/ost.rs:157-161`, `src/proof_rules/past.rs:147-151`) for
the loop with the given body. -/
def loopVars (body : Stmt) : List Var :=
  ((body.modified.foldl insertNew []).filter (· ∉ body.declared))

/-- `params_from_idents` (`src/proof_rules/util.rs:331-347`). -/
def paramsFrom (sp : Spans) (xs : List Var) : List Param := xs.map fun x => ⟨x, sp.call x.id.span⟩

/-! ## Proofs -/

theorem mem_foldl_insertNew {l acc : List Var} {v : Var} : v ∈ l.foldl insertNew acc ↔ v ∈ acc ∨ v ∈ l := by
  induction l generalizing acc with
  | nil => simp
  | cons x l ih =>
    rw [List.foldl_cons, ih]
    unfold insertNew
    split
    next h =>
      constructor
      · exact fun h' => h'.imp id (List.mem_cons_of_mem _)
      · rintro (h' | h')
        · exact Or.inl h'
        · rcases List.mem_cons.1 h' with rfl | h'
          · exact Or.inl h
          · exact Or.inr h'
    next h => simp [or_assoc]

theorem mem_loopVars {body : Stmt} {v : Var} : v ∈ loopVars body ↔ v ∈ body.modified ∧ v ∉ body.declared := by
  unfold loopVars
  rw [List.mem_filter, mem_foldl_insertNew]
  simp

theorem mem_freeVars {t : Ty} {e : Expr t} (h : e.NoSubst) {v : Var} : v ∈ e.freeVars ↔ e.Free v := by
  obtain ⟨acc, h1, h2⟩ := e.collect_spec h []
  unfold Expr.freeVars
  rw [h1]
  exact (h2 v).trans (by simp)

/-- The span variant is injective, and no variable of the program carries it. -/
structure Spans.Ok (sp : Spans) : Prop where
  inj : Function.Injective sp.enc

/-- Variables introduced by the encoding. -/
def Spans.IsInit (sp : Spans) (v : Var) : Prop := ∃ n, v.id.span = sp.enc n

theorem isInit_initVar (sp : Spans) (x : Var) : sp.IsInit (initVar sp x) := ⟨_, rfl⟩

theorem initVar_inj {sp : Spans} (h : sp.Ok) {x y : Var} (hxy : initVar sp x = initVar sp y) : x = y := by
  obtain ⟨⟨n, s⟩, t⟩ := x
  obtain ⟨⟨n', s'⟩, t'⟩ := y
  simp only [initVar, Var.mk.injEq, Ident.mk.injEq] at hxy
  obtain ⟨⟨h1, h2⟩, h3⟩ := hxy
  have h1' : n = n' := by
    have := congrArg String.toList h1
    simp only [String.toList_append] at this
    exact String.toList_inj.mp (List.append_cancel_left this)
  subst h1' h3
  rw [h.inj h2]

section
variable [Doms]

/-- The state with every `init_x` set to the value of `x`. -/
noncomputable def Env.sync (σ : Env) (sp : Spans) : Env := fun v =>
  open Classical in if h : ∃ x : Var, v = initVar sp x then h.choose_spec ▸ (σ h.choose : (initVar sp h.choose).ty.den) else σ v

theorem sync_init {sp : Spans} (h : sp.Ok) (σ : Env) (x : Var) : σ.sync sp (initVar sp x) = σ x := by
  have hex : ∃ y : Var, initVar sp x = initVar sp y := ⟨x, rfl⟩
  have key : ∀ (y : Var) (e : initVar sp x = initVar sp y),
      (e ▸ (σ y : (initVar sp y).ty.den) : (initVar sp x).ty.den) = σ x := by
    intro y e
    obtain rfl := initVar_inj h e
    rfl
  unfold Env.sync
  rw [dif_pos hex]
  exact key _ hex.choose_spec

theorem sync_other {sp : Spans} (σ : Env) {v : Var} (h : ¬ sp.IsInit v) : σ.sync sp v = σ v := by
  unfold Env.sync
  refine dif_neg ?_
  rintro ⟨x, rfl⟩
  exact h (isInit_initVar sp x)

theorem sync_agreeOff {sp : Spans} (σ : Env) : AgreeOff sp.IsInit σ (σ.sync sp) := fun _ h => sync_other σ h

variable [Interp]

theorem Env.upd_eta (σ : Env) (x : Var) : σ.upd x (σ x) = σ := by
  funext v
  by_cases h : v = x
  · subst h; exact Env.upd_same _ _ _
  · exact Env.upd_ne _ h _

/-- In states where `init_x` and `x` agree, the assignments `x = init_x` do nothing. -/
theorem initAssigns_sync (C : SemCtx) (sp : Spans) {xs : List Var} {σ : Env}
    (h : ∀ x ∈ xs, σ (initVar sp x) = σ x) (φ : Exp) : vcSem C (Stmt.block (initAssigns sp xs)) φ σ = φ σ := by
  induction xs with
  | nil => rfl
  | cons x xs ih =>
    show vcSem C (Stmt.block (initAssigns sp xs)) φ (σ.upd x ((initExpr sp x).eval σ)) = φ σ
    have : (initExpr sp x).eval σ = σ x := h x List.mem_cons_self
    rw [this, Env.upd_eta]
    exact ih fun y hy => h y (List.mem_cons_of_mem _ hy)

/-- The state after the assignments `x = init_x`. -/
def Env.inits (sp : Spans) : List Var → Env → Env
  | [], σ => σ
  | x :: xs, σ => Env.inits sp xs (σ.upd x (σ (initVar sp x) : x.ty.den))

theorem initAssigns_sem (C : SemCtx) (sp : Spans) (xs : List Var) (φ : Exp) (σ : Env) :
    vcSem C (Stmt.block (initAssigns sp xs)) φ σ = φ (σ.inits sp xs) := by
  induction xs generalizing σ with
  | nil => rfl
  | cons x xs ih => exact ih _

theorem inits_notMem (sp : Spans) {xs : List Var} {v : Var} (h : v ∉ xs) (σ : Env) : σ.inits sp xs v = σ v := by
  induction xs generalizing σ with
  | nil => rfl
  | cons x xs ih =>
    rw [List.mem_cons, not_or] at h
    exact (ih h.2 _).trans (Env.upd_ne _ h.1 _)

theorem inits_mem (sp : Spans) {xs : List Var} (hx : ∀ x ∈ xs, ¬ sp.IsInit x) {v : Var} (h : v ∈ xs) (σ : Env) :
    σ.inits sp xs v = σ (initVar sp v) := by
  induction xs generalizing σ with
  | nil => exact nomatch h
  | cons x xs ih =>
    have hne : ∀ w, initVar sp w ≠ x := fun w hw => hx x List.mem_cons_self (hw ▸ isInit_initVar sp w)
    by_cases hv : v ∈ xs
    · exact (ih (fun y hy => hx y (List.mem_cons_of_mem _ hy)) hv _).trans (Env.upd_ne _ (hne v) _)
    · obtain rfl : v = x := (List.mem_cons.1 h).resolve_right hv
      exact (inits_notMem sp hv _).trans (Env.upd_same _ _ _)

/-- `init_e` in a state whose `init_` variables hold the values of `σ`. -/
theorem toInitExpr_ev {sp : Spans} {e : Expr .eureal} (he : e.NoSubst)
    (hfresh : ∀ v, e.Free v → ¬ sp.IsInit v) {σ τ : Env} (h : ∀ x, e.Free x → τ (initVar sp x) = σ x) :
    (toInitExpr sp e e.freeVars).ev τ = e.ev σ := by
  unfold toInitExpr
  rw [substPairs_ev]
  refine Expr.eval_congr e fun v hv => ?_
  have hmem : v ∈ e.freeVars := (mem_freeVars he).2 hv
  have key : ∀ xs : List Var, (∀ x ∈ xs, e.Free x) →
      (∀ w, sp.IsInit w → seqEnv τ (xs.map fun x => ⟨x, initExpr sp x⟩) w = τ w) ∧
      ∀ w ∈ xs, seqEnv τ (xs.map fun x => ⟨x, initExpr sp x⟩) w = τ (initVar sp w) := by
    intro xs
    induction xs with
    | nil => exact fun _ => ⟨fun _ _ => rfl, fun _ h => nomatch h⟩
    | cons x xs ih =>
      intro hx
      obtain ⟨ih1, ih2⟩ := ih fun y hy => hx y (List.mem_cons_of_mem _ hy)
      have hval : (initExpr sp x).eval (seqEnv τ (xs.map fun x => ⟨x, initExpr sp x⟩)) = τ (initVar sp x) :=
        ih1 _ (isInit_initVar sp x)
      refine ⟨fun w hw => ?_, fun w hw => ?_⟩
      · show (seqEnv τ (xs.map fun x => (⟨x, initExpr sp x⟩ : (x : Var) × Expr x.ty))).upd x _ w = τ w
        rw [Env.upd_ne _ (fun hwx : w = x => hfresh x (hx x List.mem_cons_self) (hwx ▸ hw))]
        exact ih1 w hw
      · show (seqEnv τ (xs.map fun x => (⟨x, initExpr sp x⟩ : (x : Var) × Expr x.ty))).upd x _ w = τ (initVar sp w)
        by_cases hwx : w = x
        · subst hwx
          rw [Env.upd_same]
          exact hval
        · rw [Env.upd_ne _ hwx]
          exact ih2 w ((List.mem_cons.1 hw).resolve_left hwx)
  rw [(key _ fun x hx => (mem_freeVars he).1 hx).2 v hmem]
  exact h v hv

/-- The generated procedure verifies: the value of its verification task is `⊤` (coprocs: `0`) in all states. -/
def Proc.Verified (C : SemCtx) (p : Proc) : Prop :=
  ∀ d S, encodeProcVerify p = some (d, S) → ∀ σ, vcSem C S (topLitInLattice d).ev σ = match d with | .down => ⊤ | .up => 0

theorem verified_down {C : SemCtx} {p : Proc} {B : Stmt} (hB : p.body = some B) (hd : p.dir = .down) (h : p.Verified C) (σ : Env) :
    (⨅ e ∈ p.requires, e.ev σ) ≤ vcSem C B (fun τ => ⨅ e ∈ p.ensures, e.ev τ) σ := by
  obtain ⟨⟨d, S⟩, he⟩ : ∃ r, encodeProcVerify p = some r := by
    unfold encodeProcVerify; rw [hB]; exact ⟨_, rfl⟩
  obtain ⟨h1, h2⟩ := C26_proc C p B hB hd _ _ he
  refine h2.1 (fun σ => ?_) σ
  have := h _ _ he σ
  rw [this, h1]

theorem verified_up {C : SemCtx} {p : Proc} {B : Stmt} (hB : p.body = some B) (hd : p.dir = .up) (h : p.Verified C) (σ : Env) :
    vcSem C B (fun τ => ⨆ e ∈ p.ensures, e.ev τ) σ ≤ ⨆ e ∈ p.requires, e.ev σ := by
  obtain ⟨⟨d, S⟩, he⟩ : ∃ r, encodeProcVerify p = some r := by
    unfold encodeProcVerify; rw [hB]; exact ⟨_, rfl⟩
  obtain ⟨h1, h2⟩ := C26_coproc C p B hB hd _ _ he
  refine h2.1 (fun σ => ?_) σ
  have := h _ _ he σ
  rw [this, h1]

theorem verified_of_down {C : SemCtx} {p : Proc} {B : Stmt} (hB : p.body = some B) (hd : p.dir = .down)
    (h : ∀ σ, (⨅ e ∈ p.requires, e.ev σ) ≤ vcSem C B (fun τ => ⨅ e ∈ p.ensures, e.ev τ) σ) : p.Verified C := by
  intro d S he σ
  obtain ⟨h1, h2⟩ := C26_proc C p B hB hd d S he
  rw [h2.2 h σ, h1]

theorem verified_of_up {C : SemCtx} {p : Proc} {B : Stmt} (hB : p.body = some B) (hd : p.dir = .up)
    (h : ∀ σ, vcSem C B (fun τ => ⨆ e ∈ p.ensures, e.ev τ) σ ≤ ⨆ e ∈ p.requires, e.ev σ) : p.Verified C := by
  intro d S he σ
  obtain ⟨h1, h2⟩ := C26_coproc C p B hB hd d S he
  rw [h2.2 h σ, h1]

end

end Caesar
