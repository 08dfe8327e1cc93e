import Verif.Mc.Det
import Verif.Mc.FnModel
import Verif.Witness

/-!
# C57: the exported JANI model

Specification: the property `reward` of the exported model "is the expected value of the verification conditions", where "while
loops are always assumed to have least fixed-point semantics" (`website/docs/model-checking.md`). It is the minimal (proc) or
maximal (coproc) expected reward. Initial states are restricted to those that satisfy the Boolean preconditions.
Model: `procToModel` (`Verif/Mc/Translate.lean`) and the meaning of JANI models by history-dependent schedulers
(`Verif/Mc/Jani.lean`, which does not refer to HeyVL). A JANI state represents a HeyVL state if the parameters have the same
values (`Rep (paramVars p)`).

* `C57_full`, that the expected reward in every initial state is the expectation of the body, is false: a variable declared with a
  constant initial value in the body of a loop keeps its value from the last iteration (`C57_not_full`), failing a Boolean
  `coassert` gives `0` instead of `∞` (`C57_coassert_wrong`), and `--jani-skip-quant-pre` also drops `assume`s of the body
  (`C57_skip_wrong`).
* `C57_value_partial`: it is true for programs in which none of this happens, of any size and with any nesting of loops.
* `C57_restrict`: the initial states are those in which the Boolean preconditions hold.
* `C57_dtmc`: in models of type `DTMC`, at most one edge is enabled in any state; the minimal and the maximal reward agree.
* `C57_expr`: translated expressions have the same value.
-/

open scoped ENNReal NNReal

namespace Caesar.Mc
set_option linter.unusedSectionVars false

/-- The full property. -/
def C57_full : Prop :=
  ∀ (_ : Fns) (_ : Doms) (_ : Interp) (_ : JOps), SameDiv → FnsScoped → FnsMeaning → ∀ C : SemCtx, C.loop = .lfp → (∀ l f a, Monotone (C.call l f a)) →
    ∀ (o : McOptions) (p : Proc) (body : Stmt) (M : JModel), p.body = some body → procToModel o p = some M → M.FnsDefined →
      ProcScoped p body →
      ∀ (σ : Env) (s : JState), M.Initial s → Rep (paramVars p) σ s →
        M.automaton.value p.dir M.initial s = vcSem C body p.post σ

section
variable [Fns] [Doms] [Interp] [JOps]

/-- The expected reward of the model is the expectation of the procedure. -/
theorem C57_value_partial (hd : SameDiv) (hF : FnsScoped) (hI : FnsMeaning) (C : SemCtx) (hC : C.loop = .lfp) (hcall : ∀ l f a, Monotone (C.call l f a))
    {o : McOptions} {p : Proc} {body : Stmt} (hb : p.body = some body) {M : JModel} (h : procToModel o p = some M)
    (hJ : M.FnsDefined) (hrec : M.NotRecursive) (hsc : ProcScoped p body) (hsup : Supported body) (hq : o.skipQuantPre = true → ¬ LeadingQuant (blockStmts body))
    {σ : Env} {s : JState} (hinit : M.Initial s) (hr : Rep (paramVars p) σ s) :
    M.automaton.value p.dir M.initial s = vcSem C body p.post σ :=
  model_value_fns hd hF hI C hC hcall hb h hJ hrec hsc hsup hq hinit hr

/-- The initial states are those in which the Boolean preconditions hold, if the body does not begin with an `assume`. -/
theorem C57_restrict (hd : SameDiv) (hF : FnsScoped) (hI : FnsMeaning) {o : McOptions} {p : Proc} {body : Stmt} (hb : p.body = some body) {M : JModel}
    (h : procToModel o p = some M) (hJ : M.FnsDefined) (hrec : M.NotRecursive) (hsc : ProcScoped p body) {σ : Env} {s : JState} (hr : Rep (paramVars p) σ s)
    (hno : ∀ a r, blockStmts body = a :: r → ∀ d e, throughAnnotation a ≠ .assume d e) :
    (M.restrict.eval s).holds ↔ ∀ e ∈ p.requires, extractEmbed e ≠ none → e.ev σ = match p.dir with
      | .down => ⊤
      | .up => 0 :=
  restrict_iff_fns hd hF hI hb h hJ hrec hsc hr hno

/-- Models of type `DTMC` are deterministic. -/
theorem C57_dtmc {o : McOptions} {p : Proc} {M : JModel} (h : procToModel o p = some M) (hm : M.mdp = false) (l : Loc)
    (s : JState) : (M.automaton.enabled l s).length ≤ 1 ∧ M.automaton.value .down l s = M.automaton.value .up l s :=
  ⟨model_det h hm l s, value_det (model_det h hm) l s⟩

/-- Translated expressions have the value of the original, which is finite. -/
theorem C57_expr (hd : SameOps) {V : Var → Prop} (hV : ∀ v, V v → isJaniTy v.ty = true) {σ : Env} {s : JState}
    (hr : Rep V σ s) {t : Ty} (e : Expr t) {j : JExpr} (h : translate e = some j) (hok : ExprOk V e) :
    j.eval s = toJ t (e.eval σ) ∧ Fin' t (e.eval σ) :=
  (translate_eval hd hV hr e h hok).2

end

/-! ## The value of a scheduler-free description: examples and refutations -/

/-- Operations of JANI that agree with `unitInterp`. -/
@[reducible] noncomputable def unitJOps : JOps where
  div0 := id
  mod a b := ((⌊a⌋₊ % ⌊b⌋₊ : ℕ) : ℝ)
  mod_nat a b _ := by rw [Nat.floor_natCast, Nat.floor_natCast]
  func _ _ := .num 0

/-- A program without functions. -/
@[reducible] def noFns : Fns := ⟨[]⟩

theorem noFns_scoped : @FnsScoped noFns :=
  let _ := noFns
  { names := List.nodup_nil
    params := fun d hd => nomatch hd
    bodies := fun d hd => nomatch hd }

theorem noFns_meaning [Doms] [Interp] : @FnsMeaning noFns _ _ := fun d hd => nomatch hd

/-- It has models without functions. -/
theorem noFns_model {o : McOptions} {p : Proc} {M : JModel} (h : @procToModel noFns o p = some M) : M.functions = [] := by
  obtain ⟨m, _, hm⟩ := @model_fns noFns o p M h
  cases hf : M.functions with
  | nil => rfl
  | cons f fs =>
    obtain ⟨d, hd, _⟩ := (@translateFns_some noFns m _ hm).2.2 f (by rw [hf]; exact List.mem_cons_self)
    cases hd

theorem noFns_defined [JOps] {o : McOptions} {p : Proc} {M : JModel} (h : @procToModel noFns o p = some M) : M.FnsDefined :=
  fun f hf => by rw [noFns_model h] at hf; cases hf

theorem noFns_rec {o : McOptions} {p : Proc} {M : JModel} (h : @procToModel noFns o p = some M) : M.NotRecursive :=
  ⟨fun _ => 0, fun f hf => by rw [noFns_model h] at hf; cases hf⟩

attribute [local instance] noFns

theorem unit_sameDiv : @SameDiv unitDoms unitInterp unitJOps :=
  let _ := unitDoms
  let _ := unitInterp
  let _ := unitJOps
  { divU := fun _ => rfl
    divR := fun _ => rfl
    modN := fun a => by
      show ((⌊(a : ℝ)⌋₊ % ⌊(0 : ℝ)⌋₊ : ℕ) : ℝ) = ((a : ℕ) : ℝ)
      rw [Nat.floor_natCast, Nat.floor_zero, Nat.mod_zero] }

namespace C57

def c : Var := ⟨⟨"c", 0⟩, .bool⟩
def x : Var := ⟨⟨"x", 1⟩, .uint⟩

/-- `while c { var x: UInt = 0; if x == 0 { x = 1 } else { c = false } }`; the parameter is the declaration. -/
def loop (decl : Stmt) : Stmt :=
  .while (.var c.id) (.seq decl
    (.ite (.rel .eq (.var x.id) (.lit (.uint 0))) (.assign x (.lit (.uint 1))) (.assign c (.lit (.bool false)))))

/-- `var x: UInt = 0` -/
def declX : Stmt := .varInit x (.lit (.uint 0))

/-- `proc reset() -> (c: Bool) post 1 { c = true; while c { var x: UInt = 0; … } }` -/
def resetBody : Stmt := .seq (.assign c (.lit (.bool true))) (loop declX)

/-- `proc keep() -> (c: Bool) post 1 { var x: UInt = 0; c = true; while c { … } }` -/
def keepBody : Stmt := .seq declX (.seq (.assign c (.lit (.bool true))) (loop .skip))

/-- A proc with output `c`, post `1` and the given body. -/
def mk (body : Stmt) : Proc := ⟨⟨"main", 9⟩, .down, [], [c], [.ensures (.lit (.efrac 1))], some body⟩

def opts : McOptions := ⟨false, false⟩

/-- The two programs have the same model. -/
theorem same_model : procToModel opts (mk resetBody) = procToModel opts (mk keepBody) := rfl

theorem model_some : (procToModel opts (mk keepBody)).isSome = true := rfl

theorem params_mk (body : Stmt) (v : Var) : paramVars (mk body) v ↔ v = c := by
  unfold paramVars mk Proc.ins
  simp

theorem reset_scoped : ProcScoped (mk resetBody) resetBody where
  pre e he := by cases he
  post e he := by
    rw [List.mem_singleton.1 he]
    trivial
  body := by
    refine ⟨⟨trivial, ⟨fun v hv _ => (params_mk _ v).1 hv, ?_, by decide, rfl⟩⟩, (params_mk _ _).2 rfl, rfl,
      ⟨trivial, .inl rfl, trivial⟩, ⟨trivial, ⟨?_, nofun, by decide, rfl⟩⟩, ⟨trivial, ⟨?_, nofun, by decide, rfl⟩⟩⟩
    · intro q hq
      rw [List.mem_singleton.1 hq]
      decide
    · rintro v (rfl | hv) h
      · rfl
      · rw [(params_mk _ v).1 hv] at h
        exact absurd h (by decide)
    · rintro v (rfl | hv) h
      · exact absurd h (by decide)
      · exact (params_mk _ v).1 hv

theorem keep_scoped : ProcScoped (mk keepBody) keepBody where
  pre e he := by cases he
  post e he := by
    rw [List.mem_singleton.1 he]
    trivial
  body := by
    have hc : ∀ v, scope (paramVars (mk keepBody)) declX v → v.id.name = c.id.name → v = c := by
      rintro v (rfl | hv) h
      · exact absurd h (by decide)
      · exact (params_mk _ v).1 hv
    refine ⟨rfl, ⟨trivial, ⟨hc, nofun, by decide, rfl⟩⟩, .inr ((params_mk _ _).2 rfl), trivial,
      ⟨trivial, .inl rfl, trivial⟩, ⟨trivial, ⟨?_, nofun, by decide, rfl⟩⟩, ⟨trivial, ⟨hc, nofun, by decide, rfl⟩⟩⟩
    rintro v (rfl | hv) h
    · rfl
    · rw [(params_mk _ v).1 hv] at h
      exact absurd h (by decide)

theorem keep_supported : Supported keepBody := ⟨trivial, trivial, rfl, trivial, trivial, trivial⟩

section
variable [Doms] [Interp]

theorem post_mk (body : Stmt) : (mk body).post = fun _ => 1 := by
  funext σ
  have h : (mk body).ensures = [.lit (.efrac 1)] := rfl
  have h1 : (Expr.lit (.efrac 1)).ev σ = 1 := by
    show (((1 : ℚ≥0) : ℝ≥0) : ℝ≥0∞) = 1
    simp
  unfold Proc.post
  rw [h]
  show (⨅ e ∈ [Expr.lit (.efrac 1)], e.ev σ) = 1
  simp [h1]

/-- The guard and the test. -/
theorem guard_tv (σ : Env) : (Expr.var (t := .bool) c.id).tv σ = σ c := rfl

theorem test_tv (σ : Env) : (Expr.rel .eq (Expr.var (t := .uint) x.id) (.lit (.uint 0))).tv σ = (σ x = (0 : ℕ)) := rfl

/-- The first program does not terminate. -/
theorem reset_value (C : SemCtx) (hC : C.loop = .lfp) (σ : Env) : vcSem C resetBody (mk resetBody).post σ = 0 := by
  classical
  have h : vcSem C (loop declX) (fun _ => 1) ≤ fun σ => if (Expr.var (t := .bool) c.id).tv σ then 0 else 1 := by
    show fixpoint C.loop _ ≤ _
    rw [hC]
    refine sInf_le ?_
    intro τ
    dsimp only
    split
    · show (if _ then _ else _) ≤ _
      refine le_of_eq_of_le (if_pos ?_) (le_of_eq (if_pos ?_))
      · rw [test_tv]
        exact Env.upd_same ..
      · rw [guard_tv, Env.upd_ne _ (by decide), Env.upd_ne _ (by decide)]
        assumption
    · exact le_rfl
  rw [post_mk]
  refine le_antisymm ((h _).trans (le_of_eq (if_pos ?_))) zero_le
  rw [guard_tv]
  exact (iff_of_eq (Env.upd_same ..)).2 rfl

/-- The second one terminates. -/
theorem keep_value [JOps] (C : SemCtx) (hC : C.loop = .lfp) (hcall : ∀ l f a, Monotone (C.call l f a)) (σ : Env) :
    1 ≤ vcSem C keepBody (mk keepBody).post σ := by
  classical
  have hu := while_unfold C hC hcall (c := .var c.id) (body := .seq .skip (.ite (.rel .eq (.var x.id) (.lit (.uint 0)))
    (.assign x (.lit (.uint 1))) (.assign c (.lit (.bool false))))) ⟨trivial, trivial, trivial⟩ fun _ => 1
  have h1 : ∀ σ : Env, σ x ≠ (0 : ℕ) → 1 ≤ vcSem C (loop .skip) (fun _ => 1) σ := by
    intro σ hx
    by_cases hc : (Expr.var (t := .bool) c.id).tv σ
    · refine le_trans ?_ ((hu σ).1 hc)
      show _ ≤ if _ then _ else _
      rw [test_tv, if_neg hx]
      refine (hu _).2 ?_
      rw [guard_tv]
      exact fun h => Bool.false_ne_true ((iff_of_eq (Env.upd_same ..)).1 h)
    · exact (hu σ).2 hc
  rw [post_mk]
  show 1 ≤ vcSem C (loop .skip) (fun _ => 1) ((σ.upd x _).upd c _)
  refine le_trans ?_ ((hu _).1 (by rw [guard_tv]; exact (iff_of_eq (Env.upd_same ..)).2 rfl))
  show _ ≤ if _ then _ else _
  rw [test_tv, if_pos]
  · refine h1 _ ?_
    rw [Env.upd_same]
    exact Nat.one_ne_zero
  · rw [Env.upd_ne _ (by decide), Env.upd_same]
    rfl

end

/-- An initial state. -/
def start : JState := fun y => if y = "c" then .bool False else .num 0

/-- `proc half() -> (c: Bool) post 1 { assume 1; c = true }`; the second body is without the `assume`. -/
def halfBody : Stmt := .seq (.assume .down (.lit (.efrac 1))) (.assign c (.lit (.bool true)))
def plainBody : Stmt := .assign c (.lit (.bool true))

theorem half_scoped : ProcScoped (mk halfBody) halfBody where
  pre e he := by cases he
  post e he := by
    rw [List.mem_singleton.1 he]
    trivial
  body := ⟨trivial, trivial, ⟨fun v hv _ => (params_mk _ v).1 hv, nofun, by decide, rfl⟩⟩

theorem plain_scoped : ProcScoped (mk plainBody) plainBody where
  pre e he := by cases he
  post e he := by
    rw [List.mem_singleton.1 he]
    trivial
  body := ⟨trivial, ⟨fun v hv _ => (params_mk _ v).1 hv, nofun, by decide, rfl⟩⟩

theorem half_model : procToModel ⟨true, false⟩ (mk halfBody) = procToModel ⟨true, false⟩ (mk plainBody) := rfl

/-- `coproc fail() -> (c: Bool) post 1 { coassert ?(true); c = true }` -/
def failBody : Stmt := .seq (.assert .up (.embed (.lit (.bool true)))) (.assign c (.lit (.bool true)))
def fail : Proc := ⟨⟨"fail", 9⟩, .up, [], [c], [.ensures (.lit (.efrac 1))], some failBody⟩

theorem fail_scoped : ProcScoped fail failBody where
  pre e he := by cases he
  post e he := by
    rw [List.mem_singleton.1 he]
    trivial
  body := ⟨trivial, trivial, ⟨fun v hv _ => (params_mk failBody v).1 hv, nofun, by decide, rfl⟩⟩

theorem initial_of {o : McOptions} {p : Proc} {M : JModel} (h : procToModel o p = some M)
    (hd : ∃ ds, (procToModel o p).map (fun M => (M.restrict, M.decls)) = some (.bool true, ds) ∧
      ∀ d ∈ ds, d = ⟨x, some (.num 0)⟩ ∨ d = ⟨c, some (.bool false)⟩) : @JModel.Initial unitJOps M start := by
  let _ := unitJOps
  obtain ⟨ds, h1, h2⟩ := hd
  rw [h] at h1
  obtain ⟨h3, h4⟩ := Prod.mk.inj (Option.some.inj h1)
  refine ⟨by rw [h3]; exact rfl, fun d hd e he => ?_⟩
  rw [h4] at hd
  rcases h2 d hd with rfl | rfl
  · cases he
    show start "x" = .num ((0 : ℕ) : ℝ)
    rw [Nat.cast_zero]
    rfl
  · cases he
    show start "c" = .bool (false = true)
    rw [eq_false Bool.false_ne_true]
    rfl

theorem start_rep (body : Stmt) : @Rep unitDoms (paramVars (mk body)) zeroEnv start := by
  intro v hv
  rw [(params_mk _ v).1 hv]
  rfl

end C57

/-- Calls with the meaning of `havoc`, so that loops are the only recursion. -/
noncomputable def C57.ctx : @SemCtx unitDoms :=
  let _ := unitDoms
  ⟨.lfp, fun l _ _ φ σ => ⨅ σ' ∈ {σ' | Agree l σ σ'}, φ σ'⟩

open C57 in
/-- A variable declared in the body of a loop is not reset. -/
theorem C57_not_full : ¬ C57_full := by
  intro hfull
  let _ := unitDoms
  let _ := unitInterp
  let _ := unitJOps
  have hm : ∀ l f a, Monotone (ctx.call l f a) := (regular_havoc .lfp).mono
  obtain ⟨M, hM⟩ := Option.isSome_iff_exists.1 model_some
  have hM' := same_model.trans hM
  have hinit : M.Initial start := initial_of hM ⟨_, rfl, by simp [x, c, opts, arbitraryInit]⟩
  have h1 := hfull _ _ _ _ unit_sameDiv noFns_scoped noFns_meaning ctx rfl hm opts _ _ M rfl hM' (noFns_defined hM') reset_scoped zeroEnv start hinit (start_rep _)
  have h2 := C57_value_partial unit_sameDiv noFns_scoped noFns_meaning ctx rfl hm rfl hM (noFns_defined hM) (noFns_rec hM) keep_scoped keep_supported nofun hinit (start_rep _)
  have h3 := keep_value ctx rfl hm zeroEnv
  rw [← h2, show (mk keepBody).dir = (mk resetBody).dir from rfl, h1, reset_value ctx rfl] at h3
  exact absurd h3 (by simp)

open C57 in
/-- `--jani-skip-quant-pre` drops an `assume` of the body: the expected reward is `1`, and the expectation is `∞`. -/
theorem C57_skip_wrong : ∃ (p : Proc) (body : Stmt) (M : JModel) (σ : @Env unitDoms) (s : JState), p.body = some body ∧
    p.requires = [] ∧ procToModel ⟨true, false⟩ p = some M ∧ ProcScoped p body ∧ Supported body ∧
      @JModel.Initial unitJOps M s ∧ @Rep unitDoms (paramVars p) σ s ∧
      @JAutomaton.value unitJOps M.automaton p.dir M.initial s = 1 ∧
      @vcSem unitDoms unitInterp ctx body (@Proc.post unitDoms unitInterp p) σ = ⊤ := by
  let _ := unitDoms
  let _ := unitInterp
  let _ := unitJOps
  have hm : ∀ l f a, Monotone (ctx.call l f a) := (regular_havoc .lfp).mono
  obtain ⟨M, hM⟩ := Option.isSome_iff_exists.1 (show (procToModel ⟨true, false⟩ (mk plainBody)).isSome = true from rfl)
  have hinit : M.Initial start := initial_of hM ⟨_, rfl, by simp [x, c, arbitraryInit]⟩
  refine ⟨mk halfBody, halfBody, M, zeroEnv, start, rfl, rfl, half_model.trans hM, half_scoped, ⟨trivial, trivial⟩, hinit,
    start_rep _, ?_, ?_⟩
  · have h2 := C57_value_partial unit_sameDiv noFns_scoped noFns_meaning ctx rfl hm rfl hM (noFns_defined hM) (noFns_rec hM) plain_scoped trivial (fun _ h => h) hinit (start_rep _)
    rw [post_mk] at h2
    exact h2
  · rw [post_mk]
    refine if_pos ?_
    show (((1 : ℚ≥0) : ℝ≥0) : ℝ≥0∞) ≤ 1
    simp

open C57 in
/-- A failing Boolean `coassert` gives `0` instead of `∞`. -/
theorem C57_coassert_wrong : ∃ (p : Proc) (body : Stmt) (M : JModel) (σ : @Env unitDoms) (s : JState), p.body = some body ∧
    procToModel opts p = some M ∧ ProcScoped p body ∧
      @JModel.Initial unitJOps M s ∧ @Rep unitDoms (paramVars p) σ s ∧
      @JAutomaton.value unitJOps M.automaton p.dir M.initial s = 0 ∧
      @vcSem unitDoms unitInterp ctx body (@Proc.post unitDoms unitInterp p) σ = ⊤ := by
  classical
  let _ := unitDoms
  let _ := unitInterp
  let _ := unitJOps
  obtain ⟨M, hM⟩ := Option.isSome_iff_exists.1 (show (procToModel opts fail).isSome = true from rfl)
  have hinit : M.Initial start := initial_of hM ⟨_, rfl, by simp [x, c, opts, arbitraryInit]⟩
  refine ⟨fail, failBody, M, zeroEnv, start, rfl, hM, fail_scoped, hinit, start_rep failBody, ?_, ?_⟩
  · have hA : (procToModel opts fail).map (fun M => (M.initial, edgesAt M.automaton.edges M.initial,
        edgesAt M.automaton.edges .err, edgesAt M.automaton.edges .sink, M.automaton.exit M.initial, M.automaton.exit .err)) =
        some (.l 1, [.fromToIf (.l 1) (.l 0) (.not (.bool true)), .fromToIf (.l 1) .err (.not (.not (.bool true)))],
          [.fromTo .err .sink], [], none, none) := rfl
    rw [hM] at hA
    simp only [Option.map_some, Option.some.injEq, Prod.mk.injEq] at hA
    obtain ⟨h1, h2, h3, h4, h5, h6⟩ := hA
    rw [h1] at h2 h5 ⊢
    have hs : ∀ X t, M.automaton.bellman .up X .sink t = 0 := fun X t => by
      unfold JAutomaton.bellman
      rw [enabled_at h4, List.filter_nil, if_pos rfl]
    show M.automaton.value .up _ _ = 0
    rw [← bellman_value, bellman_if (c := .not (.bool true)) ⟨h2, h5⟩, if_neg (fun h => h rfl), ← bellman_value,
      bellman_single (l := .err) ⟨h3, h6⟩]
    refine (expect_goto _ .err .sink none start).trans ?_
    rw [← bellman_value, hs]
  · show max ((Expr.embed (.lit (.bool true))).ev _) _ = ⊤
    rw [Expr.ev_embed, if_pos (by rfl)]
    exact max_eq_left le_top

/-! ## Non-vacuity -/

open C57 in
/-- The hypotheses of `C57_value_partial` hold for `keepBody`, and the value is positive. -/
example : ∃ (M : JModel) (s : JState) (σ : @Env unitDoms), procToModel opts (mk keepBody) = some M ∧
    ProcScoped (mk keepBody) keepBody ∧ Supported keepBody ∧ @JModel.Initial unitJOps M s ∧
      @Rep unitDoms (paramVars (mk keepBody)) σ s ∧ 1 ≤ @JAutomaton.value unitJOps M.automaton .down M.initial s := by
  let _ := unitDoms
  let _ := unitInterp
  let _ := unitJOps
  have hm : ∀ l f a, Monotone (ctx.call l f a) := (regular_havoc .lfp).mono
  obtain ⟨M, hM⟩ := Option.isSome_iff_exists.1 model_some
  have hinit : M.Initial start := initial_of hM ⟨_, rfl, by simp [x, c, opts, arbitraryInit]⟩
  refine ⟨M, start, zeroEnv, hM, keep_scoped, keep_supported, hinit, start_rep _, ?_⟩
  have h := C57_value_partial unit_sameDiv noFns_scoped noFns_meaning ctx rfl hm rfl hM (noFns_defined hM) (noFns_rec hM) keep_scoped keep_supported nofun hinit (start_rep _)
  exact (keep_value ctx rfl hm zeroEnv).trans (le_of_eq h.symm)

namespace C57

def q : Var := ⟨⟨"q", 3⟩, .ureal⟩
def n : Var := ⟨⟨"n", 4⟩, .uint⟩

/-- `proc geo(q: UReal) -> (n: UInt) pre ?(q <= 1) post n { var c: Bool = true; while c { c = flip(q); if c { n = n + 1 } else {} } }` -/
def geoBody : Stmt :=
  .seq (.varInit c (.lit (.bool true))) (.while (.var c.id) (.seq (.sample false c.id (.flip (.var q.id)))
    (.ite (.var c.id) (.assign n (.bin (.add rfl) (.var n.id) (.lit (.uint 1)))) .skip)))

def geo : Proc := ⟨⟨"geo", 9⟩, .down, [⟨q, 0⟩], [n],
  [.requires (.embed (.rel (.le rfl) (.var q.id) (.lit (.ufrac 1)))), .ensures (.cast .uintEUReal (.var n.id))], some geoBody⟩

theorem geo_params (v : Var) : paramVars geo v ↔ v = q ∨ v = n := by
  unfold paramVars geo Proc.ins
  simp

theorem geo_scoped : ProcScoped geo geoBody where
  pre e he := by
    rw [List.mem_singleton.1 he]
    exact ⟨nofun, (geo_params _).2 (.inl rfl), trivial⟩
  post e he := by
    rw [List.mem_singleton.1 he]
    exact (geo_params _).2 (.inr rfl)
  body := by
    refine ⟨rfl, .inl rfl, ⟨⟨?_, nofun, by decide, rfl⟩, .inr ((geo_params _).2 (.inl rfl))⟩, .inl rfl,
      ⟨⟨trivial, .inr ((geo_params _).2 (.inr rfl)), trivial⟩, ⟨?_, nofun, by decide, rfl⟩⟩, trivial⟩
    · rintro v (rfl | hv) h
      · rfl
      · rcases (geo_params v).1 hv with rfl | rfl <;> exact absurd h (by decide)
    · rintro v (rfl | hv) h
      · exact absurd h (by decide)
      · rcases (geo_params v).1 hv with rfl | rfl
        · exact absurd h (by decide)
        · rfl

theorem geo_supported : Supported geoBody := ⟨trivial, rfl, ⟨trivial, nofun⟩, trivial, trivial⟩

end C57

open C57 in
/-- The hypotheses of all theorems above hold for a probabilistic loop with a precondition; the model is a Markov chain. -/
example : ∃ M : JModel, procToModel opts geo = some M ∧ ProcScoped geo geoBody ∧ Supported geoBody ∧ M.mdp = false ∧
    (∀ a r, blockStmts geoBody = a :: r → ∀ d e, throughAnnotation a ≠ .assume d e) ∧
    ∃ (s : JState) (σ : @Env unitDoms), @JModel.Initial unitJOps M s ∧ @Rep unitDoms (paramVars geo) σ s := by
  let _ := unitDoms
  let _ := unitInterp
  let _ := unitJOps
  have hM : (procToModel opts geo).isSome = true := rfl
  obtain ⟨M, hM⟩ := Option.isSome_iff_exists.1 hM
  have hd : (procToModel opts geo).map (fun M => (M.decls, M.mdp)) = some ([⟨c, some (.bool true)⟩, ⟨q, none⟩, ⟨n, some (.num 0)⟩], false) := rfl
  rw [hM] at hd
  obtain ⟨h3, h4⟩ := Prod.mk.inj (Option.some.inj hd)
  let s : JState := fun y => if y = "c" then .bool True else .num 0
  have hr : Rep (paramVars geo) zeroEnv s := by
    intro v hv
    rcases (geo_params v).1 hv with rfl | rfl
    · rfl
    · show JVal.num 0 = .num ((0 : ℕ) : ℝ)
      rw [Nat.cast_zero]
  have hno : ∀ a r, blockStmts geoBody = a :: r → ∀ d e, throughAnnotation a ≠ .assume d e := by
    intro a r h
    cases h
    nofun
  refine ⟨M, hM, geo_scoped, geo_supported, h4, hno, s, zeroEnv, ⟨?_, ?_⟩, hr⟩
  · rw [C57_restrict unit_sameDiv noFns_scoped noFns_meaning rfl hM (noFns_defined hM) (noFns_rec hM) geo_scoped hr hno]
    intro e he _
    rw [List.mem_singleton.1 he]
    show (Expr.embed _).ev _ = ⊤
    rw [Expr.ev_embed, if_pos]
    show (0 : ℝ≥0) ≤ ((1 : ℚ≥0) : ℝ≥0)
    exact zero_le
  · intro d hd e he
    rw [h3] at hd
    simp only [List.mem_cons, List.not_mem_nil, or_false] at hd
    rcases hd with rfl | rfl | rfl <;> cases he
    · show JVal.bool True = .bool (true = true)
      rw [eq_self]
    · show JVal.num 0 = .num ((0 : ℕ) : ℝ)
      rw [Nat.cast_zero]

end Caesar.Mc
