import Verif.Mc.DivergeFns
import Verif.Props.C57

/-!
# C87: divergence in exported models

Specification: `diverge_prob` is "the probability of not reaching the end of the (co)proc" and `can_diverge` "whether the program has a
path that does not reach the end" (`website/docs/model-checking.md:104-106`). For one-bounded wlp semantics, "the result should be the
sum of the `reward` and `diverge_prob` properties"; for unbounded greatest fixed points, "the result is `∞` if `can_diverge` is `true`,
otherwise the result is `reward`" (`website/docs/model-checking.md:301-306`).
Model: the properties (`src/mc/specs.rs:140-237`), their meaning by schedulers and paths, and the semantics with greatest fixed points
below a bound are in `Verif/Mc/DivergeSpec.lean`.

* `C87_full_sum` and `C87_full_unbounded`, that this holds for all models, are false: with a demonic choice, the scheduler that has the
  minimal reward need not have the minimal probability of divergence, and some path that diverges does not make the minimum infinite
  (`C87_not_full_sum`, `C87_not_full_unbounded`). A failing `coassume` is a loop in the model, and counts as divergence, even in
  programs without loops and choices (`C87_coassume_wrong`).
* `C87_sum_partial`: without choices and `coassume`s, the one-bounded wlp is the sum.
* `C87_sum_le`, `C87_le_sum`: the sum is a lower bound in procs and an upper bound in coprocs.
* `C87_unbounded_partial`: in coprocs, and without choices, the greatest fixed point is `∞` if there is a diverging path.
* `C87_terminating`: if there is none, it is the reward, in all models.
* `C87_meaning`: the properties are those of paths that never reach the sink.
-/

open scoped ENNReal NNReal

namespace Caesar.Mc
set_option linter.unusedSectionVars false

/-- The one-bounded wlp is the sum of `reward` and `diverge_prob`. -/
def C87_full_sum : Prop :=
  ∀ (_ : Fns) (_ : Doms) (_ : Interp) (_ : JOps), SameDiv → FnsScoped → FnsMeaning → ∀ C : SemCtx, (∀ l f a, Monotone (C.call l f a)) →
    ∀ (o : McOptions) (p : Proc) (body : Stmt) (M : JModel), p.body = some body → procToModel o p = some M → M.FnsDefined →
      M.NotRecursive → ProcScoped p body → Supported body → (o.skipQuantPre = true → ¬ LeadingQuant (blockStmts body)) →
      ∀ (σ : Env) (s : JState), M.Initial s → Rep (paramVars p) σ s → M.automaton.OneBounded M.initial s →
        ∀ r q, M.property p.dir "reward" s = some (.number r) → M.property p.dir "diverge_prob" s = some (.number q) →
          liberal 1 C body p.post σ = r + q

open Classical in
/-- The greatest fixed point is `∞` if `can_diverge`, and `reward` otherwise. -/
def C87_full_unbounded : Prop :=
  ∀ (_ : Fns) (_ : Doms) (_ : Interp) (_ : JOps), SameDiv → FnsScoped → FnsMeaning → ∀ C : SemCtx, C.loop = .gfp →
    (∀ l f a, Monotone (C.call l f a)) →
    ∀ (o : McOptions) (p : Proc) (body : Stmt) (M : JModel), p.body = some body → procToModel o p = some M → M.FnsDefined →
      M.NotRecursive → ProcScoped p body → Supported body → (o.skipQuantPre = true → ¬ LeadingQuant (blockStmts body)) →
      ∀ (σ : Env) (s : JState), M.Initial s → Rep (paramVars p) σ s →
        ∀ r b, M.property p.dir "reward" s = some (.number r) → M.property p.dir "can_diverge" s = some (.truth b) →
          vcSem C body p.post σ = if b then ⊤ else r

section
variable [Fns] [Doms] [Interp] [JOps]

/-- The values of the properties: the optimal total reward, the optimal probability that the sink is never reached, and the existence of
a path that never reaches it. -/
theorem C87_meaning {o : McOptions} {p : Proc} {body : Stmt} (hb : p.body = some body) {M : JModel} (h : procToModel o p = some M)
    (s : JState) :
    M.property p.dir "reward" s = some (.number (M.automaton.value p.dir M.initial s)) ∧
    M.property p.dir "diverge_prob" s = some (.number (match p.dir with
      | .down => ⨅ π : Scheduler M.automaton, π.always (fun l _ => l ≠ .sink) M.initial s
      | .up => ⨆ π : Scheduler M.automaton, π.always (fun l _ => l ≠ .sink) M.initial s)) ∧
    M.property p.dir "can_diverge" s =
      some (.truth (∃ ρ, M.automaton.Path (fun l _ => l ≠ .sink) ρ ∧ ρ 0 = (M.initial, s))) := by
  obtain ⟨j, hE⟩ := model_ends hb h
  refine ⟨property_reward M p.dir s, ?_, property_can hE p.dir s⟩
  rw [property_diverge hE]
  cases p.dir <;> rfl

variable (hd : SameDiv) (hF : FnsScoped) (hI : FnsMeaning) (C : SemCtx) {o : McOptions} {p : Proc} {body : Stmt}
  (hb : p.body = some body) {M : JModel} (h : procToModel o p = some M) (hJ : M.FnsDefined) (hrec : M.NotRecursive)
  (hsc : ProcScoped p body) (hsup : Supported body) (hq : o.skipQuantPre = true → ¬ LeadingQuant (blockStmts body))
  {σ : Env} {s : JState} (hinit : M.Initial s) (hr : Rep (paramVars p) σ s)

include hd hF hI hb h hJ hrec hsc hsup hq hinit hr

/-- In a coproc, or without choices, the one-bounded wlp is at most the sum. -/
theorem C87_le_sum (hcall : ∀ l f a, Monotone (C.call l f a)) (hdir : p.dir = .up ∨ M.mdp = false)
    (hone : M.automaton.OneBounded M.initial s) {r q : ℝ≥0∞} (hrew : M.property p.dir "reward" s = some (.number r))
    (hdiv : M.property p.dir "diverge_prob" s = some (.number q)) : liberal 1 C body p.post σ ≤ r + q := by
  obtain ⟨j, hE⟩ := model_ends hb h
  rw [property_reward] at hrew
  rw [property_diverge hE] at hdiv
  cases hrew
  cases hdiv
  exact model_le_sum hd hF hI C hcall hb h hJ hrec hsc hsup hq hdir hinit hr hone

/-- In a proc, or without choices, it is at least the sum. -/
theorem C87_sum_le (hco : NoCoassume body) (hdir : p.dir = .down ∨ M.mdp = false) (hone : M.automaton.OneBounded M.initial s)
    {r q : ℝ≥0∞} (hrew : M.property p.dir "reward" s = some (.number r))
    (hdiv : M.property p.dir "diverge_prob" s = some (.number q)) : r + q ≤ liberal 1 C body p.post σ := by
  obtain ⟨j, hE⟩ := model_ends hb h
  rw [property_reward] at hrew
  rw [property_diverge hE] at hdiv
  cases hrew
  cases hdiv
  exact model_sum_le hd hF hI C hb h hJ hrec hsc hsup hq hco hdir hinit hr hone

/-- Without choices and `coassume`s, the one-bounded wlp is the sum. -/
theorem C87_sum_partial (hcall : ∀ l f a, Monotone (C.call l f a)) (hco : NoCoassume body) (hdet : M.mdp = false)
    (hone : M.automaton.OneBounded M.initial s) {r q : ℝ≥0∞} (hrew : M.property p.dir "reward" s = some (.number r))
    (hdiv : M.property p.dir "diverge_prob" s = some (.number q)) : liberal 1 C body p.post σ = r + q :=
  le_antisymm (C87_le_sum hd hF hI C hb h hJ hrec hsc hsup hq hinit hr hcall (.inr hdet) hone hrew hdiv)
    (C87_sum_le hd hF hI C hb h hJ hrec hsc hsup hq hinit hr hco (.inr hdet) hone hrew hdiv)

/-- If no path diverges, the greatest fixed point is the reward. -/
theorem C87_terminating (hC : C.loop = .gfp) (hcall : ∀ l f a, Monotone (C.call l f a)) {r : ℝ≥0∞} {b : Prop}
    (hrew : M.property p.dir "reward" s = some (.number r)) (hcan : M.property p.dir "can_diverge" s = some (.truth b)) (hnb : ¬ b) :
    vcSem C body p.post σ = r := by
  obtain ⟨j, hE⟩ := model_ends hb h
  rw [property_reward] at hrew
  rw [property_can hE] at hcan
  cases hrew
  cases hcan
  rw [← liberal_top C hC]
  refine le_antisymm (model_le_value hd hF hI C hcall hb h hJ hrec hsc hsup hq hinit hr hnb) ?_
  let C' : SemCtx := ⟨.lfp, C.call⟩
  have hl : ∀ S, liberal ⊤ C S = liberal ⊤ C' S := fun S => by
    induction S with
    | seq a b iha ihb | demonic a b iha ihb | angelic a b iha ihb | additive a b iha ihb | ite c a b iha ihb =>
      funext φ; simp only [liberal, iha, ihb]
    | «while» c body ih => funext φ; simp only [liberal, ih]
    | annot _ s ih => funext φ; simp only [liberal, ih]
    | havoc d _ | assert d _ | assume d _ | compare d _ | negate d | validate d => cases d <;> rfl
    | _ => rfl
  rw [hl, model_value_fns hd hF hI C' rfl hcall hb h hJ hrec hsc hsup hq hinit hr]
  exact lfp_le_liberal C' rfl hcall (model_noNeg hd hF hI hb h hJ hrec hsc hsup hq hinit hr) _ σ

open Classical in
/-- In a coproc, or without choices, and without `coassume`s, the greatest fixed point is as documented. -/
theorem C87_unbounded_partial (hC : C.loop = .gfp) (hcall : ∀ l f a, Monotone (C.call l f a)) (hco : NoCoassume body)
    (hdir : p.dir = .up ∨ M.mdp = false) {r : ℝ≥0∞} {b : Prop} (hrew : M.property p.dir "reward" s = some (.number r))
    (hcan : M.property p.dir "can_diverge" s = some (.truth b)) : vcSem C body p.post σ = if b then ⊤ else r := by
  split
  next hb' =>
    obtain ⟨j, hE⟩ := model_ends hb h
    rw [property_can hE] at hcan
    cases hcan
    rw [← liberal_top C hC]
    exact model_top hd hF hI C hb h hJ hrec hsc hsup hq hco hdir hinit hr hb'
  next hb' => exact C87_terminating hd hF hI C hb h hJ hrec hsc hsup hq hinit hr hC hcall hrew hcan hb'

end

/-! ## Witnesses -/

attribute [local instance] noFns

namespace C87
open C57

section
variable [Doms] [Interp] [JOps]

/-- Edges with total probability one and without rewards. -/
theorem oneBounded_of {A : JAutomaton} {j : JExpr} (hE : Ends A j) (hj : ∀ t, j.weight t ≤ 1)
    (he : ∀ e ∈ A.edges, ∀ t, (e.dests.map fun d => d.weight t).sum = 1 ∧ ∀ d ∈ e.dests, d.reward t = 0) (l : Loc) (s : JState) :
    A.OneBounded l s where
  mass _ t _ e h := (he e (List.mem_of_mem_filter h) t).1
  reward _ t _ e h := (he e (List.mem_of_mem_filter h) t).2
  exit k t _ := by
    by_cases hk : k = .fin
    · subst hk
      unfold JAutomaton.exitReward
      rw [hE.exit, if_pos rfl]
      exact hj t
    · rw [hE.exit_zero hk]; exact zero_le

theorem goto_ok (e : JEdge) (k : Loc) (h : e.dests = [.goto k]) (t : JState) :
    (e.dests.map fun d => d.weight t).sum = 1 ∧ ∀ d ∈ e.dests, d.reward t = 0 := by
  rw [h]
  refine ⟨by simp [JDest.goto, JDest.weight], fun d hd => ?_⟩
  rw [List.mem_singleton.1 hd]
  simp [JDest.goto, JDest.reward]

theorem mem_enabled {A : JAutomaton} {e : JEdge} {l : Loc} {s : JState} (h : e ∈ A.edges) (hl : e.loc = l) (he : e.enabled s) :
    e ∈ A.enabled l s := List.mem_filter.2 ⟨h, by simp [hl, he]⟩

/-- The literal `1`. -/
theorem one_weight (t : JState) : (JExpr.bin .div (.num 1) (.num 1)).weight t = 1 := by
  simp [JExpr.weight, JExpr.eval, JOp.den, JVal.real]

end

/-- `proc choice() -> (c: Bool) post 1 { if ⊓ { while true {} } else {} }` -/
def choiceBody : Stmt := .demonic (.while (.lit (.bool true)) .skip) .skip

def choiceEdges : List JEdge :=
  [.fromToIf (.l 1) (.l 1) (.bool true), .fromToIf (.l 1) .fin (.not (.bool true)), .fromTo (.l 0) (.l 1), .fromTo (.l 0) .fin,
    .fromTo .fin .sink, .fromTo .err .sink]

theorem choice_model : (procToModel opts (mk choiceBody)).map (fun M => (M.initial, M.automaton.edges, M.automaton.exit .fin)) =
    some (.l 0, choiceEdges, some (.bin .div (.num 1) (.num 1))) := rfl

theorem choice_scoped : ProcScoped (mk choiceBody) choiceBody where
  pre e he := by cases he
  post e he := by
    rw [List.mem_singleton.1 he]
    trivial
  body := ⟨⟨trivial, trivial⟩, trivial⟩

/-- `proc co() -> (c: Bool) post 1 { c = true; coassume ?(true) }` -/
def coBody : Stmt := .seq (.assign c (.lit (.bool true))) (.assume .up (.embed (.lit (.bool true))))

def coEdges : List JEdge :=
  [.fromToIf (.l 0) .fin (.not (.bool true)), ⟨.l 1, none, [⟨.l 1, none, []⟩]⟩, .fromToIf (.l 0) (.l 1) (.not (.not (.bool true))),
    ⟨.l 2, none, [⟨.l 0, none, [("c", .bool true)]⟩]⟩, .fromTo .fin .sink, .fromTo .err .sink]

theorem co_model : (procToModel opts (mk coBody)).map (fun M => (M.initial, M.automaton.edges, M.automaton.exit .fin, M.mdp)) =
    some (.l 2, coEdges, some (.bin .div (.num 1) (.num 1)), false) := rfl

theorem co_scoped : ProcScoped (mk coBody) coBody where
  pre e he := by cases he
  post e he := by
    rw [List.mem_singleton.1 he]
    trivial
  body := ⟨⟨trivial, ⟨fun v hv _ => (params_mk _ v).1 hv, nofun, by decide, rfl⟩⟩, trivial⟩

section
variable [Doms] [Interp] [JOps]

theorem choice_parts {M : JModel} (hM : procToModel opts (mk choiceBody) = some M) :
    M.initial = .l 0 ∧ M.automaton.edges = choiceEdges ∧ ∃ j, Ends M.automaton j ∧ ∀ t, j.weight t ≤ 1 := by
  have h := choice_model
  rw [hM] at h
  simp only [Option.map_some, Option.some.injEq, Prod.mk.injEq] at h
  obtain ⟨h1, h2, h3⟩ := h
  obtain ⟨j, hE⟩ := model_ends (body := choiceBody) rfl hM
  refine ⟨h1, h2, j, hE, fun t => ?_⟩
  rw [hE.exit, if_pos rfl] at h3
  cases h3
  exact (one_weight t).le

theorem choice_ok (e : JEdge) (he : e ∈ choiceEdges) (t : JState) :
    (e.dests.map fun d => d.weight t).sum = 1 ∧ ∀ d ∈ e.dests, d.reward t = 0 := by
  simp only [choiceEdges, List.mem_cons, List.not_mem_nil, or_false] at he
  rcases he with rfl | rfl | rfl | rfl | rfl | rfl <;> exact goto_ok _ _ rfl t

theorem co_parts {M : JModel} (hM : procToModel opts (mk coBody) = some M) :
    M.initial = .l 2 ∧ M.automaton.edges = coEdges ∧ M.mdp = false ∧ ∃ j, Ends M.automaton j ∧ ∀ t, j.weight t ≤ 1 := by
  have h := co_model
  rw [hM] at h
  simp only [Option.map_some, Option.some.injEq, Prod.mk.injEq] at h
  obtain ⟨h1, h2, h3, h4⟩ := h
  obtain ⟨j, hE⟩ := model_ends (body := coBody) rfl hM
  refine ⟨h1, h2, h4, j, hE, fun t => ?_⟩
  rw [hE.exit, if_pos rfl] at h3
  cases h3
  exact (one_weight t).le

theorem co_ok (e : JEdge) (he : e ∈ coEdges) (t : JState) :
    (e.dests.map fun d => d.weight t).sum = 1 ∧ ∀ d ∈ e.dests, d.reward t = 0 := by
  simp only [coEdges, List.mem_cons, List.not_mem_nil, or_false] at he
  rcases he with rfl | rfl | rfl | rfl | rfl | rfl
  · exact goto_ok _ _ rfl t
  · exact goto_ok _ (.l 1) rfl t
  · exact goto_ok _ _ rfl t
  · refine ⟨by simp [JDest.weight], fun d hd => ?_⟩
    rw [List.mem_singleton.1 hd]
    simp [JDest.reward, List.lookup, rewardVar]
  · exact goto_ok _ _ rfl t
  · exact goto_ok _ _ rfl t

theorem goto_avg (e : JEdge) (k : Loc) (h : e.dests = [.goto k]) (X : Loc → JState → ℝ≥0∞) (t : JState) : e.avg X t = X k t := by
  have := avg_goto X e.loc k t
  unfold JEdge.avg at this ⊢
  rw [h]
  exact this

end

theorem choice_some : (procToModel opts (mk choiceBody)).isSome = true := rfl

theorem co_some : (procToModel opts (mk coBody)).isSome = true := rfl

end C87

open C57 C87 in
theorem C87_not_full_sum : ¬ C87_full_sum := by
  classical
  intro hfull
  let _ := unitDoms
  let _ := unitInterp
  let _ := unitJOps
  have hm : ∀ l f a, Monotone (ctx.call l f a) := (regular_havoc .lfp).mono
  obtain ⟨M, hM⟩ := Option.isSome_iff_exists.1 choice_some
  have hinit : M.Initial start := initial_of hM ⟨_, rfl, by simp [x, c, opts, arbitraryInit]⟩
  obtain ⟨h1, h2, j, hE, hj⟩ := choice_parts hM
  have hone : ∀ l s, M.automaton.OneBounded l s := oneBounded_of hE hj (by rw [h2]; exact choice_ok)
  have hval := C57_value_partial unit_sameDiv noFns_scoped noFns_meaning ctx rfl hm rfl hM (noFns_defined hM) (noFns_rec hM) choice_scoped
    ⟨⟨rfl, trivial⟩, trivial⟩ nofun hinit (start_rep _)
  have h0 : vcSem ctx choiceBody (mk choiceBody).post zeroEnv = 0 := by
    refine le_antisymm ((min_le_left _ _).trans ?_) zero_le
    refine (show (vcSem ctx (.while (.lit (.bool true)) .skip) _ : Exp) ≤ fun _ => 0 from ?_) zeroEnv
    show fixpoint ctx.loop _ ≤ _
    exact sInf_le fun τ => le_of_eq (if_pos rfl)
  have hR := closed_reach (hone M.initial start)
  have hq0 : M.automaton.diverge .down M.initial start = 0 := by
    rw [diverge_staying hR.toClosed .down JAutomaton.Reach.start]
    refine le_antisymm ((iInf_le _ 2).trans ?_) zero_le
    have hmem : JEdge.fromTo (.l 0) .fin ∈ M.automaton.enabled M.initial start :=
      mem_enabled (by rw [h2]; simp [choiceEdges]) h1.symm trivial
    rw [staying_step .down 1 JAutomaton.Reach.start (by rw [h1]; simp) (List.ne_nil_of_mem hmem)]
    refine (best_le (.inl rfl) _ hmem).trans (le_of_eq ?_)
    rw [avg_goto]
    exact staying_fin hE hR .down 0 start
  have h3 := hfull _ _ _ _ unit_sameDiv noFns_scoped noFns_meaning ctx hm opts _ _ M rfl hM (noFns_defined hM) (noFns_rec hM) choice_scoped
    ⟨⟨rfl, trivial⟩, trivial⟩ nofun zeroEnv start hinit (start_rep _) (hone _ _) _ _ (property_reward M _ _) (property_diverge hE _ _)
  rw [hval, h0, show M.automaton.diverge (mk choiceBody).dir M.initial start = 0 from hq0, add_zero, post_mk] at h3
  have h4 : (1 : ℝ≥0∞) ≤ liberal 1 ctx choiceBody (fun _ => 1) zeroEnv := by
    refine le_min ?_ le_rfl
    exact (le_sSup ⟨fun _ => le_rfl, fun τ => le_of_eq (if_pos rfl).symm⟩ :
      (fun _ => 1 : Exp) ≤ liberal 1 ctx (.while (.lit (.bool true)) .skip) fun _ => 1) zeroEnv
  rw [h3] at h4
  exact absurd h4 (by simp)

open C57 C87 in
theorem C87_not_full_unbounded : ¬ C87_full_unbounded := by
  classical
  intro hfull
  let _ := unitDoms
  let _ := unitInterp
  let _ := unitJOps
  let C : SemCtx := ⟨.gfp, ctx.call⟩
  have hm : ∀ l f a, Monotone (C.call l f a) := (regular_havoc .lfp).mono
  obtain ⟨M, hM⟩ := Option.isSome_iff_exists.1 choice_some
  have hinit : M.Initial start := initial_of hM ⟨_, rfl, by simp [x, c, opts, arbitraryInit]⟩
  obtain ⟨h1, h2, j, hE, hj⟩ := choice_parts hM
  have hloop : ∀ n (t : JState), M.automaton.Alive n (.l 1) t := by
    intro n
    induction n with
    | zero => exact fun _ => Loc.noConfusion
    | succ n ih =>
      intro t
      refine ⟨Loc.noConfusion, .inr ⟨.fromToIf (.l 1) (.l 1) (.bool true), mem_enabled (by rw [h2]; simp [choiceEdges]) rfl rfl,
        .goto (.l 1), by simp [JEdge.fromToIf], show (1 : ℝ≥0∞) ≠ 0 from one_ne_zero, ih _⟩⟩
  have hdiv : M.automaton.Diverges M.initial start := by
    rw [diverges_iff, h1]
    intro n
    cases n with
    | zero => exact Loc.noConfusion
    | succ n =>
      exact ⟨Loc.noConfusion, .inr ⟨.fromTo (.l 0) (.l 1), mem_enabled (by rw [h2]; simp [choiceEdges]) rfl trivial,
        .goto (.l 1), by simp [JEdge.fromTo], show (1 : ℝ≥0∞) ≠ 0 from one_ne_zero, hloop n _⟩⟩
  have h3 := hfull _ _ _ _ unit_sameDiv noFns_scoped noFns_meaning C rfl hm opts _ _ M rfl hM (noFns_defined hM) (noFns_rec hM)
    choice_scoped ⟨⟨rfl, trivial⟩, trivial⟩ nofun zeroEnv start hinit (start_rep _) _ _ (property_reward M _ _) (property_can hE _ _)
  rw [if_pos hdiv, post_mk] at h3
  have h4 : vcSem C choiceBody (fun _ => 1) zeroEnv ≤ 1 := min_le_right _ _
  rw [h3] at h4
  exact absurd h4 (by simp)

open C57 C87 in
/-- A failing `coassume` counts as divergence: the meaning is `0`, but the probability of divergence is `1`. -/
theorem C87_coassume_wrong : ∃ (p : Proc) (body : Stmt) (M : JModel) (σ : @Env unitDoms) (s : JState), p.body = some body ∧
    procToModel opts p = some M ∧ M.mdp = false ∧ ProcScoped p body ∧ Supported body ∧ @JModel.Initial unitJOps M s ∧
      @Rep unitDoms (paramVars p) σ s ∧ @JAutomaton.OneBounded unitJOps M.automaton M.initial s ∧
      @JModel.property unitJOps M p.dir "reward" s = some (.number 0) ∧
      @JModel.property unitJOps M p.dir "diverge_prob" s = some (.number 1) ∧
      (∃ b, @JModel.property unitJOps M p.dir "can_diverge" s = some (.truth b) ∧ b) ∧
      ∀ T C, @liberal unitDoms unitInterp T C body (@Proc.post unitDoms unitInterp p) σ = 0 := by
  classical
  let _ := unitDoms
  let _ := unitInterp
  let _ := unitJOps
  have hm : ∀ l f a, Monotone (ctx.call l f a) := (regular_havoc .lfp).mono
  obtain ⟨M, hM⟩ := Option.isSome_iff_exists.1 co_some
  have hinit : M.Initial start := initial_of hM ⟨_, rfl, by simp [x, c, opts, arbitraryInit]⟩
  obtain ⟨h1, h2, h3, j, hE, hj⟩ := co_parts hM
  have hone : M.automaton.OneBounded M.initial start := oneBounded_of hE hj (by rw [h2]; exact co_ok) _ _
  have hzero : ∀ (d : Prop) [Decidable d] (φ : Exp) (τ : Env), d → (if d then (0 : ℝ≥0∞) else φ τ) = 0 := fun d _ φ τ h => if_pos h
  have hev : ∀ τ : Env, (Expr.embed (.lit (.bool true))).ev τ = ⊤ := fun τ => by rw [Expr.ev_embed, if_pos (by rfl)]
  have hmean : ∀ T C, liberal T C coBody (mk coBody).post zeroEnv = 0 := fun T C => by
    show (if (Expr.embed (.lit (.bool true))).ev _ ≥ _ then (0 : ℝ≥0∞) else _) = 0
    exact if_pos (by rw [hev]; exact le_top)
  have hval := C57_value_partial unit_sameDiv noFns_scoped noFns_meaning ctx rfl hm rfl hM (noFns_defined hM) (noFns_rec hM) co_scoped
    ⟨trivial, trivial⟩ nofun hinit (start_rep _)
  have h0 : vcSem ctx coBody (mk coBody).post zeroEnv = 0 := by
    show (if (Expr.embed (.lit (.bool true))).ev _ ≥ _ then (0 : ℝ≥0∞) else _) = 0
    exact if_pos (by rw [hev]; exact le_top)
  have e0 : ∀ t : JState, JEdge.fromToIf (.l 0) (.l 1) (.not (.not (.bool true))) ∈ M.automaton.enabled (.l 0) t := fun t =>
    mem_enabled (by rw [h2]; simp [coEdges]) rfl (fun h => h rfl)
  have e1 : ∀ t : JState, (⟨.l 1, none, [.goto (.l 1)]⟩ : JEdge) ∈ M.automaton.enabled (.l 1) t := fun t =>
    mem_enabled (by rw [h2]; simp [coEdges, JDest.goto]) rfl trivial
  have e2 : ∀ t : JState, (⟨.l 2, none, [⟨.l 0, none, [("c", .bool true)]⟩]⟩ : JEdge) ∈ M.automaton.enabled (.l 2) t := fun t =>
    mem_enabled (by rw [h2]; simp [coEdges]) rfl trivial
  have hall : Closed M.automaton fun _ _ => True := ⟨fun _ _ _ _ _ _ _ _ => trivial, fun l t _ e he => by
    have := List.mem_of_mem_filter he
    rw [h2] at this
    exact (co_ok e this t).1⟩
  have hstep : ∀ n (l : Loc) (t : JState) (e : JEdge), l ≠ .sink → e ∈ M.automaton.enabled l t →
      e.avg (M.automaton.staying (fun _ _ => True) .down n) t ≤ M.automaton.staying (fun _ _ => True) .down (n + 1) l t :=
    fun n l t e hl he => by
      rw [staying_step .down n trivial hl (List.ne_nil_of_mem he)]
      exact le_best (.inr (model_det hM h3 l t)) _ he
  have s1 : ∀ n (t : JState), 1 ≤ M.automaton.staying (fun _ _ => True) .down n (.l 1) t := by
    intro n
    induction n with
    | zero => exact fun t => (staying_zero .down trivial Loc.noConfusion).ge
    | succ n ih =>
      intro t
      refine le_trans ?_ (hstep n _ t _ Loc.noConfusion (e1 t))
      rw [goto_avg _ (.l 1) rfl]
      exact ih t
  have s0 : ∀ n (t : JState), 1 ≤ M.automaton.staying (fun _ _ => True) .down n (.l 0) t := by
    intro n t
    cases n with
    | zero => exact (staying_zero .down trivial Loc.noConfusion).ge
    | succ n =>
      refine le_trans ?_ (hstep n _ t _ Loc.noConfusion (e0 t))
      rw [goto_avg _ (.l 1) rfl]
      exact s1 n t
  have s2 : ∀ n (t : JState), 1 ≤ M.automaton.staying (fun _ _ => True) .down n (.l 2) t := by
    intro n t
    cases n with
    | zero => exact (staying_zero .down trivial Loc.noConfusion).ge
    | succ n =>
      refine le_trans ?_ (hstep n _ t _ Loc.noConfusion (e2 t))
      simp only [JEdge.avg, List.map_cons, List.map_nil, List.sum_cons, List.sum_nil, add_zero, JDest.weight, one_mul]
      exact s0 n _
  have hq : M.automaton.diverge .down M.initial start = 1 := by
    rw [diverge_staying hall .down trivial, h1]
    exact le_antisymm ((iInf_le _ 0).trans (staying_le_one hall .down 0 _ _)) (le_iInf fun n => s2 n start)
  refine ⟨mk coBody, coBody, M, zeroEnv, start, rfl, hM, h3, co_scoped, ⟨trivial, trivial⟩, hinit, start_rep _, hone, ?_, ?_, ?_, hmean⟩
  · rw [property_reward, hval, h0]
  · rw [property_diverge hE]
    exact congrArg (some ∘ PVal.number) hq
  · refine ⟨_, property_can hE _ _, diverges_iff.2 ?_⟩
    have a1 : ∀ n (t : JState), M.automaton.Alive n (.l 1) t := by
      intro n
      induction n with
      | zero => exact fun _ => Loc.noConfusion
      | succ n ih => exact fun t => ⟨Loc.noConfusion, .inr ⟨_, e1 t, _, List.mem_singleton.2 rfl, show (1 : ℝ≥0∞) ≠ 0 from one_ne_zero, ih _⟩⟩
    have a0 : ∀ n (t : JState), M.automaton.Alive n (.l 0) t := by
      intro n t
      cases n with
      | zero => exact Loc.noConfusion
      | succ n => exact ⟨Loc.noConfusion, .inr ⟨_, e0 t, _, List.mem_singleton.2 rfl, show (1 : ℝ≥0∞) ≠ 0 from one_ne_zero, a1 n _⟩⟩
    rw [h1]
    intro n
    cases n with
    | zero => exact Loc.noConfusion
    | succ n => exact ⟨Loc.noConfusion, .inr ⟨_, e2 start, _, List.mem_singleton.2 rfl, show (1 : ℝ≥0∞) ≠ 0 from one_ne_zero, a0 n _⟩⟩

namespace C87
open C57

/-- `proc flip() -> (c: Bool) post 1 { c = flip(1/2); while c {} }` -/
def flipBody : Stmt := .seq (.sample false c.id (.flip (.lit (.ufrac ⟨⟨1, 2, by decide, by decide⟩, by decide⟩)))) (.while (.var c.id) .skip)

def half : JExpr := .bin .div (.num 1) (.num 2)

def flipEdges : List JEdge :=
  [.fromToIf (.l 0) (.l 0) (.id "c"), .fromToIf (.l 0) .fin (.not (.id "c")),
    ⟨.l 1, none, [⟨.l 0, some half, [("c", .bool true)]⟩,
      ⟨.l 0, some (.ite (.bin .ge (.num 1) half) (.bin .minus (.num 1) half) (.num 0)), [("c", .bool false)]⟩]⟩,
    .fromTo .fin .sink, .fromTo .err .sink]

theorem flip_model : (procToModel opts (mk flipBody)).map (fun M => (M.automaton.edges, M.automaton.exit .fin, M.mdp)) =
    some (flipEdges, some (.bin .div (.num 1) (.num 1)), false) := rfl

theorem flip_scoped : ProcScoped (mk flipBody) flipBody where
  pre e he := by cases he
  post e he := by
    rw [List.mem_singleton.1 he]
    trivial
  body := ⟨⟨⟨fun v hv _ => (params_mk _ v).1 hv, nofun, by decide, rfl⟩, trivial⟩, (params_mk _ _).2 rfl, trivial⟩

theorem flip_supported : Supported flipBody := ⟨⟨trivial, nofun⟩, rfl, trivial⟩

end C87

open C57 C87 in
/-- The hypotheses of `C87_sum_partial` and `C87_unbounded_partial` hold for a loop that diverges with probability one half. -/
example : ∃ (M : JModel) (s : JState) (σ : @Env unitDoms), procToModel opts (mk flipBody) = some M ∧ M.mdp = false ∧
    NoCoassume flipBody ∧ ProcScoped (mk flipBody) flipBody ∧ Supported flipBody ∧ @JModel.Initial unitJOps M s ∧
    @Rep unitDoms (paramVars (mk flipBody)) σ s ∧ @JAutomaton.OneBounded unitJOps M.automaton M.initial s := by
  let _ := unitDoms
  let _ := unitInterp
  let _ := unitJOps
  obtain ⟨M, hM⟩ := Option.isSome_iff_exists.1 (show (procToModel opts (mk flipBody)).isSome = true from rfl)
  have hinit : M.Initial start := initial_of hM ⟨_, rfl, by simp [x, c, opts, arbitraryInit]⟩
  have h := flip_model
  rw [hM] at h
  simp only [Option.map_some, Option.some.injEq, Prod.mk.injEq] at h
  obtain ⟨h2, h3, h4⟩ := h
  obtain ⟨j, hE⟩ := model_ends (body := flipBody) rfl hM
  refine ⟨M, start, zeroEnv, hM, h4, by trivial, flip_scoped, flip_supported, hinit, start_rep _,
    oneBounded_of hE (fun t => ?_) (fun e he t => ?_) _ _⟩
  · rw [hE.exit, if_pos rfl] at h3
    cases h3
    exact (one_weight t).le
  · rw [h2] at he
    simp only [flipEdges, List.mem_cons, List.not_mem_nil, or_false] at he
    rcases he with rfl | rfl | rfl | rfl | rfl
    · exact goto_ok _ _ rfl t
    · exact goto_ok _ _ rfl t
    · have hv : half.eval t = .num (1 / 2) := by simp [half, JExpr.eval, JOp.den, JVal.real]
      have hh : half.weight t = ENNReal.ofReal (1 / 2) := by simp only [JExpr.weight, hv, JVal.real]
      have hk : (JExpr.ite (.bin .ge (.num 1) half) (.bin .minus (.num 1) half) (.num 0)).weight t = ENNReal.ofReal (1 / 2) := by
        have : (JExpr.ite (.bin .ge (.num 1) half) (.bin .minus (.num 1) half) (.num 0)).eval t = .num (1 - 1 / 2) := by
          simp only [JExpr.eval, hv, JOp.den, JVal.real, Nat.cast_one]
          refine if_pos ?_
          show ((1 : ℕ) : ℝ) ≥ (half.eval t).real
          rw [hv]
          show ((1 : ℕ) : ℝ) ≥ 1 / 2
          norm_num
        simp only [JExpr.weight, this, JVal.real]
        norm_num
      refine ⟨?_, fun d hd => ?_⟩
      · simp only [List.map_cons, List.map_nil, List.sum_cons, List.sum_nil, JDest.weight, hh, hk, add_zero]
        rw [← ENNReal.ofReal_add (by norm_num) (by norm_num)]
        norm_num
      · simp only [List.mem_cons, List.not_mem_nil, or_false] at hd
        rcases hd with rfl | rfl <;> simp [JDest.reward, List.lookup, rewardVar]
    · exact goto_ok _ _ rfl t
    · exact goto_ok _ _ rfl t

end Caesar.Mc
