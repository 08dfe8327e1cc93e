import Verif.Mc.DivergeModel
import Verif.Mc.FnModel

/-!
# Properties of exported models, also with functions
-/

open scoped ENNReal NNReal

namespace Caesar.Mc
set_option linter.unusedSectionVars false

section
variable [Fns] [Doms] [Interp] [JOps]

/-! ## The values of the properties -/

theorem property_reward (M : JModel) (dir : Dir) (s : JState) :
    M.property dir "reward" s = some (.number (M.automaton.value dir M.initial s)) := by
  cases dir <;> rfl

theorem holds_eq {A : JAutomaton} {j : JExpr} (hE : Ends A j) : A.Holds (.not (.id sinkVar)) = fun l _ => l ≠ .sink :=
  funext fun l => funext fun t => propext (hE.holds_iff l t)

open Classical in
/-- The optimal probability of never reaching the sink. -/
noncomputable def JAutomaton.diverge (A : JAutomaton) : Dir → Loc → JState → ℝ≥0∞
  | .down, l, s => ⨅ π : Scheduler A, π.always (fun l _ => l ≠ .sink) l s
  | .up, l, s => ⨆ π : Scheduler A, π.always (fun l _ => l ≠ .sink) l s

theorem property_diverge {M : JModel} {j : JExpr} (hE : Ends M.automaton j) (dir : Dir) (s : JState) :
    M.property dir "diverge_prob" s = some (.number (M.automaton.diverge dir M.initial s)) := by
  cases dir
  · show some (PVal.number (⨅ π : Scheduler M.automaton, π.always (M.automaton.Holds (.not (.id sinkVar))) M.initial s)) = _
    rw [holds_eq hE]; rfl
  · show some (PVal.number (⨆ π : Scheduler M.automaton, π.always (M.automaton.Holds (.not (.id sinkVar))) M.initial s)) = _
    rw [holds_eq hE]; rfl

theorem property_can {M : JModel} {j : JExpr} (hE : Ends M.automaton j) (dir : Dir) (s : JState) :
    M.property dir "can_diverge" s = some (.truth (M.automaton.Diverges M.initial s)) := by
  have : M.property dir "can_diverge" s =
      some (.truth (∃ ρ, M.automaton.Path (M.automaton.Holds (.not (.id sinkVar))) ρ ∧ ρ 0 = (M.initial, s))) := by cases dir <;> rfl
  rw [this, holds_eq hE]
  rfl

theorem diverge_staying {A : JAutomaton} {R : Loc → JState → Prop} (hR : Closed A R) (dir : Dir) {l : Loc} {s : JState} (hr : R l s) :
    A.diverge dir l s = ⨅ n, A.staying R dir n l s := by
  cases dir
  · exact always_min hR hr
  · exact always_max hR hr

end

/-! ## Functions do not change them -/

section
variable {o₁ o₂ : JOps} {P : String → Prop} {A : JAutomaton}

theorem edge_dest_calls {e : JEdge} {d : JDest} (hd : d ∈ e.dests) : ∀ n ∈ d.calls, n ∈ e.calls := fun n hn => by
  unfold JEdge.calls
  exact List.mem_append_right _ (List.mem_flatten.2 ⟨_, List.mem_map.2 ⟨d, hd, rfl⟩, hn⟩)

theorem AgreeOps.stay (h : AgreeOps o₁ o₂ P) (hA : A.CallsIn P) (π : @Scheduler o₁ A) (Q : Loc → JState → Prop) (n : ℕ)
    (hist : List (Loc × JState)) (l : Loc) (s : JState) :
    @Scheduler.stay o₁ A π Q n hist l s = @Scheduler.stay o₂ A (h.scheduler hA π) Q n hist l s := by
  classical
  induction n generalizing hist l s with
  | zero => rfl
  | succ n ih =>
    unfold Scheduler.stay
    rw [h.enabled hA]
    split
    next => rfl
    next =>
      split
      next => rfl
      next hne =>
        rw [← h.enabled hA] at hne
        have hedge : @Scheduler.pick o₁ A π hist l s ∈ A.edges := List.mem_of_mem_filter (@Scheduler.valid o₁ A π hist l s hne)
        show _ = (List.map _ (@Scheduler.pick o₁ A π hist l s).dests).sum
        congr 1
        refine List.map_congr_left fun d hd => ?_
        obtain ⟨h1, h2, _⟩ := h.dest s d fun n hn => hA.1 _ hedge n (edge_dest_calls hd n hn)
        rw [h1, h2, ih]

theorem AgreeOps.diverge (h : AgreeOps o₁ o₂ P) (hA : A.CallsIn P) (d : Dir) (l : Loc) (s : JState) :
    @JAutomaton.diverge o₁ A d l s = @JAutomaton.diverge o₂ A d l s := by
  have key : ∀ {o₁ o₂ : JOps} (h : AgreeOps o₁ o₂ P) (π : @Scheduler o₁ A),
      @Scheduler.always o₁ A π (fun l _ => l ≠ .sink) l s = @Scheduler.always o₂ A (h.scheduler hA π) (fun l _ => l ≠ .sink) l s :=
    fun h π => iInf_congr fun n => h.stay hA π _ n [] l s
  cases d with
  | down =>
    refine le_antisymm (le_iInf fun π => ?_) (le_iInf fun π => ?_)
    · rw [key h.symm π]; exact iInf_le (fun π => @Scheduler.always o₁ A π (fun l _ => l ≠ .sink) l s) _
    · rw [key h π]; exact iInf_le (fun π => @Scheduler.always o₂ A π (fun l _ => l ≠ .sink) l s) _
  | up =>
    refine le_antisymm (iSup_le fun π => ?_) (iSup_le fun π => ?_)
    · rw [key h π]; exact le_iSup (fun π => @Scheduler.always o₂ A π (fun l _ => l ≠ .sink) l s) _
    · rw [key h.symm π]; exact le_iSup (fun π => @Scheduler.always o₁ A π (fun l _ => l ≠ .sink) l s) _

theorem AgreeOps.step (h : AgreeOps o₁ o₂ P) (hA : A.CallsIn P) {x y : Loc × JState} (hs : @JAutomaton.Step o₁ A x y) :
    @JAutomaton.Step o₂ A x y := by
  obtain ⟨e, he, d, hd, hw, hy⟩ := hs
  have hedge : e ∈ A.edges := List.mem_of_mem_filter he
  obtain ⟨h1, h2, _⟩ := h.dest x.2 d fun n hn => hA.1 _ hedge n (edge_dest_calls hd n hn)
  rw [h.enabled hA] at he
  exact ⟨e, he, d, hd, by rwa [← h1], by rw [hy, h2]⟩

theorem AgreeOps.diverges (h : AgreeOps o₁ o₂ P) (hA : A.CallsIn P) (l : Loc) (s : JState) :
    @JAutomaton.Diverges o₁ A l s ↔ @JAutomaton.Diverges o₂ A l s := by
  have key : ∀ {o₁ o₂ : JOps} (_ : AgreeOps o₁ o₂ P), @JAutomaton.Diverges o₁ A l s → @JAutomaton.Diverges o₂ A l s := by
    rintro o₁ o₂ h ⟨ρ, hp, h0⟩
    refine ⟨ρ, @JAutomaton.Path.mk o₂ A _ ρ (@JAutomaton.Path.holds o₁ A _ ρ hp) fun n => ?_, h0⟩
    refine (@JAutomaton.Path.step o₁ A _ ρ hp n).imp (h.step hA) fun hh => ⟨?_, hh.2⟩
    rw [← h.enabled hA]
    exact hh.1
  exact ⟨key h, key h.symm⟩

theorem AgreeOps.reach (h : AgreeOps o₁ o₂ P) (hA : A.CallsIn P) {l : Loc} {s : JState} {k : Loc} {t : JState}
    (hr : @JAutomaton.Reach o₁ A l s k t) : @JAutomaton.Reach o₂ A l s k t := by
  induction hr with
  | start => exact @JAutomaton.Reach.start o₂ A l s
  | step _ hs ih => exact @JAutomaton.Reach.step o₂ A l s _ _ _ _ ih (h.step hA hs)

theorem AgreeOps.oneBounded (h : AgreeOps o₁ o₂ P) (hA : A.CallsIn P) {l : Loc} {s : JState} (hb : @JAutomaton.OneBounded o₁ A l s) :
    @JAutomaton.OneBounded o₂ A l s := by
  constructor
  · intro k t hr e he
    have hr' := h.symm.reach hA hr
    rw [← h.enabled hA] at he
    have hedge : e ∈ A.edges := List.mem_of_mem_filter he
    rw [← @JAutomaton.OneBounded.mass o₁ A l s hb k t hr' e he]
    congr 1
    exact List.map_congr_left fun d hd => ((h.dest t d fun n hn => hA.1 _ hedge n (edge_dest_calls hd n hn)).1).symm
  · intro k t hr e he d hd
    have hr' := h.symm.reach hA hr
    rw [← h.enabled hA] at he
    have hedge : e ∈ A.edges := List.mem_of_mem_filter he
    rw [← (h.dest t d fun n hn => hA.1 _ hedge n (edge_dest_calls hd n hn)).2.2]
    exact @JAutomaton.OneBounded.reward o₁ A l s hb k t hr' e he d hd
  · intro k t hr
    have hr' := h.symm.reach hA hr
    refine le_of_eq_of_le ?_ (@JAutomaton.OneBounded.exit o₁ A l s hb k t hr')
    unfold JAutomaton.exitReward
    cases he : A.exit k with
    | none => rfl
    | some e => exact (h.weight t e (hA.2 k e he)).symm

end

/-! ## The properties of exported models -/

section
variable [Fns] [Doms] [Interp]

/-- What is known about a model when functions have the same meaning. -/
theorem model_setup {ops : JOps} (hd : SameDiv) (hF : FnsScoped) (hI : FnsMeaning) {o : McOptions} {p : Proc} {body : Stmt}
    (hb : p.body = some body) {M : JModel} (h : procToModel o p = some M) (hJ : M.FnsDefined) (hrec : M.NotRecursive)
    (hsc : ProcScoped p body) (hsup : Supported body) (hq : o.skipQuantPre = true → ¬ LeadingQuant (blockStmts body))
    {σ : Env} {s : JState} (hinit : M.Initial s) (hr : Rep (paramVars p) σ s) :
    ∃ (ops' : JOps) (S : Stmt) (j : JExpr) (φ : Exp), @SameOps _ _ _ ops' ∧ AgreeOps ops ops' M.Calls ∧ M.automaton.CallsIn M.Calls ∧
      @Ends ops' M.automaton j ∧ Enc M.automaton p.dir S M.initial .fin ∧ (∀ v, paramVars p v → isJaniTy v.ty = true) ∧
      Scoped S (paramVars p) [] ∧ Supported S ∧ (NoCoassume body → NoCoassume S) ∧ body.NoNeg ∧
      (∀ τ t, Rel (scope (paramVars p) S) [] τ t → @JExpr.weight ops' j t = φ τ) ∧ Rel (paramVars p) (pend S) σ s ∧
      ∀ T C, liberal T C S φ σ = liberal T C body p.post σ := by
  obtain ⟨ops', h1, h2⟩ := model_patch hd hF hI h hJ hrec
  have hA : M.automaton.CallsIn M.Calls := ⟨fun e he n hn => .inr (.inr (.inl ⟨e, he, hn⟩)), fun l e he n hn => .inr (.inl ⟨l, e, he, hn⟩)⟩
  obtain ⟨S, j, φ, hh⟩ := @model_parts _ _ _ ops' h1 o p body hb M h hsc hsup hq σ s ⟨by
    rw [← h2.eval s M.restrict fun n hn => .inl hn]
    exact hinit.1, fun d hd e he => by
    rw [← h2.eval s e fun n hn => .inr (.inr (.inr ⟨d, hd, e, he, hn⟩))]
    exact hinit.2 d hd e he⟩ hr
  exact ⟨ops', S, j, φ, h1, h2, hA, hh⟩

/-- The last locations of a model. -/
theorem model_ends [JOps] {o : McOptions} {p : Proc} {body : Stmt} (hb : p.body = some body) {M : JModel} (h : procToModel o p = some M) :
    ∃ j, Ends M.automaton j := by
  obtain ⟨pres, stmts, posts, rest, start, b, j, locals, ins, outs, fns, h1, h2, h3, h4, h5, h6, h7, hfn, rfl⟩ := procToModel_some hb h
  exact ⟨j, finish_ends ((translateStmt_good p.dir _ h7).wf fun e he => by cases he) j⟩

/-- In a coproc, or without choices, the one-bounded greatest fixed point is at most the sum of the reward and the probability of divergence. -/
theorem model_le_sum {ops : JOps} (hd : SameDiv) (hF : FnsScoped) (hI : FnsMeaning) (C : SemCtx)
    (hcall : ∀ l f a, Monotone (C.call l f a)) {o : McOptions} {p : Proc} {body : Stmt}
    (hb : p.body = some body) {M : JModel} (h : procToModel o p = some M) (hJ : M.FnsDefined) (hrec : M.NotRecursive)
    (hsc : ProcScoped p body) (hsup : Supported body) (hq : o.skipQuantPre = true → ¬ LeadingQuant (blockStmts body))
    (hdir : p.dir = .up ∨ M.mdp = false) {σ : Env} {s : JState} (hinit : M.Initial s) (hr : Rep (paramVars p) σ s)
    (hone : M.automaton.OneBounded M.initial s) :
    liberal 1 C body p.post σ ≤ M.automaton.value p.dir M.initial s + M.automaton.diverge p.dir M.initial s := by
  obtain ⟨ops', S, j, φ, h1, h2, hA, hE, henc, hV, hscS, hsupS, _, _, hφ, hrel, heq⟩ := model_setup hd hF hI hb h hJ hrec hsc hsup hq hinit hr
  rw [h2.value hA, h2.diverge hA, ← heq]
  let _ := ops'
  have hR := closed_reach (h2.oneBounded hA hone)
  rw [diverge_staying hR.toClosed p.dir (JAutomaton.Reach.start)]
  exact liberal_le_sum hE hR h1 C hcall (hdir.imp_right fun hm => model_det h hm) hV henc hscS hsupS hφ JAutomaton.Reach.start hrel

/-- In a proc, or without choices, it is at least the sum if there is no `coassume`. -/
theorem model_sum_le {ops : JOps} (hd : SameDiv) (hF : FnsScoped) (hI : FnsMeaning) (C : SemCtx) {o : McOptions} {p : Proc} {body : Stmt}
    (hb : p.body = some body) {M : JModel} (h : procToModel o p = some M) (hJ : M.FnsDefined) (hrec : M.NotRecursive)
    (hsc : ProcScoped p body) (hsup : Supported body) (hq : o.skipQuantPre = true → ¬ LeadingQuant (blockStmts body))
    (hco : NoCoassume body) (hdir : p.dir = .down ∨ M.mdp = false) {σ : Env} {s : JState} (hinit : M.Initial s) (hr : Rep (paramVars p) σ s)
    (hone : M.automaton.OneBounded M.initial s) :
    M.automaton.value p.dir M.initial s + M.automaton.diverge p.dir M.initial s ≤ liberal 1 C body p.post σ := by
  obtain ⟨ops', S, j, φ, h1, h2, hA, hE, henc, hV, hscS, hsupS, hcoS, _, hφ, hrel, heq⟩ := model_setup hd hF hI hb h hJ hrec hsc hsup hq hinit hr
  rw [h2.value hA, h2.diverge hA, ← heq]
  let _ := ops'
  have hR := closed_reach (h2.oneBounded hA hone)
  rw [diverge_staying hR.toClosed p.dir (JAutomaton.Reach.start)]
  exact sum_le_liberal hE hR h1 C (hdir.imp_right fun hm => model_det h hm) hV henc hscS hsupS (hcoS hco) hφ JAutomaton.Reach.start hrel

/-- If all paths end, the greatest fixed point is at most the reward. -/
theorem model_le_value {ops : JOps} (hd : SameDiv) (hF : FnsScoped) (hI : FnsMeaning) (C : SemCtx)
    (hcall : ∀ l f a, Monotone (C.call l f a)) {o : McOptions} {p : Proc} {body : Stmt}
    (hb : p.body = some body) {M : JModel} (h : procToModel o p = some M) (hJ : M.FnsDefined) (hrec : M.NotRecursive)
    (hsc : ProcScoped p body) (hsup : Supported body) (hq : o.skipQuantPre = true → ¬ LeadingQuant (blockStmts body))
    {σ : Env} {s : JState} (hinit : M.Initial s) (hr : Rep (paramVars p) σ s) (hdiv : ¬ M.automaton.Diverges M.initial s) :
    liberal ⊤ C body p.post σ ≤ M.automaton.value p.dir M.initial s := by
  obtain ⟨ops', S, j, φ, h1, h2, hA, hE, henc, hV, hscS, hsupS, _, _, hφ, hrel, heq⟩ := model_setup hd hF hI hb h hJ hrec hsc hsup hq hinit hr
  rw [h2.value hA, ← heq]
  rw [h2.diverges hA] at hdiv
  let _ := ops'
  exact liberal_le_value hE h1 C hcall hV henc hscS hsupS hφ hrel hdiv

/-- In a coproc, or without choices, it is `∞` if there is a diverging path and no `coassume`. -/
theorem model_top {ops : JOps} (hd : SameDiv) (hF : FnsScoped) (hI : FnsMeaning) (C : SemCtx) {o : McOptions} {p : Proc} {body : Stmt}
    (hb : p.body = some body) {M : JModel} (h : procToModel o p = some M) (hJ : M.FnsDefined) (hrec : M.NotRecursive)
    (hsc : ProcScoped p body) (hsup : Supported body) (hq : o.skipQuantPre = true → ¬ LeadingQuant (blockStmts body))
    (hco : NoCoassume body) (hdir : p.dir = .up ∨ M.mdp = false) {σ : Env} {s : JState} (hinit : M.Initial s) (hr : Rep (paramVars p) σ s)
    (hdiv : M.automaton.Diverges M.initial s) : liberal ⊤ C body p.post σ = ⊤ := by
  obtain ⟨ops', S, j, φ, h1, h2, hA, hE, henc, hV, hscS, hsupS, hcoS, _, hφ, hrel, heq⟩ := model_setup hd hF hI hb h hJ hrec hsc hsup hq hinit hr
  rw [← heq]
  rw [h2.diverges hA] at hdiv
  let _ := ops'
  exact value_le_liberal hE h1 C (hdir.imp_right fun hm => model_det h hm) hV henc hscS hsupS (hcoS hco) hφ hrel hdiv

/-- There is no negation in an exported procedure. -/
theorem model_noNeg {ops : JOps} (hd : SameDiv) (hF : FnsScoped) (hI : FnsMeaning) {o : McOptions} {p : Proc} {body : Stmt}
    (hb : p.body = some body) {M : JModel} (h : procToModel o p = some M) (hJ : M.FnsDefined) (hrec : M.NotRecursive)
    (hsc : ProcScoped p body) (hsup : Supported body) (hq : o.skipQuantPre = true → ¬ LeadingQuant (blockStmts body))
    {σ : Env} {s : JState} (hinit : M.Initial s) (hr : Rep (paramVars p) σ s) : body.NoNeg := by
  obtain ⟨ops', S, j, φ, h1, h2, hA, hE, henc, hV, hscS, hsupS, _, hn, _⟩ := model_setup hd hF hI hb h hJ hrec hsc hsup hq hinit hr
  exact hn

/-- Least fixed points are below greatest ones. -/
theorem lfp_le_liberal (C : SemCtx) (hC : C.loop = .lfp) (hcall : ∀ l f a, Monotone (C.call l f a)) {S : Stmt} (hS : S.NoNeg) (φ : Exp) :
    vcSem C S φ ≤ liberal ⊤ C S φ := by
  classical
  induction S generalizing φ with
  | seq a b iha ihb => exact (iha hS.1 _).trans (liberal_mono ⊤ C hcall hS.1 (ihb hS.2 φ))
  | demonic a b iha ihb => exact fun σ => min_le_min (iha hS.1 φ σ) (ihb hS.2 φ σ)
  | angelic a b iha ihb => exact fun σ => max_le_max (iha hS.1 φ σ) (ihb hS.2 φ σ)
  | additive a b iha ihb => exact fun σ => add_le_add (iha hS.1 φ σ) (ihb hS.2 φ σ)
  | ite c a b iha ihb =>
    intro σ
    show (if c.tv σ then _ else _) ≤ if c.tv σ then _ else _
    split
    · exact iha hS.1 φ σ
    · exact ihb hS.2 φ σ
  | «while» c body ih =>
    have hm := liberal_mono ⊤ C hcall (S := body) hS
    let F : Exp →o Exp := ⟨fun X σ => if c.tv σ then liberal ⊤ C body X σ else φ σ, fun X Y h σ => by
      show (if c.tv σ then _ else _) ≤ if c.tv σ then _ else _
      split
      · exact hm h σ
      · exact le_rfl⟩
    have h1 : liberal ⊤ C (.while c body) φ = OrderHom.gfp F := by
      rw [liberal]
      show sSup _ = sSup _
      congr 1
      ext X
      exact ⟨fun h => h.2, fun h => ⟨fun _ => le_top, h⟩⟩
    rw [h1, vcSem, hC]
    show sInf _ ≤ _
    refine sInf_le (show (_ : Exp) ≤ _ from fun σ => ?_)
    refine le_trans ?_ (le_of_eq (congrFun (OrderHom.map_gfp F) σ))
    show (if c.tv σ then _ else _) ≤ if c.tv σ then _ else _
    split
    · exact ih hS _ σ
    · exact le_rfl
  | annot _ s ih => exact ih hS φ
  | _ => exact le_rfl

end

end Caesar.Mc
