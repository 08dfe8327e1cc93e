import Verif.Mc.FnSound

/-!
# The meaning of models with functions
-/

open scoped ENNReal NNReal Classical

namespace Caesar.Mc
set_option linter.unusedSectionVars false

/-! ## The value of a model only depends on the functions that are called in it -/

/-- Two meanings of JANI which agree on the functions in `P`. -/
structure AgreeOps (o₁ o₂ : JOps) (P : String → Prop) : Prop where
  div : o₁.div0 = o₂.div0
  mod : o₁.mod = o₂.mod
  func : ∀ n, P n → o₁.func n = o₂.func n

variable {o₁ o₂ : JOps} {P : String → Prop}

theorem AgreeOps.op (h : AgreeOps o₁ o₂ P) (op : JOp) (a b : JVal) : @JOp.den o₁ op a b = @JOp.den o₂ op a b := by
  cases op with
  | mod => exact congrArg JVal.num (by rw [h.mod])
  | div => exact congrArg JVal.num (by rw [h.div])
  | _ => rfl

theorem AgreeOps.eval (h : AgreeOps o₁ o₂ P) (s : JState) (e : JExpr) (he : ∀ n ∈ e.calls, P n) : @JExpr.eval o₁ s e = @JExpr.eval o₂ s e := by
  induction e with
  | num | bool | id => rfl
  | ite c a b ihc iha ihb =>
    have h1 := ihc fun n hn => he n (List.mem_append_left _ (List.mem_append_left _ hn))
    have h2 := iha fun n hn => he n (List.mem_append_left _ (List.mem_append_right _ hn))
    have h3 := ihb fun n hn => he n (List.mem_append_right _ hn)
    show (if (@JExpr.eval o₁ s c).holds then @JExpr.eval o₁ s a else @JExpr.eval o₁ s b) = _
    rw [h1, h2, h3]
    rfl
  | not a ih =>
    show JVal.bool (¬ (@JExpr.eval o₁ s a).holds) = _
    rw [ih he]
    rfl
  | bin op a b iha ihb =>
    show @JOp.den o₁ op (@JExpr.eval o₁ s a) (@JExpr.eval o₁ s b) = _
    rw [iha fun n hn => he n (List.mem_append_left _ hn), ihb fun n hn => he n (List.mem_append_right _ hn), h.op]
    rfl
  | call f args ih =>
    show o₁.func f (List.ofFn fun i => @JExpr.eval o₁ s (args i)) = _
    rw [h.func f (he f List.mem_cons_self)]
    have : (fun i => @JExpr.eval o₁ s (args i)) = fun i => @JExpr.eval o₂ s (args i) :=
      funext fun i => ih i fun n hn => he n (List.mem_cons_of_mem _ (mem_ofFn_flatten.2 ⟨i, hn⟩))
    rw [this]
    rfl

theorem AgreeOps.weight (h : AgreeOps o₁ o₂ P) (s : JState) (e : JExpr) (he : ∀ n ∈ e.calls, P n) :
    @JExpr.weight o₁ e s = @JExpr.weight o₂ e s := by
  unfold JExpr.weight
  rw [h.eval s e he]

theorem AgreeOps.edgeEnabled (h : AgreeOps o₁ o₂ P) (s : JState) (e : JEdge) (he : ∀ n ∈ e.calls, P n) :
    @JEdge.enabled o₁ e s ↔ @JEdge.enabled o₂ e s := by
  unfold JEdge.enabled
  cases hg : e.guard with
  | none => exact Iff.rfl
  | some g =>
    dsimp only
    rw [h.eval s g fun n hn => he n (by unfold JEdge.calls; rw [hg]; exact List.mem_append_left _ hn)]

theorem lookup_mem {β : Type} {x : String} {e : β} {l : List (String × β)} (h : l.lookup x = some e) : (x, e) ∈ l := by
  induction l with
  | nil => cases h
  | cons a l ih =>
    obtain ⟨y, b⟩ := a
    rw [List.lookup_cons] at h
    by_cases hxy : x = y
    · subst hxy
      rw [beq_self_eq_true] at h
      cases h
      exact List.mem_cons_self
    · rw [beq_false_of_ne hxy] at h
      exact List.mem_cons_of_mem _ (ih h)

theorem dest_assign_calls {d : JDest} {x : String} {e : JExpr} (h : d.assigns.lookup x = some e) : ∀ n ∈ e.calls, n ∈ d.calls := by
  intro n hn
  unfold JDest.calls
  exact List.mem_append_right _ (List.mem_flatten.2 ⟨_, List.mem_map.2 ⟨_, lookup_mem h, rfl⟩, hn⟩)

theorem AgreeOps.dest (h : AgreeOps o₁ o₂ P) (s : JState) (d : JDest) (hd : ∀ n ∈ d.calls, P n) :
    @JDest.weight o₁ d s = @JDest.weight o₂ d s ∧ @JDest.next o₁ d s = @JDest.next o₂ d s ∧ @JDest.reward o₁ d s = @JDest.reward o₂ d s := by
  refine ⟨?_, ?_, ?_⟩
  · unfold JDest.weight
    cases hp : d.prob with
    | none => rfl
    | some p => exact h.weight s p fun n hn => hd n (by unfold JDest.calls; rw [hp]; exact List.mem_append_left _ hn)
  · unfold JDest.next
    funext x
    split
    next => rfl
    next =>
      cases he : d.assigns.lookup x with
      | none => rfl
      | some e => exact h.eval s e fun n hn => hd n (dest_assign_calls he n hn)
  · unfold JDest.reward
    cases he : d.assigns.lookup rewardVar with
    | none => rfl
    | some e => exact h.weight s e fun n hn => hd n (dest_assign_calls he n hn)

/-- The functions called in an automaton. -/
def JAutomaton.CallsIn (A : JAutomaton) (P : String → Prop) : Prop :=
  (∀ e ∈ A.edges, ∀ n ∈ e.calls, P n) ∧ ∀ l e, A.exit l = some e → ∀ n ∈ e.calls, P n

variable {A : JAutomaton}

theorem AgreeOps.enabled (h : AgreeOps o₁ o₂ P) (hA : A.CallsIn P) (l : Loc) (s : JState) :
    @JAutomaton.enabled o₁ A l s = @JAutomaton.enabled o₂ A l s := by
  unfold JAutomaton.enabled
  refine List.filter_congr fun e he => ?_
  rw [decide_eq_decide]
  exact and_congr_right fun _ => h.edgeEnabled s e (hA.1 e he)

theorem AgreeOps.expect (h : AgreeOps o₁ o₂ P) (s : JState) (e : JEdge) (he : ∀ n ∈ e.calls, P n) (X : Loc → JState → ℝ≥0∞) :
    @JEdge.expect o₁ X e s = @JEdge.expect o₂ X e s := by
  unfold JEdge.expect
  congr 1
  refine List.map_congr_left fun d hd => ?_
  obtain ⟨h1, h2, h3⟩ := h.dest s d fun n hn => he n (by
    unfold JEdge.calls; exact List.mem_append_right _ (List.mem_flatten.2 ⟨_, List.mem_map.2 ⟨d, hd, rfl⟩, hn⟩))
  rw [h1, h2, h3]

/-- Schedulers do not depend on it. -/
def AgreeOps.scheduler (h : AgreeOps o₁ o₂ P) (hA : A.CallsIn P) (π : @Scheduler o₁ A) : @Scheduler o₂ A :=
  @Scheduler.mk o₂ A (@Scheduler.pick o₁ A π) fun hist l s hne => by
    rw [← h.enabled hA] at hne ⊢
    exact @Scheduler.valid o₁ A π hist l s hne

theorem AgreeOps.steps (h : AgreeOps o₁ o₂ P) (hA : A.CallsIn P) (π : @Scheduler o₁ A) (n : ℕ) (hist : List (Loc × JState)) (l : Loc)
    (s : JState) : @Scheduler.steps o₁ A π n hist l s = @Scheduler.steps o₂ A (h.scheduler hA π) n hist l s := by
  induction n generalizing hist l s with
  | zero => rfl
  | succ n ih =>
    show (if @JAutomaton.enabled o₁ A l s = [] then 0 else @JAutomaton.exitReward o₁ A l s +
      @JEdge.expect o₁ (fun l' s' => @Scheduler.steps o₁ A π n ((l, s) :: hist) l' s') (@Scheduler.pick o₁ A π hist l s) s) =
      (if @JAutomaton.enabled o₂ A l s = [] then 0 else @JAutomaton.exitReward o₂ A l s +
      @JEdge.expect o₂ (fun l' s' => @Scheduler.steps o₂ A (h.scheduler hA π) n ((l, s) :: hist) l' s') (@Scheduler.pick o₁ A π hist l s) s)
    rw [h.enabled hA]
    split
    next => rfl
    next hne =>
      rw [← h.enabled hA] at hne
      have hmem := @Scheduler.valid o₁ A π hist l s hne
      have hedge : @Scheduler.pick o₁ A π hist l s ∈ A.edges := List.mem_of_mem_filter hmem
      have hX : (fun l' s' => @Scheduler.steps o₁ A π n ((l, s) :: hist) l' s') =
          fun l' s' => @Scheduler.steps o₂ A (h.scheduler hA π) n ((l, s) :: hist) l' s' := funext fun l' => funext fun s' => ih _ l' s'
      have hexit : @JAutomaton.exitReward o₁ A l s = @JAutomaton.exitReward o₂ A l s := by
        unfold JAutomaton.exitReward
        cases he : A.exit l with
        | none => rfl
        | some e => exact h.weight s e (hA.2 l e he)
      rw [hX, hexit, h.expect s _ (hA.1 _ hedge)]

theorem AgreeOps.symm (h : AgreeOps o₁ o₂ P) : AgreeOps o₂ o₁ P := ⟨h.div.symm, h.mod.symm, fun n hn => (h.func n hn).symm⟩

theorem AgreeOps.total (h : AgreeOps o₁ o₂ P) (hA : A.CallsIn P) (π : @Scheduler o₁ A) (l : Loc) (s : JState) :
    @Scheduler.total o₁ A π l s = @Scheduler.total o₂ A (h.scheduler hA π) l s := iSup_congr fun n => h.steps hA π n [] l s

/-- The value of the property `reward` is the same. -/
theorem AgreeOps.value (h : AgreeOps o₁ o₂ P) (hA : A.CallsIn P) (d : Dir) (l : Loc) (s : JState) :
    @JAutomaton.value o₁ A d l s = @JAutomaton.value o₂ A d l s := by
  cases d with
  | down =>
    refine le_antisymm (le_iInf fun π => ?_) (le_iInf fun π => ?_)
    · rw [h.symm.total hA π]; exact iInf_le (fun π => @Scheduler.total o₁ A π l s) _
    · rw [h.total hA π]; exact iInf_le (fun π => @Scheduler.total o₂ A π l s) _
  | up =>
    refine le_antisymm (iSup_le fun π => ?_) (iSup_le fun π => ?_)
    · rw [h.total hA π]; exact le_iSup (fun π => @Scheduler.total o₂ A π l s) _
    · rw [h.symm.total hA π]; exact le_iSup (fun π => @Scheduler.total o₁ A π l s) _

/-! ## Functions with the meaning they have in HeyVL -/

section
variable [Fns] [Doms] [Interp]

/-- The types of a function are supported. -/
def FnDecl.TysOk (d : FnDecl) : Prop := isJaniTy d.out = true ∧ ∀ i, isJaniTy (d.func.args.get i) = true

/-- A function applied to JANI values. -/
def FnCall (n : String) (vs : List JVal) (r : JVal) : Prop :=
  ∃ d ∈ Fns.decls, ∃ vals, d.func.name.name = n ∧ d.TysOk ∧ (vs = List.ofFn fun i => toJ _ (vals i)) ∧ r = toJ d.out (Interp.func d.func vals)

/-- The meaning of the functions in HeyVL, on JANI values. -/
noncomputable def heyFn (n : String) (vs : List JVal) : JVal := if h : ∃ r, FnCall n vs r then h.choose else .num 0

theorem heyFn_spec (hn : (Fns.decls.map fun d => d.func.name.name).Nodup) {d : FnDecl} (hd : d ∈ Fns.decls) (ht : d.TysOk)
    (vals : (i : Fin d.func.args.length) → (d.func.args.get i).den) :
    heyFn d.func.name.name (List.ofFn fun i => toJ _ (vals i)) = toJ d.out (Interp.func d.func vals) := by
  have hex : ∃ r, FnCall d.func.name.name (List.ofFn fun i => toJ _ (vals i)) r := ⟨_, d, hd, vals, rfl, ht, rfl, rfl⟩
  unfold heyFn
  rw [dif_pos hex]
  obtain ⟨d', hd', vals', h1, h2, h3, h4⟩ := hex.choose_spec
  rw [h4]
  obtain rfl : d' = d := List.inj_on_of_nodup_map hn hd' hd h1
  have hv : vals' = vals := by
    have := List.ofFn_injective h3
    funext i
    have hi := congrFun this i
    exact ((toJ_inj (isJ_of_janiTy (ht.2 i)) (fin_of_janiTy (ht.2 i) _) (fin_of_janiTy (ht.2 i) _)).1 hi).symm
  rw [hv]

/-- The functions in `P` keep their meaning, the others get that of HeyVL. -/
@[reducible] noncomputable def patch (ops : JOps) (P : String → Prop) : JOps :=
  { ops with func := fun n => if P n then ops.func n else heyFn n }

theorem patch_agree (ops : JOps) (P : String → Prop) : AgreeOps ops (patch ops P) P :=
  ⟨rfl, rfl, fun n hn => (if_pos hn).symm⟩

/-- The functions called `n` have the same meaning. -/
def SameFn (ops : JOps) (n : String) : Prop :=
  ∀ d ∈ Fns.decls, d.func.name.name = n → d.TysOk → ∀ vals, ops.func n (List.ofFn fun i => toJ _ (vals i)) = toJ d.out (Interp.func d.func vals)

theorem patch_same {ops : JOps} (hd : SameDiv) (hn : (Fns.decls.map fun d => d.func.name.name).Nodup) {P : String → Prop}
    (h : ∀ n, P n → SameFn ops n) : @SameOps _ _ _ (patch ops P) :=
  let _ := patch ops P
  { divU := @SameDiv.divU _ _ ops hd
    divR := @SameDiv.divR _ _ ops hd
    modN := @SameDiv.modN _ _ ops hd
    func := fun d hm _ h1 h2 vals => by
      show (if P d.func.name.name then ops.func d.func.name.name else heyFn d.func.name.name) _ = _
      split
      next hp => exact h _ hp d hm rfl ⟨h1, h2⟩ vals
      next => exact heyFn_spec hn hm ⟨h1, h2⟩ vals }

theorem exists_env {n : ℕ} {ins : Fin n → Ident} {tys : Fin n → Ty} (hinj : ∀ i j, (ins i).name = (ins j).name → i = j)
    (vals : (i : Fin n) → (tys i).den) : ∃ (σ : Env) (s : JState), (∀ i, σ ⟨ins i, tys i⟩ = vals i) ∧
      ∀ i, s (ins i).name = toJ (tys i) (vals i) := by
  refine ⟨fun v => if h : ∃ i, (⟨ins i, tys i⟩ : Var) = v then h.choose_spec ▸ vals h.choose else default,
    fun x => if h : ∃ i, (ins i).name = x then toJ _ (vals h.choose) else .num 0, fun i => ?_, fun i => ?_⟩
  · have hex : ∃ j, (⟨ins j, tys j⟩ : Var) = ⟨ins i, tys i⟩ := ⟨i, rfl⟩
    dsimp only
    rw [dif_pos hex]
    have key : ∀ (j : Fin n) (hj : (⟨ins j, tys j⟩ : Var) = ⟨ins i, tys i⟩), (hj ▸ vals j : (⟨ins i, tys i⟩ : Var).ty.den) = vals i := by
      intro j hj
      obtain rfl : j = i := hinj j i (by rw [(Var.mk.inj hj).1])
      rfl
    exact key _ _
  · have hex : ∃ j, (ins j).name = (ins i).name := ⟨i, rfl⟩
    dsimp only
    rw [dif_pos hex]
    have := hinj _ _ hex.choose_spec
    rw [this]

theorem toJ_hasTy {t : Ty} (ht : isJaniTy t = true) (x : t.den) : (toJ t x).HasTy t := by
  cases t with
  | bool => trivial
  | int => exact ⟨x, rfl⟩
  | uint =>
    revert x
    intro (x : ℕ)
    exact ⟨((x : ℕ) : ℤ), Nat.cast_nonneg (α := ℝ) x, (Int.cast_natCast (R := ℝ) x).symm⟩
  | real => trivial
  | ureal => exact NNReal.coe_nonneg x
  | eureal => cases ht
  | list _ => cases ht
  | dom _ => cases ht

/-- The functions of a model have the meaning they have in HeyVL. -/
theorem fns_same {ops : JOps} (hd : SameDiv) (hF : FnsScoped) (hI : FnsMeaning) {m : List String} {fs : List JFun}
    (h : translateFns m = some fs) (hJ : ∀ f ∈ fs, f.Defined) {rank : String → ℕ}
    (hrank : ∀ f ∈ fs, ∀ n ∈ f.body.calls, rank n < rank f.name) : ∀ n ∈ fs.map JFun.name, SameFn ops n := by
  obtain ⟨h1, _, h3⟩ := translateFns_some h
  intro n hn
  generalize hk : rank n = k
  induction k using Nat.strongRecOn generalizing n with
  | _ k ih =>
    obtain ⟨f, hf, rfl⟩ := List.mem_map.1 hn
    obtain ⟨d', j1, j2⟩ := h3 f hf
    intro d hm hname ht vals
    obtain rfl : d' = d := List.inj_on_of_nodup_map hF.names (List.mem_of_find?_eq_some j1) hm ((findName_name j1).trans hname.symm)
    obtain ⟨_, _, b, k1, k2, k3, _, k5⟩ := translateFn_some j2
    let P : String → Prop := fun n => n ∈ fs.map JFun.name ∧ rank n < k
    have hsame : @SameOps _ _ _ (patch ops P) := patch_same hd hF.names fun n hp => ih (rank n) hp.2 n hp.1 rfl
    obtain ⟨σ, s, hσ, hs⟩ := exists_env (hF.params d' hm) vals
    have hcalls : ∀ n ∈ f.body.calls, P n := by
      intro n hc
      refine ⟨(h1 n).2 (needed_calls ((h1 _).1 hn) j1 j2 n hc), ?_⟩
      rw [← hk]
      exact hrank f hf n hc
    have hev := (@translate_eval _ _ _ (patch ops P) hsame (fun v => ∃ i, v = ⟨d'.ins i, d'.func.args.get i⟩)
      (by rintro v ⟨i, rfl⟩; exact ht.2 i) σ s (by rintro v ⟨i, rfl⟩; rw [hσ i]; exact hs i) _ b _ k2 (hF.bodies d' hm b k1 ht.1 ht.2)).2.1
    rw [← (patch_agree ops P).eval s f.body hcalls, ← hI d' hm b k1 σ] at hev
    have hdef := hJ f hf s (by
      rw [k5]
      intro p hp
      obtain ⟨i, rfl⟩ := List.mem_ofFn.1 hp
      show (s (d'.ins i).name).HasTy _
      rw [hs i]
      exact toJ_hasTy (ht.2 i) _)
    rw [k5, List.map_ofFn] at hdef
    have e1 : (fun i => toJ _ (vals i)) = ((fun p => s p.1) ∘ fun i => ((d'.ins i).name, d'.func.args.get i) :
        Fin d'.func.args.length → JVal) := funext fun i => (hs i).symm
    rw [e1, hdef, hev]
    congr 2
    exact funext hσ

end

end Caesar.Mc
