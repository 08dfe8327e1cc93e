import Verif.Smt.TranslateSound

/-!
# Quantifiers in the SMT translation
-/

open scoped ENNReal NNReal

namespace Caesar.Smt
set_option linter.unusedSectionVars false

variable [Doms] [Interp] [SmtInterp]

/-- What `enter` does: `st0` is the state after the free variables have got symbols, `st1` the state in which the operand is
translated. -/
structure Entered {t : Ty} (a : Expr t) (vs : List Var) (bs : List Symb) (st st0 st1 : TState) : Prop where
  inv0 : Inv st0
  step0 : Step (fun v => a.Free v ∧ v ∉ vs) st st0
  global0 : st0.global = st.global
  free0 : ∀ v, a.Free v → v ∉ vs → ∃ n, st0.locals.get v = some n
  inv1 : Inv st1
  next1 : st0.next ≤ st1.next
  bound1 : ∀ v ∈ vs, ∃ n, st1.locals.get v = some n ∧ (n, v.ty) ∈ bs
  fresh1 : ∀ s ∈ bs, st0.next ≤ s.1 ∧ ∃ v ∈ vs, st1.locals.get v = some s.1 ∧ v.ty = s.2
  other1 : ∀ v, v ∉ vs → st1.locals.get v = st0.locals.get v
  quants1 : st1.quants = bs :: st0.quants
  global1 : st1.global = st0.global
  scopes1 : st1.locals.scopes.tail = st0.locals.scopes
  cache1 : st1.cache.tail = st0.cache

theorem enter_spec {t : Ty} {a : Expr t} {vs : List Var} {st st1 : TState} {bs : List Symb} (h : TState.enter a vs st = some (bs, st1)) (hI : Inv st) :
    ∃ st0, Entered a vs bs st st0 st1 := by
  unfold TState.enter at h
  simp only [Option.bind_eq_bind, Option.bind_eq_some_iff, Prod.exists] at h
  obtain ⟨free, hfree, st0, h0, stf, hf, bs', stm, hm, h⟩ := h
  obtain ⟨rfl, rfl⟩ : bs' = bs ∧ _ = st1 := by simpa using h
  have hfv : ∀ v, v ∈ free ↔ a.Free v := by
    by_cases hns : a.NoSubst
    · obtain ⟨s, hs, hm⟩ := a.collect_spec hns []
      intro v
      rw [hs] at hfree
      cases hfree
      simpa using hm v
    · rw [a.collect_panics hns] at hfree
      cases hfree
  obtain ⟨hI0, hs0, hg0, hgl0, hc0⟩ := getLocals_spec h0 hI
  obtain ⟨hgf, hnf, hqf, hglf, hcf, htf⟩ := freshAll_spec hf
  have hget : ∀ v n, stf.locals.get v = some n → v ∉ vs ∧ st0.locals.get v = some n := by
    intro v n hn
    rw [hgf] at hn
    by_cases hv : v ∈ vs
    · rw [if_pos hv] at hn; cases hn
    · rw [if_neg hv] at hn; exact ⟨hv, hn⟩
  have hIf : Inv stf := by
    refine ⟨fun v n hn => ?_, fun v w n hn hn' => ?_, fun v n hn => ?_, ?_, ?_, ?_, ?_⟩
    · rw [hnf]; exact hI0.below v n (hget v n hn).2
    · exact hI0.inj v w n (hget v n hn).2 (hget w n hn').2
    · exact hI0.noList v n (hget v n hn).2
    · rw [hqf, hnf]; exact hI0.qbelow
    · rw [hglf, hnf]; exact hI0.gbelow
    · rw [hglf, hqf]; exact hI0.absorb
    · rw [hcf]; intro c hc; simp [TState.push] at hc
  obtain ⟨hIm, hsm, hglm, hcm, hvm, hbm⟩ := mkScope_spec hm hIf stf.next le_rfl fun v hv n hn => absurd hv (hget v n hn).1
  have hnf' : stf.next = st0.next := hnf
  refine ⟨st0, hI0, hs0.mono fun v hv => ?_, hgl0, fun v hv hvs => ?_, ?_, ?_, hvm, ?_, ?_, ?_, ?_, ?_, ?_⟩
  · simpa [hfv] using hv
  · exact hg0 v (by simpa [hfv] using ⟨hv, hvs⟩)
  · have hqm : stm.quants = st0.quants := hsm.quants.trans hqf
    refine ⟨hIm.below, hIm.inj, hIm.noList, ?_, hIm.gbelow, ?_, ?_⟩
    · intro s hs
      simp only [List.flatten_cons, List.mem_append] at hs
      rcases hs with hs | hs
      · obtain ⟨_, v, _, hv, _⟩ := hbm s hs
        exact hIm.below v _ hv
      · exact hIm.qbelow s hs
    · intro A hA M N hAM
      simp only [List.flatten_cons]
      have hA' : A ∈ st0.global := by
        have : stm.global = st0.global := hglm.trans hglf
        rw [← this]; exact hA
      refine hI0.gbelow A hA' (M.over st0.quants.flatten N) _ ⟨fun k hk t => ?_, fun _ _ => rfl⟩ (hI0.absorb A hA' M N hAM)
      have hkb : (k, t) ∉ bs' := fun hb => by
        have := (hbm _ hb).1
        rw [hnf'] at this
        exact absurd hk (not_lt.2 this)
      by_cases hq : (k, t) ∈ st0.quants.flatten
      · rw [Model.over_in hq, Model.over_in (List.mem_append.2 (.inr (by rw [hqm]; exact hq)))]
      · rw [Model.over_out hq, Model.over_out]
        rw [List.mem_append, hqm]
        exact fun h => h.elim hkb hq
    · show ∀ c ∈ stm.cache.headD [], _
      rw [hcm, hcf]
      intro c hc
      simp [TState.push] at hc
  · exact hnf'.symm.le.trans hsm.next
  · intro s hs
    rw [← hnf']
    exact hbm s hs
  · intro v hv
    have h1 : stf.locals.get v = st0.locals.get v := by rw [hgf, if_neg hv]; rfl
    cases h2 : stm.locals.get v with
    | none =>
      cases h3 : stf.locals.get v with
      | none => rw [← h1, h3]
      | some n => rw [hsm.ext v n h3] at h2; cases h2
    | some n =>
      rcases hsm.dom v n h2 with h3 | h3
      · rw [← h1, h3]
      · exact absurd h3 hv
  · show bs' :: stm.quants = _
    rw [hsm.quants, hqf]; rfl
  · exact hglm.trans hglf
  · exact hsm.scopes.trans htf
  · show stm.cache.tail = _
    rw [hcm, hcf]; rfl

/-- The state after the quantifier: the locals and the cache are those of `st0`. -/
theorem leave_spec {t : Ty} {a : Expr t} {vs : List Var} {bs : List Symb} {st st0 st1 st2 st3 : TState} (hE : Entered a vs bs st st0 st1)
    (hI2 : Inv st2) (hs2 : Step a.Free st1 st2) (h : TState.leave st2 = some st3) :
    Inv st3 ∧ Step (fun _ => False) st0 st3 ∧ st3.locals = st0.locals ∧ st3.next = st2.next ∧ st3.global = st2.global ∧
    st2.quants = bs :: st3.quants := by
  unfold TState.leave TState.pop ScopeMap.uncheckedPop at h
  by_cases hd : st2.locals.depth > 1
  · obtain rfl : _ = st3 := by simpa [hd] using h
    have hl : (⟨st2.locals.scopes.tail⟩ : ScopeMap Var Nat) = st0.locals := by
      rw [hs2.scopes, hE.scopes1]
    have hq : st2.quants.tail = st0.quants := by rw [hs2.quants, hE.quants1]; rfl
    have hc : st2.cache.tail = st0.cache := hs2.cache.trans hE.cache1
    have hstep : Step (fun _ => False) st0 { st2 with quants := st2.quants.tail, locals := ⟨st2.locals.scopes.tail⟩, cache := st2.cache.tail } := by
      refine ⟨hE.next1.trans hs2.next, ?_, ?_, hq, fun A hA => hs2.global A (by rw [hE.global1]; exact hA), ?_, ?_⟩
      · intro v n hn; show ScopeMap.get ⟨st2.locals.scopes.tail⟩ v = some n; rw [hl]; exact hn
      · intro v n hn
        have hn : ScopeMap.get ⟨st2.locals.scopes.tail⟩ v = some n := hn
        rw [hl] at hn; exact .inl hn
      · show st2.locals.scopes.tail.tail = _
        rw [← hl]
      · show st2.cache.tail.tail = _
        rw [hc]
    refine ⟨?_, hstep, hl, rfl, rfl, ?_⟩
    · refine ⟨?_, ?_, ?_, ?_, hI2.gbelow, ?_, ?_⟩
      · intro v n hn
        have hn : ScopeMap.get ⟨st2.locals.scopes.tail⟩ v = some n := hn
        rw [hl] at hn
        exact (hE.inv0.below v n hn).trans_le hstep.next
      · intro v w n hn hn'
        have hn : ScopeMap.get ⟨st2.locals.scopes.tail⟩ v = some n := hn
        have hn' : ScopeMap.get ⟨st2.locals.scopes.tail⟩ w = some n := hn'
        rw [hl] at hn hn'
        exact hE.inv0.inj v w n hn hn'
      · intro v n hn
        have hn : ScopeMap.get ⟨st2.locals.scopes.tail⟩ v = some n := hn
        rw [hl] at hn
        exact hE.inv0.noList v n hn
      · intro s hs
        have hs : s ∈ st2.quants.tail.flatten := hs
        rw [hq] at hs
        exact (hE.inv0.qbelow s hs).trans_le hstep.next
      · intro A hA M N hAM
        show A (M.over st2.quants.tail.flatten N)
        have hsub : st2.quants.tail.flatten ⊆ st2.quants.flatten := by
          rw [hs2.quants, hE.quants1]
          simp
        rw [← Model.over_sub M N hsub]
        exact hI2.absorb A hA M _ hAM
      · intro c hc'
        have hc' : c ∈ st2.cache.tail.headD [] := hc'
        rw [hc] at hc'
        exact (hE.inv0.cache c hc').mono hstep
    · show st2.quants = bs :: st2.quants.tail
      rw [hs2.quants, hE.quants1]; rfl
  · simp [hd] at h

/-! ## The bound variables -/

section corr
variable {t : Ty} {a : Expr t} {vs : List Var} {bs : List Symb} {st st0 st1 st2 : TState} {r : Term t} (hE : Entered a vs bs st st0 st1)
  (hs2 : Step a.Free st1 st2)

include hE hs2

/-- No variable gets a symbol inside of the quantifier. -/
theorem Entered.get2 {v : Var} {n : Nat} (h : st2.locals.get v = some n) : st1.locals.get v = some n := by
  rcases hs2.dom v n h with h1 | hf
  · exact h1
  · have : ∃ k, st1.locals.get v = some k := by
      by_cases hv : v ∈ vs
      · obtain ⟨k, hk, _⟩ := hE.bound1 v hv; exact ⟨k, hk⟩
      · rw [hE.other1 v hv]; exact hE.free0 v hf hv
    obtain ⟨k, hk⟩ := this
    rw [hs2.ext v k hk] at h
    cases h
    exact hk

theorem Entered.rel {M N : Model} {σ σ' : Env} (hR : Rel st0 M σ) (hσ : Agree vs σ σ') (hN : invOn bs N)
    (hb : ∀ v ∈ vs, ∀ n, st1.locals.get v = some n → Rep v.ty (N.val n v.ty) (σ' v)) : Rel st2 (M.over bs N) σ' := by
  intro v n hn
  have h1 := hE.get2 hs2 hn
  by_cases hv : v ∈ vs
  · obtain ⟨k, hk, hkb⟩ := hE.bound1 v hv
    rw [h1] at hk
    cases hk
    rw [Model.over_in hkb]
    exact ⟨hN _ hkb, hb v hv n h1⟩
  · have h0 : st0.locals.get v = some n := by rw [← hE.other1 v hv]; exact h1
    have hnb : (n, v.ty) ∉ bs := fun hb => absurd (hE.inv0.below v n h0) (not_lt.2 (hE.fresh1 _ hb).1)
    rw [Model.over_out hnb, hσ v hv]
    exact hR v n h0

/-- Each choice of the bound symbols is a choice of the bound variables. -/
theorem Entered.toState {M N : Model} {σ : Env} (hI2 : Inv st2) (hg : Good st2 a r) (hS : Sat st2 M) (hR : Rel st0 M σ)
    (hq : invOn st0.quants.flatten M) (hN : invOn bs N) : ∃ σ', Agree vs σ σ' ∧ Rep t (r (M.over bs N)) (a.eval σ') := by
  have hex : ∀ v : Var, ∃ x : v.ty.den, (v ∉ vs → x = σ v) ∧ (v ∈ vs → ∀ n, st1.locals.get v = some n → Rep v.ty (N.val n v.ty) x) := by
    intro v
    by_cases hv : v ∈ vs
    · obtain ⟨n, hn, hnb⟩ := hE.bound1 v hv
      obtain ⟨x, hx⟩ := inv_rep (hE.inv1.noList v n hn) (hN _ hnb)
      exact ⟨x, fun h => absurd hv h, fun _ m hm => by rw [hn] at hm; cases hm; exact hx⟩
    · exact ⟨σ v, fun _ => rfl, fun h => absurd h hv⟩
  choose σ' h1 h2 using hex
  refine ⟨σ', fun v hv => h1 v hv, hg.2.2 _ σ' ?_ (hE.rel hs2 hR (fun v hv => h1 v hv) hN h2) ?_⟩
  · refine hI2.absorb_sub ?_ N hS
    rw [hs2.quants, hE.quants1]; simp
  · rw [hs2.quants, hE.quants1]
    exact invOn_over hN hq

/-- Each choice of the bound variables is given by some choice of the bound symbols. -/
theorem Entered.toModel {M : Model} {σ σ' : Env} (hI2 : Inv st2) (hg : Good st2 a r) (hS : Sat st2 M) (hR : Rel st0 M σ)
    (hq : invOn st0.quants.flatten M) (hσ : Agree vs σ σ') : ∃ N, invOn bs N ∧ Rep t (r (M.over bs N)) (a.eval σ') := by
  have hex : ∀ n t, ∃ x : SVal t, inv t x ∧ ∀ v ∈ vs, st1.locals.get v = some n → ∀ h : v.ty = t, Rep t x (h ▸ σ' v) := by
    intro n t
    by_cases h : ∃ v ∈ vs, st1.locals.get v = some n ∧ v.ty = t
    · obtain ⟨v, hv, hn, rfl⟩ := h
      obtain ⟨x, hx, hr⟩ := rep_inv (hE.inv1.noList v n hn) (σ' v)
      refine ⟨x, hx, fun w hw hwn h => ?_⟩
      obtain rfl := hE.inv1.inj v w n hn hwn
      exact hr
    · obtain ⟨x, hx⟩ := inv_exists t
      exact ⟨x, hx, fun v hv hn ht => absurd ⟨v, hv, hn, ht⟩ h⟩
  choose f hf hr using hex
  have hN : invOn bs ⟨f, M.sk⟩ := fun s _ => hf s.1 s.2
  refine ⟨⟨f, M.sk⟩, hN, hg.2.2 _ σ' ?_ (hE.rel hs2 hR hσ hN fun v hv n hn => hr n v.ty v hv hn rfl) ?_⟩
  · refine hI2.absorb_sub ?_ _ hS
    rw [hs2.quants, hE.quants1]; simp
  · rw [hs2.quants, hE.quants1]
    exact invOn_over hN hq

end corr

/-! ## Quantifiers -/

/-- What the translation of an expression guarantees. -/
structure Post {t : Ty} (e : Expr t) (st : TState) (r : Term t) (st' : TState) : Prop where
  inv : Inv st'
  step : Step (fun v => e.Free v) st st'
  good : Good st' e r
  cons : Cons st st'

theorem quantVars_bool_inf (vs : List Var) (f : Env → Prop) (σ : Env) (op : QOp) (hop : op = .inf ∨ op = .forall) :
    (show Prop from quantVars op .bool vs f σ) ↔ ∀ σ', Agree vs σ σ' → f σ' := by
  induction vs generalizing σ with
  | nil => simp only [agree_nil]; exact ⟨fun h σ' e => by subst e; exact h, fun h => h σ rfl⟩
  | cons v vs ih =>
    have h1 : (show Prop from quantVars op .bool (v :: vs) f σ) ↔ ∀ a, (show Prop from quantVars op .bool vs f (σ.upd v a)) := by
      rcases hop with rfl | rfl <;> exact Iff.rfl
    rw [h1]
    constructor
    · intro h σ' hσ
      obtain ⟨a, ha⟩ := agree_cons.1 hσ
      exact (ih _).1 (h a) σ' ha
    · exact fun h a => (ih _).2 fun σ' ha => h σ' (agree_cons.2 ⟨a, ha⟩)

theorem quantVars_bool_sup (vs : List Var) (f : Env → Prop) (σ : Env) (op : QOp) (hop : op = .sup ∨ op = .exists) :
    (show Prop from quantVars op .bool vs f σ) ↔ ∃ σ', Agree vs σ σ' ∧ f σ' := by
  induction vs generalizing σ with
  | nil => simp only [agree_nil]; exact ⟨fun h => ⟨σ, rfl, h⟩, fun ⟨σ', e, h⟩ => by subst e; exact h⟩
  | cons v vs ih =>
    have h1 : (show Prop from quantVars op .bool (v :: vs) f σ) ↔ ∃ a, (show Prop from quantVars op .bool vs f (σ.upd v a)) := by
      rcases hop with rfl | rfl <;> exact Iff.rfl
    rw [h1]
    constructor
    · rintro ⟨a, h⟩
      obtain ⟨σ', ha, hf⟩ := (ih _).1 h
      exact ⟨σ', agree_cons.2 ⟨a, ha⟩, hf⟩
    · rintro ⟨σ', hσ, hf⟩
      obtain ⟨a, ha⟩ := agree_cons.1 hσ
      exact ⟨a, (ih _).2 ⟨σ', ha, hf⟩⟩

/-- A quantifier without new constraints. -/
theorem scope_post {t : Ty} {op : QOp} {h : t.isLat = true} {a : Expr t} {vs : List QVar} {bs : List Symb} {st st0 st1 st2 st3 : TState} {r q : Term t}
    (hE : Entered a (vs.map QVar.var) bs st st0 st1) (hP : Post a st1 r st2) (hl : TState.leave st2 = some st3)
    (hq1 : (∀ M M', AgreeBelow st2.next M M' → r M = r M') → ∀ M M', AgreeBelow st2.next M M' → q M = q M')
    (hq2 : ∀ M σ, (∀ N, invOn bs N → ∃ σ', Agree (vs.map QVar.var) σ σ' ∧ Rep t (r (M.over bs N)) (a.eval σ')) →
      (∀ σ', Agree (vs.map QVar.var) σ σ' → ∃ N, invOn bs N ∧ Rep t (r (M.over bs N)) (a.eval σ')) →
      Rep t (q M) (quantVars op t (vs.map QVar.var) a.eval σ)) :
    Post (.quant op h vs a) st q st3 := by
  obtain ⟨hI3, hs3, hl3, hn3, hg3, hq3⟩ := leave_spec hE hP.inv hP.step hl
  refine ⟨hI3, hE.step0.trans hs3 (fun v hv => hv) (fun _ h => h.elim), ⟨?_, ?_, ?_⟩, ?_⟩
  · rintro v ⟨hv, hvs⟩
    rw [hl3]
    exact hE.free0 v hv hvs
  · rw [hn3]; exact hq1 hP.good.2.1
  · intro M σ hS hR hq
    have hS2 : Sat st2 M := fun A hA => hS A (by rw [hg3]; exact hA)
    have hR0 : Rel st0 M σ := fun v n hn => hR v n (by rw [hl3]; exact hn)
    have hq0 : invOn st0.quants.flatten M := by rw [← hs3.quants]; exact hq
    exact hq2 M σ (fun N hN => hE.toState hP.step hP.inv hP.good hS2 hR0 hq0 hN)
      fun σ' hσ => hE.toModel hP.step hP.inv hP.good hS2 hR0 hq0 hσ
  · intro M hM hS
    obtain ⟨M', hv, hk, hS'⟩ := hP.cons M hM (fun A hA => hS A (by rw [← hE.global0, ← hE.global1]; exact hA))
    exact ⟨M', hv, fun k hlt => hk k (hlt.trans_le (hE.step0.next.trans hE.next1)), fun A hA => hS' A (by rw [← hg3]; exact hA)⟩

theorem scopeForall_post {op : QOp} (hop : op = .inf ∨ op = .forall) {h : Ty.bool.isLat = true} {a : Expr .bool} {vs : List QVar} {bs : List Symb}
    {st st0 st1 st2 st3 : TState} {r : Term .bool}
    (hE : Entered a (vs.map QVar.var) bs st st0 st1) (hP : Post a st1 r st2) (hl : TState.leave st2 = some st3) :
    Post (.quant op h vs a) st (scopeForall bs r) st3 := by
  refine scope_post hE hP hl ?_ ?_
  · intro hr M M' ha
    unfold scopeForall
    simp only [fun N => hr _ _ (ha.over bs N)]
    rfl
  · intro M σ h1 h2
    show (∀ N, invOn bs N → _) ↔ _
    refine Iff.trans ⟨fun hall σ' hσ => ?_, fun hall N hN => ?_⟩ (quantVars_bool_inf _ a.eval σ op hop).symm
    · obtain ⟨N, hN, hr⟩ := h2 σ' hσ
      exact Iff.mp hr (hall N hN)
    · obtain ⟨σ', hσ, hr⟩ := h1 N hN
      exact Iff.mpr hr (hall σ' hσ)

theorem scopeExists_post {op : QOp} (hop : op = .sup ∨ op = .exists) {h : Ty.bool.isLat = true} {a : Expr .bool} {vs : List QVar} {bs : List Symb}
    {st st0 st1 st2 st3 : TState} {r : Term .bool}
    (hE : Entered a (vs.map QVar.var) bs st st0 st1) (hP : Post a st1 r st2) (hl : TState.leave st2 = some st3) :
    Post (.quant op h vs a) st (scopeExists bs r) st3 := by
  refine scope_post hE hP hl ?_ ?_
  · intro hr M M' ha
    unfold scopeExists
    simp only [fun N => hr _ _ (ha.over bs N)]
    rfl
  · intro M σ h1 h2
    show (∃ N, invOn bs N ∧ _) ↔ _
    refine Iff.trans ⟨?_, ?_⟩ (quantVars_bool_sup _ a.eval σ op hop).symm
    · rintro ⟨N, hN, hr'⟩
      obtain ⟨σ', hσ, hr⟩ := h1 N hN
      exact ⟨σ', hσ, Iff.mp hr hr'⟩
    · rintro ⟨σ', hσ, hf⟩
      obtain ⟨N, hN, hr⟩ := h2 σ' hσ
      exact ⟨N, hN, Iff.mpr hr hf⟩

/-- A quantifier with a Skolem function. `Ax` is `InfimumAxioms` or `SupremumAxioms`. -/
theorem extremum_post {op : QOp} {h : Ty.eureal.isLat = true} {a : Expr .eureal} {vs : List QVar} {bs args : List Symb}
    {st st0 st1 st2 st3 : TState} {r : Term .eureal}
    (hE : Entered a (vs.map QVar.var) bs st st0 st1) (hP : Post a st1 r st2) (hl : TState.leave st2 = some st3) (hargs : args = st.quants.flatten)
    (Ax : (Model → Prop) → (Model → Model → Prop) → (Model → Model → Pair) → (Model → Pair) → Prop) (L : Set ℝ≥0∞ → ℝ≥0∞)
    (hAx : ∀ cA cQ body ext, (∀ a q, cA a → cQ a q → 0 ≤ (body a q).num) →
      (Ax cA cQ body ext ↔ ∀ a, cA a → Invariant.inv (ext a) ∧ (ext a).abs = L {y | ∃ q, cQ a q ∧ y = (body a q).abs}))
    (hL : ∀ (f : Exp) (σ : Env) (S : Set ℝ≥0∞), (∀ y, y ∈ S ↔ ∃ σ', Agree (vs.map QVar.var) σ σ' ∧ y = f σ') →
      L S = quantVars op .eureal (vs.map QVar.var) f σ) :
    Post (.quant op h vs a) st (TState.skolem st3.next args) { st3 with
      next := st3.next + 1
      global := (fun M => Ax (invOn args) (fun _ => invOn bs) (fun A Q => r ((M.over args A).over bs Q))
        (fun A => TState.skolem st3.next args (M.over args A))) :: st3.global } := by
  obtain ⟨hI3, hs3, hl3, hn3, hg3, hq3⟩ := leave_spec hE hP.inv hP.step hl
  have hq0 : st0.quants.flatten = args := by rw [hE.step0.quants, hargs]
  have hq3' : st3.quants.flatten = args := by rw [hs3.quants, hq0]
  have hargs_lt : ∀ s ∈ args, s.1 < st3.next := fun s hs => hI3.qbelow s (by rw [hq3']; exact hs)
  have hsub : args ⊆ st2.quants.flatten := by rw [hq3, List.flatten_cons, hq3']; simp
  -- all values of the body are valid
  have hbody : ∀ M, Sat st2 M → (∀ v n, st0.locals.get v = some n → inv v.ty (M.val n v.ty)) →
      ∀ A Q, invOn args A → invOn bs Q → 0 ≤ (show Pair from r ((M.over args A).over bs Q)).num := by
    intro M hS hM A Q hA hQ
    obtain ⟨σ, hσ⟩ := hE.inv0.exists_rel (M := M.over args A) fun v n hn => by
      by_cases hb : (n, v.ty) ∈ args
      · rw [Model.over_in hb]; exact hA _ hb
      · rw [Model.over_out hb]; exact hM v n hn
    obtain ⟨σ', _, hr⟩ := hE.toState (M := M.over args A) hP.step hP.inv hP.good (hP.inv.absorb_sub hsub A hS) hσ
      (by rw [hq0]; intro s hs; rw [Model.over_in hs]; exact hA s hs) hQ
    exact hr.1
  have hcong : ∀ M M', AgreeBelow st3.next M M' → ∀ A Q, r ((M.over args A).over bs Q) = r ((M'.over args A).over bs Q) := by
    intro M M' ha A Q
    rw [hn3] at ha
    exact hP.good.2.1 _ _ ((ha.over args A).over bs Q)
  have hskc : ∀ M M', AgreeBelow (st3.next + 1) M M' → TState.skolem st3.next args M = TState.skolem st3.next args M' := by
    intro M M' ha
    unfold TState.skolem
    rw [ha.2 _ (Nat.lt_succ_self _)]
    congr 1
    exact List.map_congr_left fun s hs => by rw [ha.1 _ ((hargs_lt s hs).trans (Nat.lt_succ_self _))]
  have hstep4 : ∀ G, Step (fun _ => False) st3 { st3 with next := st3.next + 1, global := G :: st3.global } := fun G =>
    ⟨Nat.le_succ _, fun _ _ h => h, fun _ _ h => .inl h, rfl, fun A hA => List.mem_cons_of_mem _ hA, rfl, rfl⟩
  refine ⟨?_, ?_, ⟨?_, ?_, ?_⟩, ?_⟩
  · refine ⟨fun v n hn => (hI3.below v n hn).trans (Nat.lt_succ_self _), hI3.inj, hI3.noList,
      fun s hs => (hI3.qbelow s hs).trans (Nat.lt_succ_self _), ?_, ?_, fun c hc => (hI3.cache c hc).mono (hstep4 _)⟩
    · intro A hA M M' ha hAM
      rcases List.mem_cons.1 hA with rfl | hA
      · simpa only [hcong M M' (ha.mono (Nat.le_succ _)), fun B => hskc _ _ (ha.over args B)] using hAM
      · exact hI3.gbelow A hA M M' (ha.mono (Nat.le_succ _)) hAM
    · intro A hA M N hAM
      rcases List.mem_cons.1 hA with rfl | hA
      · show Ax _ _ _ _
        simp only [hq3', Model.over_over]
        exact hAM
      · exact hI3.absorb A hA M N hAM
  · exact (hE.step0.trans hs3 (H := fun v => (Expr.quant op h vs a).Free v) (fun v hv => hv) (fun _ h => h.elim)).trans (hstep4 _) (fun _ h => h) (fun _ h => h.elim)
  · rintro v ⟨hv, hvs⟩
    show ∃ n, st3.locals.get v = some n
    rw [hl3]
    exact hE.free0 v hv hvs
  · exact hskc
  · intro M σ hS hR hq
    have hS2 : Sat st2 M := fun A hA => hS A (List.mem_cons_of_mem _ (by rw [hg3]; exact hA))
    have hR0 : Rel st0 M σ := fun v n hn => hR v n (by show st3.locals.get v = _; rw [hl3]; exact hn)
    have hq' : invOn args M := by rw [← hq3']; exact hq
    have hax := (hAx _ _ _ _ (hbody M hS2 fun v n hn => (hR0 v n hn).1)).1 (hS _ List.mem_cons_self) M hq'
    simp only [Model.over_self] at hax
    refine Pair.repr_iff.2 ⟨hax.1.1, hax.2.trans (hL a.eval σ _ fun y => ?_)⟩
    constructor
    · rintro ⟨N, hN, rfl⟩
      obtain ⟨σ', hσ, hr⟩ := hE.toState hP.step hP.inv hP.good hS2 hR0 (by rw [hq0]; exact hq') hN
      exact ⟨σ', hσ, (Pair.repr_iff.1 hr).2⟩
    · rintro ⟨σ', hσ, rfl⟩
      obtain ⟨N, hN, hr⟩ := hE.toModel hP.step hP.inv hP.good hS2 hR0 (by rw [hq0]; exact hq') hσ
      exact ⟨N, hN, (Pair.repr_iff.1 hr).2.symm⟩
  · intro M hM hS
    obtain ⟨M2, hv, hk, hS2⟩ := hP.cons M hM (fun A hA => hS A (by rw [← hE.global0, ← hE.global1]; exact hA))
    have hM2 : WF M2 := fun n t => by rw [hv]; exact hM n t
    have hb2 := hbody M2 hS2 fun v n _ => hM2 n v.ty
    have hon : ∀ y, ∃ p : Pair, Invariant.inv p ∧ p.abs = y := C14_pair.onto
    choose f hf1 hf2 using hon
    classical
    let vals (A : Model) : List ((t : Ty) × SVal t) := args.map fun s => ⟨s.2, A.val s.1 s.2⟩
    let lim (A : Model) : ℝ≥0∞ := L {y | ∃ q, invOn bs q ∧ y = (show Pair from r ((M2.over args A).over bs q)).abs}
    let sk (l : List ((t : Ty) × SVal t)) : Pair := if h : ∃ A, vals A = l then f (lim h.choose) else f 0
    let M3 : Model := { M2 with sk := fun k => if k = st3.next then sk else M2.sk k }
    have ha : AgreeBelow st3.next M2 M3 := ⟨fun _ _ _ => rfl, fun k hk => (if_neg (Nat.ne_of_lt hk)).symm⟩
    have hvals : ∀ A A', vals A = vals A' → M2.over args A = M2.over args A' := by
      intro A A' h
      refine Model.over_congr fun s hs => ?_
      have := List.map_inj_left.1 h s hs
      simpa using this
    have hsk : ∀ A, TState.skolem st3.next args (M3.over args A) = f (lim A) := by
      intro A
      have h1 : TState.skolem st3.next args (M3.over args A) = sk (vals A) := by
        show (if st3.next = st3.next then sk else _) _ = _
        rw [if_pos rfl]
        congr 1
        exact List.map_congr_left fun s hs => by rw [Model.over_in hs]
      have h2 : ∃ A', vals A' = vals A := ⟨A, rfl⟩
      have h4 : sk (vals A) = f (lim h2.choose) := dif_pos h2
      have h3 := hvals _ _ h2.choose_spec
      rw [h1, h4]
      show f (L _) = f (L _)
      rw [h3]
    refine ⟨M3, hv, fun k hlt => ?_, fun A hA => ?_⟩
    · have : k < st3.next := hlt.trans_le ((hE.step0.next).trans hs3.next)
      rw [← hk k (hlt.trans_le (hE.step0.next.trans hE.next1))]
      exact if_neg (Nat.ne_of_lt this)
    · rcases List.mem_cons.1 hA with rfl | hA
      · refine (hAx _ _ _ _ ?_).2 ?_
        · intro A Q hA hQ
          show 0 ≤ (show Pair from r ((M3.over args A).over bs Q)).num
          rw [← hcong M2 M3 ha A Q]
          exact hb2 A Q hA hQ
        · intro A hA
          rw [hsk]
          refine ⟨hf1 _, (hf2 _).trans ?_⟩
          simp only [← hcong M2 M3 ha]
          rfl
      · exact hI3.gbelow A hA M2 M3 ha (hS2 A (by rw [← hg3]; exact hA))

end Caesar.Smt
