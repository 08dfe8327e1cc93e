import Verif.Smt.TranslateOps
import Verif.VcgenLemmas

/-!
# The SMT translation computes representations
-/

open scoped ENNReal NNReal

namespace Caesar.Smt
set_option linter.unusedSectionVars false

variable [Doms]

/-! ## Models -/

/-- The models agree on the symbols with a number below `n`. -/
def AgreeBelow (n : Nat) (M M' : Model) : Prop :=
  (∀ k < n, ∀ t, M.val k t = M'.val k t) ∧ ∀ k < n, M.sk k = M'.sk k

theorem Model.over_in {M N : Model} {bs : List Symb} {n : Nat} {t : Ty} (h : (n, t) ∈ bs) : (M.over bs N).val n t = N.val n t := if_pos h
theorem Model.over_out {M N : Model} {bs : List Symb} {n : Nat} {t : Ty} (h : (n, t) ∉ bs) : (M.over bs N).val n t = M.val n t := if_neg h

theorem Model.ext' {M M' : Model} (h1 : ∀ n t, M.val n t = M'.val n t) (h2 : M.sk = M'.sk) : M = M' := by
  obtain ⟨v, s⟩ := M
  obtain ⟨v', s'⟩ := M'
  obtain rfl : v = v' := funext fun n => funext fun t => h1 n t
  obtain rfl : s = s' := h2
  rfl

theorem Model.over_self (M : Model) (bs : List Symb) : M.over bs M = M :=
  Model.ext' (fun n t => by by_cases h : (n, t) ∈ bs <;> simp [over_in, over_out, h]) rfl

theorem Model.over_over (M A N : Model) (bs : List Symb) : (M.over bs A).over bs N = M.over bs N :=
  Model.ext' (fun n t => by by_cases h : (n, t) ∈ bs <;> simp [over_in, over_out, h]) rfl

/-- Overriding some symbols is overriding more symbols with the old values. -/
theorem Model.over_sub (M N : Model) {bs cs : List Symb} (h : bs ⊆ cs) : M.over cs (M.over bs N) = M.over bs N := by
  refine Model.ext' (fun n t => ?_) rfl
  by_cases hb : (n, t) ∈ bs
  · rw [over_in (h hb)]
  · by_cases hc : (n, t) ∈ cs
    · rw [over_in hc]
    · rw [over_out hc, over_out hb]

theorem Model.over_congr {M A A' : Model} {bs : List Symb} (h : ∀ s ∈ bs, A.val s.1 s.2 = A'.val s.1 s.2) : M.over bs A = M.over bs A' := by
  refine Model.ext' (fun n t => ?_) rfl
  by_cases hb : (n, t) ∈ bs
  · rw [over_in hb, over_in hb]; exact h _ hb
  · rw [over_out hb, over_out hb]

theorem AgreeBelow.refl (n : Nat) (M : Model) : AgreeBelow n M M := ⟨fun _ _ _ => rfl, fun _ _ => rfl⟩
theorem AgreeBelow.symm {n : Nat} {M M' : Model} (h : AgreeBelow n M M') : AgreeBelow n M' M :=
  ⟨fun k hk t => (h.1 k hk t).symm, fun k hk => (h.2 k hk).symm⟩
theorem AgreeBelow.mono {m n : Nat} {M M' : Model} (h : AgreeBelow n M M') (hm : m ≤ n) : AgreeBelow m M M' :=
  ⟨fun k hk => h.1 k (hk.trans_le hm), fun k hk => h.2 k (hk.trans_le hm)⟩
theorem AgreeBelow.over {n : Nat} {M M' : Model} (h : AgreeBelow n M M') (bs : List Symb) (N : Model) : AgreeBelow n (M.over bs N) (M'.over bs N) := by
  refine ⟨fun k hk t => ?_, h.2⟩
  by_cases hb : (k, t) ∈ bs
  · rw [Model.over_in hb, Model.over_in hb]
  · rw [Model.over_out hb, Model.over_out hb]; exact h.1 k hk t

theorem invOn_over {bs q : List Symb} {M N : Model} (hN : invOn bs N) (hM : invOn q M) : invOn (bs ++ q) (M.over bs N) := by
  intro s hs
  by_cases hb : s ∈ bs
  · rw [Model.over_in hb]; exact hN s hb
  · rw [Model.over_out hb]
    exact hM s ((List.mem_append.1 hs).resolve_left hb)

/-- The invariant of all symbols. -/
def WF (M : Model) : Prop := ∀ n t, inv t (M.val n t)

theorem WF.over {M N : Model} (h : WF M) {bs : List Symb} (hN : invOn bs N) : WF (M.over bs N) := by
  intro n t
  by_cases hb : (n, t) ∈ bs
  · rw [Model.over_in hb]; exact hN (n, t) hb
  · rw [Model.over_out hb]; exact h n t

/-! ## Scoped maps -/

theorem scope_get_insert {K V : Type} [DecidableEq K] {m m' : ScopeMap K V} {k : K} {v : V} (h : m.insert k v = some m') (k' : K) :
    m'.get k' = if k = k' then some v else m.get k' := by
  obtain ⟨ss⟩ := m
  cases ss with
  | nil => cases h
  | cons s ss =>
    cases h
    simp only [ScopeMap.get, ScopeMap.getIn, IndexMap.get_insert]
    by_cases hk : k = k'
    · simp [hk]
    · simp [hk]

theorem scope_tail_insert {K V : Type} [DecidableEq K] {m m' : ScopeMap K V} {k : K} {v : V} (h : m.insert k v = some m') :
    m'.scopes.tail = m.scopes.tail := by
  obtain ⟨ss⟩ := m
  cases ss with
  | nil => cases h
  | cons s ss => cases h; rfl

theorem scope_get_remove {K V : Type} [DecidableEq K] {m m' : ScopeMap K V} {k : K} (h : m.remove k = some m') (k' : K) :
    m'.get k' = if k = k' then none else m.get k' := by
  obtain ⟨ss⟩ := m
  cases ss with
  | nil => cases h
  | cons s ss =>
    cases h
    simp only [ScopeMap.get, ScopeMap.getIn, IndexMap.get_insert]
    by_cases hk : k = k'
    · simp [hk]
    · simp [hk]

theorem scope_tail_remove {K V : Type} [DecidableEq K] {m m' : ScopeMap K V} {k : K} (h : m.remove k = some m') :
    m'.scopes.tail = m.scopes.tail := by
  obtain ⟨ss⟩ := m
  cases ss with
  | nil => cases h
  | cons s ss => cases h; rfl

theorem scope_get_push {K V : Type} [DecidableEq K] (m : ScopeMap K V) (k : K) : m.push.1.get k = m.get k := rfl

/-! ## Invariants of the translator -/

section
variable [Interp] [SmtInterp]

/-- The global constraints hold. -/
def Sat (st : TState) (M : Model) : Prop := ∀ A ∈ st.global, A M

/-- The values of the locals satisfy the constraints of their scopes and represent the values in the state. -/
def Rel (st : TState) (M : Model) (σ : Env) : Prop :=
  ∀ v n, st.locals.get v = some n → inv v.ty (M.val n v.ty) ∧ Rep v.ty (M.val n v.ty) (σ v)

/-- The term is a correct translation of the expression. -/
def Good (st : TState) {t : Ty} (e : Expr t) (r : Term t) : Prop :=
  (∀ v, e.Free v → ∃ n, st.locals.get v = some n) ∧
  (∀ M M', AgreeBelow st.next M M' → r M = r M') ∧
  ∀ M σ, Sat st M → Rel st M σ → invOn st.quants.flatten M → Rep t (r M) (e.eval σ)

/-- Invariant of the state of the translator. -/
structure Inv (st : TState) : Prop where
  below : ∀ v n, st.locals.get v = some n → n < st.next
  inj : ∀ v w n, st.locals.get v = some n → st.locals.get w = some n → v = w
  noList : ∀ v n, st.locals.get v = some n → ∀ s, v.ty ≠ .list s
  qbelow : ∀ s ∈ st.quants.flatten, s.1 < st.next
  gbelow : ∀ A ∈ st.global, ∀ M M', AgreeBelow st.next M M' → A M → A M'
  absorb : ∀ A ∈ st.global, ∀ M N, A M → A (M.over st.quants.flatten N)
  cache : ∀ c ∈ st.cache.headD [], Good st c.2.1 c.2.2

/-- What changes when something with the free variables `F` is translated. -/
structure Step (F : Var → Prop) (st st' : TState) : Prop where
  next : st.next ≤ st'.next
  ext : ∀ v n, st.locals.get v = some n → st'.locals.get v = some n
  dom : ∀ v n, st'.locals.get v = some n → st.locals.get v = some n ∨ F v
  quants : st'.quants = st.quants
  global : ∀ A ∈ st.global, A ∈ st'.global
  scopes : st'.locals.scopes.tail = st.locals.scopes.tail
  cache : st'.cache.tail = st.cache.tail

/-- The new constraints are satisfiable. -/
def Cons (st st' : TState) : Prop :=
  ∀ M, WF M → Sat st M → ∃ M', M'.val = M.val ∧ (∀ k < st.next, M'.sk k = M.sk k) ∧ Sat st' M'

theorem Step.refl (F : Var → Prop) (st : TState) : Step F st st :=
  ⟨le_rfl, fun _ _ h => h, fun _ _ h => .inl h, rfl, fun _ h => h, rfl, rfl⟩

theorem Step.trans {F G H : Var → Prop} {a b c : TState} (h : Step F a b) (h' : Step G b c) (hF : ∀ v, F v → H v) (hG : ∀ v, G v → H v) : Step H a c where
  next := h.next.trans h'.next
  ext v n hn := h'.ext v n (h.ext v n hn)
  dom v n hn := (h'.dom v n hn).elim (fun hn => (h.dom v n hn).imp id (hF v)) fun hg => .inr (hG v hg)
  quants := h'.quants.trans h.quants
  global A hA := h'.global A (h.global A hA)
  scopes := h'.scopes.trans h.scopes
  cache := h'.cache.trans h.cache

theorem Step.mono {F G : Var → Prop} {a b : TState} (h : Step F a b) (hF : ∀ v, F v → G v) : Step G a b :=
  h.trans (Step.refl G b) hF fun _ h => h

theorem Cons.refl (st : TState) : Cons st st := fun M _ h => ⟨M, rfl, fun _ _ => rfl, h⟩

theorem Cons.of_global {st st' : TState} (h : st'.global = st.global) : Cons st st' :=
  fun M _ hM => ⟨M, rfl, fun _ _ => rfl, by unfold Sat; rw [h]; exact hM⟩

theorem Cons.trans {a b c : TState} (hn : a.next ≤ b.next) (h : Cons a b) (h' : Cons b c) : Cons a c := by
  intro M hM hS
  obtain ⟨M1, hv, hk, hS1⟩ := h M hM hS
  obtain ⟨M2, hv2, hk2, hS2⟩ := h' M1 (fun n t => by rw [hv]; exact hM n t) hS1
  exact ⟨M2, hv2.trans hv, fun k hlt => (hk2 k (hlt.trans_le hn)).trans (hk k hlt), hS2⟩

theorem Good.mono {F : Var → Prop} {st st' : TState} (h : Step F st st') {t : Ty} {e : Expr t} {r : Term t} (hg : Good st e r) : Good st' e r := by
  refine ⟨fun v hv => ?_, fun M M' ha => hg.2.1 M M' (ha.mono h.next), fun M σ hS hR hq => ?_⟩
  · obtain ⟨n, hn⟩ := hg.1 v hv
    exact ⟨n, h.ext v n hn⟩
  · refine hg.2.2 M σ (fun A hA => hS A (h.global A hA)) (fun v n hn => hR v n (h.ext v n hn)) ?_
    rw [← h.quants]
    exact hq

/-- The state of the variables which a model represents. -/
theorem Inv.exists_rel {st : TState} (hI : Inv st) {M : Model} (hM : ∀ v n, st.locals.get v = some n → inv v.ty (M.val n v.ty)) : ∃ σ, Rel st M σ := by
  have : ∀ v : Var, ∃ x : v.ty.den, ∀ n, st.locals.get v = some n → Rep v.ty (M.val n v.ty) x := by
    intro v
    cases hv : st.locals.get v with
    | none => exact ⟨v.ty.default, fun n hn => nomatch hn⟩
    | some n =>
      obtain ⟨x, hx⟩ := inv_rep (hI.noList v n hv) (hM v n hv)
      exact ⟨x, fun m hm => by cases hm; exact hx⟩
  choose σ hσ using this
  exact ⟨σ, fun v n hn => ⟨hM v n hn, hσ v n hn⟩⟩

theorem Inv.absorb_sub {st : TState} (hI : Inv st) {bs : List Symb} (hb : bs ⊆ st.quants.flatten) {M : Model} (N : Model)
    (hS : Sat st M) : Sat st (M.over bs N) := by
  intro A hA
  rw [← Model.over_sub M N hb]
  exact hI.absorb A hA M _ (hS A hA)

/-! ## Locals -/

theorem getLocal_spec {v : Var} {st st' : TState} {n : Nat} (h : TState.getLocal v st = some (n, st')) (hI : Inv st) :
    Inv st' ∧ Step (· = v) st st' ∧ st'.locals.get v = some n ∧ st'.global = st.global ∧
    st'.cache = st.cache ∧ (st' = st ∨ st.locals.get v = none ∧ n = st.next) := by
  unfold TState.getLocal at h
  split at h
  next m hm =>
    cases h
    exact ⟨hI, Step.refl _ _, hm, rfl, rfl, .inl rfl⟩
  next hm =>
    split at h
    next => cases h
    next hl =>
      cases hins : st.locals.insert v st.next with
      | none => rw [hins] at h; cases h
      | some ls =>
        rw [hins] at h
        obtain ⟨rfl, rfl⟩ : st.next = n ∧ _ = st' := by simpa using h
        have hget := scope_get_insert hins
        have hstep : Step (· = v) st { st with next := st.next + 1, locals := ls } := by
          refine ⟨Nat.le_succ _, fun w k hk => ?_, fun w k hk => ?_, rfl, fun _ h => h, scope_tail_insert hins, rfl⟩
          · show ls.get w = some k
            rw [hget]
            by_cases hw : v = w
            · subst hw; rw [hm] at hk; cases hk
            · rw [if_neg hw]; exact hk
          · have hk : ls.get w = some k := hk
            rw [hget] at hk
            by_cases hw : v = w
            · exact .inr hw.symm
            · rw [if_neg hw] at hk; exact .inl hk
        refine ⟨?_, hstep, (hget v).trans (if_pos rfl), rfl, rfl, .inr ⟨hm, rfl⟩⟩
        have cases_get : ∀ w k, ls.get w = some k → (w = v ∧ k = st.next) ∨ st.locals.get w = some k := by
          intro w k hk
          rw [hget] at hk
          by_cases hw : v = w
          · rw [if_pos hw] at hk; cases hk; exact .inl ⟨hw.symm, rfl⟩
          · rw [if_neg hw] at hk; exact .inr hk
        refine ⟨fun w k hk => ?_, fun w w' k hk hk' => ?_, fun w k hk s => ?_, fun s hs => (hI.qbelow s hs).trans (Nat.lt_succ_self _),
          fun A hA M M' ha => hI.gbelow A hA M M' (ha.mono (Nat.le_succ _)), hI.absorb, fun c hc => (hI.cache c hc).mono hstep⟩
        · rcases cases_get w k hk with ⟨_, rfl⟩ | h
          · exact Nat.lt_succ_self _
          · exact (hI.below w k h).trans (Nat.lt_succ_self _)
        · rcases cases_get w k hk with ⟨rfl, rfl⟩ | h <;> rcases cases_get w' _ hk' with ⟨rfl, h2⟩ | h'
          · rfl
          · exact absurd (hI.below _ _ h') (lt_irrefl _)
          · subst h2; exact absurd (hI.below _ _ h) (lt_irrefl _)
          · exact hI.inj w w' k h h'
        · rcases cases_get w k hk with ⟨rfl, _⟩ | h
          · exact hl s
          · exact hI.noList w k h s

theorem getLocals_spec {vs : List Var} {st st' : TState} (h : TState.getLocals vs st = some st') (hI : Inv st) :
    Inv st' ∧ Step (· ∈ vs) st st' ∧ (∀ v ∈ vs, ∃ n, st'.locals.get v = some n) ∧ st'.global = st.global ∧ st'.cache = st.cache := by
  induction vs generalizing st with
  | nil => cases h; exact ⟨hI, Step.refl _ _, fun v hv => by simp at hv, rfl, rfl⟩
  | cons v vs ih =>
    unfold TState.getLocals at h
    cases h1 : TState.getLocal v st with
    | none => rw [h1] at h; cases h
    | some p =>
      obtain ⟨n, st1⟩ := p
      rw [h1] at h
      obtain ⟨hI1, hs1, hg1, hgl1, hc1, _⟩ := getLocal_spec h1 hI
      obtain ⟨hI2, hs2, hg2, hgl2, hc2⟩ := ih h hI1
      refine ⟨hI2, hs1.trans hs2 (fun w hw => by simp [hw]) (fun w hw => by simp [hw]), fun w hw => ?_, hgl2.trans hgl1, hc2.trans hc1⟩
      rcases List.mem_cons.1 hw with rfl | hw
      · exact ⟨n, hs2.ext _ _ hg1⟩
      · exact hg2 w hw

/-- The result of `mk_scope`: the symbols of the variables. Variables without a symbol get a new one. -/
theorem mkScope_spec {vs : List Var} {st st' : TState} {bs : List Symb} (h : TState.mkScope vs st = some (bs, st')) (hI : Inv st) (k : Nat) (hk : k ≤ st.next)
    (hf : ∀ v ∈ vs, ∀ n, st.locals.get v = some n → k ≤ n) :
    Inv st' ∧ Step (· ∈ vs) st st' ∧ st'.global = st.global ∧ st'.cache = st.cache ∧
    (∀ v ∈ vs, ∃ n, st'.locals.get v = some n ∧ (n, v.ty) ∈ bs) ∧
    (∀ s ∈ bs, k ≤ s.1 ∧ ∃ v ∈ vs, st'.locals.get v = some s.1 ∧ v.ty = s.2) := by
  induction vs generalizing st bs with
  | nil => cases h; exact ⟨hI, Step.refl _ _, rfl, rfl, fun v hv => by simp at hv, fun v hv => by simp at hv⟩
  | cons v vs ih =>
    unfold TState.mkScope at h
    cases h1 : TState.getLocal v st with
    | none => rw [h1] at h; cases h
    | some p =>
      obtain ⟨n, st1⟩ := p
      rw [h1] at h
      obtain ⟨hI1, hs1, hg1, hgl1, hc1, hnew⟩ := getLocal_spec h1 hI
      cases h2 : TState.mkScope vs st1 with
      | none =>
        have h : (TState.mkScope vs st1).bind (fun p => some ((n, v.ty) :: p.1, p.2)) = some (bs, st') := h
        rw [h2] at h; cases h
      | some p =>
        obtain ⟨bs', st2⟩ := p
        have h : (TState.mkScope vs st1).bind (fun p => some ((n, v.ty) :: p.1, p.2)) = some (bs, st') := h
        rw [h2] at h
        obtain ⟨rfl, rfl⟩ : (n, v.ty) :: bs' = bs ∧ st2 = st' := by simpa using h
        have hkn : k ≤ n := by
          rcases hnew with rfl | ⟨_, rfl⟩
          · exact hf v (by simp) n hg1
          · exact hk
        obtain ⟨hI2, hs2, hgl2, hc2, hv2, hb2⟩ := ih h2 hI1 (hk.trans hs1.next) fun w hw m hm => by
          rcases hs1.dom w m hm with hm | rfl
          · exact hf w (by simp [hw]) m hm
          · rw [hg1] at hm; cases hm; exact hkn
        refine ⟨hI2, hs1.trans hs2 (fun w hw => by simp [hw]) (fun w hw => by simp [hw]), hgl2.trans hgl1, hc2.trans hc1, fun w hw => ?_, fun s hs => ?_⟩
        · rcases List.mem_cons.1 hw with rfl | hw
          · exact ⟨n, hs2.ext _ _ hg1, by simp⟩
          · obtain ⟨m, hm, hb⟩ := hv2 w hw
            exact ⟨m, hm, by simp [hb]⟩
        · rcases List.mem_cons.1 hs with rfl | hs
          · exact ⟨hkn, v, by simp, hs2.ext _ _ hg1, rfl⟩
          · obtain ⟨hk', w, hw, h'⟩ := hb2 s hs
            exact ⟨hk', w, by simp [hw], h'⟩

theorem freshAll_spec {vs : List Var} {st st' : TState} (h : TState.freshAll vs st = some st') :
    (∀ v, st'.locals.get v = if v ∈ vs then none else st.locals.get v) ∧ st'.next = st.next ∧ st'.quants = st.quants ∧
    st'.global = st.global ∧ st'.cache = st.cache ∧ st'.locals.scopes.tail = st.locals.scopes.tail := by
  induction vs generalizing st with
  | nil => cases h; exact ⟨fun v => by simp, rfl, rfl, rfl, rfl, rfl⟩
  | cons v vs ih =>
    unfold TState.freshAll at h
    cases h1 : st.locals.remove v with
    | none => rw [h1] at h; cases h
    | some ls =>
      rw [h1] at h
      obtain ⟨hg, hn, hq, hgl, hc, ht⟩ := ih h
      refine ⟨fun w => ?_, hn, hq, hgl, hc, ht.trans (scope_tail_remove h1)⟩
      rw [hg w, scope_get_remove h1]
      by_cases hw : v = w
      · simp [hw]
      · have hw' : ¬ w = v := fun h => hw h.symm
        simp [hw, hw']

end

end Caesar.Smt
