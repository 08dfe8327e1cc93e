import Verif.Driver.LimitsLemmas

set_option linter.unnecessarySeqFocus false

/-! What the resource limits have done, in relation to the state. -/

namespace Caesar.Limits

@[simp] theorem ret_state (c : Cfg) (t r k) : (c.ret t r k).state = c.state := by cases k <;> simp only [Cfg.ret, Cfg.goto] <;> (try split) <;> rfl
@[simp] theorem ret_now (c : Cfg) (t r k) : (c.ret t r k).now = c.now := by cases k <;> simp only [Cfg.ret, Cfg.goto] <;> (try split) <;> rfl
@[simp] theorem ret_requested (c : Cfg) (t r k) : (c.ret t r k).requested = c.requested := by cases k <;> simp only [Cfg.ret, Cfg.goto] <;> (try split) <;> rfl
@[simp] theorem ret_phase (c : Cfg) (t r k) : (c.ret t r k).phase = c.phase := by cases k <;> simp only [Cfg.ret, Cfg.goto] <;> (try split) <;> rfl
@[simp] theorem ret_subs (c : Cfg) (t r k) : (c.ret t r k).subs = c.subs := by cases k <;> simp only [Cfg.ret, Cfg.goto] <;> (try split) <;> rfl
/-- Where the caller goes on. -/
def retPc (r : Option Err) : Then → Pc
  | .client | .await _ => .idle
  | .first => if r.isSome then .stopping else .waiting
  | .second => .finished

theorem ret_pc (c : Cfg) (t r k) : (c.ret t r k).pc = upd c.pc t (retPc r k) := by
  cases k <;> simp only [Cfg.ret, Cfg.goto, retPc] <;> (try split) <;> rfl

theorem ret_log (c : Cfg) (t r k) : (c.ret t r k).log = c.log ∨ (c.ret t r k).log = (r, c.now) :: c.log := by
  cases k <;> simp only [Cfg.ret, Cfg.goto] <;> (try split) <;> simp

theorem ret_awaited (c : Cfg) (t r k) : (c.ret t r k).awaited = c.awaited ∨ ∃ e, k = .await e ∧ (c.ret t r k).awaited = e :: c.awaited := by
  cases k <;> simp only [Cfg.ret, Cfg.goto] <;> (try split) <;> simp

theorem ret_stopped (c : Cfg) (t r k) :
    (c.ret t r k).stopped = c.stopped ∨ (c.ret t r k).stopped = (t, c.phase t) :: c.stopped ∧ r.isSome ∧ k = .second := by
  cases k <;> simp only [Cfg.ret, Cfg.goto] <;> (try split) <;> simp_all

theorem retPc_ne_cas {r k e k'} : retPc r k ≠ .cas e k' := by cases k <;> simp only [retPc] <;> (try split) <;> simp

@[simp] theorem subscribe_state (c : Cfg) (w) : (c.subscribe w).state = c.state := by simp only [Cfg.subscribe]; split <;> simp_all
@[simp] theorem subscribe_now (c : Cfg) (w) : (c.subscribe w).now = c.now := by simp only [Cfg.subscribe]; split <;> rfl
@[simp] theorem subscribe_requested (c : Cfg) (w) : (c.subscribe w).requested = c.requested := by simp only [Cfg.subscribe]; split <;> rfl
@[simp] theorem subscribe_log (c : Cfg) (w) : (c.subscribe w).log = c.log := by simp only [Cfg.subscribe]; split <;> rfl
@[simp] theorem subscribe_awaited (c : Cfg) (w) : (c.subscribe w).awaited = c.awaited := by simp only [Cfg.subscribe]; split <;> rfl
@[simp] theorem subscribe_stopped (c : Cfg) (w) : (c.subscribe w).stopped = c.stopped := by simp only [Cfg.subscribe]; split <;> rfl
@[simp] theorem subscribe_pc (c : Cfg) (w) : (c.subscribe w).pc = c.pc := by simp only [Cfg.subscribe]; split <;> rfl

/-- The first error stays. -/
theorem step_state {D c c' e} (hs : Step D c c') (h : c.state = some e) : c'.state = some e := by
  cases hs <;> simp_all [Cfg.goto, Cfg.unsubscribe]

/-- An error has been requested, or the deadline has passed. -/
def Origin (D : Option ℕ) (c : Cfg) (e : Err) : Prop := e ∈ c.requested ∨ e = .timeout ∧ ∃ d, D = some d ∧ d ≤ c.now

theorem step_origin {D c c' e} (hs : Step D c c') (h : Origin D c e) : Origin D c' e := by
  rcases h with h | ⟨h, d, hd, hn⟩
  · left; cases hs <;> simp_all [Cfg.goto, Cfg.unsubscribe]
  · refine .inr ⟨h, d, hd, ?_⟩
    cases hs <;> simp only [ret_now, subscribe_now, Cfg.goto, Cfg.unsubscribe] <;> omega

/-- Who can be at the `compare_exchange` after a step. -/
theorem step_cas {D c c' t e k} (hs : Step D c c') (h : c'.pc t = .cas e k) : c.pc t = .cas e k ∨ Origin D c' e := by
  cases hs <;> simp only [ret_pc, Cfg.goto, Cfg.unsubscribe, subscribe_pc, upd] at h <;> (try split at h) <;>
    simp_all [Origin, Cfg.goto, retPc_ne_cas]

structure Hist (D : Option ℕ) (c : Cfg) : Prop where
  logE : ∀ e n, (some e, n) ∈ c.log → c.state = some e
  logN : ∀ n, (none, n) ∈ c.log → ∀ d, D = some d → n < d
  stp : ∀ w p, (w, p) ∈ c.stopped → c.state ≠ none ∧ c.pc w = .finished
  once : (c.stopped.map Prod.fst).Nodup
  orig : ∀ e, c.state = some e → Origin D c e
  casO : ∀ t e k, c.pc t = .cas e k → Origin D c e
  aw : ∀ e, e ∈ c.awaited → c.state ≠ none

theorem state_ne {D c c'} (hs : Step D c c') (h : c.state ≠ none) : c'.state ≠ none := by
  obtain ⟨e, he⟩ := Option.ne_none_iff_exists'.1 h
  rw [step_state hs he]; simp

theorem hist_init (D) : Hist D .init := by
  constructor <;> simp [Cfg.init]

/-- A watcher that has finished stays so. -/
theorem step_finished {D c c' w} (hs : Step D c c') (h : c.pc w = .finished) : c'.pc w = .finished := by
  cases hs <;> simp only [ret_pc, Cfg.goto, Cfg.unsubscribe, subscribe_pc, upd] <;> (try split) <;> simp_all [Pc.free]

/-- What a step adds to the results. -/
theorem step_log {D c c' r n} (hs : Step D c c') (h : (r, n) ∈ c'.log) :
    (r, n) ∈ c.log ∨ n = c.now ∧ (r = none → ∀ d, D = some d → n < d) ∧ (∀ e, r = some e → c.state = some e ∨ ∃ t r x k, c.pc t = .setSend e r x k) := by
  have key : ∀ (c0 : Cfg) t r0 k, c0.log = c.log → c0.now = c.now → (r, n) ∈ (c0.ret t r0 k).log → (r, n) ∈ c.log ∨ r = r0 ∧ n = c.now := by
    intro c0 t r0 k h1 h2 h3
    rcases ret_log c0 t r0 k with h4 | h4 <;> rw [h4] at h3
    · exact .inl (h1 ▸ h3)
    · rcases List.mem_cons.1 h3 with h5 | h5
      · cases h5; exact .inr ⟨rfl, h2⟩
      · exact .inl (h1 ▸ h5)
  cases hs with
  | @chkErr t k e hp hst =>
    rcases key c t _ k rfl rfl h with h1 | ⟨rfl, rfl⟩
    · exact .inl h1
    · exact .inr ⟨rfl, by simp, by simp [hst]⟩
  | @load t k e hp hst =>
    rcases key c t _ k rfl rfl h with h1 | ⟨rfl, rfl⟩
    · exact .inl h1
    · exact .inr ⟨rfl, by simp, by simp [hst]⟩
  | @chkTimely t k hp hn =>
    rcases key c t _ k rfl rfl h with h1 | ⟨rfl, rfl⟩
    · exact .inl h1
    · exact .inr ⟨rfl, fun _ => hn, by simp⟩
  | @unlock t e kept k hp =>
    rcases key { c with subs := kept, locked := false } t _ k rfl rfl h with h1 | ⟨rfl, rfl⟩
    · exact .inl h1
    · refine .inr ⟨rfl, by simp, ?_⟩
      intro e' he'
      cases he'
      exact .inr ⟨t, _, _, _, hp⟩
  | spawn => exact .inl (by simpa [Cfg.goto] using h)
  | _ => exact .inl h

/-- What a step adds to the calls of `on_stop`. -/
theorem step_stopped {D c c'} (hi : Inv D c) (hs : Step D c c') :
    c'.stopped = c.stopped ∨ ∃ w, c'.stopped = (w, c.phase w) :: c.stopped ∧ c.state ≠ none ∧ (c.pc w ≠ .finished ∧ c.pc w ≠ .gotDone) ∧ c'.pc w = .finished := by
  have key : ∀ (c0 : Cfg) t r0 k, c0.stopped = c.stopped → c0.phase = c.phase → c.state ≠ none ∨ r0 = none → c.pc t ≠ .finished ∧ c.pc t ≠ .gotDone →
      (c0.ret t r0 k).stopped = c.stopped ∨ ∃ w, (c0.ret t r0 k).stopped = (w, c.phase w) :: c.stopped ∧ c.state ≠ none ∧ (c.pc w ≠ .finished ∧ c.pc w ≠ .gotDone) ∧ (c0.ret t r0 k).pc w = .finished := by
    intro c0 t r0 k h1 h2 h3 h4
    rcases ret_stopped c0 t r0 k with h5 | ⟨h5, h6, rfl⟩
    · exact .inl (h5.trans h1)
    · refine .inr ⟨t, by rw [h5, h1, h2], ?_, h4, by rw [ret_pc, upd_self]; rfl⟩
      rcases h3 with h3 | rfl
      · exact h3
      · simp at h6
  cases hs with
  | @chkErr t k e hp hst => exact key c t _ k rfl rfl (by simp [hst]) (by simp [hp])
  | @load t k e hp hst => exact key c t _ k rfl rfl (by simp [hst]) (by simp [hp])
  | @chkTimely t k hp hn => exact key c t _ k rfl rfl (by simp) (by simp [hp])
  | @unlock t e kept k hp => exact key { c with subs := kept, locked := false } t _ k rfl rfl (.inl (by rw [hi.winS _ _ _ _ _ hp]; simp)) (by simp [hp])
  | @stop w hp hl => exact .inr ⟨w, rfl, hi.gotStop w (by simp [hp]), by simp [hp], by simp [Cfg.goto, upd]⟩
  | spawn => exact .inl (by simp [Cfg.goto])
  | _ => exact .inl rfl

theorem step_awaited {D c c' e} (hi : Inv D c) (hs : Step D c c') (h : e ∈ c'.awaited) : e ∈ c.awaited ∨ c'.state ≠ none ∨ ∃ t k, c.pc t = .chkTime k ∧ k = .await e := by
  have key : ∀ (c0 : Cfg) t r0 k, c0.awaited = c.awaited → e ∈ (c0.ret t r0 k).awaited → e ∈ c.awaited ∨ k = .await e := by
    intro c0 t r0 k h1 h2
    rcases ret_awaited c0 t r0 k with h3 | ⟨e', h3, h4⟩
    · exact .inl (by rw [← h1, ← h3]; exact h2)
    · rw [h4] at h2
      rcases List.mem_cons.1 h2 with rfl | h5
      · exact .inr h3
      · exact .inl (h1 ▸ h5)
  cases hs with
  | @chkErr t k e hp hst => exact .inr (.inl (by simp [hst]))
  | @load t k e hp hst => exact .inr (.inl (by simp [hst]))
  | @chkTimely t k hp hn =>
    rcases key c t _ k rfl h with h1 | rfl
    · exact .inl h1
    · exact .inr (.inr ⟨t, _, hp, rfl⟩)
  | @unlock t e kept k hp => exact .inr (.inl (by simp [hi.winS _ _ _ _ _ hp]))
  | spawn => exact .inl (by simpa [Cfg.goto] using h)
  | _ => exact .inl h

/-- `await_with_resource_limits` does not check the limits after the work. -/
def NoAwaitChk (c : Cfg) : Prop := ∀ t e, c.pc t ≠ .chk (.await e) ∧ c.pc t ≠ .chkTime (.await e)

theorem step_noAwaitChk {D c c'} (hs : Step D c c') (h : NoAwaitChk c) : NoAwaitChk c' := by
  intro t e
  have := h t e
  have hr : ∀ r k, retPc r k ≠ .chk (.await e) ∧ retPc r k ≠ .chkTime (.await e) := by
    intro r k; cases k <;> simp only [retPc] <;> (try split) <;> simp
  cases hs with
  | @chkOk u k hp hst =>
    simp only [Cfg.goto, upd]
    split
    · subst t
      refine ⟨by simp, ?_⟩
      intro hk
      cases hk
      exact this.1 hp
    · exact this
  | _ =>
    simp only [ret_pc, Cfg.goto, Cfg.unsubscribe, subscribe_pc, upd]
    try (split <;> first | exact this | exact hr _ _ | simp)
    try exact this

theorem hist_step {D c c'} (hi : Inv D c) (hn : NoAwaitChk c) (h : Hist D c) (hs : Step D c c') : Hist D c' := by
  constructor
  · intro e n he
    rcases step_log hs he with h1 | ⟨_, _, h1⟩
    · exact step_state hs (h.logE e n h1)
    · rcases h1 e rfl with h2 | ⟨t, r, x, k, h2⟩
      · exact step_state hs h2
      · exact step_state hs (hi.winS _ _ _ _ _ h2)
  · intro n he
    rcases step_log hs he with h1 | ⟨_, h1, _⟩
    · exact h.logN n h1
    · exact h1 rfl
  · intro w p hw
    rcases step_stopped hi hs with h1 | ⟨v, h1, h2, _, h3⟩
    · rw [h1] at hw
      exact ⟨state_ne hs (h.stp w p hw).1, step_finished hs (h.stp w p hw).2⟩
    · rw [h1] at hw
      rcases List.mem_cons.1 hw with h4 | h4
      · cases h4; exact ⟨state_ne hs h2, h3⟩
      · exact ⟨state_ne hs (h.stp w p h4).1, step_finished hs (h.stp w p h4).2⟩
  · rcases step_stopped hi hs with h1 | ⟨v, h1, h2, h4, h3⟩
    · rw [h1]; exact h.once
    · rw [h1, List.map_cons, List.nodup_cons]
      refine ⟨?_, h.once⟩
      intro hv
      obtain ⟨⟨w, p⟩, hw, rfl⟩ := List.mem_map.1 hv
      exact h4.1 (h.stp w p hw).2
  · intro e he
    by_cases hc : c.state = none
    · have : ∃ t k, c.pc t = .cas e k := by
        cases hs <;> simp_all [Cfg.goto, Cfg.unsubscribe]
        exact ⟨_, _, by assumption⟩
      obtain ⟨t, k, ht⟩ := this
      exact step_origin hs (h.casO t e k ht)
    · obtain ⟨e', he'⟩ := Option.ne_none_iff_exists'.1 hc
      have := step_state hs he'
      rw [he] at this
      cases this
      exact step_origin hs (h.orig e he')
  · intro t e k ht
    rcases step_cas hs ht with h1 | h1
    · exact step_origin hs (h.casO t e k h1)
    · exact h1
  · intro e he
    rcases step_awaited hi hs he with h1 | h1 | ⟨t, k, h1, rfl⟩
    · exact state_ne hs (h.aw e h1)
    · exact h1
    · exact absurd h1 (hn t e).2

theorem reachable_inv {D c} (h : Reachable D c) : Inv D c ∧ NoAwaitChk c ∧ Hist D c := by
  induction h with
  | refl => exact ⟨inv_init D, by simp [NoAwaitChk, Cfg.init], hist_init D⟩
  | tail _ hs ih => exact ⟨inv_step ih.1 hs, step_noAwaitChk hs ih.2.1, hist_step ih.1 ih.2.1 ih.2.2 hs⟩

end Caesar.Limits
