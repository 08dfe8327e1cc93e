import Verif.Driver.LimitsHistory

/-!
# C76: Resource limits

Any number of threads share the limits. The first error is the one that everybody is told. No watcher misses it, nobody blocks while the others are notified, and `on_stop` is called only after an error.
-/

namespace Caesar.Limits

open Relation

/-- The threads go on. -/
abbrev Steps (D : Option ℕ) : Cfg → Cfg → Prop := ReflTransGen (Step D)

/-- **First error**: once there is an error, it is never changed or removed. -/
theorem C76_first {D c c' e} (hs : Steps D c c') (h : c.state = some e) : c'.state = some e := by
  induction hs with
  | refl => exact h
  | tail _ h1 ih => exact step_state h1 ih

/-- **Agreement**: all the calls of `check_limits`, `set_error` and `interrupted_error` that have returned an error have returned the same one, the one that is stored. -/
theorem C76_agree {D c} (h : Reachable D c) {e n} (he : (some e, n) ∈ c.log) : c.state = some e ∧ ∀ e' n', (some e', n') ∈ c.log → e' = e := by
  have hh := (reachable_inv h).2.2
  refine ⟨hh.logE e n he, fun e' n' he' => ?_⟩
  exact Option.some.inj ((hh.logE e' n' he').symm.trans (hh.logE e n he))

/-- **Timely**: `check_limits` succeeds only before the deadline. -/
theorem C76_timely {D c} (h : Reachable D c) {n d} (hn : (none, n) ∈ c.log) (hd : D = some d) : n < d := (reachable_inv h).2.2.logN n hn d hd

/-- **Origin**: an error has been requested by a client, or it is a timeout and the deadline has passed. -/
theorem C76_origin {D c e} (h : Reachable D c) (he : c.state = some e) :
    e ∈ c.requested ∨ e = .timeout ∧ ∃ d, D = some d ∧ d ≤ c.now := (reachable_inv h).2.2.orig e he

/-- **No blocking**: the thread that notifies the subscribers can always go on, while it holds the lock and before. -/
theorem C76_no_block {D c t} (h : Reachable D c) (ht : (∃ e k, c.pc t = .setLock e k) ∨ ∃ e r x k, c.pc t = .setSend e r x k) :
    ∃ c', Step D c c' ∧ c'.pc t ≠ c.pc t := by
  have hi := (reachable_inv h).1
  rcases ht with ⟨e, k, ht⟩ | ⟨e, r, x, k, ht⟩
  · refine ⟨_, .lock ht ?_, by simp [Cfg.goto, upd, ht]⟩
    by_contra hl
    obtain ⟨u, hu⟩ := hi.lockIff (by simpa using hl)
    have := hi.uniq u t (sending_notifying hu) (by rw [ht]; rfl)
    subst this
    rw [ht] at hu; cases hu
  · cases r with
    | nil =>
      refine ⟨_, .unlock ht, ?_⟩
      rw [ret_pc, upd_self, ht]
      cases k <;> simp [retPc]
    | cons w r =>
      by_cases ha : c.alive w
      · exact ⟨_, .send ht ha (hi.emptyS _ _ _ _ _ ht w (by simp)), by simp [Cfg.goto, upd, ht]⟩
      · exact ⟨_, .sendErr ht (by simpa using ha), by simp [Cfg.goto, upd, ht]⟩

/-- All the subscribers can be notified while the other threads do nothing. -/
theorem notify_send {D e k t} : ∀ (r x : List ℕ) (c : Cfg), Reachable D c → c.pc t = .setSend e r x k →
    ∃ c', Steps D c c' ∧ (∀ u, (c'.pc u).notifying = false) ∧ (∀ u, u ≠ t → c'.pc u = c.pc u) ∧ c'.phase = c.phase := by
  intro r
  induction r with
  | nil =>
    intro x c h ht
    refine ⟨_, .single (.unlock ht), ?_, ?_, by simp⟩
    · intro u
      rw [ret_pc]
      simp only [upd]
      split
      · cases k <;> rfl
      · next hu =>
        by_contra hx
        exact hu ((reachable_inv h).1.uniq u t (by simpa using hx) (by rw [ht]; rfl))
    · intro u hu; rw [ret_pc, upd_ne _ _ hu]
  | cons w r ih =>
    intro x c h ht
    have hi := (reachable_inv h).1
    obtain ⟨x', c1, h1, h2, h3, h4⟩ : ∃ x' c1, Step D c c1 ∧ c1.pc t = .setSend e r x' k ∧ (∀ u, u ≠ t → c1.pc u = c.pc u) ∧ c1.phase = c.phase := by
      by_cases ha : c.alive w
      · exact ⟨_, _, .send ht ha (hi.emptyS _ _ _ _ _ ht w (by simp)), upd_self _ _ _, fun u hu => by simp [Cfg.goto, upd, hu], rfl⟩
      · exact ⟨_, _, .sendErr ht (by simpa using ha), upd_self _ _ _, fun u hu => by simp [Cfg.goto, upd, hu], rfl⟩
    obtain ⟨c2, g1, g2, g3, g4⟩ := ih x' c1 (h.tail h1) h2
    exact ⟨c2, g1.head h1, g2, fun u hu => (g3 u hu).trans (h3 u hu), g4.trans h4⟩

/-- **`set_error` returns**: whatever the other threads do in the meantime, from each state the thread that notifies can finish alone. -/
theorem C76_notifies {D c} (h : Reachable D c) :
    ∃ c', Steps D c c' ∧ (∀ u, (c'.pc u).notifying = false) ∧ (∀ u, (c.pc u).notifying = false → c'.pc u = c.pc u) ∧ c'.phase = c.phase := by
  by_cases hn : ∃ t, (c.pc t).notifying
  · obtain ⟨t, ht⟩ := hn
    have hi := (reachable_inv h).1
    cases hp : c.pc t with
    | setLock e k =>
      have hl : c.locked = false := by
        by_contra hl
        obtain ⟨u, hu⟩ := hi.lockIff (by simpa using hl)
        have := hi.uniq u t (sending_notifying hu) ht
        subst this
        rw [hp] at hu; cases hu
      have h1 : Step D c _ := .lock hp hl
      obtain ⟨c', g1, g2, g3, g4⟩ := notify_send (t := t) c.subs [] _ (h.tail h1) (upd_self _ _ _)
      refine ⟨c', g1.head h1, g2, fun u hu => ?_, g4⟩
      have : u ≠ t := by rintro rfl; rw [ht] at hu; cases hu
      rw [g3 u this]; simp [Cfg.goto, upd, this]
    | setSend e r x k =>
      obtain ⟨c', g1, g2, g3, g4⟩ := notify_send r x c h hp
      refine ⟨c', g1, g2, fun u hu => g3 u ?_, g4⟩
      rintro rfl; rw [ht] at hu; cases hu
    | _ => rw [hp] at ht; cases ht
  · push Not at hn
    exact ⟨c, .refl, fun u => by simpa using hn u, fun _ _ => rfl, rfl⟩

/-- **No lost notification**: if there is an error and nobody is about to send it, then it is in the channel of each watcher that waits. -/
theorem C76_delivered {D c w e} (h : Reachable D c) (hw : c.pc w = .waiting) (he : c.state = some e) (hn : ∀ u, (c.pc u).notifying = false) :
    c.buf w = some e := by
  rcases (reachable_inv h).1.deliver w e (by rw [hw]; rfl) he with h1 | ⟨y, k1, h1, _⟩ | ⟨y, r1, z, k1, h1, _⟩
  · exact h1
  · have := hn y; rw [h1] at this; cases this
  · have := hn y; rw [h1] at this; cases this

/-- **Each waiting watcher can stop the work**, and while the work is where it was: the message arrives, and then `on_stop` is called. -/
theorem C76_stops {D c w e} (h : Reachable D c) (hw : c.pc w = .waiting) (he : c.state = some e) :
    ∃ c', Steps D c c' ∧ (w, c.phase w) ∈ c'.stopped := by
  obtain ⟨c1, g1, g2, g3, g4⟩ := C76_notifies h
  have h1 : Reachable D c1 := h.trans g1
  have he1 := C76_first g1 he
  have hw1 : c1.pc w = .waiting := (g3 w (by rw [hw]; rfl)).trans hw
  have hb := C76_delivered h1 hw1 he1 g2
  have hl : c1.locked = false := by
    by_contra hl
    obtain ⟨u, hu⟩ := (reachable_inv h1).1.lockIff (by simpa using hl)
    have := sending_notifying hu
    simp [g2 u] at this
  let c2 : Cfg := { c1.goto w .gotStop with buf := upd c1.buf w none }
  have s2 : Step D c1 c2 := .recvStop hw1 hb
  let c3 : Cfg := (c2.unsubscribe w).goto w (.chk .second)
  have s3 : Step D c2 c3 := .recheck (by simp [c2, Cfg.goto, upd]) hl
  have s4 : Step D c3 (c3.ret w (some e) .second) := .chkErr (by simp [c3, Cfg.goto, upd]) he1
  refine ⟨_, ((g1.tail s2).tail s3).tail s4, ?_⟩
  have : c3.phase w = c.phase w := by rw [← g4]; rfl
  simp [Cfg.ret, this]

/-- A watcher that has received a message always calls `on_stop`: the second check cannot succeed. -/
theorem C76_message_stops {D c w} (h : Reachable D c) (hw : c.pc w = .gotStop ∨ c.pc w = .chk .second) : c.state ≠ none :=
  (reachable_inv h).1.gotStop w (hw.imp_right .inl)

/-- **No false stop**: `on_stop` is called only after an error, at most once for each watcher, and not by a watcher that has been told that the work is done. -/
theorem C76_on_stop {D c} (h : Reachable D c) :
    (∀ w p, (w, p) ∈ c.stopped → c.state ≠ none ∧ c.pc w = .finished) ∧ (c.stopped.map Prod.fst).Nodup ∧
      ∀ w, c.pc w = .gotDone → ∀ c', Steps D c c' → ∀ p, (w, p) ∉ c'.stopped := by
  refine ⟨(reachable_inv h).2.2.stp, (reachable_inv h).2.2.once, ?_⟩
  intro w hw c' hs
  -- the watcher is at `gotDone` or has finished, and it is not among the stopped ones
  suffices hk : (c'.pc w = .gotDone ∨ c'.pc w = .finished) ∧ ∀ p, (w, p) ∉ c'.stopped from hk.2
  induction hs with
  | refl => exact ⟨.inl hw, fun p hp => by have := ((reachable_inv h).2.2.stp w p hp).2; rw [hw] at this; cases this⟩
  | @tail b d hb hd ih =>
    have hr : Reachable D b := h.trans hb
    constructor
    · rcases ih.1 with h1 | h1
      · have ha : ∀ t, b.pc t ≠ .gotDone → w ≠ t := by rintro t ht rfl; exact ht h1
        cases hd with
        | @finish v hp hl =>
          by_cases hv : w = v
          · subst hv; right; simp [Cfg.goto, upd]
          · left; exact (upd_ne _ _ hv).trans h1
        | tick => exact .inl h1
        | begin => exact .inl h1
        | done => exact .inl h1
        | @check t hf => left; rw [show (b.goto t _).pc w = b.pc w from upd_ne _ _ (by rintro rfl; rw [h1] at hf; cases hf)]; exact h1
        | @cancel t hf => left; exact (upd_ne _ _ (by rintro rfl; rw [h1] at hf; cases hf)).trans h1
        | @await t _ hf => left; exact (upd_ne _ _ (by rintro rfl; rw [h1] at hf; cases hf)).trans h1
        | @spawn v hp => left; exact (upd_ne _ _ (ha v (by rw [hp]; simp))).trans (by rw [subscribe_pc]; exact h1)
        | chkErr hp | chkTimely hp | load hp | unlock hp =>
          left; rw [ret_pc]; exact (upd_ne _ _ (ha _ (by rw [hp]; simp))).trans h1
        | chkOk hp | chkLate hp | casOk hp | casFail hp | lock hp | send hp | sendErr hp | stop hp | recvDone hp | recvStop hp | recheck hp =>
          left; exact (upd_ne _ _ (ha _ (by rw [hp]; simp))).trans h1
      · exact .inr (step_finished hd h1)
    · intro p hp
      rcases step_stopped (reachable_inv hr).1 hd with h1 | ⟨v, h1, _, h3, h4⟩
      · rw [h1] at hp; exact ih.2 p hp
      · rw [h1] at hp
        rcases List.mem_cons.1 hp with h5 | h5
        · cases h5
          rcases ih.1 with h6 | h6
          · exact h3.2 h6
          · exact h3.1 h6
        · exact ih.2 p h5

/-- **No leak**: a watcher that has finished is not subscribed any more, and nobody is subscribed twice. -/
theorem C76_unsubscribed {D c} (h : Reachable D c) : c.subs.Nodup ∧ ∀ w, c.pc w = .finished → w ∉ c.subs := by
  have hi := (reachable_inv h).1
  refine ⟨hi.nodup, fun w hw hs => ?_⟩
  rcases hi.subL w hs with h1 | h1 <;> rw [hw] at h1 <;> cases h1

/-! ### What does not hold -/

theorem reach_init (D) : Reachable D .init := .refl

theorem Reachable.next {D c c'} (h : Reachable D c) (hs : Step D c c') : Reachable D c' := h.tail hs

/-- A watcher with a deadline 1 has been started. -/
def w1 : Cfg := (Cfg.init.subscribe 0).goto 0 (.chk .first)
def w2 : Cfg := w1.goto 0 (.chkTime .first)
/-- It waits. -/
def w3 : Cfg := w2.ret 0 none .first

theorem reach_w3 : Reachable (some 1) w3 := by
  refine (((reach_init (some 1)).next (c' := w1) (.spawn rfl rfl)).next (c' := w2) (.chkOk rfl rfl)).next (.chkTimely rfl ?_)
  intro d hd
  cases hd
  decide

/-- The guarded check begins, and time passes. -/
def w4 : Cfg := { w3 with phase := upd w3.phase 0 .during }
def w5 : Cfg := { w4 with now := w4.now + 1 }

theorem reach_w5 : Reachable (some 1) w5 := (reach_w3.next (.begin (by decide) rfl)).next (.tick (c := w4) (n := 1))

/-- Another thread cancels the work. -/
def w6 : Cfg := { w5.goto 1 (.cas .interrupted .client) with requested := [.interrupted] }
def w7 : Cfg := { w6.goto 1 (.setLock .interrupted .client) with state := some .interrupted }

theorem reach_w7 : Reachable (some 1) w7 := (reach_w5.next (.cancel (t := 1) rfl)).next (.casOk rfl rfl)

/-- The subscriber is notified. -/
def w8 : Cfg := { w7.goto 1 (.setSend .interrupted [0] [] .client) with locked := true }
def w9 : Cfg := { w8.goto 1 (.setSend .interrupted [] [0] .client) with buf := upd w8.buf 0 (some .interrupted) }
def w10 : Cfg := ({ w9 with subs := [0], locked := false } : Cfg).ret 1 (some .interrupted) .client

theorem reach_w8 : Reachable (some 1) w8 := reach_w7.next (.lock rfl rfl)

theorem reach_w10 : Reachable (some 1) w10 :=
  (reach_w8.next (c' := w9) (.send (t := 1) (w := 0) (rest := []) (kept := []) (k := .client) rfl rfl rfl)).next (.unlock rfl)

/-- The claim that a watcher is told when the deadline has passed. -/
def C76_full_deadline : Prop := ∀ d c w, Reachable (some d) c → d ≤ c.now → c.pc w = .waiting → c.state ≠ none

/-- It is false: nobody waits for the deadline; it is noticed only by the next call of `check_limits`, or by the hard timeout half a second later. -/
theorem C76_deadline_not_full : ¬ C76_full_deadline := fun h => h 1 w5 0 reach_w5 (by decide) rfl rfl

/-- The claim that `on_stop`, which interrupts the solver, is called while the guarded check runs. -/
def C76_full_interrupt : Prop := ∀ D c w p, Reachable D c → (w, p) ∈ c.stopped → p = .during

def v1 : Cfg := { Cfg.init.goto 1 (.cas .interrupted .client) with requested := [.interrupted] }
def v2 : Cfg := { v1.goto 1 (.setLock .interrupted .client) with state := some .interrupted }
def v3 : Cfg := (v2.subscribe 0).goto 0 (.chk .first)
def v4 : Cfg := v3.ret 0 (some .interrupted) .first
def v5 : Cfg := { (v4.unsubscribe 0).goto 0 .finished with stopped := [(0, .before)] }

theorem reach_v5 : Reachable none v5 :=
  (((((reach_init none).next (c' := v1) (.cancel (t := 1) rfl)).next (c' := v2) (.casOk rfl rfl)).next (c' := v3) (.spawn rfl rfl)).next (c' := v4) (.chkErr rfl rfl)).next (.stop rfl rfl)

/-- It is false: the watcher can call `on_stop` before the check has begun. The interrupt is then lost, unless the solver remembers it, and the watcher has finished. -/
theorem C76_interrupt_not_full : ¬ C76_full_interrupt := by
  intro h
  have := h none v5 0 .before reach_v5 (by simp [v5])
  cases this

def u1 : Cfg := { w10 with phase := upd w10.phase 0 .after }
def u2 : Cfg := { u1.goto 0 .gotStop with buf := upd u1.buf 0 none }
def u3 : Cfg := (u2.unsubscribe 0).goto 0 (.chk .second)
def u4 : Cfg := u3.ret 0 (some .interrupted) .second

theorem reach_u4 : Reachable (some 1) u4 :=
  (((reach_w10.next (c' := u1) (.done rfl)).next (c' := u2) (.recvStop (w := 0) (e := .interrupted) rfl rfl)).next (c' := u3) (.recheck rfl rfl)).next (.chkErr rfl rfl)

/-- It can also be called after the check: if both messages are there, `select!` may take the error. -/
theorem C76_interrupt_late : ∃ c, Reachable (some 1) c ∧ (0, .after) ∈ c.stopped := ⟨u4, reach_u4, by simp [u4, Cfg.ret]; left; rfl⟩

/-- The claim that `await_with_resource_limits` returns the error which all the others get. -/
def C76_full_await : Prop := ∀ D c e, Reachable D c → e ∈ c.awaited → c.state = some e

def x3 : Cfg := { v2.goto 2 (.cas .timeout (.await .timeout)) with requested := .timeout :: v2.requested }
def x4 : Cfg := x3.goto 2 (.load (.await .timeout))
def x5 : Cfg := x4.ret 2 (some .interrupted) (.await .timeout)

theorem reach_x5 : Reachable none x5 :=
  (((((reach_init none).next (c' := v1) (.cancel (t := 1) rfl)).next (c' := v2) (.casOk rfl rfl)).next (c' := x3)
    (.await (t := 2) (e := .timeout) rfl (by decide))).next (c' := x4) (.casFail rfl (by decide))).next (.load rfl rfl)

/-- It is false: work that was cancelled and that does not stop before the hard timeout is reported as a timeout. -/
theorem C76_await_not_full : ¬ C76_full_await := by
  intro h
  have := h none x5 .timeout reach_x5 (by simp [x5, Cfg.ret])
  cases this

/-- There is an error, but maybe another one. -/
theorem C76_await_partial {D c e} (h : Reachable D c) (he : e ∈ c.awaited) : c.state ≠ none := (reachable_inv h).2.2.aw e he

/-! ### The hypotheses are met -/

/-- A thread is notifying a watcher that waits. -/
example : ∃ c', Step (some 1) w8 c' ∧ c'.pc 1 ≠ w8.pc 1 := C76_no_block reach_w8 (.inr ⟨_, _, _, _, rfl⟩)

example : ∃ c', Steps (some 1) w7 c' ∧ (0, Phase.during) ∈ c'.stopped := C76_stops (e := .interrupted) reach_w7 rfl rfl

example : w10.buf 0 = some .interrupted := C76_delivered reach_w10 rfl rfl (by
  intro u
  match u with
  | 0 => rfl
  | 1 => rfl
  | u + 2 => rfl)

example : w10.state = some .interrupted := (C76_agree (n := 1) reach_w10 (List.mem_singleton.2 rfl)).1

example : Origin (some 1) w10 .interrupted := C76_origin reach_w10 rfl

/-- A client checks the limits in time. -/
def y3 : Cfg := (((w3.goto 1 (.chk .client)).goto 1 (.chkTime .client)).ret 1 none .client)

theorem reach_y3 : Reachable (some 1) y3 :=
  ((reach_w3.next (.check (t := 1) rfl)).next (.chkOk (t := 1) (k := .client) rfl rfl)).next (.chkTimely (t := 1) (k := .client) rfl (by intro d hd; cases hd; decide))

example : 0 < 1 := C76_timely (n := 0) reach_y3 (List.mem_singleton.2 rfl) rfl

/-- The work is done before an error: the watcher does not call `on_stop`, even if the work is cancelled now. -/
def z5 : Cfg := { w4 with phase := upd w4.phase 0 .after }
def z6 : Cfg := z5.goto 0 .gotDone

theorem reach_z6 : Reachable (some 1) z6 := ((reach_w3.next (c' := w4) (.begin (by decide) rfl)).next (c' := z5) (.done rfl)).next (.recvDone rfl rfl)

example : ∀ c', Steps (some 1) z6 c' → ∀ p, (0, p) ∉ c'.stopped := (C76_on_stop reach_z6).2.2 0 rfl

example : u4.pc 0 = .finished ∧ 0 ∉ u4.subs := ⟨rfl, (C76_unsubscribed reach_u4).2 0 rfl⟩

example : u3.state ≠ none := C76_message_stops (w := 0)
  (((reach_w10.next (c' := u1) (.done rfl)).next (c' := u2) (.recvStop (w := 0) (e := .interrupted) rfl rfl)).next (c' := u3) (.recheck rfl rfl)) (.inr rfl)

example : x5.state ≠ none := C76_await_partial (e := .timeout) reach_x5 (by simp [x5, Cfg.ret])

end Caesar.Limits
