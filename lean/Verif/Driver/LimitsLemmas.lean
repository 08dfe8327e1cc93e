import Verif.Driver.Limits
import Mathlib.Data.List.Basic

/-! Invariants of the shared resource limits. -/

namespace Caesar.Limits

/-- The watcher `p` has a channel from which it has not received, and it has not unsubscribed. -/
def Pc.listening : Pc → Bool
  | .chk .first | .chkTime .first | .cas _ .first | .setLock _ .first | .setSend _ _ _ .first | .load .first | .stopping | .waiting | .gotDone => true
  | _ => false

/-- The thread has set the error and has not yet notified all the subscribers. -/
def Pc.notifying : Pc → Bool
  | .setLock _ _ | .setSend _ _ _ _ => true
  | _ => false

def Pc.sending : Pc → Bool
  | .setSend _ _ _ _ => true
  | _ => false

/-- Points in the second check that can be reached only if the first check of the state succeeds. -/
def Pc.secondOk : Pc → Bool
  | .chkTime .second | .cas _ .second | .setLock _ .second | .setSend _ _ _ .second | .load .second => true
  | _ => false

structure Inv (D : Option ℕ) (c : Cfg) : Prop where
  lock : ∀ t, (c.pc t).sending → c.locked = true
  lockIff : c.locked = true → ∃ t, (c.pc t).sending
  uniq : ∀ t u, (c.pc t).notifying → (c.pc u).notifying → t = u
  winL : ∀ t e k, c.pc t = .setLock e k → c.state = some e
  winS : ∀ t e r x k, c.pc t = .setSend e r x k → c.state = some e
  emp : c.state = none → ∀ w, c.buf w = none
  msg : ∀ w e, c.buf w = some e → c.state = some e
  ld : ∀ t k, c.pc t = .load k → c.state ≠ none
  nodup : c.subs.Nodup
  subL : ∀ w, w ∈ c.subs → (c.pc w).listening ∨ c.pc w = .gotStop
  quiet : ∀ w, (c.pc w).listening → c.state = none → w ∈ c.subs
  deliver : ∀ w e, (c.pc w).listening → c.state = some e → c.buf w = some e ∨ (∃ t k, c.pc t = .setLock e k ∧ w ∈ c.subs) ∨ (∃ t r x k, c.pc t = .setSend e r x k ∧ w ∈ r)
  emptyL : ∀ t e k, c.pc t = .setLock e k → ∀ w ∈ c.subs, c.buf w = none
  emptyS : ∀ t e r x k, c.pc t = .setSend e r x k → ∀ w ∈ r, c.buf w = none
  sub : ∀ t e r x k, c.pc t = .setSend e r x k → (x ++ r).Sublist c.subs
  second : ∀ t, (c.pc t).secondOk = false
  gotStop : ∀ t, c.pc t = .gotStop ∨ c.pc t = .chk .second ∨ c.pc t = .stopping → c.state ≠ none

theorem inv_init (D) : Inv D .init := by
  constructor <;> simp [Cfg.init, Pc.sending, Pc.notifying, Pc.listening, Pc.secondOk]

theorem upd_self {α : Type} (f : ℕ → α) (t : ℕ) (a : α) : upd f t a t = a := by simp [upd]

theorem upd_ne {α : Type} (f : ℕ → α) {t x : ℕ} (a : α) (h : x ≠ t) : upd f t a x = f x := by simp [upd, h]

theorem inv_congr {D c c'} (h : Inv D c) (h1 : c'.state = c.state) (h2 : c'.subs = c.subs) (h3 : c'.locked = c.locked) (h4 : c'.buf = c.buf)
    (h5 : c'.pc = c.pc) : Inv D c' := by
  obtain ⟨s, su, l, b, ph, pc, n, lo, aw, rq, st⟩ := c
  obtain ⟨s', su', l', b', ph', pc', n', lo', aw', rq', st'⟩ := c'
  simp only at h1 h2 h3 h4 h5
  subst h1 h2 h3 h4 h5
  exact ⟨h.1, h.2, h.3, h.4, h.5, h.6, h.7, h.8, h.9, h.10, h.11, h.12, h.13, h.14, h.15, h.16, h.17⟩

theorem sending_notifying {p : Pc} (h : p.sending) : p.notifying := by
  cases p <;> simp_all [Pc.sending, Pc.notifying]

theorem setLock_notifying {p : Pc} {e k} (h : p = .setLock e k) : p.notifying := by subst h; rfl

theorem setSend_notifying {p : Pc} {e r x k} (h : p = .setSend e r x k) : p.notifying := by subst h; rfl

/-- A thread that does not notify goes on. -/
theorem inv_goto {D c t p'} (h : Inv D c) (hp : (c.pc t).notifying = false) (hp' : p'.notifying = false)
    (hl : p'.listening = (c.pc t).listening) (hg : c.pc t ≠ .gotStop)
    (hld : ∀ k, p' = .load k → c.state ≠ none) (hsec : p'.secondOk = false)
    (hgs : p' = .gotStop ∨ p' = .chk .second ∨ p' = .stopping → c.state ≠ none) : Inv D (c.goto t p') := by
  have hs : (c.pc t).sending = false := by
    by_contra hx
    have := sending_notifying (p := c.pc t) (by simpa using hx)
    simp [hp] at this
  have hs' : p'.sending = false := by
    by_contra hx
    have := sending_notifying (p := p') (by simpa using hx)
    simp [hp'] at this
  have key : ∀ x, ((c.goto t p').pc x).notifying = (c.pc x).notifying := by
    intro x; simp only [Cfg.goto, upd]; split <;> simp_all
  have key2 : ∀ x, ((c.goto t p').pc x).sending = (c.pc x).sending := by
    intro x; simp only [Cfg.goto, upd]; split <;> simp_all
  have key3 : ∀ x, ((c.goto t p').pc x).listening = (c.pc x).listening := by
    intro x; simp only [Cfg.goto, upd]; split <;> simp_all
  have keyN : ∀ x, (c.pc x).notifying → (c.goto t p').pc x = c.pc x := by
    intro x hx; simp only [Cfg.goto, upd]; split
    · subst x; simp [hp] at hx
    · rfl
  have keyN' : ∀ x q, q.notifying → ((c.goto t p').pc x = q ↔ c.pc x = q) := by
    intro x q hq
    constructor
    · intro he
      have : (c.pc x).notifying := by rw [← key x, he]; exact hq
      rw [← keyN x this]; exact he
    · intro he
      rw [keyN x (by rw [he]; exact hq)]; exact he
  constructor
  · intro x hx; exact h.lock x (by rw [← key2]; exact hx)
  · intro hx; obtain ⟨x, hx⟩ := h.lockIff hx; exact ⟨x, by rw [key2]; exact hx⟩
  · intro x y hx hy; exact h.uniq x y (by rw [← key]; exact hx) (by rw [← key]; exact hy)
  · intro x e k hx; exact h.winL x e k ((keyN' x _ rfl).1 hx)
  · intro x e r y k hx; exact h.winS x e r y k ((keyN' x _ rfl).1 hx)
  · exact h.emp
  · exact h.msg
  · intro x k hx
    simp only [Cfg.goto, upd] at hx ⊢
    split at hx
    · exact hld k hx
    · exact h.ld x k hx
  · exact h.nodup
  · intro w hw
    rw [key3]
    rcases h.subL w hw with h1 | h1
    · exact .inl h1
    · refine .inr ?_
      simp only [Cfg.goto, upd]; split
      · subst w; exact absurd h1 hg
      · exact h1
  · intro w hw; exact h.quiet w (by rw [← key3]; exact hw)
  · intro w e hw he
    rcases h.deliver w e (by rw [← key3]; exact hw) he with h1 | ⟨x, k, h1, h2⟩ | ⟨x, r, y, k, h1, h2⟩
    · exact .inl h1
    · exact .inr (.inl ⟨x, k, (keyN' x _ rfl).2 h1, h2⟩)
    · exact .inr (.inr ⟨x, r, y, k, (keyN' x _ rfl).2 h1, h2⟩)
  · intro x e k hx; exact h.emptyL x e k ((keyN' x _ rfl).1 hx)
  · intro x e r y k hx; exact h.emptyS x e r y k ((keyN' x _ rfl).1 hx)
  · intro x e r y k hx; exact h.sub x e r y k ((keyN' x _ rfl).1 hx)
  · intro x
    simp only [Cfg.goto, upd]; split
    · exact hsec
    · exact h.second x
  · intro x hx
    simp only [Cfg.goto, upd] at hx ⊢
    split at hx
    · exact hgs hx
    · exact h.gotStop x hx

/-- The result of a check is used. -/
theorem inv_ret {D c t r k} (h : Inv D c) (hp : (c.pc t).notifying = false)
    (hl : (c.pc t).listening = (match k with | .first => true | _ => false)) (hg : c.pc t ≠ .gotStop) (hr : r.isSome → c.state ≠ none) :
    Inv D (c.ret t r k) := by
  cases k with
  | client => exact inv_congr (inv_goto (p' := .idle) h hp rfl (by rw [hl]; rfl) hg (by simp) rfl (by simp)) rfl rfl rfl rfl rfl
  | await e => exact inv_congr (inv_goto (p' := .idle) h hp rfl (by rw [hl]; rfl) hg (by simp) rfl (by simp)) rfl rfl rfl rfl rfl
  | first =>
    simp only [Cfg.ret]
    split
    · next h1 => exact inv_goto h hp rfl (by rw [hl]; rfl) hg (by simp) rfl (fun _ => hr h1)
    · exact inv_goto h hp rfl (by rw [hl]; rfl) hg (by simp) rfl (by simp)
  | second =>
    have := inv_goto (p' := .finished) h hp rfl (by rw [hl]; rfl) hg (by simp) rfl (by simp)
    simp only [Cfg.ret]
    split
    · exact inv_congr this rfl rfl rfl rfl rfl
    · exact this

theorem unlocked_sending {D c} (h : Inv D c) (hl : c.locked = false) (t : ℕ) : (c.pc t).sending = false := by
  by_contra hx
  have := h.lock t (by simpa using hx)
  simp [hl] at this

theorem none_notifying {D c} (h : Inv D c) (hs : c.state = none) (t : ℕ) : (c.pc t).notifying = false := by
  cases hp : c.pc t <;> try rfl
  · have := h.winL _ _ _ hp; simp [hs] at this
  · have := h.winS _ _ _ _ _ hp; simp [hs] at this

theorem inv_unsub {D c w p'} (h : Inv D c) (hl : c.locked = false) (hp : (c.pc w).notifying = false) (hn : p'.notifying = false)
    (hl' : p'.listening = false) (hld : ∀ k, p' ≠ .load k) (hsec : p'.secondOk = false)
    (hgs : p' = .gotStop ∨ p' = .chk .second ∨ p' = .stopping → c.state ≠ none) : Inv D ((c.unsubscribe w).goto w p') := by
  have hs := unlocked_sending h hl
  have hs' : p'.sending = false := by
    by_contra hx
    have := sending_notifying (p := p') (by simpa using hx)
    simp [hn] at this
  have key : ∀ x q, q.notifying → (((c.unsubscribe w).goto w p').pc x = q ↔ c.pc x = q) := by
    intro x q hq
    simp only [Cfg.goto, Cfg.unsubscribe, upd]
    split
    · subst x; constructor <;> (rintro rfl; simp_all)
    · rfl
  have keyn : ∀ x, (((c.unsubscribe w).goto w p').pc x).notifying = (c.pc x).notifying := by
    intro x; simp only [Cfg.goto, Cfg.unsubscribe, upd]; split <;> simp_all
  have nos : ∀ x e r y k, ((c.unsubscribe w).goto w p').pc x ≠ .setSend e r y k := by
    intro x e r y k hx
    have := hs x
    rw [(key x _ rfl).1 hx] at this
    cases this
  constructor
  · intro x hx
    simp only [Cfg.goto, Cfg.unsubscribe, upd] at hx
    split at hx
    · simp [hs'] at hx
    · simp [hs x] at hx
  · intro hx; simp [Cfg.goto, Cfg.unsubscribe, hl] at hx
  · intro x y hx hy
    rw [keyn] at hx hy
    exact h.uniq x y hx hy
  · intro x e k hx; exact h.winL x e k ((key x _ rfl).1 hx)
  · intro x e r y k hx; exact absurd hx (nos _ _ _ _ _)
  · exact h.emp
  · exact h.msg
  · intro x k hx
    simp only [Cfg.goto, Cfg.unsubscribe, upd] at hx ⊢
    split at hx
    · exact absurd hx (hld k)
    · exact h.ld x k hx
  · exact h.nodup.filter _
  · intro x hx
    simp only [Cfg.goto, Cfg.unsubscribe, List.mem_filter, decide_eq_true_eq] at hx
    simp only [Cfg.goto, Cfg.unsubscribe, upd, hx.2, if_false]
    exact h.subL x hx.1
  · intro x hx hst
    simp only [Cfg.goto, Cfg.unsubscribe, upd] at hx
    split at hx
    · simp [hl'] at hx
    · next hne => exact List.mem_filter.2 ⟨h.quiet x hx hst, by simpa using hne⟩
  · intro x e hx he
    simp only [Cfg.goto, Cfg.unsubscribe, upd] at hx
    split at hx
    · simp [hl'] at hx
    · next hne =>
      rcases h.deliver x e hx he with h1 | ⟨y, k, h1, h2⟩ | ⟨y, r, z, k, h1, h2⟩
      · exact .inl h1
      · exact .inr (.inl ⟨y, k, (key y _ rfl).2 h1, List.mem_filter.2 ⟨h2, by simpa using hne⟩⟩)
      · exact .inr (.inr ⟨y, r, z, k, (key y _ rfl).2 h1, h2⟩)
  · intro x e k hx y hy
    exact h.emptyL x e k ((key x _ rfl).1 hx) y (List.mem_filter.1 hy).1
  · intro x e r y k hx; exact absurd hx (nos _ _ _ _ _)
  · intro x e r y k hx; exact absurd hx (nos _ _ _ _ _)
  · intro x
    simp only [Cfg.goto, upd]; split
    · exact hsec
    · exact h.second x
  · intro x hx
    simp only [Cfg.goto, Cfg.unsubscribe, upd] at hx ⊢
    split at hx
    · exact hgs hx
    · exact h.gotStop x hx

/-- The thread that notifies goes on: it has sent to the subscribers that are not in `r'`. -/
theorem inv_sending {D c t e r x k r' x' b} (h : Inv D c) (hp : c.pc t = .setSend e r x k) (hb : ∀ w, w ∉ r ∨ w ∈ r' → b w = c.buf w)
    (hb' : ∀ w, w ∈ r → w ∉ r' → b w = some e ∨ (c.pc w).listening = false ∧ b w = c.buf w) (hr : r'.Sublist r) (hx : (x' ++ r').Sublist (x ++ r)) :
    Inv D { c.goto t (.setSend e r' x' k) with buf := b } := by
  have hst := h.winS t e r x k hp
  have hn : (c.pc t).notifying := by rw [hp]; rfl
  have uq : ∀ u, (c.pc u).notifying → u = t := fun u hu => h.uniq u t hu hn
  have keyn : ∀ u, ((c.goto t (.setSend e r' x' k)).pc u).notifying = (c.pc u).notifying := by
    intro u; simp only [Cfg.goto, upd]; split
    · subst u; rw [hp]; rfl
    · rfl
  have keys : ∀ u, ((c.goto t (.setSend e r' x' k)).pc u).sending = (c.pc u).sending := by
    intro u; simp only [Cfg.goto, upd]; split
    · subst u; rw [hp]; rfl
    · rfl
  have keyl : ∀ u, ((c.goto t (.setSend e r' x' k)).pc u).listening = (c.pc u).listening := by
    intro u; simp only [Cfg.goto, upd]; split
    · subst u; rw [hp]; cases k <;> rfl
    · rfl
  have keyo : ∀ u, u ≠ t → (c.goto t (.setSend e r' x' k)).pc u = c.pc u := by
    intro u hu; simp [Cfg.goto, upd, hu]
  have keyt : (c.goto t (.setSend e r' x' k)).pc t = .setSend e r' x' k := by simp [Cfg.goto, upd]
  have only : ∀ u e1 r1 x1 k1, (c.goto t (.setSend e r' x' k)).pc u = .setSend e1 r1 x1 k1 → u = t ∧ e1 = e ∧ r1 = r' ∧ x1 = x' := by
    intro u e1 r1 x1 k1 hu
    have : u = t := uq u (by rw [← keyn u, hu]; rfl)
    subst this
    rw [keyt] at hu
    cases hu
    exact ⟨rfl, rfl, rfl, rfl⟩
  have noL : ∀ u e1 k1, (c.goto t (.setSend e r' x' k)).pc u ≠ .setLock e1 k1 := by
    intro u e1 k1 hu
    have : u = t := uq u (by rw [← keyn u, hu]; rfl)
    subst this
    rw [keyt] at hu
    cases hu
  constructor
  · intro u hu; exact h.lock u (by rw [← keys]; exact hu)
  · intro hx; obtain ⟨u, hu⟩ := h.lockIff hx; exact ⟨u, by simp only; rw [keys]; exact hu⟩
  · intro u v hu hv; exact h.uniq u v (by rw [← keyn]; exact hu) (by rw [← keyn]; exact hv)
  · intro u e1 k1 hu; exact absurd hu (noL _ _ _)
  · intro u e1 r1 x1 k1 hu; obtain ⟨_, rfl, _, _⟩ := only _ _ _ _ _ hu; exact hst
  · intro hn; simp [Cfg.goto, hst] at hn
  · intro w e1 hw
    simp only [Cfg.goto] at hw ⊢
    by_cases h1 : w ∉ r ∨ w ∈ r'
    · rw [hb w h1] at hw; exact h.msg w e1 hw
    · push Not at h1
      rcases hb' w h1.1 h1.2 with h2 | ⟨_, h2⟩
      · rw [h2] at hw; cases hw; exact hst
      · rw [h2] at hw; exact h.msg w e1 hw
  · intro u k1 hu
    by_cases hut : u = t
    · subst hut; simp only [keyt] at hu; cases hu
    · exact h.ld u k1 (by rw [← keyo u hut]; exact hu)
  · exact h.nodup
  · intro w hw
    rcases h.subL w hw with h1 | h1
    · exact .inl (by simp only; rw [keyl]; exact h1)
    · refine .inr ?_
      have : w ≠ t := by rintro rfl; rw [hp] at h1; cases h1
      simp only; rw [keyo w this]; exact h1
  · intro w hw hn; simp [Cfg.goto, hst] at hn
  · intro w e1 hw he
    have he' : e1 = e := by simp only [Cfg.goto, hst] at he; exact (Option.some.inj he).symm
    subst he'
    have hwl : (c.pc w).listening := by rw [← keyl]; exact hw
    by_cases hr' : w ∈ r'
    · exact .inr (.inr ⟨t, r', x', k, keyt, hr'⟩)
    · by_cases hrr : w ∈ r
      · rcases hb' w hrr hr' with h2 | ⟨h2, _⟩
        · exact .inl h2
        · simp [h2] at hwl
      · rcases h.deliver w e1 hwl hst with h1 | ⟨y, k1, h1, h2⟩ | ⟨y, r1, z, k1, h1, h2⟩
        · exact .inl (by simp only; rw [hb w (.inl hrr)]; exact h1)
        · have := uq y (by rw [h1]; rfl); subst this; rw [hp] at h1; cases h1
        · have := uq y (by rw [h1]; rfl); subst this; rw [hp] at h1; cases h1; exact absurd h2 hrr
  · intro u e1 k1 hu; exact absurd hu (noL _ _ _)
  · intro u e1 r1 x1 k1 hu w hw
    obtain ⟨_, _, rfl, _⟩ := only _ _ _ _ _ hu
    simp only
    rw [hb w (.inr hw)]
    exact h.emptyS t e r x k hp w (hr.subset hw)
  · intro u e1 r1 x1 k1 hu
    obtain ⟨_, _, rfl, rfl⟩ := only _ _ _ _ _ hu
    exact hx.trans (h.sub t e r x k hp)
  · intro u
    by_cases hut : u = t
    · subst hut
      have := h.second u
      rw [hp] at this
      refine (congrArg Pc.secondOk keyt).trans ?_
      cases k <;> first | rfl | cases this
    · simp only; rw [keyo u hut]; exact h.second u
  · intro u hu
    by_cases hut : u = t
    · subst hut
      have hu' : ∀ q, (c.goto u (.setSend e r' x' k)).pc u = q → Pc.setSend e r' x' k = q := fun q hq => keyt.symm.trans hq
      rcases hu with hu | hu | hu <;> cases hu' _ hu
    · have := keyo u hut
      exact h.gotStop u (by rw [← this]; exact hu)

theorem free_facts {p : Pc} (h : p.free) : p.notifying = false ∧ p.listening = false ∧ p ≠ .gotStop := by
  cases p <;> simp_all [Pc.free, Pc.notifying, Pc.listening]

theorem inv_step {D c c'} (h : Inv D c) (hs : Step D c c') : Inv D c' := by
  cases hs with
  | tick => exact inv_congr h rfl rfl rfl rfl rfl
  | begin => exact inv_congr h rfl rfl rfl rfl rfl
  | done => exact inv_congr h rfl rfl rfl rfl rfl
  | check hf =>
    obtain ⟨h1, h2, h3⟩ := free_facts hf
    exact inv_goto h h1 rfl (by rw [h2]; rfl) h3 (by simp) rfl (by simp)
  | @cancel t hf =>
    obtain ⟨h1, h2, h3⟩ := free_facts hf
    exact inv_congr (inv_goto (t := t) (p' := .cas .interrupted .client) h h1 rfl (by rw [h2]; rfl) h3 (by simp) rfl (by simp)) rfl rfl rfl rfl rfl
  | @await t e hf _ =>
    obtain ⟨h1, h2, h3⟩ := free_facts hf
    exact inv_congr (inv_goto (t := t) (p' := .cas e (.await e)) h h1 rfl (by rw [h2]; rfl) h3 (by simp) rfl (by simp)) rfl rfl rfl rfl rfl
  | @chkErr t k e hp hs =>
    exact inv_ret h (by rw [hp]; rfl) (by rw [hp]; cases k <;> rfl) (by simp [hp]) (by simp [hs])
  | @chkOk t k hp hs =>
    have : k ≠ .second := by rintro rfl; exact h.gotStop t (.inr (.inl hp)) hs
    exact inv_goto h (by rw [hp]; rfl) rfl (by rw [hp]; cases k <;> rfl) (by simp [hp]) (by simp) (by cases k <;> simp_all [Pc.secondOk]) (by simp)
  | @chkLate t k d hp hd hn =>
    have : k ≠ .second := by rintro rfl; have := h.second t; simp [hp, Pc.secondOk] at this
    exact inv_goto h (by rw [hp]; rfl) rfl (by rw [hp]; cases k <;> rfl) (by simp [hp]) (by simp) (by cases k <;> simp_all [Pc.secondOk]) (by simp)
  | @chkTimely t k hp hn =>
    exact inv_ret h (by rw [hp]; rfl) (by rw [hp]; cases k <;> rfl) (by simp [hp]) (by simp)
  | @casFail t e k hp hs =>
    have : k ≠ .second := by rintro rfl; have := h.second t; simp [hp, Pc.secondOk] at this
    exact inv_goto h (by rw [hp]; rfl) rfl (by rw [hp]; cases k <;> rfl) (by simp [hp]) (fun _ _ => hs) (by cases k <;> simp_all [Pc.secondOk]) (by simp)
  | @load t k e hp hs =>
    exact inv_ret h (by rw [hp]; rfl) (by rw [hp]; cases k <;> rfl) (by simp [hp]) (by simp [hs])
  | @recvDone w hp hd =>
    exact inv_goto h (by rw [hp]; rfl) rfl (by rw [hp]; rfl) (by simp [hp]) (by simp) rfl (by simp)
  | @spawn w hp hl =>
    have hw : w ∉ c.subs := by
      intro hw
      rcases h.subL w hw with h1 | h1 <;> rw [hp] at h1 <;> cases h1
    have nos := unlocked_sending h hl
    obtain ⟨e, hst⟩ | hst : (∃ e, c.state = some e) ∨ c.state = none := by cases c.state <;> simp
    · have keyo : ∀ u, u ≠ w → ((c.subscribe w).goto w (.chk .first)).pc u = c.pc u := by
        intro u hu; simp [Cfg.goto, Cfg.subscribe, hst, upd, hu]
      have keyt : ((c.subscribe w).goto w (.chk .first)).pc w = .chk .first := by simp [Cfg.goto, upd]
      have keyq : ∀ u q, q.notifying → (((c.subscribe w).goto w (.chk .first)).pc u = q ↔ c.pc u = q) := by
        intro u q hq
        by_cases hu : u = w
        · subst hu; rw [keyt, hp]; constructor <;> (rintro rfl; cases hq)
        · rw [keyo u hu]
      have e1 : ((c.subscribe w).goto w (.chk .first)).state = c.state := by simp [Cfg.goto, Cfg.subscribe, hst]
      have e2 : ((c.subscribe w).goto w (.chk .first)).subs = c.subs := by simp [Cfg.goto, Cfg.subscribe, hst]
      have e3 : ((c.subscribe w).goto w (.chk .first)).locked = c.locked := by simp [Cfg.goto, Cfg.subscribe, hst]
      have e4 : ((c.subscribe w).goto w (.chk .first)).buf = upd c.buf w (some e) := by simp [Cfg.goto, Cfg.subscribe, hst]
      have nos' : ∀ u e1 r x k1, ((c.subscribe w).goto w (.chk .first)).pc u ≠ .setSend e1 r x k1 := by
        intro u e1 r x k1 hu
        have := nos u
        rw [(keyq u _ rfl).1 hu] at this; cases this
      constructor <;> (try simp only [e1, e2, e3, e4])
      · intro u hu
        by_cases huw : u = w
        · subst huw; rw [keyt] at hu; cases hu
        · rw [keyo u huw] at hu; exact h.lock u hu
      · simp [hl]
      · intro u v hu hv
        have f : ∀ u, (((c.subscribe w).goto w (.chk .first)).pc u).notifying → (c.pc u).notifying := by
          intro u hu; rwa [(keyq u _ hu).1 rfl]
        exact h.uniq u v (f u hu) (f v hv)
      · intro u e1 k1 hu; exact h.winL u e1 k1 ((keyq u _ rfl).1 hu)
      · intro u e1 r x k1 hu; exact absurd hu (nos' _ _ _ _ _)
      · simp [hst]
      · intro u e1 hu
        simp only [upd] at hu
        split at hu
        · cases hu; exact hst
        · exact h.msg u e1 hu
      · simp [hst]
      · exact h.nodup
      · intro u hu
        have : u ≠ w := by rintro rfl; exact hw hu
        rw [keyo u this]; exact h.subL u hu
      · simp [hst]
      · intro u e1 hu he
        by_cases huw : u = w
        · subst huw; left; simp [upd]; exact Option.some.inj (hst.symm.trans he)
        · rw [keyo u huw] at hu
          rcases h.deliver u e1 hu he with h1 | ⟨y, k1, h1, h2⟩ | ⟨y, r1, z, k1, h1, h2⟩
          · exact .inl (by simpa [upd, huw] using h1)
          · exact .inr (.inl ⟨y, k1, (keyq y _ rfl).2 h1, h2⟩)
          · exact .inr (.inr ⟨y, r1, z, k1, (keyq y _ rfl).2 h1, h2⟩)
      · intro u e1 k1 hu v hv
        have : v ≠ w := by rintro rfl; exact hw hv
        rw [upd_ne _ _ this]
        exact h.emptyL u e1 k1 ((keyq u _ rfl).1 hu) v hv
      · intro u e1 r x k1 hu; exact absurd hu (nos' _ _ _ _ _)
      · intro u e1 r x k1 hu; exact absurd hu (nos' _ _ _ _ _)
      · intro u
        by_cases huw : u = w
        · subst huw; rw [keyt]; rfl
        · rw [keyo u huw]; exact h.second u
      · simp [hst]
    · have nn := none_notifying h hst
      have keyo : ∀ u, u ≠ w → ((c.subscribe w).goto w (.chk .first)).pc u = c.pc u := by
        intro u hu; simp [Cfg.goto, Cfg.subscribe, hst, upd, hu]
      have keyt : ((c.subscribe w).goto w (.chk .first)).pc w = .chk .first := by simp [Cfg.goto, upd]
      have nn' : ∀ u, (((c.subscribe w).goto w (.chk .first)).pc u).notifying = false := by
        intro u
        by_cases hu : u = w
        · subst hu; rw [keyt]; rfl
        · rw [keyo u hu]; exact nn u
      have e1 : ((c.subscribe w).goto w (.chk .first)).state = none := by simp [Cfg.goto, Cfg.subscribe, hst]
      have e2 : ((c.subscribe w).goto w (.chk .first)).subs = c.subs ++ [w] := by simp [Cfg.goto, Cfg.subscribe, hst]
      have e3 : ((c.subscribe w).goto w (.chk .first)).locked = c.locked := by simp [Cfg.goto, Cfg.subscribe, hst]
      have e4 : ((c.subscribe w).goto w (.chk .first)).buf = c.buf := by simp [Cfg.goto, Cfg.subscribe, hst]
      constructor <;> (try simp only [e1, e2, e3, e4])
      · intro u hu; have := sending_notifying hu; simp [nn' u] at this
      · simp [hl]
      · intro u v hu; simp [nn' u] at hu
      · intro u e1 k1 hu; have := nn' u; rw [hu] at this; cases this
      · intro u e1 r x k1 hu; have := nn' u; rw [hu] at this; cases this
      · intro _; exact h.emp hst
      · intro u e1 hu; rw [h.emp hst u] at hu; cases hu
      · intro u k1 hu
        by_cases huw : u = w
        · subst huw; rw [keyt] at hu; cases hu
        · rw [keyo u huw] at hu; exact absurd hst (h.ld u k1 hu)
      · exact List.nodup_append.2 ⟨h.nodup, by simp, by simpa using fun a ha => ne_of_mem_of_not_mem ha hw⟩
      · intro u hu
        by_cases huw : u = w
        · subst huw; left; rw [keyt]; rfl
        · rw [keyo u huw]; exact h.subL u (by simpa [huw] using hu)
      · intro u hu _
        by_cases huw : u = w
        · subst huw; simp
        · rw [keyo u huw] at hu; simp [h.quiet u hu hst]
      · intro u e1 _ he; cases he
      · intro u e1 k1 hu; have := nn' u; rw [hu] at this; cases this
      · intro u e1 r x k1 hu; have := nn' u; rw [hu] at this; cases this
      · intro u e1 r x k1 hu; have := nn' u; rw [hu] at this; cases this
      · intro u
        by_cases huw : u = w
        · subst huw; rw [keyt]; rfl
        · rw [keyo u huw]; exact h.second u
      · intro u hu
        by_cases huw : u = w
        · subst huw; rw [keyt] at hu; simp at hu
        · rw [keyo u huw] at hu; exact absurd hst (h.gotStop u hu)
  | @casOk t e k hp hs =>
    have nn := none_notifying h hs
    have keyt : (c.goto t (.setLock e k)).pc t = .setLock e k := by simp [Cfg.goto, upd]
    have key : ∀ u, ((c.goto t (.setLock e k)).pc u).notifying → u = t := by
      intro u hu
      by_contra hne
      simp [Cfg.goto, upd, hne, nn u] at hu
    have nos : ∀ u e1 r x k1, (c.goto t (.setLock e k)).pc u ≠ .setSend e1 r x k1 := by
      intro u e1 r x k1 hu
      have := key u (by rw [hu]; rfl)
      subst this
      rw [keyt] at hu; cases hu
    have nosend : ∀ u, ((c.goto t (.setLock e k)).pc u).sending = false := by
      intro u
      cases hu : (c.goto t (.setLock e k)).pc u <;> try rfl
      exact absurd hu (nos _ _ _ _ _)
    have keyl : ∀ u, ((c.goto t (.setLock e k)).pc u).listening = (c.pc u).listening := by
      intro u; simp only [Cfg.goto, upd]; split
      · subst u; rw [hp]; cases k <;> rfl
      · rfl
    have ns : k ≠ .second := by rintro rfl; have := h.second t; simp [hp, Pc.secondOk] at this
    constructor
    · intro u hu
      have := nosend u
      simp only at hu
      simp [this] at hu
    · intro hx
      obtain ⟨u, hu⟩ := h.lockIff hx
      have := sending_notifying hu
      simp [nn u] at this
    · intro u v hu hv; exact (key u hu).trans (key v hv).symm
    · intro u e1 k1 hu
      have := key u (by simp only at hu; rw [hu]; rfl)
      subst this
      have := keyt.symm.trans hu
      cases this; rfl
    · intro u e1 r x k1 hu; exact absurd hu (nos _ _ _ _ _)
    · intro hn; simp at hn
    · intro w e1 hw
      have := h.emp hs w
      simp only [Cfg.goto] at hw
      rw [this] at hw; cases hw
    · simp
    · exact h.nodup
    · intro w hw
      rcases h.subL w hw with h1 | h1
      · exact .inl ((keyl w).trans h1)
      · refine .inr ?_
        have : w ≠ t := by rintro rfl; rw [hp] at h1; cases h1
        simpa [Cfg.goto, upd, this] using h1
    · intro w hw hn; simp at hn
    · intro w e1 hw he
      have he' : e = e1 := Option.some.inj he
      subst he'
      exact .inr (.inl ⟨t, k, keyt, h.quiet w ((keyl w).symm.trans hw) hs⟩)
    · intro u e1 k1 hu w hw; exact h.emp hs w
    · intro u e1 r x k1 hu; exact absurd hu (nos _ _ _ _ _)
    · intro u e1 r x k1 hu; exact absurd hu (nos _ _ _ _ _)
    · intro u
      simp only [Cfg.goto, upd]; split
      · cases k <;> first | rfl | exact absurd rfl ns
      · exact h.second u
    · simp
  | @lock t e k hp hl =>
    have hst := h.winL t e k hp
    have nos := unlocked_sending h hl
    have keyt : (c.goto t (.setSend e c.subs [] k)).pc t = .setSend e c.subs [] k := by simp [Cfg.goto, upd]
    have keyo : ∀ u, u ≠ t → (c.goto t (.setSend e c.subs [] k)).pc u = c.pc u := by
      intro u hu; simp [Cfg.goto, upd, hu]
    have key : ∀ u, ((c.goto t (.setSend e c.subs [] k)).pc u).notifying → u = t := by
      intro u hu
      by_contra hne
      rw [keyo u hne] at hu
      exact hne (h.uniq u t hu (by rw [hp]; rfl))
    have only : ∀ u e1 r1 x1 k1, (c.goto t (.setSend e c.subs [] k)).pc u = .setSend e1 r1 x1 k1 → u = t ∧ e1 = e ∧ r1 = c.subs ∧ x1 = [] := by
      intro u e1 r1 x1 k1 hu
      have := key u (by rw [hu]; rfl)
      subst this
      rw [keyt] at hu
      cases hu
      exact ⟨rfl, rfl, rfl, rfl⟩
    have noL : ∀ u e1 k1, (c.goto t (.setSend e c.subs [] k)).pc u ≠ .setLock e1 k1 := by
      intro u e1 k1 hu
      have := key u (by rw [hu]; rfl)
      subst this
      rw [keyt] at hu
      cases hu
    have keyl : ∀ u, ((c.goto t (.setSend e c.subs [] k)).pc u).listening = (c.pc u).listening := by
      intro u
      by_cases hu : u = t
      · subst hu; rw [keyt, hp]; cases k <;> rfl
      · rw [keyo u hu]
    constructor
    · intro _ _; rfl
    · intro _; exact ⟨t, congrArg Pc.sending keyt⟩
    · intro u v hu hv; exact (key u hu).trans (key v hv).symm
    · intro u e1 k1 hu; exact absurd hu (noL _ _ _)
    · intro u e1 r1 x1 k1 hu; obtain ⟨_, rfl, _, _⟩ := only _ _ _ _ _ hu; exact hst
    · exact h.emp
    · exact h.msg
    · intro u k1 hu
      by_cases hut : u = t
      · subst hut; cases keyt.symm.trans hu
      · exact h.ld u k1 ((keyo u hut).symm.trans hu)
    · exact h.nodup
    · intro w hw
      rcases h.subL w hw with h1 | h1
      · exact .inl ((keyl w).trans h1)
      · refine .inr ?_
        have : w ≠ t := by rintro rfl; rw [hp] at h1; cases h1
        exact (keyo w this).trans h1
    · intro w hw; exact h.quiet w ((keyl w).symm.trans hw)
    · intro w e1 hw he
      have he' : e1 = e := Option.some.inj (he.symm.trans hst)
      subst he'
      rcases h.deliver w e1 ((keyl w).symm.trans hw) hst with h1 | ⟨y, k1, h1, h2⟩ | ⟨y, r1, z, k1, h1, h2⟩
      · exact .inl h1
      · exact .inr (.inr ⟨t, c.subs, [], k, keyt, h2⟩)
      · have := nos y; rw [h1] at this; cases this
    · intro u e1 k1 hu; exact absurd hu (noL _ _ _)
    · intro u e1 r1 x1 k1 hu w hw
      obtain ⟨_, _, rfl, _⟩ := only _ _ _ _ _ hu
      exact h.emptyL t e k hp w hw
    · intro u e1 r1 x1 k1 hu
      obtain ⟨_, _, rfl, rfl⟩ := only _ _ _ _ _ hu
      exact List.Sublist.refl _
    · intro u
      by_cases hut : u = t
      · subst hut
        have := h.second u
        rw [hp] at this
        refine (congrArg Pc.secondOk keyt).trans ?_
        cases k <;> first | rfl | cases this
      · exact (congrArg Pc.secondOk (keyo u hut)).trans (h.second u)
    · intro u _ hn; exact absurd (hst.symm.trans hn) (by simp)
  | @send t e w rest kept k hp ha hb =>
    have nd : (kept ++ w :: rest).Nodup := (h.sub _ _ _ _ _ hp).nodup h.nodup
    have hnr : w ∉ rest := (List.nodup_cons.1 (List.nodup_append.1 nd).2.1).1
    refine inv_sending (r' := rest) (x' := kept ++ [w]) h hp ?_ ?_ (List.sublist_cons_self _ _) (by simp)
    · rintro u (hu | hu)
      · exact upd_ne _ _ (by rintro rfl; simp at hu)
      · exact upd_ne _ _ (by rintro rfl; exact hnr hu)
    · intro u hu hu'
      have : u = w := by simpa [hu'] using hu
      subst this
      exact .inl (upd_self _ _ _)
  | @sendErr t e w rest kept k hp ha =>
    have hf : c.pc w = .finished := by simpa [Cfg.alive] using ha
    refine inv_congr (inv_sending (r' := rest) (x' := kept) (b := c.buf) h hp (fun _ _ => rfl) ?_ (List.sublist_cons_self _ _)
      (List.Sublist.append_left (List.sublist_cons_self _ _) _)) rfl rfl rfl rfl rfl
    intro u hu hu'
    have : u = w := by simpa [hu'] using hu
    subst this
    exact .inr ⟨by rw [hf]; rfl, rfl⟩
  | @unlock t e kept k hp =>
    have hst := h.winS _ _ _ _ _ hp
    have uq : ∀ u, (c.pc u).notifying → u = t := fun u hu => h.uniq u t hu (by rw [hp]; rfl)
    have hsub : kept.Sublist c.subs := by simpa using h.sub _ _ _ _ _ hp
    have ns : k ≠ .second := by rintro rfl; have := h.second t; simp [hp, Pc.secondOk] at this
    -- the state in which the caller goes on
    suffices hI : ∀ q : Pc, q.notifying = false → q.listening = (c.pc t).listening → q.secondOk = false →
        Inv D (({ c with subs := kept, locked := false } : Cfg).goto t q) by
      cases k with
      | client => exact inv_congr (hI .idle rfl (by rw [hp]; rfl) rfl) rfl rfl rfl rfl rfl
      | await e => exact inv_congr (hI .idle rfl (by rw [hp]; rfl) rfl) rfl rfl rfl rfl rfl
      | first => exact hI .stopping rfl (by rw [hp]; rfl) rfl
      | second => exact absurd rfl ns
    intro q hq hql hqs
    have keyo : ∀ u, u ≠ t → (({ c with subs := kept, locked := false } : Cfg).goto t q).pc u = c.pc u := by
      intro u hu; simp [Cfg.goto, upd, hu]
    have keyt : (({ c with subs := kept, locked := false } : Cfg).goto t q).pc t = q := by simp [Cfg.goto, upd]
    have nn : ∀ u, ((({ c with subs := kept, locked := false } : Cfg).goto t q).pc u).notifying = false := by
      intro u
      by_cases hu : u = t
      · subst hu; rw [keyt]; exact hq
      · rw [keyo u hu]
        by_contra hx
        exact hu (uq u (by simpa using hx))
    have keyl : ∀ u, ((({ c with subs := kept, locked := false } : Cfg).goto t q).pc u).listening = (c.pc u).listening := by
      intro u
      by_cases hu : u = t
      · subst hu; rw [keyt]; exact hql
      · rw [keyo u hu]
    constructor
    · intro u hu; have := sending_notifying hu; simp [nn u] at this
    · intro hx; cases hx
    · intro u v hu; simp [nn u] at hu
    · intro u e1 k1 hu; have := nn u; rw [hu] at this; cases this
    · intro u e1 r x k1 hu; have := nn u; rw [hu] at this; cases this
    · exact h.emp
    · exact h.msg
    · intro u k1 _ hn; exact absurd (hst.symm.trans hn) (by simp)
    · exact hsub.nodup h.nodup
    · intro w hw
      rcases h.subL w (hsub.subset hw) with h1 | h1
      · exact .inl ((keyl w).trans h1)
      · have : w ≠ t := by rintro rfl; rw [hp] at h1; cases h1
        exact .inr ((keyo w this).trans h1)
    · intro w _ hn; exact absurd (hst.symm.trans hn) (by simp)
    · intro w e1 hw he
      rcases h.deliver w e1 ((keyl w).symm.trans hw) he with h1 | ⟨y, k1, h1, h2⟩ | ⟨y, r1, z, k1, h1, h2⟩
      · exact .inl h1
      · have := uq y (by rw [h1]; rfl); subst this; rw [hp] at h1; cases h1
      · have := uq y (by rw [h1]; rfl); subst this; rw [hp] at h1; cases h1; cases h2
    · intro u e1 k1 hu; have := nn u; rw [hu] at this; cases this
    · intro u e1 r x k1 hu; have := nn u; rw [hu] at this; cases this
    · intro u e1 r x k1 hu; have := nn u; rw [hu] at this; cases this
    · intro u
      by_cases hu : u = t
      · subst hu; rw [keyt]; exact hqs
      · rw [keyo u hu]; exact h.second u
    · intro u _ hn; exact absurd (hst.symm.trans hn) (by simp)
  | @stop w hp hl =>
    exact inv_congr (inv_unsub (w := w) (p' := .finished) h hl (by rw [hp]; rfl) rfl rfl (by simp) rfl (by simp)) rfl rfl rfl rfl rfl
  | @recvStop w e hp hb =>
    have hst := h.msg w e hb
    have key : ∀ u q, q ≠ .gotStop → ((c.goto w .gotStop).pc u = q → c.pc u = q) := by
      intro u q hq hu
      simp only [Cfg.goto, upd] at hu
      split at hu
      · exact absurd hu.symm hq
      · exact hu
    have key' : ∀ u q, q ≠ .waiting → (c.pc u = q → (c.goto w .gotStop).pc u = q) := by
      intro u q hq hu
      simp only [Cfg.goto, upd]
      split
      · subst u; rw [hp] at hu; exact absurd hu.symm hq
      · exact hu
    have keyn : ∀ u, ((c.goto w .gotStop).pc u).notifying = (c.pc u).notifying := by
      intro u; simp only [Cfg.goto, upd]; split
      · subst u; rw [hp]; rfl
      · rfl
    have keys : ∀ u, ((c.goto w .gotStop).pc u).sending = (c.pc u).sending := by
      intro u; simp only [Cfg.goto, upd]; split
      · subst u; rw [hp]; rfl
      · rfl
    have hbuf : ∀ u, c.buf u = none → upd c.buf w none u = none := by
      intro u hu; simp only [upd]; split <;> simp [hu]
    constructor
    · intro u hu; exact h.lock u (by rw [← keys]; exact hu)
    · intro hx; obtain ⟨u, hu⟩ := h.lockIff hx; exact ⟨u, (keys u).trans hu⟩
    · intro u v hu hv; exact h.uniq u v (by rw [← keyn]; exact hu) (by rw [← keyn]; exact hv)
    · intro u e1 k1 hu; exact h.winL u e1 k1 (key _ _ (by simp) hu)
    · intro u e1 r1 x1 k1 hu; exact h.winS u e1 r1 x1 k1 (key _ _ (by simp) hu)
    · intro hn; simp [Cfg.goto, hst] at hn
    · intro u e1 hu
      simp only [upd] at hu
      split at hu
      · simp at hu
      · exact h.msg u e1 hu
    · intro u k1 hu; exact h.ld u k1 (key _ _ (by simp) hu)
    · exact h.nodup
    · intro u hu
      by_cases hw : u = w
      · subst hw; exact .inr (by simp [Cfg.goto, upd])
      · rcases h.subL u hu with h1 | h1
        · exact .inl (by simpa [Cfg.goto, upd, hw] using h1)
        · exact .inr (by simpa [Cfg.goto, upd, hw] using h1)
    · intro u hu hn; simp [Cfg.goto, hst] at hn
    · intro u e1 hu he
      by_cases hw : u = w
      · subst hw; simp [Cfg.goto, upd, Pc.listening] at hu
      · rcases h.deliver u e1 (by simpa [Cfg.goto, upd, hw] using hu) he with h1 | ⟨y, k1, h1, h2⟩ | ⟨y, r1, z, k1, h1, h2⟩
        · exact .inl (by simpa [upd, hw] using h1)
        · exact .inr (.inl ⟨y, k1, key' _ _ (by simp) h1, h2⟩)
        · exact .inr (.inr ⟨y, r1, z, k1, key' _ _ (by simp) h1, h2⟩)
    · intro u e1 k1 hu v hv; exact hbuf v (h.emptyL u e1 k1 (key _ _ (by simp) hu) v hv)
    · intro u e1 r1 x1 k1 hu v hv; exact hbuf v (h.emptyS u e1 r1 x1 k1 (key _ _ (by simp) hu) v hv)
    · intro u e1 r1 x1 k1 hu; exact h.sub u e1 r1 x1 k1 (key _ _ (by simp) hu)
    · intro u
      simp only [Cfg.goto, upd]; split
      · rfl
      · exact h.second u
    · intro u _ hn; simp [Cfg.goto, hst] at hn
  | @finish w hp hl =>
    exact inv_unsub h hl (by rw [hp]; rfl) rfl rfl (by simp) rfl (by simp)
  | @recheck w hp hl =>
    exact inv_unsub h hl (by rw [hp]; rfl) rfl rfl (by simp) rfl (fun _ => h.gotStop w (.inl hp))

end Caesar.Limits
