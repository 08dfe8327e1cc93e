import Verif.Slicing.Failing
import Verif.Props.C43

/-!
# Facts about the search for failing slices
-/

namespace Caesar.Slicing

/-- The Boolean assignment `A` agrees with all values of the model `M`. -/
def Completes (M : PModel) (A : Ident → Bool) : Prop := ∀ i b, M i = some b → A i = b

/-- The number of enabled active variables. -/
def enabledCount (active : List Ident) (A : Ident → Bool) : Nat := (active.filter A).length

/-- The solver's answers are truthful for the slices that fail: all completions of a model fail and respect the bound, and after `unsat` there is no
failing slice within the bound. Nothing is known about `unknown`. -/
def TruthfulReplies (fails : (Ident → Bool) → Prop) (active : List Ident) (ask : Nat → Nat → Reply) : Prop :=
  ∀ step n, match ask step n with
    | .sat M => ∀ A, Completes M A → fails A ∧ enabledCount active A ≤ n
    | .unsat => ∀ A, fails A → n < enabledCount active A
    | .unknown _ => True

theorem completes_false (M : PModel) : Completes M fun i => (M i).getD false := fun i b h => by simp only [h, Option.getD_some]

theorem completes_true (M : PModel) : Completes M fun i => (M i).getD true := fun i b h => by simp only [h, Option.getD_some]

theorem enabledCount_le (active : List Ident) (A : Ident → Bool) : enabledCount active A ≤ active.length := List.length_filter_le _ _

theorem addResult_some {m m' : Minimizer} {k : Nat} {r : MinResult} (h : m.addResult k r = some m') :
    m'.lo = m.lo ∧ m'.hi = m.hi ∧ (∀ x, Known m x → Known m' x) ∧
      match r with
      | .acceptUpwards => (∀ x, k ≤ x → Known m' x) ∧ m'.maxReject = m.maxReject ∧ m'.unknowns = m.unknowns ∧
          (∃ a, m'.minAccept = some a ∧ a ≤ k ∧ (∀ r, m.maxReject = some r → r < a)) ∧ m.minAccept.getD k ≥ m'.minAccept.getD k
      | .rejectDownwards => (∀ x, x ≤ k → Known m' x) ∧ m'.minAccept = m.minAccept ∧ m'.unknowns = m.unknowns ∧
          ∃ r, m'.maxReject = some r ∧ k ≤ r ∧ (∀ a, m.minAccept = some a → r < a) ∧ (∀ q, m.maxReject = some q → q ≤ r) ∧
            (m.maxReject = none → r = k)
      | .unknown => Known m' k ∧ m'.minAccept = m.minAccept ∧ m'.maxReject = m.maxReject := by
  unfold Minimizer.addResult at h
  split at h
  · cases r with
    | rejectDownwards =>
      simp only [] at h
      have key : ∀ q, q = (match m.maxReject with | some other => max other k | none => k) →
          (∀ a, m.minAccept = some a → q < a) → m' = { m with maxReject := some q } →
          m'.lo = m.lo ∧ m'.hi = m.hi ∧ (∀ x, Known m x → Known m' x) ∧ (∀ x, x ≤ k → Known m' x) ∧ m'.minAccept = m.minAccept ∧
            m'.unknowns = m.unknowns ∧ ∃ r, m'.maxReject = some r ∧ k ≤ r ∧ (∀ a, m.minAccept = some a → r < a) ∧
            (∀ q, m.maxReject = some q → q ≤ r) ∧ (m.maxReject = none → r = k) := by
        intro q hq hqa hm
        have hk : k ≤ q := by rw [hq]; split <;> omega
        have hq' : ∀ q', m.maxReject = some q' → q' ≤ q := fun q' h' => by rw [hq, h']; exact Nat.le_max_left _ _
        have hq'' : m.maxReject = none → q = k := fun h' => by rw [hq, h']
        subst hm
        refine ⟨rfl, rfl, ?_, fun x hx => Or.inr (Or.inl ⟨q, rfl, by omega⟩), rfl, rfl, q, rfl, hk, hqa, hq', hq''⟩
        rintro x (h | ⟨r, h, hx⟩ | h)
        · exact Or.inl h
        · exact Or.inr (Or.inl ⟨q, rfl, Nat.le_trans hx (hq' r h)⟩)
        · exact Or.inr (Or.inr h)
      rcases Option.eq_none_or_eq_some m.maxReject with hm | ⟨q, hm⟩ <;> rcases Option.eq_none_or_eq_some m.minAccept with ha | ⟨a, ha⟩ <;>
        simp only [hm, ha] at h
      · exact key k (by rw [hm]) (fun _ h' => by rw [ha] at h'; cases h') ((Option.some.inj h).symm.trans (by rw [ha]))
      · split at h
        · rename_i hlt
          exact key k (by rw [hm]) (fun a' h' => by rw [ha] at h'; cases h'; exact hlt) ((Option.some.inj h).symm.trans (by rw [ha]))
        · cases h
      · exact key (max q k) (by rw [hm]) (fun _ h' => by rw [ha] at h'; cases h') ((Option.some.inj h).symm.trans (by rw [ha]))
      · split at h
        · rename_i hlt
          exact key (max q k) (by rw [hm]) (fun a' h' => by rw [ha] at h'; cases h'; exact hlt) ((Option.some.inj h).symm.trans (by rw [ha]))
        · cases h
    | acceptUpwards =>
      simp only [] at h
      have key : ∀ q, q = (match m.minAccept with | some other => min other k | none => k) →
          (∀ r, m.maxReject = some r → r < q) → m' = { m with minAccept := some q } →
          m'.lo = m.lo ∧ m'.hi = m.hi ∧ (∀ x, Known m x → Known m' x) ∧ (∀ x, k ≤ x → Known m' x) ∧ m'.maxReject = m.maxReject ∧
            m'.unknowns = m.unknowns ∧ (∃ a, m'.minAccept = some a ∧ a ≤ k ∧ (∀ r, m.maxReject = some r → r < a)) ∧
            m.minAccept.getD k ≥ m'.minAccept.getD k := by
        intro q hq hqr hm
        have hk : q ≤ k := by rw [hq]; split <;> omega
        have hq' : ∀ q', m.minAccept = some q' → q ≤ q' := fun q' h' => by rw [hq, h']; exact Nat.min_le_left _ _
        subst hm
        refine ⟨rfl, rfl, ?_, fun x hx => Or.inr (Or.inr ⟨q, rfl, by omega⟩), rfl, rfl, ⟨q, rfl, hk, hqr⟩, ?_⟩
        · rintro x (h | h | ⟨r, h, hx⟩)
          · exact Or.inl h
          · exact Or.inr (Or.inl h)
          · exact Or.inr (Or.inr ⟨q, rfl, Nat.le_trans (hq' r h) hx⟩)
        · cases hm : m.minAccept with
          | none => exact hk
          | some a => exact hq' a hm
      rcases Option.eq_none_or_eq_some m.maxReject with hm | ⟨q, hm⟩ <;> rcases Option.eq_none_or_eq_some m.minAccept with ha | ⟨a, ha⟩ <;>
        simp only [hm, ha] at h
      · exact key k (by rw [ha]) (fun _ h' => by rw [hm] at h'; cases h') ((Option.some.inj h).symm.trans (by rw [hm]))
      · exact key (min a k) (by rw [ha]) (fun _ h' => by rw [hm] at h'; cases h') ((Option.some.inj h).symm.trans (by rw [hm]))
      · split at h
        · rename_i hlt
          exact key k (by rw [ha]) (fun a' h' => by rw [hm] at h'; cases h'; exact hlt) ((Option.some.inj h).symm.trans (by rw [hm]))
        · cases h
      · split at h
        · rename_i hlt
          exact key (min a k) (by rw [ha]) (fun a' h' => by rw [hm] at h'; cases h'; exact hlt) ((Option.some.inj h).symm.trans (by rw [hm]))
        · cases h
    | unknown =>
      simp only [] at h
      split at h
      · cases h
      · obtain rfl := Option.some.inj h
        refine ⟨rfl, rfl, ?_, Or.inl (List.mem_append_right _ (List.mem_singleton_self _)), rfl, rfl⟩
        rintro x (h | h | h)
        · exact Or.inl (List.mem_append_left _ h)
        · exact Or.inr (Or.inl h)
        · exact Or.inr (Or.inr h)
  · cases h

theorem trial_some {o : SliceOptions} {active : List Ident} {m m' : Minimizer} {n c : Nat} {r : Reply} {b : Bool}
    (h : trial o active m n r = some (m', c, b)) :
    (∃ M, r.accepted o = some M ∧ c = countTrue active M ∧ c ≤ n ∧ m.addResult c .acceptUpwards = some m') ∨
    (r.accepted o = none ∧ c = n ∧ b = false ∧ m.addResult n (r.choice o) = some m') := by
  unfold trial at h
  split at h
  · rename_i M hM
    split at h
    · rename_i hle
      obtain ⟨m'', h1, h2⟩ := Option.map_eq_some_iff.mp h
      simp only [Prod.mk.injEq] at h2
      obtain ⟨rfl, rfl, _⟩ := h2
      exact Or.inl ⟨M, hM, rfl, hle, h1⟩
    · cases h
  · rename_i hM
    obtain ⟨m'', h1, h2⟩ := Option.map_eq_some_iff.mp h
    simp only [Prod.mk.injEq] at h2
    obtain ⟨rfl, rfl, rfl⟩ := h2
    exact Or.inr ⟨hM, rfl, rfl, h1⟩

theorem trial_known {o : SliceOptions} {active : List Ident} {m m' : Minimizer} {n c : Nat} {r : Reply} {b : Bool}
    (h : trial o active m n r = some (m', c, b)) :
    m'.lo = m.lo ∧ m'.hi = m.hi ∧ (∀ x, Known m x → Known m' x) ∧ Known m' n := by
  rcases trial_some h with ⟨M, _, _, hc, ha⟩ | ⟨_, _, _, ha⟩
  · obtain ⟨h1, h2, h3, h4⟩ := addResult_some ha
    exact ⟨h1, h2, h3, h4.1 n hc⟩
  · generalize r.choice o = q at ha
    obtain ⟨h1, h2, h3, h4⟩ := addResult_some ha
    revert h4
    cases q with
    | acceptUpwards => exact fun h4 => ⟨h1, h2, h3, h4.1 n (Nat.le_refl _)⟩
    | rejectDownwards => exact fun h4 => ⟨h1, h2, h3, h4.1 n (Nat.le_refl _)⟩
    | unknown => exact fun h4 => ⟨h1, h2, h3, h4.1⟩

/-- The loop terminates. -/
theorem satSearch_terminates (o : SliceOptions) (active : List Ident) (ask : Nat → Nat → Reply) (fuel : Nat) :
    ∀ s : SearchSt, open_ s.min < fuel → ∃ r, satSearch o active ask fuel s = some r := by
  induction fuel with
  | zero => intro s h; omega
  | succ fuel ih =>
    intro s hf
    unfold satSearch
    cases hn : s.min.nextTrial with
    | none => exact ⟨_, rfl⟩
    | some n =>
      simp only []
      cases ht : trial o active s.min n (ask s.step n) with
      | none => exact ⟨_, rfl⟩
      | some p =>
        obtain ⟨m', c, b⟩ := p
        cases b with
        | true => exact ⟨_, rfl⟩
        | false =>
          refine ih _ ?_
          obtain ⟨e1, e2, hk, hkn⟩ := trial_known ht
          obtain ⟨h1, h2, h3⟩ := nextTrial_some hn
          have : open_ m' < open_ s.min := by
            unfold open_
            rw [e1, e2]
            refine filter_lt (a := n) (mem_rangeIncl.2 ⟨h1, h2⟩) ?_ ?_ ?_
            · simpa using hkn
            · simpa using h3
            · intro x hx
              simp only [decide_eq_true_eq] at hx ⊢
              exact fun h => hx (hk x h)
          show open_ m' < fuel
          omega

/-- An invariant of the loop. -/
theorem satSearch_inv {o : SliceOptions} {active : List Ident} {ask : Nat → Nat → Reply} (P : SearchSt → Prop)
    (hstep : ∀ s n m c b, P s → s.min.nextTrial = some n → trial o active s.min n (ask s.step n) = some (m, c, b) →
      P ⟨m, some (c, ask s.step n), s.step + 1⟩) (fuel : Nat) :
    ∀ (s s' : SearchSt), P s → satSearch o active ask fuel s = some (some s') → P s' := by
  induction fuel with
  | zero => intro s s' _ h; cases h
  | succ fuel ih =>
    intro s s' hs h
    unfold satSearch at h
    cases hn : s.min.nextTrial with
    | none => rw [hn] at h; cases h; exact hs
    | some n =>
      rw [hn] at h
      simp only [] at h
      cases ht : trial o active s.min n (ask s.step n) with
      | none => rw [ht] at h; cases h
      | some p =>
        obtain ⟨m', c, b⟩ := p
        rw [ht] at h
        have := hstep s n m' c b hs hn ht
        cases b with
        | true => cases h; exact this
        | false => exact ih _ _ this h

/-- Without the early exit, nothing is left to try. -/
theorem satSearch_done {o : SliceOptions} {active : List Ident} {ask : Nat → Nat → Reply} (ho : o.minimality ≠ .any) (fuel : Nat) :
    ∀ (s s' : SearchSt), satSearch o active ask fuel s = some (some s') → s'.min.nextTrial = none := by
  induction fuel with
  | zero => intro s s' h; cases h
  | succ fuel ih =>
    intro s s' h
    unfold satSearch at h
    cases hn : s.min.nextTrial with
    | none => rw [hn] at h; cases h; exact hn
    | some n =>
      rw [hn] at h
      simp only [] at h
      cases ht : trial o active s.min n (ask s.step n) with
      | none => rw [ht] at h; cases h
      | some p =>
        obtain ⟨m', c, b⟩ := p
        rw [ht] at h
        cases b with
        | true =>
          exfalso
          unfold trial at ht
          split at ht
          · split at ht
            · obtain ⟨m'', h1, h2⟩ := Option.map_eq_some_iff.mp ht
              simp only [Prod.mk.injEq] at h2
              obtain ⟨_, _, h3⟩ := h2
              revert h3 ho
              cases o.minimality <;> simp
            · cases ht
          · obtain ⟨m'', h1, h2⟩ := Option.map_eq_some_iff.mp ht
            simp only [Prod.mk.injEq] at h2
            exact Bool.noConfusion h2.2.2
        | false => exact ih _ _ h

theorem searchFinal_some {o : SliceOptions} {active : List Ident} {ask : Nat → Nat → Reply} {fuel : Nat} {r : Reply}
    (h : searchFinal o active ask fuel = some (some r)) :
    ∃ s, satSearch o active ask fuel ⟨.new 0 active.length, none, 0⟩ = some (some s) ∧ settle active ask s = some r := by
  obtain ⟨s, h1, h2⟩ := Option.map_eq_some_iff.mp h
  cases s with
  | none => cases h2
  | some s => exact ⟨s, h1, h2⟩

/-- The cached answer is the answer to some query. -/
theorem last_is_reply {o : SliceOptions} {active : List Ident} {ask : Nat → Nat → Reply} {fuel : Nat} {s : SearchSt}
    (h : satSearch o active ask fuel ⟨.new 0 active.length, none, 0⟩ = some (some s)) :
    ∀ p, s.last = some p → ∃ step n, n ≤ active.length ∧ p.2 = ask step n := by
  have := satSearch_inv (o := o) (active := active) (ask := ask)
    (fun s => s.min.hi = active.length ∧ ∀ p, s.last = some p → ∃ step n, n ≤ active.length ∧ p.2 = ask step n)
    (fun s n m c b hs hn ht => ⟨(trial_known ht).2.1.trans hs.1, fun p hp => by
      cases hp
      exact ⟨s.step, n, hs.1 ▸ (nextTrial_some hn).2.1, rfl⟩⟩) fuel _ s ⟨rfl, fun p hp => by cases hp⟩ h
  exact this.2

/-- The final answer is the answer to some query. -/
theorem searchFinal_reply {o : SliceOptions} {active : List Ident} {ask : Nat → Nat → Reply} {fuel : Nat} {r : Reply}
    (h : searchFinal o active ask fuel = some (some r)) : ∃ step n, r = ask step n := by
  obtain ⟨s, h1, h2⟩ := searchFinal_some h
  unfold settle at h2
  split at h2
  · cases h2; exact ⟨_, _, rfl⟩
  · rename_i c r' hl
    split at h2
    · cases h2
      obtain ⟨st, n, _, e⟩ := last_is_reply h1 _ hl
      exact ⟨st, n, e⟩
    · refine ⟨s.step, s.min.enabled, ?_⟩
      simp only [] at h2
      revert h2
      generalize ask s.step s.min.enabled = q
      intro h2
      split at h2
      · cases q <;> simp_all
      · split at h2
        · cases q <;> simp_all
        · split at h2
          · cases q <;> simp_all
          · exact (Option.some.inj h2).symm

/-! ## `UnknownHandling::Stop` -/

/-- The state of the search with `UnknownHandling::Stop`. -/
def StopInv (active : List Ident) (ask : Nat → Nat → Reply) (o : SliceOptions) (s : SearchSt) : Prop :=
  s.min.hi = active.length ∧ s.min.lo = 0 ∧ (∀ r a, s.min.maxReject = some r → s.min.minAccept = some a → r < a) ∧
  ((s.min = .new 0 active.length ∧ s.last = none) ∨
   (s.min.minAccept = none ∧ s.min.maxReject = some active.length ∧ ∃ step, s.last = some (active.length, ask step active.length)) ∨
   (∃ a c r, s.min.minAccept = some a ∧ s.last = some (c, r) ∧ (r.accepted o = none → ∃ q, s.min.maxReject = some q ∧ c ≤ q)))

theorem nextTrial_new (n : Nat) : (Minimizer.new 0 n).nextTrial = some n := by
  unfold Minimizer.nextTrial Minimizer.range Minimizer.new
  simp

theorem nextTrial_rejected {m : Minimizer} (h : m.maxReject = some m.hi) : m.nextTrial = none := by
  cases hn : m.nextTrial with
  | none => rfl
  | some n =>
    obtain ⟨_, h2, h3⟩ := nextTrial_some hn
    exact absurd (Or.inr (Or.inl ⟨_, h, h2⟩)) h3

theorem choice_stop {o : SliceOptions} (ho : o.unknown = .stop) {r : Reply} (hr : r.accepted o = none) : r.choice o = .rejectDownwards := by
  cases r with
  | sat M => cases hr
  | unsat => rfl
  | unknown M => simp only [Reply.choice, ho]

theorem stopInv_step {o : SliceOptions} (ho : o.unknown = .stop) {active : List Ident} {ask : Nat → Nat → Reply} {s : SearchSt} {n : Nat}
    {m : Minimizer} {c : Nat} {b : Bool} (hs : StopInv active ask o s) (hn : s.min.nextTrial = some n)
    (ht : trial o active s.min n (ask s.step n) = some (m, c, b)) : StopInv active ask o ⟨m, some (c, ask s.step n), s.step + 1⟩ := by
  obtain ⟨hhi, hlo, hra, hs⟩ := hs
  obtain ⟨e1, e2, _, _⟩ := trial_known ht
  refine ⟨e2.trans hhi, e1.trans hlo, ?_, ?_⟩
  · rcases trial_some ht with ⟨M, _, _, _, ha⟩ | ⟨hr, _, _, ha⟩
    · obtain ⟨_, _, _, _, h5, _, ⟨a, h6, _, h7⟩, _⟩ := addResult_some ha
      intro r a' hr ha'
      rw [show m.maxReject = some r from hr] at h5
      rw [show m.minAccept = some a' from ha'] at h6
      cases h6
      exact h7 r h5.symm
    · rw [choice_stop ho hr] at ha
      obtain ⟨_, _, _, _, h5, _, r, h6, _, h7, _⟩ := addResult_some ha
      intro r' a' hr' ha'
      rw [show m.maxReject = some r' from hr'] at h6
      rw [show m.minAccept = some a' from ha'] at h5
      cases h6
      exact h7 a' h5.symm
  · rcases trial_some ht with ⟨M, hM, _, _, ha⟩ | ⟨hr, rfl, _, ha⟩
    · obtain ⟨_, _, _, _, _, _, ⟨a, h6, _, _⟩, _⟩ := addResult_some ha
      exact Or.inr (Or.inr ⟨a, c, _, h6, rfl, fun h => by rw [hM] at h; cases h⟩)
    · rw [choice_stop ho hr] at ha
      obtain ⟨_, _, _, _, h5, _, r, h6, h7, _, _, h9⟩ := addResult_some ha
      rcases hs with ⟨hs1, _⟩ | ⟨_, hs2, _⟩ | ⟨a, c', r', hs1, _, _⟩
      · rw [hs1] at hn h5 h9
        rw [nextTrial_new] at hn
        obtain rfl := Option.some.inj hn
        obtain rfl := h9 rfl
        exact Or.inr (Or.inl ⟨h5, h6, s.step, rfl⟩)
      · rw [nextTrial_rejected (hhi ▸ hs2)] at hn
        cases hn
      · exact Or.inr (Or.inr ⟨a, c, _, h5.trans hs1, rfl, fun _ => ⟨r, h6, h7⟩⟩)

/-- With `UnknownHandling::Stop`, the final answer is only `unsat` if the query without a bound was `unsat`. -/
theorem stop_unsat {o : SliceOptions} (ho : o.unknown = .stop) {active : List Ident} {ask : Nat → Nat → Reply} {fuel : Nat}
    (h : searchFinal o active ask fuel = some (some .unsat)) : ∃ step, ask step active.length = .unsat := by
  obtain ⟨s, h1, h2⟩ := searchFinal_some h
  have hinv := satSearch_inv (StopInv active ask o) (fun s n m c b hs hn ht => stopInv_step ho hs hn ht) fuel _ s
    ⟨rfl, rfl, (fun _ _ hr => by cases hr), Or.inl ⟨rfl, rfl⟩⟩ h1
  obtain ⟨_, _, hra, hs⟩ := hinv
  unfold settle at h2
  rcases hs with ⟨hs1, hs2⟩ | ⟨hs1, hs2, step, hs3⟩ | ⟨a, c, r, hs1, hs2, hs3⟩
  · rw [hs2] at h2
    exact ⟨_, Option.some.inj h2⟩
  · have he : s.min.enabled = active.length := by unfold Minimizer.enabled; rw [hs1, hs2]; rfl
    rw [hs3] at h2
    simp only [he, if_true] at h2
    exact ⟨step, Option.some.inj h2⟩
  · have he : s.min.enabled = a := by unfold Minimizer.enabled; rw [hs1]; rfl
    rw [hs2] at h2
    simp only [he] at h2
    split at h2
    · rename_i hc
      cases h2
      obtain ⟨q, hq, hcq⟩ := hs3 rfl
      have := hra q a hq hs1
      omega
    · rw [if_pos (by rw [hs1]; rfl)] at h2
      split at h2
      · cases h2
      · rename_i hne
        exact absurd (Option.some.inj h2) hne

/-! ## Without unknown answers -/

/-- Some failing slice has at most `n` enabled statements. -/
def AccN (fails : (Ident → Bool) → Prop) (active : List Ident) (n : Nat) : Prop := ∃ A, fails A ∧ enabledCount active A ≤ n

/-- The answer for the minimizer. -/
def Reply.answer (active : List Ident) : Reply → Answer
  | .sat M => .accept (countTrue active M)
  | .unsat => .reject
  | .unknown _ => .unknown

theorem truthful_answer {fails : (Ident → Bool) → Prop} {active : List Ident} {ask : Nat → Nat → Reply}
    (ht : TruthfulReplies fails active ask) (step : Nat) :
    Truthful (AccN fails active) 0 active.length fun n => (ask step n).answer active := by
  intro n _ _
  have := ht step n
  show match (ask step n).answer active with
    | .accept k => 0 ≤ k ∧ k ≤ n ∧ AccN fails active k
    | .reject => ¬ AccN fails active n
    | .unknown => True
  cases h : ask step n with
  | sat M =>
    rw [h] at this
    exact ⟨Nat.zero_le _, (this _ (completes_false M)).2, _, (this _ (completes_false M)).1, Nat.le_refl _⟩
  | unsat =>
    rw [h] at this
    rintro ⟨A, h1, h2⟩
    have := this A h1
    omega
  | unknown M => trivial

theorem accN_mono (fails : (Ident → Bool) → Prop) (active : List Ident) (a b : Nat) (h : a ≤ b) : AccN fails active a → AccN fails active b :=
  fun ⟨A, h1, h2⟩ => ⟨A, h1, Nat.le_trans h2 h⟩

/-- The state of the search without unknown answers. -/
structure SureInv (fails : (Ident → Bool) → Prop) (active : List Ident) (ask : Nat → Nat → Reply) (s : SearchSt) : Prop where
  inv : Inv (AccN fails active) 0 active.length (fun _ => .reject) s.min
  init : s.last = none → s.min.minAccept = none
  last : ∀ c r, s.last = some (c, r) → ∃ step n, r = ask step n ∧ n ≤ active.length ∧
    match r with
    | .sat M => c = countTrue active M ∧ s.min.minAccept ≠ none
    | .unsat => c = n ∧ s.min.maxReject ≠ none
    | .unknown _ => False

theorem Inv.other {acc : Nat → Prop} {lo hi : Nat} {answer answer' : Nat → Answer} {m : Minimizer} (h : Inv acc lo hi answer m)
    (hu : m.unknowns = []) : Inv acc lo hi answer' m :=
  ⟨h.hlo, h.hhi, h.rej, h.acc, fun n hn => by rw [hu] at hn; cases hn⟩

theorem sureInv_step {fails : (Ident → Bool) → Prop} {o : SliceOptions} {active : List Ident} {ask : Nat → Nat → Reply}
    (ht : TruthfulReplies fails active ask) (hu : ∀ step n M, ask step n ≠ .unknown M) {s : SearchSt} {n : Nat}
    (hs : SureInv fails active ask s) (hn : s.min.nextTrial = some n) :
    ∃ m c b, trial o active s.min n (ask s.step n) = some (m, c, b) ∧ SureInv fails active ask ⟨m, some (c, ask s.step n), s.step + 1⟩ := by
  have hu0 : s.min.unknowns = [] := by
    cases h : s.min.unknowns with
    | nil => rfl
    | cons x l => exact Answer.noConfusion (hs.inv.unk x (by rw [h]; exact List.mem_cons_self)).2.2
  obtain ⟨m', h1, h2, _, _⟩ := addResult_spec (accN_mono fails active) (truthful_answer ht s.step) (hs.inv.other hu0) hn
  have hu1 : m'.unknowns = [] := by
    cases h : m'.unknowns with
    | nil => rfl
    | cons x l =>
      have := (h2.unk x (by rw [h]; exact List.mem_cons_self)).2.2
      cases hx : ask s.step x with
      | sat M => rw [hx] at this; cases this
      | unsat => rw [hx] at this; cases this
      | unknown M => exact absurd hx (hu _ _ _)
  have hle := (nextTrial_some hn).2.1
  rw [hs.inv.hhi] at hle
  cases hr : ask s.step n with
  | unknown M => exact absurd hr (hu _ _ _)
  | sat M =>
    have hc := ht s.step n
    rw [hr] at hc h1
    have hk : countTrue active M ≤ n := (hc _ (completes_false M)).2
    refine ⟨m', countTrue active M, (match o.minimality with | .any => true | _ => false), ?_, h2.other hu1, (fun h => by cases h), ?_⟩
    · unfold trial
      simp only [Reply.accepted]
      rw [if_pos hk]
      simp only [Reply.answer, Minimizer.record] at h1
      rw [h1]
      rfl
    · intro c r he
      cases he
      refine ⟨s.step, n, hr.symm, hle, rfl, ?_⟩
      obtain ⟨_, _, _, _, _, _, ⟨a, h6, _⟩, _⟩ := addResult_some (r := .acceptUpwards) h1
      show m'.minAccept ≠ none
      rw [h6]
      exact fun h => by cases h
  | unsat =>
    rw [hr] at h1
    refine ⟨m', n, false, ?_, h2.other hu1, (fun h => by cases h), ?_⟩
    · unfold trial
      simp only [Reply.accepted, Reply.choice]
      simp only [Reply.answer, Minimizer.record] at h1
      rw [h1]
      rfl
    · intro c r he
      cases he
      refine ⟨s.step, n, hr.symm, hle, rfl, ?_⟩
      obtain ⟨_, _, _, _, _, _, q, h6, _⟩ := addResult_some (r := .rejectDownwards) h1
      show m'.maxReject ≠ none
      rw [h6]
      exact fun h => by cases h

theorem sureInv_init (fails : (Ident → Bool) → Prop) (active : List Ident) (ask : Nat → Nat → Reply) :
    SureInv fails active ask ⟨.new 0 active.length, none, 0⟩ :=
  ⟨⟨rfl, rfl, (fun r h => by cases h), (fun r h => by cases h), (fun n h => by cases h)⟩, fun _ => rfl, fun c r h => by cases h⟩

/-- Without unknown answers, no assertion in the loop fails. -/
theorem sure_no_panic {fails : (Ident → Bool) → Prop} {o : SliceOptions} {active : List Ident} {ask : Nat → Nat → Reply}
    (ht : TruthfulReplies fails active ask) (hu : ∀ step n M, ask step n ≠ .unknown M) (fuel : Nat) :
    ∀ s, SureInv fails active ask s → ∀ r, satSearch o active ask fuel s = some r → ∃ s', r = some s' ∧ SureInv fails active ask s' := by
  induction fuel with
  | zero => intro s _ r h; cases h
  | succ fuel ih =>
    intro s hs r h
    unfold satSearch at h
    cases hn : s.min.nextTrial with
    | none => rw [hn] at h; cases h; exact ⟨s, rfl, hs⟩
    | some n =>
      rw [hn] at h
      simp only [] at h
      obtain ⟨m, c, b, h1, h2⟩ := sureInv_step (o := o) ht hu hs hn
      rw [h1] at h
      cases b with
      | true => cases h; exact ⟨_, rfl, h2⟩
      | false => exact ih _ h2 r h

/-- Without unknown answers, the final query is answered without a failed assertion. -/
theorem sure_settle {fails : (Ident → Bool) → Prop} {active : List Ident} {ask : Nat → Nat → Reply}
    (ht : TruthfulReplies fails active ask) (hu : ∀ step n M, ask step n ≠ .unknown M) {s : SearchSt} (hs : SureInv fails active ask s) :
    ∃ r, settle active ask s = some r := by
  unfold settle
  cases hl : s.last with
  | none => exact ⟨_, rfl⟩
  | some p =>
    obtain ⟨c, r⟩ := p
    simp only []
    split
    · exact ⟨_, rfl⟩
    · have hq := ht s.step s.min.enabled
      split
      · rename_i ha
        cases hm : s.min.minAccept with
        | none => rw [hm] at ha; cases ha
        | some a =>
          have he : s.min.enabled = a := by unfold Minimizer.enabled; rw [hm]; rfl
          rw [he] at hq ⊢
          split
          · rename_i hr
            rw [hr] at hq
            obtain ⟨A, h1, h2⟩ := (hs.inv.acc a hm).2.2
            have := hq A h1
            omega
          · exact ⟨_, rfl⟩
      · rename_i ha
        have hn : s.min.minAccept = none := by
          cases hm : s.min.minAccept with
          | none => rfl
          | some a => rw [hm] at ha; exact absurd rfl ha
        split
        · rename_i hb
          cases hm : s.min.maxReject with
          | none => rw [hm] at hb; cases hb
          | some a =>
            have he : s.min.enabled = a := by unfold Minimizer.enabled; rw [hn, hm]; rfl
            rw [he] at hq ⊢
            cases hr : ask s.step a with
            | sat M =>
              rw [hr] at hq
              exact absurd ⟨_, (hq _ (completes_false M)).1, (hq _ (completes_false M)).2⟩ (hs.inv.rej a hm).2.2
            | unsat => exact ⟨_, rfl⟩
            | unknown M => exact absurd hr (hu _ _ _)
        · rename_i hb
          exfalso
          obtain ⟨step, n, _, _, h3⟩ := hs.last c r hl
          cases r with
          | sat M => exact h3.2 hn
          | unsat =>
            cases hm : s.min.maxReject with
            | none => exact h3.2 hm
            | some a => rw [hm] at hb; exact hb rfl
          | unknown M => exact h3

/-- Without unknown answers, the search ends without a failed assertion. -/
theorem searchFinal_sure {fails : (Ident → Bool) → Prop} {o : SliceOptions} {active : List Ident} {ask : Nat → Nat → Reply}
    (ht : TruthfulReplies fails active ask) (hu : ∀ step n M, ask step n ≠ .unknown M) :
    ∃ fuel r, searchFinal o active ask fuel = some (some r) := by
  obtain ⟨r, hr⟩ := satSearch_terminates o active ask (open_ (.new 0 active.length) + 1) ⟨.new 0 active.length, none, 0⟩ (Nat.lt_succ_self _)
  obtain ⟨s, rfl, hs⟩ := sure_no_panic ht hu _ _ (sureInv_init fails active ask) r hr
  obtain ⟨r, h⟩ := sure_settle ht hu hs
  refine ⟨open_ (.new 0 active.length) + 1, r, ?_⟩
  unfold searchFinal
  rw [hr]
  exact congrArg some h

/-- Without unknown answers, `unsat` means that no slice fails. -/
theorem sure_unsat {fails : (Ident → Bool) → Prop} {o : SliceOptions} {active : List Ident} {ask : Nat → Nat → Reply}
    (ht : TruthfulReplies fails active ask) (hu : ∀ step n M, ask step n ≠ .unknown M) {fuel : Nat}
    (h : searchFinal o active ask fuel = some (some .unsat)) (A : Ident → Bool) : ¬ fails A := by
  have ho : ∃ o' : SliceOptions, o'.unknown = .stop ∧ searchFinal o' active ask fuel = some (some .unsat) := by
    refine ⟨⟨o.minimality, .stop⟩, rfl, ?_⟩
    rw [← h]
    have htr : ∀ m n step, trial ⟨o.minimality, .stop⟩ active m n (ask step n) = trial o active m n (ask step n) := by
      intro m n step
      cases hr : ask step n with
      | sat M => rfl
      | unsat => rfl
      | unknown M => exact absurd hr (hu _ _ _)
    have : ∀ fuel s, satSearch ⟨o.minimality, .stop⟩ active ask fuel s = satSearch o active ask fuel s := by
      intro fuel
      induction fuel with
      | zero => intro s; rfl
      | succ fuel ih =>
        intro s
        unfold satSearch
        simp only [htr, ih]
    unfold searchFinal
    rw [this]
  obtain ⟨o', h1, h2⟩ := ho
  obtain ⟨step, h3⟩ := stop_unsat h1 h2
  intro hA
  have := ht step active.length
  rw [h3] at this
  have := this A hA
  have := enabledCount_le active A
  omega

/-- Without unknown answers and without the early exit, a final model has at most as many true active variables as any failing slice, if all active
variables have a value. -/
theorem sure_minimal {fails : (Ident → Bool) → Prop} {o : SliceOptions} {active : List Ident} {ask : Nat → Nat → Reply}
    (ht : TruthfulReplies fails active ask) (hu : ∀ step n M, ask step n ≠ .unknown M) (ho : o.minimality ≠ .any) {fuel : Nat} {M : PModel}
    (h : searchFinal o active ask fuel = some (some (.sat M))) (A : Ident → Bool) (hA : fails A) :
    countTrue active M ≤ enabledCount active A := by
  obtain ⟨s, h1, h2⟩ := searchFinal_some h
  obtain ⟨s', e, hs⟩ := sure_no_panic ht hu _ _ (sureInv_init fails active ask) _ h1
  cases e
  have hd := satSearch_done ho _ _ _ h1
  have hun : s.min.unknowns = [] := by
    cases h : s.min.unknowns with
    | nil => rfl
    | cons x l => exact Answer.noConfusion (hs.inv.unk x (by rw [h]; exact List.mem_cons_self)).2.2
  -- the number of statements of any failing slice is at least the accepted one
  have hmin : ∃ a, s.min.minAccept = some a ∧ a ≤ enabledCount active A := by
    have hk := nextTrial_none hd (n := enabledCount active A) (by rw [hs.inv.hlo]; exact Nat.zero_le _)
      (by rw [hs.inv.hhi]; exact enabledCount_le _ _)
    rcases hk with hk | ⟨r, hr, hle⟩ | ⟨a, ha, hle⟩
    · rw [hun] at hk; cases hk
    · exact absurd ⟨A, hA, hle⟩ (hs.inv.rej r hr).2.2
    · exact ⟨a, ha, hle⟩
  obtain ⟨a, ha, hle⟩ := hmin
  have he : s.min.enabled = a := by unfold Minimizer.enabled; rw [ha]; rfl
  unfold settle at h2
  split at h2
  · rename_i hl
    rw [hs.init hl] at ha
    cases ha
  · rename_i c r hl
    rw [he] at h2
    split at h2
    · rename_i hc
      cases h2
      obtain ⟨_, _, _, _, h3, _⟩ := hs.last c _ hl
      omega
    · rw [if_pos (by rw [ha]; rfl)] at h2
      have hq := ht s.step a
      have hr : ask s.step a = .sat M := by
        revert h2
        cases ask s.step a <;> simp
      rw [hr] at hq
      exact Nat.le_trans (hq _ (completes_false M)).2 hle

end Caesar.Slicing
