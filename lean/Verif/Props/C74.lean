import Verif.Servers.StatusLemmas
import Mathlib.Data.List.Perm.Basic
import Mathlib.Order.Lattice

/-!
# C74: the statuses that the editor shows are those of the procedures

The editor shows one status for each location of a procedure. The procedure and all the side conditions which its encodings have generated are at this location.
-/

namespace Caesar.Server

/-- Specification: the unit has been verified by a sound proof. -/
def SourceUnit.Proved (u : SourceUnit) : Prop := u.result = .proof ∧ u.soundProofs = true

/-- Specification: the unit has been refuted, and the counterexample is one of the program. -/
def SourceUnit.Refuted (u : SourceUnit) : Prop := u.result = .counterexample ∧ u.soundRefutations = true

/-- Specification: the solver has reached a decision. -/
def SourceUnit.Decided (u : SourceUnit) : Prop := u.result ≠ .interrupted ∧ u.result ≠ .timeout

/-- Specification: the editor shows the status at the location. -/
def Shows (st : FileState) (sp : Loc) (s : VerifyStatus) : Prop := (sp, s) ∈ iterSpans st.statuses

/-- Specification: what is to be shown after a request for a file with these units. -/
structure ShowsResults (fuel : ℕ) (tasks : List SourceUnit) (st : FileState) : Prop where
  /-- what is shown as verified has been proved -/
  sound : ∀ sp, Shows st sp .verified → ∀ u ∈ tasks, u.name.loc = sp → u.Proved
  /-- what is shown as refuted has been refuted -/
  refuted : ∀ sp, Shows st sp .refuted → ∀ u ∈ tasks, u.name.loc = sp → u.Refuted
  /-- if the limits suffice, everything that has been proved is shown as verified, and the file is done -/
  complete : tasks.length ≤ fuel → (∀ u ∈ tasks, u.Decided) → st.type = .done ∧
    ∀ u ∈ tasks, (∀ v ∈ tasks, v.name.loc = u.name.loc → v.Proved) → Shows st u.name.loc .verified
  /-- each task has a location at which something is shown -/
  covered : ∀ u ∈ tasks, ∃ s, Shows st u.name.loc s
  /-- unless the request has been cancelled, nothing is shown as pending -/
  settled : (∀ u ∈ tasks, u.result ≠ .interrupted) → ∀ sp s, Shows st sp s → s ≠ .todo ∧ s ≠ .ongoing
  /-- a task for which the solver ran out of time is shown as such -/
  timeouts : ∀ u, tasks = [u] → u.result = .timeout → Shows st u.name.loc .timeout

/-- C74: after each request the results are shown. -/
def C74_full : Prop :=
  ∀ fuel units generated, ((units ++ generated).map SourceUnit.name).Nodup →
    ∃ st, verifyRequest fuel units generated = some st ∧ ShowsResults fuel ((units ++ generated).filter SourceUnit.isTask) st

/-- At every location, exactly one status is shown. It is `verified`, or `refuted`, if and only if this is the status of all the units at the location,
and it is `failed` if and only if it is the status of one of them. -/
theorem C74_shown (l : StatusList) (sp : Loc) :
    ((sp, .verified) ∈ iterSpans l ↔ (∃ p ∈ l, p.1.loc = sp) ∧ ∀ p ∈ l, p.1.loc = sp → p.2 = .verified) ∧
    ((sp, .refuted) ∈ iterSpans l ↔ (∃ p ∈ l, p.1.loc = sp) ∧ ∀ p ∈ l, p.1.loc = sp → p.2 = .refuted) ∧
    ((sp, .failed) ∈ iterSpans l ↔ ∃ p ∈ l, p.1.loc = sp ∧ p.2 = .failed) ∧
    ((∃ p ∈ l, p.1.loc = sp) ↔ ∃ s, (sp, s) ∈ iterSpans l) ∧ ((iterSpans l).map Prod.fst).Nodup := by
  refine ⟨iterSpans_all .verified combine_eq_verified l sp, iterSpans_all .refuted combine_eq_refuted l sp, ?_, ?_, nodup_iterSpans l⟩
  · rw [mem_iterSpans]
    have : combineAll (statusesAt l sp) = some .failed ↔ .failed ∈ statusesAt l sp := by
      cases statusesAt l sp with
      | nil => simp [combineAll]
      | cons s ss =>
        simp only [combineAll, Option.some.injEq, foldl_combine_failed, List.mem_cons]
        exact or_congr_left eq_comm
    rw [this, mem_statusesAt]
    constructor
    · rintro ⟨n, hn, hl⟩; exact ⟨_, hn, hl, rfl⟩
    · rintro ⟨⟨n, s⟩, hn, hl, rfl⟩; exact ⟨n, hn, hl⟩
  · constructor
    · rintro ⟨p, hp, hl⟩
      have : statusesAt l sp ≠ [] := List.ne_nil_of_mem ((mem_statusesAt l sp p.2).2 ⟨p.1, hp, hl⟩)
      obtain ⟨s, ss, hs⟩ := List.exists_cons_of_ne_nil this
      exact ⟨_, (mem_iterSpans l sp _).2 (by rw [hs]; rfl)⟩
    · rintro ⟨s, hs⟩
      rw [mem_iterSpans] at hs
      cases h : statusesAt l sp with
      | nil => rw [h] at hs; cases hs
      | cons x ss =>
        obtain ⟨n, hn, hl⟩ := (mem_statusesAt l sp x).1 (by rw [h]; exact List.mem_cons_self)
        exact ⟨_, hn, hl⟩

/-- A status that is shown as pending is that of a unit which is pending. -/
theorem shown_pending (l : StatusList) (h : ∀ p ∈ l, p.2.isCompleted) (sp : Loc) (s : VerifyStatus) (hs : (sp, s) ∈ iterSpans l) : s ≠ .todo ∧ s ≠ .ongoing := by
  rw [mem_iterSpans] at hs
  have hall : ∀ x ∈ statusesAt l sp, x.isCompleted := by
    intro x hx
    obtain ⟨n, hn, -⟩ := (mem_statusesAt l sp x).1 hx
    exact h _ hn
  have key : ∀ a b : VerifyStatus, a.isCompleted → b.isCompleted → (a.combine b).isCompleted := by
    intro a b; cases a <;> cases b <;> decide
  have fold : ∀ (ss : List VerifyStatus) (a : VerifyStatus), a.isCompleted → (∀ x ∈ ss, x.isCompleted) → (ss.foldl VerifyStatus.combine a).isCompleted := by
    intro ss
    induction ss with
    | nil => exact fun a ha _ => ha
    | cons x ss ih => exact fun a ha hx => ih _ (key a x ha (hx x List.mem_cons_self)) fun y hy => hx y (List.mem_cons_of_mem _ hy)
  cases hl : statusesAt l sp with
  | nil => rw [hl] at hs; cases hs
  | cons x ss =>
    rw [hl] at hs hall
    obtain rfl : ss.foldl VerifyStatus.combine x = s := Option.some.inj hs
    have := fold ss x (hall x List.mem_cons_self) fun y hy => hall y (List.mem_cons_of_mem _ hy)
    constructor <;> intro he <;> rw [he] at this <;> exact absurd this (by decide)

theorem getKey_timeoutAll (l : StatusList) (n : UnitName) :
    getKey (timeoutAll l) n = (getKey l n).map fun s => if s.isCompleted then s else .timeout := by
  induction l with
  | nil => rfl
  | cons p l ih =>
    obtain ⟨k, s⟩ := p
    simp only [timeoutAll, List.map_cons] at ih ⊢
    by_cases hs : s.isCompleted
    · by_cases hk : k = n <;> simp [getKey, hs, hk, ih]
    · by_cases hk : k = n <;> simp [getKey, hs, hk, ih]

theorem keys_timeoutAll (l : StatusList) : (timeoutAll l).map Prod.fst = l.map Prod.fst := by
  simp only [timeoutAll, List.map_map]
  apply List.map_congr_left
  rintro ⟨k, s⟩ -
  by_cases hs : s.isCompleted <;> simp [hs]

/-- What is known of the state after a request for a file without raw units. -/
theorem verifyRequest_spec (fuel : ℕ) (units generated : List SourceUnit) (hnd : ((units ++ generated).map SourceUnit.name).Nodup)
    (hraw : ∀ u ∈ units ++ generated, u.kind ≠ .raw) :
    ∃ st r done rest, verifyMain fuel units generated .cleared = some (st, r) ∧ (units ++ generated).filter SourceUnit.isTask = done ++ rest ∧
      (st.statuses.map Prod.fst).Nodup ∧
      (∀ u ∈ done, getKey st.statuses u.name = some (.ofResult u.result u.soundProofs u.soundRefutations)) ∧
      (∀ u ∈ rest, getKey st.statuses u.name = some .todo) ∧
      (∀ n s, getKey st.statuses n = some s → ∃ u ∈ done ++ rest, u.name = n) ∧
      (r = .ok → rest = []) ∧
      (done ≠ [] → (∀ p ∈ st.statuses, p.2.isCompleted) → st.type = .done) ∧
      (done.length + rest.length ≤ fuel → (∀ u ∈ done ++ rest, u.Decided) → r = .ok) ∧
      (r = .cancelled → ∃ u ∈ done, u.result = .interrupted) := by
  obtain ⟨st1, a1, a2, a3, a4, a5, a6⟩ := foldlM_registerUnit units .cleared (by simp [FileState.cleared])
  obtain ⟨st2, b1, b2, b3, b4, b5, b6⟩ := foldlM_registerUnit generated st1 a3
  have htask : ∀ u, u ∈ (units ++ generated).filter SourceUnit.isTask ↔ u ∈ units ++ generated ∧ u.kind = .proc := by
    intro u
    rw [List.mem_filter]
    refine and_congr_right fun hu => ?_
    have := hraw u hu
    simp [SourceUnit.isTask, this]
  have htodo : ∀ u ∈ (units ++ generated).filter SourceUnit.isTask, getKey st2.statuses u.name = some .todo := by
    intro u hu
    obtain ⟨hm, hk⟩ := (htask u).1 hu
    rcases List.mem_append.1 hm with hm | hm
    · exact b6 _ _ (a4 u hm hk) rfl
    · exact b4 u hm hk
  have hnone : ∀ n, (∀ u ∈ (units ++ generated).filter SourceUnit.isTask, u.name ≠ n) → getKey st2.statuses n = none := by
    intro n hn
    rw [b5 n fun u hu hk => hn u ((htask u).2 ⟨List.mem_append_right _ hu, hk⟩),
      a5 n fun u hu hk => hn u ((htask u).2 ⟨List.mem_append_left _ hu, hk⟩)]
    rfl
  have hnd' : (((units ++ generated).filter SourceUnit.isTask).map SourceUnit.name).Nodup :=
    hnd.sublist (List.filter_sublist.map _)
  obtain ⟨st', r, done, rest, e1, e2, e3, e4, e5, e6, e7, e8, e9⟩ := verifyLoop_spec fuel _ st2 b3 (fun u hu => by rw [htodo u hu]; simp) hnd'
  rw [e2, List.map_append] at hnd'
  have hnd'' := List.nodup_append.1 hnd'
  refine ⟨st', r, done, rest, ?_, e2, e3, e4, ?_, ?_, fun h => (e6 h).1, e8, ?_, ?_⟩
  · unfold verifyMain
    rw [a1]
    simp only [Option.bind_eq_bind, Option.bind_some]
    rw [b1]
    exact e1
  · intro u hu
    rw [e5 u.name fun hm => hnd''.2.2 u.name hm u.name (List.mem_map_of_mem hu) rfl]
    exact htodo u (by rw [e2]; exact List.mem_append_right _ hu)
  · intro n s hs
    by_contra hcon
    have h1 : n ∉ done.map SourceUnit.name := by
      rintro hm
      obtain ⟨u, hu, rfl⟩ := List.mem_map.1 hm
      exact hcon ⟨u, List.mem_append_left _ hu, rfl⟩
    rw [e5 n h1, hnone n fun u hu hun => hcon ⟨u, by rwa [← e2], hun⟩] at hs
    cases hs
  · intro hlen hall
    exact e9 (by rw [e2, List.length_append]; exact hlen) (by rw [e2]; exact hall)
  · -- the loop is cancelled by an interrupted solver only
    intro hr
    subst hr
    have : ∀ (fuel : ℕ) (us : List SourceUnit) (st st' : FileState), verifyLoop fuel us st = some (st', .cancelled) → ∃ u ∈ us, u.result = .interrupted ∧
        getKey st'.statuses u.name = some .unknown := by
      intro fuel us
      induction us generalizing fuel with
      | nil => intro st st' h; cases fuel <;> simp [verifyLoop] at h
      | cons u us ih =>
        intro st st' h
        cases fuel with
        | zero => simp [verifyLoop] at h
        | succ fuel =>
          simp only [verifyLoop, Option.bind_eq_bind] at h
          obtain ⟨st1, h1, h⟩ := Option.bind_eq_some_iff.1 h
          obtain ⟨st2, h2, h⟩ := Option.bind_eq_some_iff.1 h
          cases hres : u.result <;> rw [hres] at h
          case interrupted =>
            obtain ⟨l, hl, hst2⟩ := Option.map_eq_some_iff.1 h2
            simp only [Option.some.injEq, Prod.mk.injEq, and_true] at h
            subst h
            rw [← hst2]
            refine ⟨u, List.mem_cons_self, hres, ?_⟩
            simp only
            rw [updateStatus_some hl, hres]
            exact getKey_insertKey_self _ _ _
          case timeout => simp at h
          all_goals
            obtain ⟨v, hv, hv'⟩ := ih fuel _ _ h
            exact ⟨v, List.mem_cons_of_mem _ hv, hv'⟩
    obtain ⟨u, hu, hres, hst⟩ := this _ _ _ _ e1
    rw [e2] at hu
    rcases List.mem_append.1 hu with hu | hu
    · exact ⟨u, hu, hres⟩
    · rw [e5 u.name fun hm => hnd''.2.2 u.name hm u.name (List.mem_map_of_mem hu) rfl, htodo u (by rw [e2]; exact List.mem_append_right _ hu)] at hst
      cases hst

theorem ofResult_verified (u : SourceUnit) : VerifyStatus.ofResult u.result u.soundProofs u.soundRefutations = .verified ↔ u.Proved := by
  unfold VerifyStatus.ofResult SourceUnit.Proved
  cases u.result <;> cases u.soundProofs <;> cases u.soundRefutations <;> decide

theorem ofResult_refuted (u : SourceUnit) : VerifyStatus.ofResult u.result u.soundProofs u.soundRefutations = .refuted ↔ u.Refuted := by
  unfold VerifyStatus.ofResult SourceUnit.Refuted
  cases u.result <;> cases u.soundProofs <;> cases u.soundRefutations <;> decide

theorem ofResult_completed (u : SourceUnit) : (VerifyStatus.ofResult u.result u.soundProofs u.soundRefutations).isCompleted := by
  unfold VerifyStatus.ofResult
  cases u.result <;> cases u.soundProofs <;> cases u.soundRefutations <;> decide

/-- C74 (partial): if there are no raw units, the server does not panic, and what is shown as verified (refuted) has been proved (refuted). If also the limits suffice and there is at least
one task, then all that has been proved is shown as verified, and the file is done. Nothing is shown as pending unless the request has been cancelled.
Missing: raw units, the type of a file without any tasks, and that timeouts are shown as such, which are all wrong (`C74_not_full`). -/
theorem C74_request_partial (fuel : ℕ) (units generated : List SourceUnit) (hnd : ((units ++ generated).map SourceUnit.name).Nodup)
    (hraw : ∀ u ∈ units ++ generated, u.kind ≠ .raw) :
    ∃ st, verifyRequest fuel units generated = some st ∧
      (∀ sp, Shows st sp .verified → ∀ u ∈ (units ++ generated).filter SourceUnit.isTask, u.name.loc = sp → u.Proved) ∧
      (((units ++ generated).filter SourceUnit.isTask).length ≤ fuel → (∀ u ∈ (units ++ generated).filter SourceUnit.isTask, u.Decided) →
        ((units ++ generated).filter SourceUnit.isTask ≠ [] → st.type = .done) ∧
        ∀ u ∈ (units ++ generated).filter SourceUnit.isTask,
          (∀ v ∈ (units ++ generated).filter SourceUnit.isTask, v.name.loc = u.name.loc → v.Proved) → Shows st u.name.loc .verified) ∧
      (∀ u ∈ (units ++ generated).filter SourceUnit.isTask, ∃ s, Shows st u.name.loc s) ∧
      ((∀ u ∈ (units ++ generated).filter SourceUnit.isTask, u.result ≠ .interrupted) → ∀ sp s, Shows st sp s → s ≠ .todo ∧ s ≠ .ongoing) ∧
      (∀ sp, Shows st sp .refuted → ∀ u ∈ (units ++ generated).filter SourceUnit.isTask, u.name.loc = sp → u.Refuted) := by
  obtain ⟨st, r, done, rest, h1, h2, h3, h4, h5, h6, h7, h8, h9, h10⟩ := verifyRequest_spec fuel units generated hnd hraw
  rw [h2]
  -- the statuses after the result has been handled
  have hst : ∃ st', handleVerifyResult (st, r) = st' ∧ (st'.statuses.map Prod.fst).Nodup ∧
      (∀ u ∈ done, getKey st'.statuses u.name = some (.ofResult u.result u.soundProofs u.soundRefutations)) ∧
      (∀ u ∈ rest, getKey st'.statuses u.name = some (if r = .timedOut then .timeout else .todo)) ∧
      (∀ n s, getKey st'.statuses n = some s → ∃ u ∈ done ++ rest, u.name = n) ∧ (r = .ok → st' = st) := by
    cases r with
    | ok => exact ⟨st, rfl, h3, h4, by simpa using h5, h6, fun _ => rfl⟩
    | cancelled => exact ⟨st, rfl, h3, h4, by simpa using h5, h6, fun _ => rfl⟩
    | timedOut =>
      refine ⟨{ type := .timeout, statuses := timeoutAll st.statuses }, rfl, by simp only [keys_timeoutAll]; exact h3, ?_, ?_, ?_, by simp⟩
      · intro u hu
        simp only [getKey_timeoutAll, h4 u hu, Option.map_some, ofResult_completed u, if_true]
      · intro u hu
        simp only [getKey_timeoutAll, h5 u hu, Option.map_some, if_true, Option.some.injEq]
        rfl
      · intro n s hs
        simp only [getKey_timeoutAll] at hs
        obtain ⟨s', hs', -⟩ := Option.map_eq_some_iff.1 hs
        exact h6 n s' hs'
  obtain ⟨st', g1, g2, g3, g4, g5, g6⟩ := hst
  have hmem : ∀ u ∈ done ++ rest, ∃ s, (u.name, s) ∈ st'.statuses ∧ (s = .verified ∨ s = .refuted → u ∈ done) := by
    intro u hu
    rcases List.mem_append.1 hu with hu | hu
    · exact ⟨_, (mem_iff_getKey _ g2 _ _).2 (g3 u hu), fun _ => hu⟩
    · refine ⟨_, (mem_iff_getKey _ g2 _ _).2 (g4 u hu), ?_⟩
      split <;> simp
  refine ⟨st', by simp [verifyRequest, h1, g1], ?_, ?_, ?_, ?_, ?_⟩
  · intro sp hsp u hu hl
    have hall := ((C74_shown st'.statuses sp).1.1 hsp).2
    obtain ⟨s, hs, hd⟩ := hmem u hu
    have hv : s = .verified := hall _ hs hl
    have := g3 u (hd (.inl hv))
    rw [(mem_iff_getKey _ g2 _ _).1 hs, hv, Option.some.injEq] at this
    exact (ofResult_verified u).1 this.symm
  · intro hlen hdec
    have hr : r = .ok := h9 (by rwa [List.length_append] at hlen) hdec
    obtain rfl := h7 hr
    obtain rfl := g6 hr
    simp only [List.append_nil] at *
    have hall : ∀ p ∈ st'.statuses, ∃ u ∈ done, u.name = p.1 ∧ p.2 = .ofResult u.result u.soundProofs u.soundRefutations := by
      rintro ⟨n, s⟩ hp
      rw [mem_iff_getKey _ g2] at hp
      obtain ⟨u, hu, rfl⟩ := g5 n s hp
      rw [g3 u hu, Option.some.injEq] at hp
      exact ⟨u, hu, rfl, hp.symm⟩
    refine ⟨fun hne => h8 hne fun p hp => ?_, fun u hu hloc => ?_⟩
    · obtain ⟨u, hu, -, hs⟩ := hall p hp
      rw [hs]
      exact ofResult_completed u
    · refine (C74_shown st'.statuses u.name.loc).1.2 ⟨?_, ?_⟩
      · obtain ⟨s, hs, -⟩ := hmem u hu
        exact ⟨_, hs, rfl⟩
      · intro p hp hl
        obtain ⟨v, hv, hvn, hs⟩ := hall p hp
        rw [hs]
        exact (ofResult_verified v).2 (hloc v hv (by rw [hvn, hl]))
  · intro u hu
    obtain ⟨s, hs, -⟩ := hmem u hu
    exact ((C74_shown st'.statuses u.name.loc).2.2.2.1).1 ⟨_, hs, rfl⟩
  · intro hint sp s hs
    refine shown_pending st'.statuses ?_ sp s hs
    rintro ⟨n, x⟩ hp
    rw [mem_iff_getKey _ g2] at hp
    obtain ⟨u, hu, rfl⟩ := g5 n x hp
    rcases List.mem_append.1 hu with hu | hu
    · rw [g3 u hu, Option.some.injEq] at hp
      rw [← hp]
      exact ofResult_completed u
    · have hr : r = .timedOut := by
        cases r with
        | ok => rw [h7 rfl] at hu; cases hu
        | cancelled =>
          obtain ⟨v, hv, hvi⟩ := h10 rfl
          exact absurd hvi (hint v (List.mem_append_left _ hv))
        | timedOut => rfl
      rw [g4 u hu, if_pos hr, Option.some.injEq] at hp
      rw [← hp]
      rfl
  · intro sp hsp u hu hl
    have hall := ((C74_shown st'.statuses sp).2.1.1 hsp).2
    obtain ⟨s, hs, hd⟩ := hmem u hu
    have hv : s = .refuted := hall _ hs hl
    have := g3 u (hd (.inr hv))
    rw [(mem_iff_getKey _ g2 _ _).1 hs, hv, Option.some.injEq] at this
    exact (ofResult_refuted u).1 this.symm

/-! ## The combination of statuses -/

/-- A number for each status, such that the combination is the larger one. -/
def VerifyStatus.rank : VerifyStatus → ℕ
  | .verified | .refuted => 1
  | .todo => 2
  | .ongoing => 3
  | .timeout => 4
  | .unknown => 5
  | .failed => 6

theorem combineAll_rank (bad : VerifyStatus) (hbad : bad = .verified ∨ bad = .refuted) (ss : List VerifyStatus) (h : bad ∉ ss) (s : VerifyStatus) (hs : s ≠ bad) :
    (ss.foldl VerifyStatus.combine s).rank = (ss.map VerifyStatus.rank).foldl max s.rank ∧ ss.foldl VerifyStatus.combine s ≠ bad := by
  induction ss generalizing s with
  | nil => exact ⟨rfl, hs⟩
  | cons x ss ih =>
    simp only [List.mem_cons, not_or] at h
    have key : (s.combine x).rank = max s.rank x.rank ∧ s.combine x ≠ bad := by
      have hx := h.1
      revert hs hx
      rcases hbad with rfl | rfl <;> cases s <;> cases x <;> decide
    have := ih h.2 (s.combine x) key.2
    simp only [List.foldl_cons, List.map_cons, ← key.1]
    exact this

/-- The order of the units is irrelevant to what is shown (partial): it is so at each location where it is not the case that one unit is verified and another one
is refuted. Missing: the other locations, where it is wrong (`C74_order_not_full`). -/
theorem C74_order_partial (l l' : StatusList) (hperm : l.Perm l') (sp : Loc)
    (h : (∀ p ∈ l, p.1.loc = sp → p.2 ≠ .verified) ∨ (∀ p ∈ l, p.1.loc = sp → p.2 ≠ .refuted)) (s : VerifyStatus) :
    (sp, s) ∈ iterSpans l ↔ (sp, s) ∈ iterSpans l' := by
  rw [mem_iterSpans, mem_iterSpans]
  have hp : (statusesAt l sp).Perm (statusesAt l' sp) := (hperm.filter _).map _
  suffices combineAll (statusesAt l sp) = combineAll (statusesAt l' sp) by rw [this]
  obtain ⟨bad, hbad, hnot⟩ : ∃ bad : VerifyStatus, (bad = .verified ∨ bad = .refuted) ∧ bad ∉ statusesAt l sp := by
    rcases h with h | h
    · refine ⟨.verified, Or.inl rfl, fun hm => ?_⟩
      obtain ⟨n, hn, hl⟩ := (mem_statusesAt l sp _).1 hm
      exact h _ hn hl rfl
    · refine ⟨.refuted, Or.inr rfl, fun hm => ?_⟩
      obtain ⟨n, hn, hl⟩ := (mem_statusesAt l sp _).1 hm
      exact h _ hn hl rfl
  have hnot' : bad ∉ statusesAt l' sp := fun hm => hnot (hp.mem_iff.2 hm)
  generalize statusesAt l sp = a at *
  generalize statusesAt l' sp = b at *
  cases a with
  | nil => rw [List.nil_perm.1 hp]
  | cons x a =>
    cases b with
    | nil => exact absurd hp.symm.nil_eq (by simp)
    | cons y b =>
      simp only [List.mem_cons, not_or] at hnot hnot'
      have h1 := combineAll_rank bad hbad a hnot.2 x (Ne.symm hnot.1)
      have h2 := combineAll_rank bad hbad b hnot'.2 y (Ne.symm hnot'.1)
      have hmax : (a.map VerifyStatus.rank).foldl max x.rank = (b.map VerifyStatus.rank).foldl max y.rank := by
        have hz : ∀ (z : VerifyStatus) (c : List VerifyStatus), (c.map VerifyStatus.rank).foldl max z.rank = ((z :: c).map VerifyStatus.rank).foldl max 0 := by
          intro z c; simp
        rw [hz, hz]
        exact (hp.map _).foldl_eq' (fun m _ n _ k => by omega) 0
      have hr := h1.1.trans (hmax.trans h2.1.symm)
      simp only [combineAll, Option.some.injEq]
      revert hr
      have hx := h1.2
      have hy := h2.2
      revert hx hy
      generalize a.foldl VerifyStatus.combine x = u
      generalize b.foldl VerifyStatus.combine y = v
      rcases hbad with rfl | rfl <;> cases u <;> cases v <;> decide

/-- A unit of a procedure `main`, and some side conditions of it, at the same location. -/
def unitAt (name : String) (result : Outcome) : SourceUnit :=
  ⟨⟨"test.heyvl", some name, ⟨1, 5, 9⟩, 0⟩, .proc, result, true, true⟩

/-- The order is relevant if a procedure is verified and one of its side conditions is refuted. -/
theorem C74_order_not_full : ¬ ∀ l l' : StatusList, l.Perm l' → ∀ sp s, (sp, s) ∈ iterSpans l ↔ (sp, s) ∈ iterSpans l' := by
  intro h
  have := h [((unitAt "main" .proof).name, .verified), ((unitAt "a" .proof).name, .refuted), ((unitAt "b" .proof).name, .timeout)]
    [((unitAt "main" .proof).name, .verified), ((unitAt "b" .proof).name, .timeout), ((unitAt "a" .proof).name, .refuted)]
    (List.Perm.cons _ (List.Perm.swap _ _ _)) ⟨1, 5, 9⟩ .unknown
  exact absurd this (by decide)

/-- The case of which the comment in the code says that it should never happen: a procedure is verified, a side condition of it is refuted. It is shown as unknown. -/
theorem C74_refuted_side_condition :
    (verifyRequest 10 [unitAt "main" .proof] [unitAt "main_past" .counterexample]).map (fun st => iterSpans st.statuses) = some [(⟨1, 5, 9⟩, .unknown)] := by
  decide

/-- Raw units have not been registered when they are verified. -/
theorem C74_raw_not_full : ¬ ∀ fuel units, (units.map SourceUnit.name).Nodup → (verifyRequest fuel units []).isSome := by
  intro h
  exact absurd (h 10 [{ unitAt "main" .proof with kind := .raw }] (by decide)) (by decide)

/-- A file without tasks is never done. -/
theorem C74_done_not_full : ¬ ∀ fuel units, (units.map SourceUnit.name).Nodup → (∀ u ∈ units, u.kind ≠ .raw) → (∀ u ∈ units, u.Decided) → units.length ≤ fuel →
    (verifyRequest fuel units []).map FileState.type = some .done := by
  intro h
  exact absurd (h 10 [{ unitAt "f" .proof with kind := .other }] (by decide) (by decide) (by intro u hu; simp at hu; subst hu; exact ⟨by decide, by decide⟩) (by decide)) (by decide)

/-- A procedure for which the solver ran out of time is shown as unknown. -/
theorem C74_timeout_not_full : ¬ ∀ fuel u, u.kind = .proc → u.result = .timeout → ∀ st, verifyRequest fuel [u] [] = some st → Shows st u.name.loc .timeout := by
  intro h
  have h2 : verifyRequest 10 [unitAt "main" .timeout] [] = some ⟨.timeout, [((unitAt "main" .timeout).name, .unknown)]⟩ := rfl
  have := h 10 (unitAt "main" .timeout) rfl rfl _ h2
  exact absurd this (by unfold Shows; decide)

theorem C74_not_full : ¬ C74_full := by
  intro h
  obtain ⟨st, h1, -⟩ := h 10 [{ unitAt "main" .proof with kind := .raw }] [] (by decide)
  have h2 : verifyRequest 10 [{ unitAt "main" .proof with kind := .raw }] [] = none := rfl
  rw [h2] at h1
  cases h1

/-- The hypotheses of `C74_request_partial` are met by a procedure with a side condition; all is verified. -/
example : ∃ st, verifyRequest 10 [unitAt "main" .proof] [unitAt "main_past" .proof] = some st ∧ st.type = .done ∧ Shows st ⟨1, 5, 9⟩ .verified := by
  obtain ⟨st, h1, -, h2, -⟩ := C74_request_partial 10 [unitAt "main" .proof] [unitAt "main_past" .proof] (by decide) (by decide)
  have hp : ∀ u ∈ ([unitAt "main" .proof] ++ [unitAt "main_past" .proof]).filter SourceUnit.isTask, u.result = .proof ∧ u.soundProofs = true := by decide
  obtain ⟨h3, h4⟩ := h2 (by decide) (fun u hu => by unfold SourceUnit.Decided; rw [(hp u hu).1]; decide)
  refine ⟨st, h1, h3 (by decide), h4 (unitAt "main" .proof) ?_ (fun v hv _ => hp v hv)⟩
  simp [unitAt, SourceUnit.isTask]

end Caesar.Server
