import Verif.Servers.Status

/-! # Lemmas on the statuses of source units -/

namespace Caesar.Server

variable {α β : Type} [DecidableEq α]

theorem getKey_insertKey_self (l : List (α × β)) (k : α) (v : β) : getKey (insertKey l k v) k = some v := by
  induction l with
  | nil => simp [insertKey, getKey]
  | cons p l ih =>
    by_cases h : p.1 = k
    · simp [insertKey, getKey, h]
    · simp [insertKey, getKey, h, ih]

theorem getKey_insertKey_ne (l : List (α × β)) (k k' : α) (v : β) (h : k' ≠ k) : getKey (insertKey l k v) k' = getKey l k' := by
  induction l with
  | nil => simp [insertKey, getKey, Ne.symm h]
  | cons p l ih =>
    by_cases hp : p.1 = k
    · simp [insertKey, getKey, hp, Ne.symm h]
    · by_cases hp' : p.1 = k'
      · simp [insertKey, getKey, hp, hp', h]
      · simp [insertKey, getKey, hp, hp', ih]

theorem getKey_none_iff (l : List (α × β)) (k : α) : getKey l k = none ↔ k ∉ l.map Prod.fst := by
  induction l with
  | nil => simp [getKey]
  | cons p l ih =>
    by_cases hp : p.1 = k
    · simp [getKey, hp]
    · simp only [getKey, hp, if_false, ih, List.map_cons, List.mem_cons, not_or]
      exact ⟨fun h => ⟨Ne.symm hp, h⟩, fun h => h.2⟩

theorem keys_insertKey_mem (l : List (α × β)) (k : α) (v : β) (h : k ∈ l.map Prod.fst) : (insertKey l k v).map Prod.fst = l.map Prod.fst := by
  induction l with
  | nil => simp at h
  | cons p l ih =>
    by_cases hp : p.1 = k
    · simp [insertKey, hp]
    · simp only [List.map_cons, List.mem_cons] at h
      simp [insertKey, hp, ih (h.resolve_left (Ne.symm hp))]

theorem keys_insertKey_new (l : List (α × β)) (k : α) (v : β) (h : k ∉ l.map Prod.fst) : (insertKey l k v).map Prod.fst = l.map Prod.fst ++ [k] := by
  induction l with
  | nil => simp [insertKey]
  | cons p l ih =>
    simp only [List.map_cons, List.mem_cons, not_or] at h
    simp [insertKey, Ne.symm h.1, ih h.2]

theorem nodup_insertKey (l : List (α × β)) (k : α) (v : β) (h : (l.map Prod.fst).Nodup) : ((insertKey l k v).map Prod.fst).Nodup := by
  by_cases hk : k ∈ l.map Prod.fst
  · rwa [keys_insertKey_mem l k v hk]
  · rw [keys_insertKey_new l k v hk]
    exact List.nodup_append.2 ⟨h, by simp, by simp only [List.mem_singleton]; rintro a ha b rfl rfl; exact hk ha⟩

theorem mem_iff_getKey (l : List (α × β)) (h : (l.map Prod.fst).Nodup) (k : α) (v : β) : (k, v) ∈ l ↔ getKey l k = some v := by
  induction l with
  | nil => simp [getKey]
  | cons p l ih =>
    obtain ⟨a, b⟩ := p
    simp only [List.map_cons, List.nodup_cons] at h
    by_cases ha : a = k
    · subst ha
      simp only [List.mem_cons, Prod.mk.injEq, true_and, getKey, if_true, Option.some.injEq]
      constructor
      · rintro (rfl | hm)
        · rfl
        · exact absurd (List.mem_map_of_mem hm) h.1
      · rintro rfl; exact Or.inl rfl
    · simp only [List.mem_cons, Prod.mk.injEq, Ne.symm ha, false_and, false_or, getKey, ha, if_false]
      exact ih h.2

/-! ## The statuses by span -/

/-- The combination of some statuses, in their order. -/
def combineAll : List VerifyStatus → Option VerifyStatus
  | [] => none
  | s :: ss => some (ss.foldl VerifyStatus.combine s)

/-- The statuses of the units at a location, in their order. -/
def statusesAt (l : StatusList) (sp : Loc) : List VerifyStatus := (l.filter fun p => p.1.loc = sp).map Prod.snd

theorem getKey_addSpan_self (acc : List (Loc × VerifyStatus)) (p : UnitName × VerifyStatus) :
    getKey (addSpan acc p) p.1.loc = some ((getKey acc p.1.loc).elim p.2 fun prev => prev.combine p.2) := by
  unfold addSpan
  cases h : getKey acc p.1.loc <;> simp [getKey_insertKey_self]

theorem getKey_addSpan_ne (acc : List (Loc × VerifyStatus)) (p : UnitName × VerifyStatus) (sp : Loc) (hsp : p.1.loc ≠ sp) :
    getKey (addSpan acc p) sp = getKey acc sp := by
  unfold addSpan
  cases h : getKey acc p.1.loc <;> simp [getKey_insertKey_ne _ _ _ _ (Ne.symm hsp)]

theorem getKey_foldl_addSpan (l : StatusList) (acc : List (Loc × VerifyStatus)) (sp : Loc) :
    getKey (l.foldl addSpan acc) sp =
      match getKey acc sp with
      | some s => some ((statusesAt l sp).foldl VerifyStatus.combine s)
      | none => combineAll (statusesAt l sp) := by
  induction l generalizing acc with
  | nil => cases h : getKey acc sp <;> simp [statusesAt, combineAll, h]
  | cons p l ih =>
    rw [List.foldl_cons, ih]
    by_cases h : p.1.loc = sp
    · subst h
      rw [getKey_addSpan_self]
      cases h' : getKey acc p.1.loc <;> simp [statusesAt, combineAll]
    · rw [getKey_addSpan_ne _ _ _ h]
      simp [statusesAt, h]

theorem getKey_iterSpans (l : StatusList) (sp : Loc) : getKey (iterSpans l) sp = combineAll (statusesAt l sp) := by
  rw [iterSpans, getKey_foldl_addSpan]
  rfl

theorem nodup_addSpan (acc : List (Loc × VerifyStatus)) (p : UnitName × VerifyStatus) (h : (acc.map Prod.fst).Nodup) : ((addSpan acc p).map Prod.fst).Nodup := by
  unfold addSpan
  split <;> exact nodup_insertKey _ _ _ h

theorem nodup_iterSpans (l : StatusList) : ((iterSpans l).map Prod.fst).Nodup := by
  suffices ∀ acc : List (Loc × VerifyStatus), (acc.map Prod.fst).Nodup → ((l.foldl addSpan acc).map Prod.fst).Nodup from this [] (by simp)
  induction l with
  | nil => exact fun _ h => h
  | cons p l ih => exact fun acc h => ih _ (nodup_addSpan acc p h)

theorem combine_eq_verified (a b : VerifyStatus) : a.combine b = .verified ↔ a = .verified ∧ b = .verified := by
  cases a <;> cases b <;> decide

theorem combine_eq_refuted (a b : VerifyStatus) : a.combine b = .refuted ↔ a = .refuted ∧ b = .refuted := by
  cases a <;> cases b <;> decide

theorem combine_eq_failed (a b : VerifyStatus) : a.combine b = .failed ↔ a = .failed ∨ b = .failed := by
  cases a <;> cases b <;> decide

theorem foldl_combine_all (t : VerifyStatus) (ht : ∀ a b : VerifyStatus, a.combine b = t ↔ a = t ∧ b = t) (ss : List VerifyStatus) (s : VerifyStatus) :
    ss.foldl VerifyStatus.combine s = t ↔ s = t ∧ ∀ x ∈ ss, x = t := by
  induction ss generalizing s with
  | nil => simp
  | cons x ss ih => simp [ih, ht, and_assoc]

theorem foldl_combine_failed (ss : List VerifyStatus) (s : VerifyStatus) :
    ss.foldl VerifyStatus.combine s = .failed ↔ s = .failed ∨ .failed ∈ ss := by
  induction ss generalizing s with
  | nil => simp
  | cons x ss ih =>
    rw [List.foldl_cons, ih, combine_eq_failed, List.mem_cons, or_assoc]
    constructor <;> rintro (h | h | h) <;> simp [h]

theorem combineAll_all (t : VerifyStatus) (ht : ∀ a b : VerifyStatus, a.combine b = t ↔ a = t ∧ b = t) (ss : List VerifyStatus) :
    combineAll ss = some t ↔ ss ≠ [] ∧ ∀ x ∈ ss, x = t := by
  cases ss with
  | nil => simp [combineAll]
  | cons s ss => simp [combineAll, foldl_combine_all t ht]

theorem mem_iterSpans (l : StatusList) (sp : Loc) (s : VerifyStatus) : (sp, s) ∈ iterSpans l ↔ combineAll (statusesAt l sp) = some s := by
  rw [mem_iff_getKey _ (nodup_iterSpans l), getKey_iterSpans]

theorem mem_statusesAt (l : StatusList) (sp : Loc) (s : VerifyStatus) : s ∈ statusesAt l sp ↔ ∃ n, (n, s) ∈ l ∧ n.loc = sp := by
  simp [statusesAt]

theorem iterSpans_all (t : VerifyStatus) (ht : ∀ a b : VerifyStatus, a.combine b = t ↔ a = t ∧ b = t) (l : StatusList) (sp : Loc) :
    (sp, t) ∈ iterSpans l ↔ (∃ p ∈ l, p.1.loc = sp) ∧ ∀ p ∈ l, p.1.loc = sp → p.2 = t := by
  rw [mem_iterSpans, combineAll_all t ht]
  constructor
  · rintro ⟨hne, h⟩
    obtain ⟨s, hs⟩ := List.exists_mem_of_ne_nil _ hne
    obtain ⟨n, hn, hl⟩ := (mem_statusesAt l sp s).1 hs
    exact ⟨⟨(n, s), hn, hl⟩, fun p hp hl => h _ ((mem_statusesAt l sp p.2).2 ⟨p.1, hp, hl⟩)⟩
  · rintro ⟨⟨p, hp, hl⟩, h⟩
    refine ⟨List.ne_nil_of_mem ((mem_statusesAt l sp p.2).2 ⟨p.1, hp, hl⟩), fun x hx => ?_⟩
    obtain ⟨n, hn, hl⟩ := (mem_statusesAt l sp x).1 hx
    exact h _ hn hl

/-! ## The calls of the verifier -/

theorem updateStatus_some {l l' : StatusList} {n : UnitName} {s : VerifyStatus} (h : updateStatus l n s = some l') : l' = insertKey l n s := by
  unfold updateStatus at h
  split at h
  · cases h
  · exact (Option.some.inj h).symm

theorem updateStatus_registered (l : StatusList) (n : UnitName) (s : VerifyStatus) (h : getKey l n ≠ none) : updateStatus l n s = some (insertKey l n s) := by
  unfold updateStatus
  rw [if_neg]
  cases hg : getKey l n with
  | none => exact absurd hg h
  | some x => simp

theorem updateStatus_todo (l : StatusList) (n : UnitName) : updateStatus l n .todo = some (insertKey l n .todo) := by
  simp [updateStatus]

/-- After units have been registered, all the procedures with a body are listed as `todo`, and nothing else has changed. -/
theorem foldlM_registerUnit (us : List SourceUnit) (st : FileState) (hnd : (st.statuses.map Prod.fst).Nodup) :
    ∃ st', us.foldlM registerUnit st = some st' ∧ st'.type = st.type ∧ (st'.statuses.map Prod.fst).Nodup ∧
      (∀ u ∈ us, u.kind = .proc → getKey st'.statuses u.name = some .todo) ∧
      (∀ n, (∀ u ∈ us, u.kind = .proc → u.name ≠ n) → getKey st'.statuses n = getKey st.statuses n) ∧
      (∀ n s, getKey st.statuses n = some s → s = .todo → getKey st'.statuses n = some .todo) := by
  induction us generalizing st with
  | nil => exact ⟨st, rfl, rfl, hnd, by simp, by simp, by rintro n s h rfl; exact h⟩
  | cons u us ih =>
    by_cases hk : u.kind = .proc
    · obtain ⟨st', h1, h2, h3, h4, h5, h6⟩ := ih { st with statuses := insertKey st.statuses u.name .todo } (nodup_insertKey _ _ _ hnd)
      refine ⟨st', ?_, h2, h3, ?_, ?_, ?_⟩
      · simp [List.foldlM_cons, registerUnit, hk, updateStatus_todo, h1]
      · intro v hv hvk
        rcases List.mem_cons.1 hv with rfl | hv
        · exact h6 _ _ (getKey_insertKey_self _ _ _) rfl
        · exact h4 v hv hvk
      · intro n hn
        rw [h5 n fun v hv hvk => hn v (List.mem_cons_of_mem _ hv) hvk]
        exact getKey_insertKey_ne _ _ _ _ (Ne.symm (hn u List.mem_cons_self hk))
      · rintro n s h rfl
        by_cases hn : n = u.name
        · subst hn; exact h6 _ _ (getKey_insertKey_self _ _ _) rfl
        · exact h6 n .todo (by simpa [getKey_insertKey_ne _ _ _ _ hn] using h) rfl
    · obtain ⟨st', h1, h2, h3, h4, h5, h6⟩ := ih st hnd
      refine ⟨st', ?_, h2, h3, ?_, ?_, h6⟩
      · simp [List.foldlM_cons, registerUnit, hk, h1]
      · intro v hv hvk
        rcases List.mem_cons.1 hv with rfl | hv
        · exact absurd hvk hk
        · exact h4 v hv hvk
      · intro n hn
        exact h5 n fun v hv hvk => hn v (List.mem_cons_of_mem _ hv) hvk

/-- The loop over tasks that have been registered: some of the tasks are done. -/
theorem verifyLoop_spec (fuel : ℕ) (us : List SourceUnit) (st : FileState) (hnd : (st.statuses.map Prod.fst).Nodup)
    (hreg : ∀ u ∈ us, getKey st.statuses u.name ≠ none) (hus : (us.map SourceUnit.name).Nodup) :
    ∃ st' r done rest, verifyLoop fuel us st = some (st', r) ∧ us = done ++ rest ∧ (st'.statuses.map Prod.fst).Nodup ∧
      (∀ u ∈ done, getKey st'.statuses u.name = some (.ofResult u.result u.soundProofs u.soundRefutations)) ∧
      (∀ n, n ∉ done.map SourceUnit.name → getKey st'.statuses n = getKey st.statuses n) ∧
      (r = .ok → rest = [] ∧ ∀ u ∈ done, u.result ≠ .interrupted ∧ u.result ≠ .timeout) ∧
      (done = [] → st' = st) ∧
      (done ≠ [] → (∀ p ∈ st'.statuses, p.2.isCompleted) → st'.type = .done) ∧
      (us.length ≤ fuel → (∀ u ∈ us, u.result ≠ .interrupted ∧ u.result ≠ .timeout) → r = .ok) := by
  induction us generalizing fuel st with
  | nil => exact ⟨st, .ok, [], [], by cases fuel <;> rfl, rfl, hnd, by simp, by simp, by simp, by simp, by simp, by simp⟩
  | cons u us ih =>
    cases fuel with
    | zero => exact ⟨st, .timedOut, [], u :: us, rfl, rfl, hnd, by simp, by simp, by simp, by simp, by simp, by simp⟩
    | succ fuel =>
      simp only [List.map_cons, List.nodup_cons] at hus
      have h1 : setOngoing st u.name = some ⟨.ongoing, insertKey st.statuses u.name .ongoing⟩ := by
        simp [setOngoing, updateStatus_registered _ _ _ (hreg u List.mem_cons_self)]
      generalize hst1 : (⟨.ongoing, insertKey st.statuses u.name .ongoing⟩ : FileState) = st1 at h1
      have hget1 : getKey st1.statuses u.name ≠ none := by rw [← hst1]; simp [getKey_insertKey_self]
      have hnd1 : (st1.statuses.map Prod.fst).Nodup := by rw [← hst1]; exact nodup_insertKey _ _ _ hnd
      have hkeep1 : ∀ n, n ≠ u.name → getKey st1.statuses n = getKey st.statuses n := by
        intro n hn; rw [← hst1]; exact getKey_insertKey_ne _ _ _ _ hn
      generalize hs : VerifyStatus.ofResult u.result u.soundProofs u.soundRefutations = s
      have h2 : handleResult st1 u = some ⟨if (insertKey st1.statuses u.name s).all (fun p => p.2.isCompleted) then .done else st1.type, insertKey st1.statuses u.name s⟩ := by
        simp [handleResult, hs, updateStatus_registered _ _ _ hget1]
      generalize hst2 : (⟨if (insertKey st1.statuses u.name s).all (fun p => p.2.isCompleted) then .done else st1.type, insertKey st1.statuses u.name s⟩ : FileState) = st2 at h2
      have hstat2 : st2.statuses = insertKey st1.statuses u.name s := by rw [← hst2]
      have hnd2 : (st2.statuses.map Prod.fst).Nodup := by rw [hstat2]; exact nodup_insertKey _ _ _ hnd1
      have hget2 : getKey st2.statuses u.name = some s := by rw [hstat2]; exact getKey_insertKey_self _ _ _
      have hkeep2 : ∀ n, n ≠ u.name → getKey st2.statuses n = getKey st.statuses n := by
        intro n hn; rw [hstat2, getKey_insertKey_ne _ _ _ _ hn, hkeep1 n hn]
      have htype2 : (∀ p ∈ st2.statuses, p.2.isCompleted) → st2.type = .done := by
        intro h
        rw [← hst2] at h ⊢
        simp only at h ⊢
        rw [if_pos (List.all_eq_true.2 h)]
      have stop : ∀ r, r ≠ .ok → verifyLoop (fuel + 1) (u :: us) st = some (st2, r) → (u.result = .interrupted ∨ u.result = .timeout) →
          ∃ st' r done rest, verifyLoop (fuel + 1) (u :: us) st = some (st', r) ∧ u :: us = done ++ rest ∧ (st'.statuses.map Prod.fst).Nodup ∧
            (∀ u ∈ done, getKey st'.statuses u.name = some (.ofResult u.result u.soundProofs u.soundRefutations)) ∧
            (∀ n, n ∉ done.map SourceUnit.name → getKey st'.statuses n = getKey st.statuses n) ∧
            (r = .ok → rest = [] ∧ ∀ u ∈ done, u.result ≠ .interrupted ∧ u.result ≠ .timeout) ∧
            (done = [] → st' = st) ∧
            (done ≠ [] → (∀ p ∈ st'.statuses, p.2.isCompleted) → st'.type = .done) ∧
            ((u :: us).length ≤ fuel + 1 → (∀ v ∈ u :: us, v.result ≠ .interrupted ∧ v.result ≠ .timeout) → r = .ok) := by
        intro r hr hrun hres
        refine ⟨st2, r, [u], us, hrun, rfl, hnd2, ?_, ?_, fun h => absurd h hr, by simp, fun _ => htype2, ?_⟩
        · simp [hget2, hs]
        · intro n hn; exact hkeep2 n (by simpa using hn)
        · intro _ h
          have := h u List.mem_cons_self
          rcases hres with h' | h' <;> simp [h'] at this
      have go : (u.result ≠ .interrupted ∧ u.result ≠ .timeout) → verifyLoop (fuel + 1) (u :: us) st = verifyLoop fuel us st2 := by
        intro hres
        simp only [verifyLoop, h1, h2, Option.bind_eq_bind, Option.bind_some]

        cases hr : u.result <;> simp_all
      by_cases hres : u.result = .interrupted
      · exact stop .cancelled (by simp) (by simp [verifyLoop, h1, h2, hres]) (Or.inl hres)
      by_cases hres' : u.result = .timeout
      · exact stop .timedOut (by simp) (by simp [verifyLoop, h1, h2, hres']) (Or.inr hres')
      obtain ⟨st', r, done, rest, e1, e2, e3, e4, e5, e6, e7, e8, e9⟩ := ih fuel st2 hnd2
        (fun v hv => by
          rw [hkeep2 v.name (fun he => hus.1 (he ▸ List.mem_map_of_mem hv))]
          exact hreg v (List.mem_cons_of_mem _ hv)) hus.2
      refine ⟨st', r, u :: done, rest, (go ⟨hres, hres'⟩).trans e1, by rw [e2]; rfl, e3, ?_, ?_, ?_, by simp, ?_, ?_⟩
      · intro v hv
        rcases List.mem_cons.1 hv with rfl | hv
        · rw [e5 v.name (fun hm => hus.1 (by
            obtain ⟨w, hw, hwn⟩ := List.mem_map.1 hm
            rw [e2, List.map_append, List.mem_append]
            exact Or.inl hm)), hget2, hs]
        · exact e4 v hv
      · intro n hn
        simp only [List.map_cons, List.mem_cons, not_or] at hn
        rw [e5 n hn.2, hkeep2 n hn.1]
      · intro hr
        refine ⟨(e6 hr).1, fun v hv => ?_⟩
        rcases List.mem_cons.1 hv with rfl | hv
        · exact ⟨hres, hres'⟩
        · exact (e6 hr).2 v hv
      · intro _ hall
        by_cases hd : done = []
        · rw [e7 hd] at hall ⊢; exact htype2 hall
        · exact e8 hd hall
      · intro hlen hall
        exact e9 (by simp only [List.length_cons] at hlen; omega) fun v hv => hall v (List.mem_cons_of_mem _ hv)

end Caesar.Server
