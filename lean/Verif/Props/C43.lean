import Verif.Slicing.Minimizer
import Mathlib.Data.List.Basic
import Mathlib.Order.Basic

/-!
# C43: the binary search for slices returns the optimum
-/

namespace Caesar.Slicing

/-- The answers are truthful for the acceptance test `acc` on the range `lo..=hi`: with bound `n`, an accepted value `k ≤ n` of the range is found,
or `n` is not accepted, or nothing is known. -/
def Truthful (acc : Nat → Prop) (lo hi : Nat) (answer : Nat → Answer) : Prop :=
  ∀ n, lo ≤ n → n ≤ hi → match answer n with
    | .accept k => lo ≤ k ∧ k ≤ n ∧ acc k
    | .reject => ¬ acc n
    | .unknown => True

/-- Values about which the search has learned something. -/
def Known (m : Minimizer) (n : Nat) : Prop :=
  n ∈ m.unknowns ∨ (∃ r, m.maxReject = some r ∧ n ≤ r) ∨ (∃ a, m.minAccept = some a ∧ a ≤ n)

structure Inv (acc : Nat → Prop) (lo hi : Nat) (answer : Nat → Answer) (m : Minimizer) : Prop where
  hlo : m.lo = lo
  hhi : m.hi = hi
  rej : ∀ r, m.maxReject = some r → lo ≤ r ∧ r ≤ hi ∧ ¬ acc r
  acc : ∀ a, m.minAccept = some a → lo ≤ a ∧ a ≤ hi ∧ acc a
  unk : ∀ n ∈ m.unknowns, lo ≤ n ∧ n ≤ hi ∧ answer n = .unknown

theorem mem_rangeIncl {s e n : Nat} : n ∈ rangeIncl s e ↔ s ≤ n ∧ n ≤ e := by
  unfold rangeIncl
  rw [List.mem_range'_1]
  omega

theorem mem_iterRange {r : Nat × Nat} {n : Nat} : n ∈ iterRangeFromMid r ↔ r.1 ≤ n ∧ n ≤ r.2 := by
  unfold iterRangeFromMid
  split
  · exact mem_rangeIncl
  · rw [List.mem_append, mem_rangeIncl, List.mem_range'_1]
    omega

theorem mem_range {m : Minimizer} {n : Nat} : (m.range.1 ≤ n ∧ n ≤ m.range.2) ↔
    m.lo ≤ n ∧ n ≤ m.hi ∧ (∀ r, m.maxReject = some r → r < n) ∧ (∀ a, m.minAccept = some a → n < a) := by
  unfold Minimizer.range
  cases hr : m.maxReject with
  | none =>
    cases ha : m.minAccept with
    | none => simp
    | some a =>
      simp only [rangeExcludeFrom]
      split <;> simp <;> omega
  | some r =>
    cases ha : m.minAccept with
    | none =>
      simp only [rangeExcludeTo]
      simp
      omega
    | some a =>
      simp only [rangeExcludeFrom, rangeExcludeTo]
      split <;> simp <;> omega

theorem mem_range_iff_unknown {m : Minimizer} {n : Nat} (h : m.lo ≤ n) (h' : n ≤ m.hi) :
    (m.range.1 ≤ n ∧ n ≤ m.range.2 ∧ n ∉ m.unknowns) ↔ ¬ Known m n := by
  rw [← and_assoc, mem_range]
  unfold Known
  constructor
  · rintro ⟨⟨_, _, h1, h2⟩, h3⟩ (h | ⟨r, hr, hn⟩ | ⟨a, ha, hn⟩)
    · exact h3 h
    · have := h1 r hr; omega
    · have := h2 a ha; omega
  · intro hk
    refine ⟨⟨h, h', fun r hr => ?_, fun a ha => ?_⟩, fun h => hk (Or.inl h)⟩
    · by_contra hc
      exact hk (Or.inr (Or.inl ⟨r, hr, by omega⟩))
    · by_contra hc
      exact hk (Or.inr (Or.inr ⟨a, ha, by omega⟩))

theorem nextTrial_some {m : Minimizer} {n : Nat} (h : m.nextTrial = some n) : m.lo ≤ n ∧ n ≤ m.hi ∧ ¬ Known m n := by
  unfold Minimizer.nextTrial at h
  simp only [] at h
  split at h
  · rename_i hc
    cases h
    have := (mem_range (m := m) (n := m.hi)).1 hc.1
    exact ⟨this.1, Nat.le_refl _, (mem_range_iff_unknown this.1 (Nat.le_refl _)).1 ⟨hc.1.1, hc.1.2, hc.2⟩⟩
  · have h1 := mem_iterRange.1 (List.mem_of_find?_eq_some h)
    have h2 := List.find?_some h
    have h3 := mem_range.1 h1
    exact ⟨h3.1, h3.2.1, (mem_range_iff_unknown h3.1 h3.2.1).1 ⟨h1.1, h1.2, of_decide_eq_true h2⟩⟩

theorem nextTrial_none {m : Minimizer} (h : m.nextTrial = none) {n : Nat} (hl : m.lo ≤ n) (hh : n ≤ m.hi) : Known m n := by
  unfold Minimizer.nextTrial at h
  simp only [] at h
  split at h
  · cases h
  · by_contra hk
    obtain ⟨h1, h2, h3⟩ := (mem_range_iff_unknown hl hh).2 hk
    have := List.find?_eq_none.1 h n (mem_iterRange.2 ⟨h1, h2⟩)
    exact this (decide_eq_true h3)

theorem addResult_spec {acc : Nat → Prop} (hacc : ∀ a b, a ≤ b → acc a → acc b) {lo hi : Nat} {answer : Nat → Answer}
    (ht : Truthful acc lo hi answer) {m : Minimizer} (hm : Inv acc lo hi answer m) {n : Nat} (hn : m.nextTrial = some n) :
    ∃ m', m.record n (answer n) = some m' ∧ Inv acc lo hi answer m' ∧
      (∀ x, Known m x → Known m' x) ∧ Known m' n := by
  obtain ⟨h1, h2, h3⟩ := nextTrial_some hn
  have hl : lo ≤ n := hm.hlo ▸ h1
  have hh : n ≤ hi := hm.hhi ▸ h2
  have := ht n hl hh
  have hrn : ∀ r, m.maxReject = some r → r < n := fun r hr => by
    by_contra hc
    exact h3 (Or.inr (Or.inl ⟨r, hr, by omega⟩))
  have han : ∀ a, m.minAccept = some a → n < a := fun a ha => by
    by_contra hc
    exact h3 (Or.inr (Or.inr ⟨a, ha, by omega⟩))
  cases ha : answer n with
  | accept k =>
    rw [ha] at this
    obtain ⟨hk1, hk2, hk3⟩ := this
    have hrk : ∀ r, m.maxReject = some r → r < k := fun r hr => by
      by_contra hc
      exact (hm.rej r hr).2.2 (hacc k r (by omega) hk3)
    simp only [Minimizer.record]
    unfold Minimizer.addResult
    rw [if_pos (by rw [hm.hlo, hm.hhi]; omega)]
    refine ⟨{ m with minAccept := some k }, ?_, ⟨hm.hlo, hm.hhi, hm.rej, ?_, hm.unk⟩, ?_, ?_⟩
    · cases hr : m.maxReject with
      | none =>
        cases hma : m.minAccept with
        | none => rfl
        | some a =>
          have := han a hma
          have h5 : min a k = k := by omega
          simp only [h5]
      | some r =>
        have h6 := hrk r hr
        cases hma : m.minAccept with
        | none => simp only [h6, if_true]
        | some a =>
          have := han a hma
          have h5 : min a k = k := by omega
          simp only [h5, h6, if_true]
    · intro a h
      cases h
      exact ⟨hk1, Nat.le_trans hk2 hh, hk3⟩
    · rintro x (h | h | ⟨a, h, hx⟩)
      · exact Or.inl h
      · exact Or.inr (Or.inl h)
      · have := han a h
        exact Or.inr (Or.inr ⟨k, rfl, by omega⟩)
    · exact Or.inr (Or.inr ⟨k, rfl, hk2⟩)
  | reject =>
    rw [ha] at this
    simp only [Minimizer.record]
    unfold Minimizer.addResult
    rw [if_pos ⟨h1, h2⟩]
    refine ⟨{ m with maxReject := some n }, ?_, ⟨hm.hlo, hm.hhi, ?_, hm.acc, hm.unk⟩, ?_, ?_⟩
    · cases hr : m.minAccept with
      | none =>
        cases hma : m.maxReject with
        | none => rfl
        | some a =>
          have := hrn a hma
          have h5 : max a n = n := by omega
          simp only [h5]
      | some r =>
        have h6 := han r hr
        cases hma : m.maxReject with
        | none => simp only [h6, if_true]
        | some a =>
          have := hrn a hma
          have h5 : max a n = n := by omega
          simp only [h5, h6, if_true]
    · intro a h
      cases h
      exact ⟨hl, hh, this⟩
    · rintro x (h | ⟨a, h, hx⟩ | h)
      · exact Or.inl h
      · have := hrn a h
        exact Or.inr (Or.inl ⟨n, rfl, by omega⟩)
      · exact Or.inr (Or.inr h)
    · exact Or.inr (Or.inl ⟨n, rfl, Nat.le_refl _⟩)
  | unknown =>
    simp only [Minimizer.record]
    unfold Minimizer.addResult
    rw [if_pos ⟨h1, h2⟩]
    have hu : n ∉ m.unknowns := fun h => h3 (Or.inl h)
    simp only [hu, if_false]
    refine ⟨_, rfl, ⟨hm.hlo, hm.hhi, hm.rej, hm.acc, ?_⟩, ?_, ?_⟩
    · intro x hx
      rcases List.mem_append.1 hx with hx | hx
      · exact hm.unk x hx
      · rcases List.mem_singleton.1 hx with rfl
        exact ⟨hl, hh, ha⟩
    · rintro x (h | h | h)
      · exact Or.inl (List.mem_append_left _ h)
      · exact Or.inr (Or.inl h)
      · exact Or.inr (Or.inr h)
    · exact Or.inl (List.mem_append_right _ (List.mem_singleton.2 rfl))

open Classical in
/-- Number of values about which nothing is known yet. -/
noncomputable def open_ (m : Minimizer) : Nat := ((rangeIncl m.lo m.hi).filter fun n => ¬ Known m n).length

theorem filter_lt {α : Type} {p q : α → Bool} {l : List α} {a : α} (ha : a ∈ l) (hp : p a = false) (hq : q a = true)
    (h : ∀ x, p x = true → q x = true) : (l.filter p).length < (l.filter q).length := by
  have hle : ∀ l : List α, (l.filter p).length ≤ (l.filter q).length := by
    intro l
    induction l with
    | nil => simp
    | cons x l ih =>
      cases hx : p x with
      | true => simp [h x hx, hx, ih]
      | false =>
        cases hy : q x with
        | true => simp [hx, hy]; omega
        | false => simpa [hx, hy] using ih
  obtain ⟨l1, l2, rfl⟩ := List.append_of_mem ha
  have h1 := hle l1
  have h2 := hle l2
  simp only [List.filter_append, List.filter_cons, hp, hq, List.length_append, if_true, List.length_cons]
  simp
  omega

theorem search_spec {acc : Nat → Prop} (hacc : ∀ a b, a ≤ b → acc a → acc b) {lo hi : Nat} {answer : Nat → Answer}
    (ht : Truthful acc lo hi answer) (fuel : Nat) : ∀ (m : Minimizer), Inv acc lo hi answer m → open_ m < fuel →
      ∃ m', search answer fuel m = some (some m') ∧ Inv acc lo hi answer m' ∧ ∀ n, lo ≤ n → n ≤ hi → Known m' n := by
  induction fuel with
  | zero => intro m _ h; omega
  | succ fuel ih =>
    intro m hm hf
    unfold search
    cases hn : m.nextTrial with
    | none =>
      exact ⟨m, rfl, hm, fun n h1 h2 => nextTrial_none hn (hm.hlo ▸ h1) (hm.hhi ▸ h2)⟩
    | some n =>
      obtain ⟨m', he, hi', hk, hkn⟩ := addResult_spec hacc ht hm hn
      simp only []
      rw [he]
      refine ih m' hi' ?_
      have : open_ m' < open_ m := by
        obtain ⟨h1, h2, h3⟩ := nextTrial_some hn
        unfold open_
        rw [hi'.hlo, hi'.hhi, hm.hlo, hm.hhi]
        refine filter_lt (a := n) (mem_rangeIncl.2 ⟨hm.hlo ▸ h1, hm.hhi ▸ h2⟩) ?_ ?_ ?_
        · simpa using hkn
        · simpa using h3
        · intro x hx
          simp only [decide_eq_true_eq] at hx ⊢
          exact fun h => hx (hk x h)
      omega

/-- The search always terminates without failing an assertion, for each monotone acceptance test and all truthful answers. The reported minimal accepted value is
accepted and the maximal rejected one is not; every value which is neither above the former nor below the latter was tried with an unknown
answer. -/
theorem C43_search (acc : Nat → Prop) (hacc : ∀ a b, a ≤ b → acc a → acc b) (lo hi : Nat) (answer : Nat → Answer)
    (ht : Truthful acc lo hi answer) :
    ∃ fuel m, search answer fuel (.new lo hi) = some (some m) ∧
      (∀ a, m.minAccept = some a → lo ≤ a ∧ a ≤ hi ∧ acc a) ∧ (∀ r, m.maxReject = some r → lo ≤ r ∧ r ≤ hi ∧ ¬ acc r) ∧
      ∀ n, lo ≤ n → n ≤ hi → (∀ a, m.minAccept = some a → n < a) → (∀ r, m.maxReject = some r → r < n) → answer n = .unknown := by
  obtain ⟨m, h1, h2, h3⟩ := search_spec hacc ht (open_ (.new lo hi) + 1) (.new lo hi)
    ⟨rfl, rfl, fun r hr => (by cases hr), fun r hr => (by cases hr), fun r hr => (by cases hr)⟩ (Nat.lt_succ_self _)
  refine ⟨_, m, h1, h2.acc, h2.rej, fun n hl hh ha hr => ?_⟩
  rcases h3 n hl hh with h | ⟨r, h, h'⟩ | ⟨a, h, h'⟩
  · exact (h2.unk n h).2.2
  · have := hr r h; omega
  · have := ha a h; omega

theorem search_mono {answer : Nat → Answer} {fuel : Nat} {m : Minimizer} {r} (h : search answer fuel m = some r) {fuel' : Nat}
    (hf : fuel ≤ fuel') : search answer fuel' m = some r := by
  induction fuel generalizing m fuel' with
  | zero => cases h
  | succ fuel ih =>
    obtain ⟨k, rfl⟩ : ∃ k, fuel' = k + 1 := ⟨fuel' - 1, by omega⟩
    unfold search at h ⊢
    cases hn : m.nextTrial with
    | none => rw [hn] at h; exact h
    | some n =>
      rw [hn] at h
      simp only [] at h ⊢
      split at h
      · exact h
      · exact ih h (by omega)

/-- Without unknown answers, the result is exactly the smallest accepted value of the range, and there is none exactly if no value of the range is accepted. -/
theorem C43_optimum (acc : Nat → Prop) (hacc : ∀ a b, a ≤ b → acc a → acc b) (lo hi : Nat) (answer : Nat → Answer)
    (ht : Truthful acc lo hi answer) (hu : ∀ n, lo ≤ n → n ≤ hi → answer n ≠ .unknown) (fuel : Nat) (r : Option Minimizer)
    (h : search answer fuel (.new lo hi) = some r) :
    ∃ m, r = some m ∧ ∀ a, m.minAccept = some a ↔ (lo ≤ a ∧ a ≤ hi ∧ acc a) ∧ ∀ b, lo ≤ b → b ≤ hi → acc b → a ≤ b := by
  obtain ⟨fuel', m, h1, h2, h3, h4⟩ := C43_search acc hacc lo hi answer ht
  have he : r = some m := by
    have e1 := search_mono h (Nat.le_max_left fuel fuel')
    have e2 := search_mono h1 (Nat.le_max_right fuel fuel')
    rw [e1] at e2
    exact Option.some.inj e2
  refine ⟨m, he, fun a => ⟨fun ha => ⟨h2 a ha, fun b hl hh hb => ?_⟩, fun ⟨⟨hl, hh, ha⟩, hmin⟩ => ?_⟩⟩
  · by_contra hc
    refine hu b hl hh (h4 b hl hh (fun a' ha' => ?_) fun r hr => ?_)
    · rw [ha] at ha'
      cases ha'
      omega
    · by_contra hc'
      exact (h3 r hr).2.2 (hacc b r (by omega) hb)
  · cases hma : m.minAccept with
    | none =>
      refine (hu a hl hh (h4 a hl hh (fun a' ha' => ?_) fun r hr => ?_)).elim
      · rw [hma] at ha'; cases ha'
      · by_contra hc'
        exact (h3 r hr).2.2 (hacc a r (by omega) ha)
    | some a' =>
      have h5 := h2 a' hma
      have h6 := hmin a' h5.1 h5.2.1 h5.2.2
      rcases Nat.lt_or_ge a a' with hlt | hge
      · refine (hu a hl hh (h4 a hl hh (fun a'' ha'' => ?_) fun r hr => ?_)).elim
        · rw [hma] at ha''
          cases ha''
          omega
        · by_contra hc'
          exact (h3 r hr).2.2 (hacc a r (by omega) ha)
      · exact congrArg some (by omega)

/-- The bound the search settles on is an accepted one if any was found. -/
theorem C43_enabled (acc : Nat → Prop) (hacc : ∀ a b, a ≤ b → acc a → acc b) (lo hi : Nat) (answer : Nat → Answer)
    (ht : Truthful acc lo hi answer) (fuel : Nat) (m : Minimizer) (h : search answer fuel (.new lo hi) = some (some m)) :
    (m.minAccept ≠ none → acc m.enabled) ∧ (m.minAccept = none → m.maxReject ≠ none → ¬ acc m.enabled) := by
  obtain ⟨fuel', m', h1, h2, h3, _⟩ := C43_search acc hacc lo hi answer ht
  have he : m = m' := by
    have e1 := search_mono h (Nat.le_max_left fuel fuel')
    have e2 := search_mono h1 (Nat.le_max_right fuel fuel')
    rw [e1] at e2
    exact Option.some.inj (Option.some.inj e2)
  subst he
  unfold Minimizer.enabled
  constructor
  · intro hn
    cases ha : m.minAccept with
    | none => exact (hn ha).elim
    | some a => simpa using (h2 a ha).2.2
  · intro hn hr
    rw [hn]
    cases ha : m.maxReject with
    | none => exact (hr ha).elim
    | some a => simpa using (h3 a ha).2.2

/-- Non-vacuity: searching `0..=10` for the threshold `4`, with an unknown answer at `5`. -/
example : Truthful (fun n => 4 ≤ n) 0 10 (fun n => if n = 5 then .unknown else if 4 ≤ n then .accept n else .reject) := by
  intro n h1 h2
  by_cases h5 : n = 5
  · simp [h5]
  · by_cases h4 : 4 ≤ n
    · simp [h5, h4]
    · simp [h5, h4]

end Caesar.Slicing
