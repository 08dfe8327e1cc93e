import Verif.Smt.List
import Mathlib.Data.List.OfFn

/-!
# C15: lists behave like mathematical lists
-/

namespace Caesar.Smt

namespace SList
variable {α : Type}

/-- Specification: the term represents the list. -/
def Repr (l : SList α) (xs : List α) : Prop :=
  l.len = xs.length ∧ ∀ i : ℕ, ∀ h : i < xs.length, l.get i = xs[i]

end SList

open SList
variable {α : Type}

/-- `select` after `store`, `len` of `store`. -/
theorem C15_select_store (l : SList α) (i j : ℤ) (v : α) :
    (l.set i v).get i = v ∧ (j ≠ i → (l.set i v).get j = l.get j) ∧ (l.set i v).len = l.len :=
  ⟨if_pos rfl, fun h => if_neg h, rfl⟩

/-- The operators compute the mathematical operators. -/
theorem C15_operators {l : SList α} {xs : List α} (h : l.Repr xs) :
    l.len = xs.length ∧
    (∀ i : ℕ, l.isValidIndex i ↔ i < xs.length) ∧
    (∀ (i : ℕ) (hi : i < xs.length), l.get i = xs[i]) ∧
    (∀ (i : ℕ) (v : α), (l.set i v).Repr (xs.set i v)) ∧
    Invariant.inv l := by
  refine ⟨h.1, fun i => ?_, h.2, fun i v => ⟨?_, fun j hj => ?_⟩, ?_⟩
  · show (i : ℤ) < l.len ↔ _
    rw [h.1]; exact Nat.cast_lt
  · rw [List.length_set]; exact h.1
  · rw [List.length_set] at hj
    rw [List.getElem_set]
    by_cases hij : i = j
    · subst hij
      rw [if_pos rfl]
      exact (C15_select_store l i i v).1
    · rw [if_neg hij, (C15_select_store l i j v).2.1 (fun h => hij (Nat.cast_injective h).symm)]
      exact h.2 j hj
  · show 0 ≤ l.len
    rw [h.1]; exact Int.natCast_nonneg _

/-- Each value of a list variable represents exactly one list, and each list is represented. -/
theorem C15_representation [Inhabited α] :
    (∀ l : SList α, Invariant.inv l → ∃! xs, l.Repr xs) ∧ (∀ xs : List α, ∃ l : SList α, Invariant.inv l ∧ l.Repr xs) := by
  refine ⟨fun l hl => ⟨List.ofFn fun i : Fin l.len.toNat => l.get i, ⟨?_, fun i hi => ?_⟩, fun ys hys => ?_⟩, fun xs => ?_⟩
  · rw [List.length_ofFn]
    exact (Int.toNat_of_nonneg hl).symm
  · rw [List.getElem_ofFn]
  · refine List.ext_getElem ?_ fun i h1 h2 => ?_
    · rw [List.length_ofFn, hys.1, Int.toNat_natCast]
    · rw [List.getElem_ofFn]
      exact (hys.2 i h1).symm
  · refine ⟨⟨xs.length, fun i => xs.getD i.toNat default⟩, Int.natCast_nonneg _, rfl, fun i hi => ?_⟩
    show xs.getD (i : ℤ).toNat default = _
    rw [Int.toNat_natCast]; simp [hi]

/-- Equality of list terms is equality of the represented lists. -/
theorem C15_eq_partial {a b : SList α} {xs ys : List α} (ha : a.Repr xs) (hb : b.Repr ys) : a.smtEq b ↔ xs = ys := by
  constructor
  · rintro ⟨h1, h2⟩
    have hlen : xs.length = ys.length := by
      have := ha.1.symm.trans (h1.trans hb.1)
      exact_mod_cast this
    refine List.ext_getElem hlen fun i hi hi' => ?_
    rw [← ha.2 i hi, ← hb.2 i hi']
    exact h2 i ⟨Int.natCast_nonneg _, ((C15_operators ha).2.1 i).2 hi⟩
  · rintro rfl
    refine ⟨ha.1.trans hb.1.symm, fun i hi => ?_⟩
    obtain ⟨n, rfl⟩ := Int.eq_ofNat_of_zero_le hi.1
    have hn := ((C15_operators ha).2.1 n).1 hi.2
    exact (ha.2 n hn).trans (hb.2 n hn).symm

/-- Equality of list terms is an equivalence relation which `select` (at valid indices), `len` and `store` respect. -/
theorem C15_congruence :
    Equivalence (SList.smtEq (α := α)) ∧
    ∀ {a b : SList α}, a.smtEq b → a.len = b.len ∧ (∀ i, 0 ≤ i → a.isValidIndex i → a.get i = b.get i) ∧
      ∀ i v, (a.set i v).smtEq (b.set i v) := by
  refine ⟨⟨fun a => ⟨rfl, fun _ _ => rfl⟩, fun {a b} h => ⟨h.1.symm, fun i hi => (h.2 i ⟨hi.1, ?_⟩).symm⟩,
    fun {a b c} h1 h2 => ⟨h1.1.trans h2.1, fun i hi => (h1.2 i hi).trans (h2.2 i ⟨hi.1, ?_⟩)⟩⟩,
    fun {a b} h => ⟨h.1, fun i h0 hi => h.2 i ⟨h0, hi⟩, fun i v => ⟨h.1, fun j hj => ?_⟩⟩⟩
  · show i < a.len
    rw [h.1]; exact hi.2
  · show i < b.len
    rw [← h1.1]; exact hi.2
  · by_cases hij : j = i
    · subst hij
      rw [(C15_select_store a j j v).1, (C15_select_store b j j v).1]
    · rw [(C15_select_store a i j v).2.1 hij, (C15_select_store b i j v).2.1 hij]
      exact h.2 j hj

/-- The full claim for nested lists: equality of terms is equality of the lists of lists they stand for. -/
def C15_nested_full : Prop :=
  ∀ (a b : SList (SList ℤ)) (xs : List (List ℤ)),
    (a.len = xs.length ∧ ∀ i : ℕ, ∀ h : i < xs.length, (a.get i).Repr xs[i]) →
    (b.len = xs.length ∧ ∀ i : ℕ, ∀ h : i < xs.length, (b.get i).Repr xs[i]) → a.smtEq b

/-- It fails: the elements are compared by the built-in equality of the datatype, so contents of the inner lists outside
of their bounds matter. -/
theorem C15_nested_not_full : ¬ C15_nested_full := by
  intro h
  have h1 := h ⟨1, fun _ => ⟨0, fun _ => 0⟩⟩ ⟨1, fun _ => ⟨0, fun _ => 1⟩⟩ [[]]
    ⟨rfl, fun i hi => by
      obtain rfl : i = 0 := by simpa using hi
      exact ⟨rfl, fun j hj => (Nat.not_lt_zero j hj).elim⟩⟩
    ⟨rfl, fun i hi => by
      obtain rfl : i = 0 := by simpa using hi
      exact ⟨rfl, fun j hj => (Nat.not_lt_zero j hj).elim⟩⟩
  have h2 : (⟨0, fun _ => 0⟩ : SList ℤ) = ⟨0, fun _ => 1⟩ := h1.2 0 ⟨le_rfl, show (0 : ℤ) < 1 from one_pos⟩
  have h3 := congrArg (fun l => l.elements 0) h2
  exact absurd h3 (by decide)

/-- The full claim for the values of variables of type `[]UInt`: they are lists of natural numbers. -/
def C15_variables_full : Prop :=
  ∀ l : SList ℤ, Invariant.inv l → ∃ xs : List ℕ, l.len = xs.length ∧ ∀ i : ℕ, ∀ h : i < xs.length, l.get i = xs[i]

/-- It fails: the invariant does not restrict the elements, which may be negative. -/
theorem C15_variables_not_full : ¬ C15_variables_full := by
  intro h
  obtain ⟨xs, h1, h2⟩ := h ⟨1, fun _ => -1⟩ (show (0 : ℤ) ≤ 1 from zero_le_one)
  have h3 : 0 < xs.length := by
    have : (1 : ℤ) = xs.length := h1
    omega
  have h4 : (-1 : ℤ) = xs[0] := h2 0 h3
  omega

example : (⟨2, fun i => i + 7⟩ : SList ℤ).Repr [7, 8] :=
  ⟨rfl, fun i hi => by
    have : i = 0 ∨ i = 1 := by simp at hi; omega
    rcases this with rfl | rfl <;> rfl⟩

end Caesar.Smt
