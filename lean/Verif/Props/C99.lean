import Mathlib.Data.List.Chain
import Mathlib.Order.Basic
import Verif.Vc.Layout

/-!
# C99: Explanations show as many steps as fit, without casts
-/

namespace Caesar.Layout

variable {α β : Type}

/-! ## Specification -/

mutual
/-- The expression without casts. -/
def bare : PExpr α → PExpr α
  | .cast e => bare e
  | .node l ts => .node l (bareAll ts)
def bareAll : List (PExpr α) → List (PExpr α)
  | [] => []
  | t :: ts => bare t :: bareAll ts
end

/-- There is a cast in the expression. -/
inductive HasCast : PExpr α → Prop
  | here e : HasCast (.cast e)
  | inside l ts t : t ∈ ts → HasCast t → HasCast (.node l ts)

/-- There is a cast of a cast in the expression. -/
inductive HasDouble : PExpr α → Prop
  | here e : HasDouble (.cast (.cast e))
  | cast e : HasDouble e → HasDouble (.cast e)
  | inside l ts t : t ∈ ts → HasDouble t → HasDouble (.node l ts)

/-- The claim about casts: none are left. -/
def C99_full_casts : Prop := ∀ e : PExpr Unit, ¬ HasCast (removeCasts e)

/-- `l` are the last elements of `all`, as many as there are free lines. -/
def Fits (free : Nat) (all l : List β) : Prop := l <:+ all ∧ l.length = min free all.length

/-- The claim about steps: the shown texts are the last ones of all texts, as many as fit between the start of the block and the statement. -/
def C99_full : Prop := ∀ (print : PExpr Nat → Nat) (steps : List (PExpr Nat)) (block line : Nat), block < line →
  Fits (line - block - 1) (toStrings print steps) (toStrings print (shrinkToBlock (some block) line steps))

/-! ## Lemmas -/

mutual
theorem bare_visit : ∀ e : PExpr α, bare (visit e) = bare e
  | .cast e => by rw [visit, bare_walk e, bare]
  | .node l ts => by rw [visit, bare, bare, bare_visitAll ts]
theorem bare_walk : ∀ e : PExpr α, bare (walk e) = bare e
  | .cast e => by rw [walk, bare, bare, bare_visit e]
  | .node l ts => by rw [walk, bare, bare, bare_visitAll ts]
theorem bare_visitAll : ∀ ts : List (PExpr α), bareAll (visitAll ts) = bareAll ts
  | [] => rfl
  | t :: ts => by rw [visitAll, bareAll, bareAll, bare_visit t, bare_visitAll ts]
end

mutual
theorem visit_single : ∀ e : PExpr α, ¬ HasDouble e → visit e = bare e
  | .cast (.cast e), h => absurd (.here e) h
  | .cast (.node l ts), h => by
    rw [visit, walk, bare, bare, visitAll_single ts fun t ht hd => h (.cast _ (.inside l ts t ht hd))]
  | .node l ts, h => by rw [visit, bare, visitAll_single ts fun t ht hd => h (.inside l ts t ht hd)]
theorem visitAll_single : ∀ ts : List (PExpr α), (∀ t ∈ ts, ¬ HasDouble t) → visitAll ts = bareAll ts
  | [], _ => rfl
  | t :: ts, h => by
    rw [visitAll, bareAll, visit_single t (h t List.mem_cons_self), visitAll_single ts fun u hu => h u (List.mem_cons_of_mem _ hu)]
end

mutual
theorem bare_no_cast : ∀ e : PExpr α, ¬ HasCast (bare e)
  | .cast e => by rw [bare]; exact bare_no_cast e
  | .node l ts => by
    rw [bare]
    intro h
    cases h with
    | inside _ _ t ht hc => exact bareAll_no_cast ts t ht hc
theorem bareAll_no_cast : ∀ ts : List (PExpr α), ∀ t ∈ bareAll ts, ¬ HasCast t
  | [], _, h => by simp [bareAll] at h
  | t :: ts, u, h => by
    rw [bareAll] at h
    rcases List.mem_cons.1 h with rfl | h
    · exact bare_no_cast t
    · exact bareAll_no_cast ts u h
end

mutual
theorem visit_double : ∀ e : PExpr α, HasDouble e → HasCast (visit e)
  | .cast (.cast e), _ => by rw [visit, walk]; exact .here _
  | .cast (.node l ts), h => by
    rw [visit, walk]
    cases h with
    | cast _ h =>
      cases h with
      | inside _ _ t ht hd =>
        obtain ⟨u, hu, hc⟩ := visitAll_double ts t ht hd
        exact .inside l _ u hu hc
  | .node l ts, h => by
    rw [visit]
    cases h with
    | inside _ _ t ht hd =>
      obtain ⟨u, hu, hc⟩ := visitAll_double ts t ht hd
      exact .inside l _ u hu hc
theorem visitAll_double : ∀ ts : List (PExpr α), ∀ t ∈ ts, HasDouble t → ∃ u ∈ visitAll ts, HasCast u
  | [], _, h, _ => by simp at h
  | t :: ts, u, h, hd => by
    rw [visitAll]
    rcases List.mem_cons.1 h with h | h
    · exact ⟨_, List.mem_cons_self, visit_double t (h ▸ hd)⟩
    · obtain ⟨v, hv, hc⟩ := visitAll_double ts u h hd
      exact ⟨v, List.mem_cons_of_mem _ hv, hc⟩
end

section
variable [DecidableEq β]

theorem dedup_cons_suffix (a : β) (l : List β) : dedup l <:+ dedup (a :: l) := by
  cases l with
  | nil => exact List.nil_suffix
  | cons b l =>
    rw [dedup]
    split
    · exact List.suffix_refl _
    · exact List.suffix_cons _ _

theorem dedup_drop_suffix (n : Nat) (l : List β) : dedup (l.drop n) <:+ dedup l := by
  induction l generalizing n with
  | nil => simp
  | cons a l ih =>
    cases n with
    | zero => exact List.suffix_refl _
    | succ n => exact (ih n).trans (dedup_cons_suffix a l)

theorem dedup_length : ∀ l : List β, (dedup l).length ≤ l.length
  | [] => by simp [dedup]
  | [a] => by simp [dedup]
  | a :: b :: l => by
    have := dedup_length (b :: l)
    rw [dedup]
    split <;> simp only [List.length_cons] at this ⊢ <;> omega

theorem dedup_mem (x : β) : ∀ l : List β, x ∈ dedup l ↔ x ∈ l
  | [] => by simp [dedup]
  | [a] => by simp [dedup]
  | a :: b :: l => by
    have := dedup_mem x (b :: l)
    rw [dedup]
    split
    · rename_i h
      subst h
      rw [this]
      simp
    · rw [List.mem_cons, this, List.mem_cons (a := x) (b := a)]

theorem dedup_head : ∀ (a : β) (l : List β), (dedup (a :: l)).head? = some a
  | a, [] => rfl
  | a, b :: l => by
    rw [dedup]
    split
    · rename_i h
      rw [dedup_head b l, h]
    · rfl

theorem dedup_chain : ∀ l : List β, (dedup l).IsChain (· ≠ ·)
  | [] => by simp [dedup]
  | [a] => by simp [dedup]
  | a :: b :: l => by
    have := dedup_chain (b :: l)
    rw [dedup]
    split
    · exact this
    · rename_i h
      rw [List.isChain_cons]
      refine ⟨?_, this⟩
      intro y hy
      rw [dedup_head] at hy
      simp only [Option.mem_def, Option.some.injEq] at hy
      exact hy ▸ h

theorem dedup_id : ∀ l : List β, l.IsChain (· ≠ ·) → dedup l = l
  | [], _ => rfl
  | [a], _ => rfl
  | a :: b :: l, h => by
    rw [List.isChain_cons_cons] at h
    rw [dedup, if_neg h.1, dedup_id (b :: l) h.2]

theorem dedup_last : ∀ l : List β, (dedup l).getLast? = l.getLast?
  | [] => rfl
  | [a] => rfl
  | a :: b :: l => by
    have := dedup_last (b :: l)
    have hne : dedup (b :: l) ≠ [] := fun h => by
      have := dedup_head b l
      rw [h] at this
      simp at this
    rw [dedup]
    split
    · rw [this]; simp [List.getLast?_cons_cons]
    · rw [List.getLast?_cons_cons, ← this]
      obtain ⟨x, xs, hx⟩ := List.exists_cons_of_ne_nil hne
      rw [hx, List.getLast?_cons_cons]

end

/-! ## Theorems -/

/-- The shown texts are the last ones, they fit, no two texts in a row are equal, and the last step is shown if there is space for one. -/
theorem C99_partial [DecidableEq β] (print : PExpr α → β) (steps : List (PExpr α)) (block line : Nat) :
    toStrings print (shrinkToBlock (some block) line steps) <:+ toStrings print steps ∧
    (toStrings print (shrinkToBlock (some block) line steps)).length ≤ line - block - 1 ∧
    (toStrings print (shrinkToBlock (some block) line steps)).IsChain (· ≠ ·) ∧
    (block + 1 < line → (toStrings print (shrinkToBlock (some block) line steps)).getLast? = steps.getLast?.map fun e => print (removeCasts e)) := by
  unfold toStrings shrinkToBlock
  simp only [List.map_drop]
  refine ⟨dedup_drop_suffix _ _, ?_, dedup_chain _, ?_⟩
  · refine le_trans (dedup_length _) ?_
    simp only [List.length_drop, List.length_map]
    omega
  · intro h
    rw [dedup_last, List.getLast?_drop]
    simp only [List.length_map, List.getLast?_map]
    split
    · have : steps.length = 0 := by omega
      rw [List.length_eq_zero_iff] at this
      simp [this]
    · rfl

/-- All steps that fit are shown if no two texts in a row are equal. -/
theorem C99_distinct [DecidableEq β] (print : PExpr α → β) (steps : List (PExpr α)) (block line : Nat)
    (h : (steps.map fun e => print (removeCasts e)).IsChain (· ≠ ·)) :
    Fits (line - block - 1) (toStrings print steps) (toStrings print (shrinkToBlock (some block) line steps)) := by
  refine ⟨(C99_partial print steps block line).1, ?_⟩
  unfold toStrings shrinkToBlock
  simp only [List.map_drop]
  rw [dedup_id _ h, dedup_id _ (h.suffix (List.drop_suffix _ _))]
  simp only [List.length_drop, List.length_map]
  omega

/-- Without a block, the texts of all steps are shown. -/
theorem C99_no_block [DecidableEq β] (print : PExpr α → β) (steps : List (PExpr α)) (line : Nat) (x : β) :
    x ∈ toStrings print (shrinkToBlock none line steps) ↔ ∃ e ∈ steps, print (removeCasts e) = x := by
  unfold toStrings shrinkToBlock
  rw [dedup_mem, List.mem_map]

/-- Removing casts changes nothing but casts, and it leaves some exactly if there is a cast of a cast. -/
theorem C99_casts (e : PExpr α) : bare (removeCasts e) = bare e ∧ (HasCast (removeCasts e) ↔ HasDouble e) ∧ (¬ HasDouble e → removeCasts e = bare e) := by
  refine ⟨bare_visit e, ⟨fun h => ?_, visit_double e⟩, visit_single e⟩
  by_contra hd
  have := visit_single e hd
  unfold removeCasts at h
  rw [this] at h
  exact bare_no_cast e h

/-- `n` casts around an expression. -/
def wrap : Nat → PExpr α → PExpr α
  | 0, e => e
  | n + 1, e => .cast (wrap n e)

/-- Of `n` casts in a row, half are left. -/
theorem C99_half (l : α) : ∀ n : Nat, removeCasts (wrap n (.node l [])) = wrap (n / 2) (.node l [])
  | 0 => rfl
  | 1 => rfl
  | n + 2 => by
    have := C99_half l n
    unfold removeCasts at this ⊢
    rw [wrap, wrap, visit, walk, this, show (n + 2) / 2 = n / 2 + 1 by omega, wrap]

/-- A cast of a cast leaves a cast. -/
theorem C99_not_casts : ¬ C99_full_casts := fun h => h (wrap 2 (.node () [])) ((C99_casts _).2.1.2 (.here _))

/-- The texts of the expressions in the examples. -/
def exPrint : PExpr Nat → Nat
  | .node l _ => l
  | .cast _ => 0

/-- Steps `1`, `2`, `2` and two free lines: only `2` is shown, since steps are dropped before equal ones are merged. -/
theorem C99_not_full : ¬ C99_full := by
  intro h
  have := (h exPrint [.node 1 [], .node 2 [], .node 2 []] 1 4 (by omega)).2
  revert this
  decide

/-! ## Examples -/

/-- `cast(x) + cast(cast(y))`. -/
def exSum : PExpr Nat := .node 0 [.cast (.node 1 []), .cast (.cast (.node 2 []))]

example : removeCasts exSum = .node 0 [.node 1 [], .cast (.node 2 [])] := rfl

example : HasDouble exSum := .inside _ _ (.cast (.cast (.node 2 []))) (by simp) (.here _)

/-- Three steps and two free lines: the last two are shown. -/
example : toStrings exPrint (shrinkToBlock (some 1) 4 [.node 1 [], .cast (.node 2 []), .node 3 []]) = [2, 3] := by decide

example : ([.node 1 [], .cast (.node 2 []), .node 3 []].map fun e => exPrint (removeCasts e)).IsChain (· ≠ ·) := by decide

end Caesar.Layout
