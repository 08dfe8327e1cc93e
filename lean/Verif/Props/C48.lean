import Verif.Driver.Module

/-!
# C48: extending a module reports all new items
-/

namespace Caesar.Driver

/-- The full property. -/
def C48_full : Prop := ∀ (α : Type) (items new : List α), (extend items new).1 = items ++ new ∧ (extend items new).2 = new

/-- The module is extended correctly, but the first new item is missing in the returned slice. -/
theorem C48_extend_partial {α : Type} (items new : List α) :
    (extend items new).1 = items ++ new ∧ (extend items new).2 = new.drop 1 := by
  unfold extend
  by_cases h : (items ++ new).length > items.length
  · simp only [h, if_true]
    refine ⟨trivial, ?_⟩
    rw [List.drop_append]
    simp
  · simp only [h, if_false]
    have : new = [] := by
      rw [List.length_append] at h
      cases new with
      | nil => rfl
      | cons a l => exact absurd h (by simp)
    subst this
    exact ⟨trivial, rfl⟩

/-- It fails for one new item. -/
theorem C48_not_full : ¬ C48_full := by
  intro h
  have := (h Nat [] [1]).2
  cases this

/-- Non-vacuity. -/
example : (extend [1, 2] [3, 4, 5]).2 = [4, 5] := rfl

end Caesar.Driver
