import Verif.Smt.Orders

/-!
# SMT lists

Models `z3rro/src/list.rs` and the translations in `src/intrinsic/list.rs`.
-/

namespace Caesar.Smt

/-- `List` (`z3rro/src/list.rs:185-188`): a term of the list datatype has a length and an array of elements. `α` is
the element sort. -/
structure SList (α : Type) where
  /-- `List::len` (`z3rro/src/list.rs:207-210`). -/
  len : ℤ
  elements : ℤ → α

namespace SList
variable {α : Type}

/-- `List::get` (`z3rro/src/list.rs:215-223`). -/
def get (l : SList α) (i : ℤ) : α := l.elements i

open Classical in
/-- `List::set` (`z3rro/src/list.rs:228-246`). `Array::store` is the update of a function. -/
noncomputable def set (l : SList α) (i : ℤ) (v : α) : SList α :=
  ⟨l.len, fun j => if j = i then v else l.elements j⟩

/-- `List::is_valid_index` (`z3rro/src/list.rs:249-251`). -/
def isValidIndex (l : SList α) (i : ℤ) : Prop := i < l.len

/-- `SmtInvariant for List` (`z3rro/src/list.rs:266-270`). -/
instance : Invariant (SList α) := ⟨fun l => 0 ≤ l.len⟩

/-- `SmtEq for List` (`z3rro/src/list.rs:282-293`). The elements are compared by the built-in equality. The fresh index
has the invariant of `UInt`. -/
def smtEq (a b : SList α) : Prop :=
  a.len = b.len ∧ ∀ i, 0 ≤ i ∧ a.isValidIndex i → a.get i = b.get i

/-- `SmtBranch for List` (`z3rro/src/list.rs:295-302`). -/
noncomputable instance : Branch (SList α) := ⟨smtIte⟩

end SList

end Caesar.Smt
