import Verif.Syntax
import Mathlib.Data.List.Basic
import Mathlib.Data.List.Count
import Mathlib.Data.List.Nodup
import Mathlib.Data.List.Forall2
import Mathlib.Algebra.BigOperators.Group.List.Basic
import Mathlib.Algebra.Order.BigOperators.Group.List
import Mathlib.Algebra.Order.Ring.Nat
import Mathlib.Algebra.Order.Monoid.Canonical.Basic

/-!
# Shared expressions

Expressions are nodes behind reference-counted pointers (`src/ast/shared.rs`). A mutable visitor clones a node if there is more than one pointer to it.
Memory is a list of nodes; the address of a node is its index. Nodes are never freed here: none of the modelled functions drops the last pointer to a
node (`makeMut` copies a node only if there is another pointer to it). Addresses are natural numbers.
-/

namespace Caesar.Smt.Sharing

/-- The kinds of expressions without the children (`ExprKind`, `src/ast/expr.rs`). The children of a quantifier are the terms of its triggers and its
body; those of a substitution are the new expression and the body. Operators and values of literals are left out. -/
inductive Kind where
  | var (x : Ident) | call (f : Ident) | ite | binary | unary | cast | quant | subst | lit
  deriving DecidableEq

/-- `ExprData` (`src/ast/expr.rs`). -/
structure Cell where
  kind : Kind
  kids : List Nat

/-- The number of pointers to `p` in nodes. -/
def inner (cs : List Cell) (p : Nat) : Nat := (cs.map fun c => c.kids.count p).sum

/-- `Rc::strong_count` (`src/ast/shared.rs:16-18`) minus one: the number of pointers apart from the one in our hand. `held` are the pointers that are not in
nodes. -/
def others (cs : List Cell) (held : List Nat) (p : Nat) : Nat := inner cs p + held.count p

/-- `Rc::make_mut` in `Shared::deref_mut` (`src/ast/shared.rs:50-58`). The pointer in our hand is replaced with a pointer to a copy if there are other pointers.
The copy has copies of the pointers to the children. -/
def makeMut (cs : List Cell) (held : List Nat) (p : Nat) : List Cell × Nat :=
  if others cs held p = 0 then (cs, p)
  else
    match cs[p]? with
    | some c => (cs ++ [c], cs.length)
    | none => (cs, p)

/-! ## Specification: the trees in the memory -/

/-- An expression. -/
inductive Tree where
  | node (k : Kind) (ts : List Tree)

/-- An expression with the addresses of its nodes. -/
inductive ATree where
  | node (p : Nat) (k : Kind) (ts : List ATree)

def ATree.root : ATree → Nat
  | .node p _ _ => p

def ATree.kind : ATree → Kind
  | .node _ k _ => k

def ATree.kids : ATree → List ATree
  | .node _ _ ts => ts

def roots (ts : List ATree) : List Nat := ts.map ATree.root

mutual
/-- The expression without addresses. -/
def ATree.erase : ATree → Tree
  | .node _ k ts => .node k (eraseAll ts)
def eraseAll : List ATree → List Tree
  | [] => []
  | t :: ts => t.erase :: eraseAll ts
end

mutual
/-- All addresses. -/
def ATree.ptrs : ATree → List Nat
  | .node p _ ts => p :: ptrsAll ts
def ptrsAll : List ATree → List Nat
  | [] => []
  | t :: ts => t.ptrs ++ ptrsAll ts
end

mutual
/-- The tree is in the memory. -/
def ATree.In (cs : List Cell) : ATree → Prop
  | .node p k ts => cs[p]? = some ⟨k, roots ts⟩ ∧ InAll cs ts
def InAll (cs : List Cell) : List ATree → Prop
  | [] => True
  | t :: ts => t.In cs ∧ InAll cs ts
end

/-- The subexpression at a position. -/
def ATree.at : List Nat → ATree → Option ATree
  | [], a => some a
  | i :: π, .node _ _ ts => (ts[i]?).bind (ATree.at π)

/-! ## Lemmas -/

theorem eraseAll_eq (ts : List ATree) : eraseAll ts = ts.map ATree.erase := by
  induction ts with
  | nil => rfl
  | cons t ts ih => rw [eraseAll, ih, List.map_cons]

theorem mem_ptrsAll {ts : List ATree} {q : Nat} : q ∈ ptrsAll ts ↔ ∃ t ∈ ts, q ∈ t.ptrs := by
  induction ts with
  | nil => simp [ptrsAll]
  | cons t ts ih => simp [ptrsAll, ih]

theorem inAll_iff {cs : List Cell} {ts : List ATree} : InAll cs ts ↔ ∀ t ∈ ts, t.In cs := by
  induction ts with
  | nil => simp [InAll]
  | cons t ts ih => simp [InAll, ih]

theorem root_mem (a : ATree) : a.root ∈ a.ptrs := by
  cases a
  simp [ATree.root, ATree.ptrs]

theorem roots_mem {ts : List ATree} {q : Nat} (h : q ∈ roots ts) : q ∈ ptrsAll ts := by
  obtain ⟨t, ht, rfl⟩ := List.mem_map.1 h
  exact mem_ptrsAll.2 ⟨t, ht, root_mem t⟩

mutual
theorem in_unique {cs : List Cell} : ∀ a b : ATree, a.In cs → b.In cs → a.root = b.root → a = b
  | .node p k ts, .node p' k' ts', ha, hb, h => by
    obtain rfl : p = p' := h
    have h1 := ha.1
    rw [hb.1] at h1
    simp only [Option.some.injEq, Cell.mk.injEq] at h1
    obtain ⟨rfl, h1⟩ := h1
    rw [inAll_unique ts ts' ha.2 hb.2 h1.symm]
theorem inAll_unique {cs : List Cell} : ∀ ts ts' : List ATree, InAll cs ts → InAll cs ts' → roots ts = roots ts' → ts = ts'
  | [], [], _, _, _ => rfl
  | [], _ :: _, _, _, h => by simp [roots] at h
  | _ :: _, [], _, _, h => by simp [roots] at h
  | t :: ts, t' :: ts', ha, hb, h => by
    simp only [roots, List.map_cons, List.cons.injEq] at h
    rw [in_unique t t' ha.1 hb.1 h.1, inAll_unique ts ts' ha.2 hb.2 h.2]
end

mutual
/-- Every address is the root of a tree which is not larger. -/
theorem in_sub {cs : List Cell} : ∀ (a : ATree) (q : Nat), a.In cs → q ∈ a.ptrs → ∃ b : ATree, b.root = q ∧ b.In cs ∧ b.ptrs.length ≤ a.ptrs.length ∧ b.ptrs ⊆ a.ptrs
  | .node p k ts, q, ha, h => by
    rcases List.mem_cons.1 (show q ∈ p :: ptrsAll ts from h) with rfl | h
    · exact ⟨.node q k ts, rfl, ha, le_refl _, fun _ h => h⟩
    · obtain ⟨b, h1, h2, h3, h4⟩ := inAll_sub ts q ha.2 h
      refine ⟨b, h1, h2, ?_, fun x hx => List.mem_cons_of_mem _ (h4 hx)⟩
      simp only [ATree.ptrs, List.length_cons]
      omega
theorem inAll_sub {cs : List Cell} : ∀ (ts : List ATree) (q : Nat), InAll cs ts → q ∈ ptrsAll ts →
    ∃ b : ATree, b.root = q ∧ b.In cs ∧ b.ptrs.length ≤ (ptrsAll ts).length ∧ b.ptrs ⊆ ptrsAll ts
  | [], _, _, h => by simp [ptrsAll] at h
  | t :: ts, q, ha, h => by
    rcases List.mem_append.1 (show q ∈ t.ptrs ++ ptrsAll ts from h) with h | h
    · obtain ⟨b, h1, h2, h3, h4⟩ := in_sub t q ha.1 h
      refine ⟨b, h1, h2, ?_, fun x hx => List.mem_append_left _ (h4 hx)⟩
      simp only [ptrsAll, List.length_append]
      omega
    · obtain ⟨b, h1, h2, h3, h4⟩ := inAll_sub ts q ha.2 h
      refine ⟨b, h1, h2, ?_, fun x hx => List.mem_append_right _ (h4 hx)⟩
      simp only [ptrsAll, List.length_append]
      omega
end

/-- Trees in memory have no cycles. -/
theorem root_not_mem {cs : List Cell} {p k ts} (h : (ATree.node p k ts).In cs) : p ∉ ptrsAll ts := by
  intro hp
  obtain ⟨b, h1, h2, h3, _⟩ := inAll_sub ts p h.2 hp
  have := in_unique b (.node p k ts) h2 h h1
  subst this
  simp only [ATree.ptrs, List.length_cons] at h3
  omega

mutual
/-- Changing a node outside of the tree. -/
theorem in_set {cs : List Cell} {p : Nat} {c : Cell} : ∀ a : ATree, a.In cs → p ∉ a.ptrs → a.In (cs.set p c)
  | .node q k ts, ha, h => by
    simp only [ATree.ptrs, List.mem_cons, not_or] at h
    refine ⟨?_, inAll_set ts ha.2 h.2⟩
    rw [List.getElem?_set_ne h.1]
    exact ha.1
theorem inAll_set {cs : List Cell} {p : Nat} {c : Cell} : ∀ ts : List ATree, InAll cs ts → p ∉ ptrsAll ts → InAll (cs.set p c) ts
  | [], _, _ => trivial
  | t :: ts, ha, h => by
    simp only [ptrsAll, List.mem_append, not_or] at h
    exact ⟨in_set t ha.1 h.1, inAll_set ts ha.2 h.2⟩
end

mutual
theorem in_append {cs : List Cell} {ds : List Cell} : ∀ a : ATree, a.In cs → a.In (cs ++ ds)
  | .node q k ts, ha => by
    refine ⟨?_, inAll_append ts ha.2⟩
    have := ha.1
    rw [List.getElem?_append_left]
    · exact this
    · exact (List.getElem?_eq_some_iff.1 this).1
theorem inAll_append {cs : List Cell} {ds : List Cell} : ∀ ts : List ATree, InAll cs ts → InAll (cs ++ ds) ts
  | [], _ => trivial
  | t :: ts, ha => ⟨in_append t ha.1, inAll_append ts ha.2⟩
end

mutual
theorem in_lt {cs : List Cell} : ∀ a : ATree, a.In cs → ∀ q ∈ a.ptrs, q < cs.length
  | .node p k ts, ha, q, hq => by
    rcases List.mem_cons.1 (show q ∈ p :: ptrsAll ts from hq) with rfl | hq
    · exact (List.getElem?_eq_some_iff.1 ha.1).1
    · exact inAll_lt ts ha.2 q hq
theorem inAll_lt {cs : List Cell} : ∀ ts : List ATree, InAll cs ts → ∀ q ∈ ptrsAll ts, q < cs.length
  | [], _, q, hq => by simp [ptrsAll] at hq
  | t :: ts, ha, q, hq => by
    rcases List.mem_append.1 (show q ∈ t.ptrs ++ ptrsAll ts from hq) with hq | hq
    · exact in_lt t ha.1 q hq
    · exact inAll_lt ts ha.2 q hq
end

theorem inner_pos {cs : List Cell} {r : Nat} {c : Cell} {q : Nat} (h : cs[r]? = some c) (hq : q ∈ c.kids) : 0 < inner cs q := by
  have hm : c ∈ cs := List.mem_of_getElem? h
  unfold inner
  have : c.kids.count q ≤ (cs.map fun c => c.kids.count q).sum := List.le_sum_of_mem (List.mem_map.2 ⟨c, hm, rfl⟩)
  have := List.count_pos_iff.2 hq
  omega

mutual
/-- A node to which no node points is not in any other tree. -/
theorem not_mem_of_inner {cs : List Cell} {p : Nat} (h0 : inner cs p = 0) : ∀ a : ATree, a.In cs → a.root ≠ p → p ∉ a.ptrs
  | .node q k ts, ha, hne, hp => by
    rcases List.mem_cons.1 (show p ∈ q :: ptrsAll ts from hp) with rfl | hp
    · exact hne rfl
    · refine not_mem_of_inner_all h0 ts ha.2 (fun hr => ?_) hp
      have := inner_pos ha.1 hr
      omega
theorem not_mem_of_inner_all {cs : List Cell} {p : Nat} (h0 : inner cs p = 0) : ∀ ts : List ATree, InAll cs ts → p ∉ roots ts → p ∉ ptrsAll ts
  | [], _, _ => by simp [ptrsAll]
  | t :: ts, ha, hne => by
    simp only [roots, List.map_cons, List.mem_cons, not_or] at hne
    simp only [ptrsAll, List.mem_append, not_or]
    exact ⟨not_mem_of_inner h0 t ha.1 (fun h => hne.1 h.symm), not_mem_of_inner_all h0 ts ha.2 hne.2⟩
end

theorem inner_append (cs ds : List Cell) (q : Nat) : inner (cs ++ ds) q = inner cs q + inner ds q := by simp [inner]

theorem inner_set {cs : List Cell} {p : Nat} {c c' : Cell} (h : cs[p]? = some c) (q : Nat) :
    inner (cs.set p c') q + c.kids.count q = inner cs q + c'.kids.count q := by
  induction cs generalizing p with
  | nil => simp at h
  | cons d cs ih =>
    cases p with
    | zero =>
      simp only [List.getElem?_cons_zero, Option.some.injEq] at h
      subst h
      simp only [inner, List.set_cons_zero, List.map_cons, List.sum_cons]
      omega
    | succ p =>
      simp only [List.getElem?_cons_succ] at h
      have := ih h
      simp only [inner, List.set_cons_succ, List.map_cons, List.sum_cons] at this ⊢
      omega

/-- All pointers in nodes point to nodes. -/
def Bounded (cs : List Cell) : Prop := ∀ c ∈ cs, ∀ q ∈ c.kids, q < cs.length

theorem bounded_set {cs : List Cell} {p : Nat} {c : Cell} (h : Bounded cs) (hc : ∀ q ∈ c.kids, q < cs.length) : Bounded (cs.set p c) := by
  intro d hd q hq
  rw [List.length_set]
  rcases List.mem_or_eq_of_mem_set hd with hd | rfl
  · exact h d hd q hq
  · exact hc q hq

theorem bounded_append {cs : List Cell} {c : Cell} (h : Bounded cs) (hc : ∀ q ∈ c.kids, q < cs.length) : Bounded (cs ++ [c]) := by
  intro d hd q hq
  rw [List.length_append]
  rcases List.mem_append.1 hd with hd | hd
  · have := h d hd q hq
    omega
  · obtain rfl := List.mem_singleton.1 hd
    have := hc q hq
    omega

theorem inner_bounded {cs : List Cell} (h : Bounded cs) {q : Nat} (hq : cs.length ≤ q) : inner cs q = 0 := by
  unfold inner
  rw [List.sum_eq_zero]
  intro n hn
  obtain ⟨c, hc, rfl⟩ := List.mem_map.1 hn
  rw [List.count_eq_zero]
  intro hm
  have := h c hc q hm
  omega

end Caesar.Smt.Sharing
