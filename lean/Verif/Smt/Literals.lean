import Verif.Smt.Shared

/-!
# The collector of literal expressions

`LiteralExprCollector` (`src/smt/funcs/fuel/literals.rs`) marks the expressions that are wrapped in `Lit` for the SMT solver. The marks are addresses.
-/

namespace Caesar.Smt.Sharing

/-- `LiteralExprCollector` without the marks (`src/smt/funcs/fuel/literals.rs:71-76`). -/
structure Collector where
  literalVars : List Ident
  computable : List Ident

/-- `add_literal_vars` (`src/smt/funcs/fuel/literals.rs:91-97`). -/
def Collector.addLiteralVars (c : Collector) (xs : List Ident) : Collector := { c with literalVars := xs }

/-- The memory and `LiteralExprSet` (`src/smt/funcs/fuel/literals.rs:20-41`). The set holds pointers. -/
structure LitState where
  cells : List Cell
  set : List Nat

/-- `LiteralExprSet::insert` (`src/smt/funcs/fuel/literals.rs:30-32`). -/
def insertPtr (p : Nat) (set : List Nat) : List Nat := if p ∈ set then set else p :: set

/-- `LiteralExprSet::remove` (`src/smt/funcs/fuel/literals.rs:34-36`). -/
def removePtr (p : Nat) (set : List Nat) : List Nat := set.filter (· ≠ p)

/-- `visit_expr` after the children (`src/smt/funcs/fuel/literals.rs:126-190`) for the node `p` with the children `ks`. `none` is the panic. -/
def Collector.mark (c : Collector) (k : Kind) (p : Nat) (ks : List Nat) (set : List Nat) : Option (List Nat) :=
  match k with
  | .var x => some (if x ∈ c.literalVars then insertPtr p set else set)
  | .call f => some (if f ∈ c.computable ∧ ∀ q ∈ ks, q ∈ set then insertPtr p set else set)
  | .ite | .binary | .unary | .cast => some (if ∀ q ∈ ks, q ∈ set then ks.foldl (fun s q => removePtr q s) (insertPtr p set) else set)
  | .quant => some set
  | .subst => none
  | .lit => some (insertPtr p set)

/-- The loops over the children in `walk_expr` (`src/ast/visit.rs:173-222`). `f` visits the child behind a pointer that is held apart from the others. While the
children are visited, the pointers in the node count as held by the visitor. -/
def visitKids (f : List Nat → LitState → Nat → Option (LitState × Nat)) (held : List Nat) : LitState → List Nat → List Nat → Option (LitState × List Nat)
  | s, done, [] => some (s, done)
  | s, done, k :: todo => do
    let (s, k) ← f (done ++ todo ++ held) s k
    visitKids f held s (done ++ [k]) todo

/-- `visit_expr` (`src/smt/funcs/fuel/literals.rs:123-190`). The result contains the new pointer: `walk_expr` begins with `deref_mut` (`src/ast/visit.rs:174`). The
recursion is bounded for Lean by the first argument. -/
def Collector.visit (c : Collector) : Nat → List Nat → LitState → Nat → Option (LitState × Nat)
  | 0, _, _, _ => none
  | n + 1, held, s, p => do
    let (cells, p) := makeMut s.cells (s.set ++ held) p
    let cell ← cells[p]?
    let (s, ks) ← visitKids (c.visit n) (p :: held) ⟨cells.set p ⟨cell.kind, []⟩, s.set⟩ [] cell.kids
    let set ← c.mark cell.kind p ks s.set
    some (⟨s.cells.set p ⟨cell.kind, ks⟩, set⟩, p)

/-- `collect_literals` (`src/smt/funcs/fuel/literals.rs:99-117`) with the pointers `held` elsewhere in the program. -/
def Collector.collect (c : Collector) (n : Nat) (held : List Nat) (cells : List Cell) (p : Nat) : Option (LitState × Nat) :=
  if c.literalVars = [] ∧ c.computable = [] then some (⟨cells, []⟩, p) else c.visit n held ⟨cells, []⟩ p

/-! ## Specification -/

/-- The documentation of `LiteralExprCollector`, with the exceptions for calls and quantifiers (`src/smt/funcs/fuel/literals.rs:56-70,132-150,178`). -/
inductive Literal (c : Collector) : Tree → Prop
  | lit ts : Literal c (.node .lit ts)
  | var x ts : x ∈ c.literalVars → Literal c (.node (.var x) ts)
  | call f ts : f ∈ c.computable → (∀ t ∈ ts, Literal c t) → Literal c (.node (.call f) ts)
  | op k ts : k = .ite ∨ k = .binary ∨ k = .unary ∨ k = .cast → (∀ t ∈ ts, Literal c t) → Literal c (.node k ts)

mutual
/-- There are no substitutions, and variables and literals have no children. -/
def Tree.Plain : Tree → Prop
  | .node k ts => k ≠ .subst ∧ (k = .lit ∨ (∃ x, k = .var x) → ts = []) ∧ PlainAll ts
def PlainAll : List Tree → Prop
  | [] => True
  | t :: ts => t.Plain ∧ PlainAll ts
end

def Kind.isCall : Kind → Prop
  | .call _ => True
  | _ => False

/-- A subexpression is to be reported if it is literal, and it is the whole expression, an argument of a call, or its parent is not literal. -/
def Reported (c : Collector) (a : ATree) (π : List Nat) : Prop :=
  ∃ sub, a.at π = some sub ∧ Literal c sub.erase ∧ (π = [] ∨ ∃ parent, a.at π.dropLast = some parent ∧ (parent.kind.isCall ∨ ¬ Literal c parent.erase))

/-! ## Lemmas -/

open Classical in
mutual
/-- The addresses that are marked in a tree. -/
noncomputable def ATree.marks (c : Collector) : ATree → List Nat
  | .node p k ts =>
    if Literal c (.node k (eraseAll ts)) then p :: (if k.isCall then marksAll c ts else (marksAll c ts).filter (· ∉ roots ts)) else marksAll c ts
noncomputable def marksAll (c : Collector) : List ATree → List Nat
  | [] => []
  | t :: ts => t.marks c ++ marksAll c ts
end

theorem mem_marksAll {c : Collector} {ts : List ATree} {q : Nat} : q ∈ marksAll c ts ↔ ∃ t ∈ ts, q ∈ t.marks c := by
  induction ts with
  | nil => simp [marksAll]
  | cons t ts ih => simp [marksAll, ih]

mutual
theorem marks_sub (c : Collector) : ∀ a : ATree, ∀ q ∈ a.marks c, q ∈ a.ptrs
  | .node p k ts, q, h => by
    rw [ATree.marks] at h
    rw [ATree.ptrs]
    split at h
    · rcases List.mem_cons.1 h with rfl | h
      · exact List.mem_cons_self
      · split at h
        · exact List.mem_cons_of_mem _ (marksAll_sub c ts q h)
        · exact List.mem_cons_of_mem _ (marksAll_sub c ts q (List.mem_of_mem_filter h))
    · exact List.mem_cons_of_mem _ (marksAll_sub c ts q h)
theorem marksAll_sub (c : Collector) : ∀ ts : List ATree, ∀ q ∈ marksAll c ts, q ∈ ptrsAll ts
  | [], q, h => by simp [marksAll] at h
  | t :: ts, q, h => by
    rcases List.mem_append.1 (show q ∈ t.marks c ++ marksAll c ts from h) with h | h
    · exact List.mem_append_left _ (marks_sub c t q h)
    · exact List.mem_append_right _ (marksAll_sub c ts q h)
end

/-- The root is marked if and only if the expression is literal. -/
theorem root_marked (c : Collector) (a : ATree) (h : a.ptrs.Nodup) : a.root ∈ a.marks c ↔ Literal c a.erase := by
  obtain ⟨p, k, ts⟩ := a
  have hp : p ∉ ptrsAll ts := (List.nodup_cons.1 h).1
  simp only [ATree.root, ATree.marks, ATree.erase]
  split
  · rename_i h1
    simp [h1]
  · rename_i h1
    simp only [h1, iff_false]
    exact fun h => hp (marksAll_sub c ts p h)

theorem nodup_ptrsAll_cons {t : ATree} {ts : List ATree} (h : (ptrsAll (t :: ts)).Nodup) :
    t.ptrs.Nodup ∧ (ptrsAll ts).Nodup ∧ ∀ q ∈ t.ptrs, q ∉ ptrsAll ts := by
  rw [ptrsAll, List.nodup_append'] at h
  exact ⟨h.1, h.2.1, fun q h1 h2 => h.2.2 h1 h2⟩

/-- Marks of a subtree among the marks of all. -/
theorem mark_of_kid {c : Collector} {ts : List ATree} (h : (ptrsAll ts).Nodup) {t : ATree} (ht : t ∈ ts) {q : Nat} (hq : q ∈ t.ptrs) :
    q ∈ marksAll c ts ↔ q ∈ t.marks c := by
  induction ts with
  | nil => simp at ht
  | cons t' ts ih =>
    obtain ⟨h1, h2, h3⟩ := nodup_ptrsAll_cons h
    rw [marksAll, List.mem_append]
    rcases List.mem_cons.1 ht with rfl | ht
    · constructor
      · rintro (h | h)
        · exact h
        · exact (h3 q hq (marksAll_sub c ts q h)).elim
      · exact .inl
    · rw [ih h2 ht]
      constructor
      · rintro (h | h)
        · exact (h3 q (marks_sub c t' q h) (mem_ptrsAll.2 ⟨t, ht, hq⟩)).elim
        · exact h
      · exact .inr

theorem nodup_kid {ts : List ATree} (h : (ptrsAll ts).Nodup) {t : ATree} (ht : t ∈ ts) : t.ptrs.Nodup := by
  induction ts with
  | nil => simp at ht
  | cons t' ts ih =>
    obtain ⟨h1, h2, h3⟩ := nodup_ptrsAll_cons h
    rcases List.mem_cons.1 ht with rfl | ht
    · exact h1
    · exact ih h2 ht

/-- A root that is an address of a subtree is its root. -/
theorem root_of_kid {ts : List ATree} (h : (ptrsAll ts).Nodup) {t : ATree} (ht : t ∈ ts) {q : Nat} (hq : q ∈ t.ptrs) : q ∈ roots ts ↔ q = t.root := by
  induction ts with
  | nil => simp at ht
  | cons t' ts ih =>
    obtain ⟨h1, h2, h3⟩ := nodup_ptrsAll_cons h
    simp only [roots, List.map_cons, List.mem_cons]
    rcases List.mem_cons.1 ht with rfl | ht
    · constructor
      · rintro (h | h)
        · exact h
        · exact (h3 q hq (roots_mem h)).elim
      · exact .inl
    · have := ih h2 ht
      rw [roots] at this
      rw [this]
      constructor
      · rintro (rfl | h)
        · exact (h3 _ (root_mem _) (mem_ptrsAll.2 ⟨t, ht, hq⟩)).elim
        · exact h
      · exact .inr

theorem at_ptrs : ∀ (π : List Nat) (a sub : ATree), a.at π = some sub → sub.ptrs ⊆ a.ptrs
  | [], a, sub, h => by cases h; exact fun _ h => h
  | i :: π, .node p k ts, sub, h => by
    rw [ATree.at, Option.bind_eq_some_iff] at h
    obtain ⟨t, ht, h⟩ := h
    exact fun q hq => List.mem_cons_of_mem _ (mem_ptrsAll.2 ⟨t, List.mem_of_getElem? ht, at_ptrs π t sub h hq⟩)

theorem at_root : ∀ (π : List Nat) (a sub : ATree), a.ptrs.Nodup → a.at π = some sub → (sub.root = a.root ↔ π = [])
  | [], a, sub, _, h => by cases h; simp
  | i :: π, .node p k ts, sub, hn, h => by
    rw [ATree.at, Option.bind_eq_some_iff] at h
    obtain ⟨t, ht, h⟩ := h
    simp only [ATree.root, reduceCtorEq, iff_false]
    intro he
    refine (List.nodup_cons.1 hn).1 (mem_ptrsAll.2 ⟨t, List.mem_of_getElem? ht, ?_⟩)
    have := at_ptrs π t sub h (root_mem sub)
    cases sub
    simp only at he
    subst he
    exact this

/-- Distinct positions have distinct addresses. -/
theorem at_inj : ∀ (π π' : List Nat) (a sub sub' : ATree), a.ptrs.Nodup → a.at π = some sub → a.at π' = some sub' → sub.root = sub'.root → π = π'
  | [], π', a, sub, sub', hn, h, h', he => by
    cases h
    exact ((at_root π' a sub' hn h').1 he.symm).symm
  | i :: π, [], a, sub, sub', hn, h, h', he => by
    cases h'
    exact (at_root (i :: π) a sub hn h).1 he
  | i :: π, j :: π', .node p k ts, sub, sub', hn, h, h', he => by
    rw [ATree.at, Option.bind_eq_some_iff] at h h'
    obtain ⟨t, ht, h⟩ := h
    obtain ⟨t', ht', h'⟩ := h'
    have hn' : (ptrsAll ts).Nodup := (List.nodup_cons.1 hn).2
    have hm := at_ptrs π t sub h (root_mem sub)
    have hm' := at_ptrs π' t' sub' h' (root_mem sub')
    rw [← he] at hm'
    have key : i = j := by
      clear h h' hn he
      induction ts generalizing i j with
      | nil => simp at ht
      | cons u ts ih =>
        obtain ⟨h1, h2, h3⟩ := nodup_ptrsAll_cons hn'
        cases i with
        | zero =>
          cases j with
          | zero => rfl
          | succ j =>
            simp only [List.getElem?_cons_zero, Option.some.injEq, List.getElem?_cons_succ] at ht ht'
            subst ht
            exact (h3 _ hm (mem_ptrsAll.2 ⟨t', List.mem_of_getElem? ht', hm'⟩)).elim
        | succ i =>
          cases j with
          | zero =>
            simp only [List.getElem?_cons_zero, Option.some.injEq, List.getElem?_cons_succ] at ht ht'
            subst ht'
            exact (h3 _ hm' (mem_ptrsAll.2 ⟨t, List.mem_of_getElem? ht, hm⟩)).elim
          | succ j =>
            simp only [List.getElem?_cons_succ] at ht ht'
            rw [ih i j ht ht' h2]
    subst key
    rw [ht] at ht'
    cases ht'
    rw [at_inj π π' t sub sub' (nodup_kid hn' (List.mem_of_getElem? ht)) h h' he]

/-- The marks are the reported positions. -/
theorem marks_iff (c : Collector) : ∀ (π : List Nat) (a sub : ATree), a.ptrs.Nodup → a.at π = some sub →
    (sub.root ∈ a.marks c ↔ Literal c sub.erase ∧ (π = [] ∨ ∃ parent, a.at π.dropLast = some parent ∧ (parent.kind.isCall ∨ ¬ Literal c parent.erase)))
  | [], a, sub, hn, h => by
    cases h
    rw [root_marked c _ hn]
    simp
  | i :: π, .node p k ts, sub, hn, h => by
    have h0 := h
    rw [ATree.at, Option.bind_eq_some_iff] at h
    obtain ⟨t, ht, h⟩ := h
    have hp : p ∉ ptrsAll ts := (List.nodup_cons.1 hn).1
    have hn' : (ptrsAll ts).Nodup := (List.nodup_cons.1 hn).2
    have hmem := List.mem_of_getElem? ht
    have hs : sub.root ∈ t.ptrs := at_ptrs π t sub h (root_mem sub)
    have hne : sub.root ≠ p := fun he => hp (he ▸ mem_ptrsAll.2 ⟨t, hmem, hs⟩)
    have hk := mark_of_kid (c := c) hn' hmem hs
    have hr := root_of_kid hn' hmem hs
    have hroot := at_root π t sub (nodup_kid hn' hmem) h
    have ih := marks_iff c π t sub (nodup_kid hn' hmem) h
    cases π with
    | nil =>
      cases h
      have e : ATree.at [i].dropLast (ATree.node p k ts) = some (.node p k ts) := rfl
      simp only [e, Option.some.injEq, exists_eq_left', ATree.kind, ATree.erase, reduceCtorEq, false_or]
      simp only [true_or, and_true] at ih
      rw [← ih, ← hk, ATree.marks]
      by_cases hl : Literal c (.node k (eraseAll ts))
      · rw [if_pos hl]
        by_cases hc : k.isCall
        · rw [if_pos hc]
          simp [hne, hc]
        · rw [if_neg hc]
          simp [hne, hc, hl, hr]
      · rw [if_neg hl]
        simp [hl]
    | cons j π =>
      have e : ATree.at (i :: j :: π).dropLast (ATree.node p k ts) = t.at (j :: π).dropLast := by
        rw [List.dropLast_cons_cons, ATree.at, ht]
        rfl
      rw [e]
      simp only [reduceCtorEq, false_or] at ih ⊢
      rw [← ih, ← hk, ATree.marks]
      have hnr : sub.root ∉ roots ts := by
        rw [hr, hroot]
        simp
      by_cases hl : Literal c (.node k (eraseAll ts))
      · rw [if_pos hl]
        split <;> simp [hne, hnr]
      · rw [if_neg hl]

end Caesar.Smt.Sharing
