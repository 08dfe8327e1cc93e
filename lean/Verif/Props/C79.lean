import Verif.Smt.LiteralsLemmas

/-!
# C79: Shared expressions are values

Nodes of expressions are shared, but a change through one pointer is not visible through any other one (`src/ast/shared.rs`).
-/

namespace Caesar.Smt.Sharing

/-- A change of the node behind the pointer in our hand: `deref_mut`, and an assignment (`src/ast/shared.rs:43-53`). -/
def mutate (cs : List Cell) (held : List Nat) (p : Nat) (f : Cell → Cell) : List Cell × Nat :=
  let (cs, p) := makeMut cs held p
  match cs[p]? with
  | some c => (cs.set p (f c), p)
  | none => (cs, p)

/-- The old node is at the new address, too; the new address is not used by anybody else. -/
theorem makeMut_spec {cs : List Cell} {held : List Nat} {p : Nat} {c : Cell} (hb : Bounded cs) (hp : cs[p]? = some c) :
    ∃ cs' p', makeMut cs held p = (cs', p') ∧ cs'[p']? = some c ∧ (∀ b : ATree, b.In cs → b.In cs') ∧ inner cs' p' = 0 ∧
      (∀ b : ATree, b.root ∈ held → b.In cs → p' ∉ b.ptrs) ∧ (∀ b : ATree, b.In cs → b.root ∈ c.kids → p' ∉ b.ptrs) ∧
      cs.length ≤ cs'.length := by
  have hplt : p < cs.length := (List.getElem?_eq_some_iff.1 hp).1
  by_cases h : others cs held p = 0
  · refine ⟨cs, p, by rw [makeMut, if_pos h], hp, fun _ h => h, ?_, ?_, ?_, le_refl _⟩
    · unfold others at h
      omega
    · intro b hb' hin
      refine not_mem_of_inner (by unfold others at h; omega) b hin ?_
      rintro rfl
      have : 0 < held.count b.root := List.count_pos_iff.2 hb'
      unfold others at h
      omega
    · intro b hin hk
      refine not_mem_of_inner (by unfold others at h; omega) b hin ?_
      rintro rfl
      have := inner_pos hp hk
      unfold others at h
      omega
  · have hkids : ∀ q ∈ c.kids, q < cs.length := hb c (List.mem_of_getElem? hp)
    refine ⟨cs ++ [c], cs.length, by rw [makeMut, if_neg h, hp], by simp, fun b => in_append b, ?_, ?_, ?_, by simp⟩
    · rw [inner_append, inner_bounded hb (le_refl _)]
      simp only [inner, List.map_cons, List.map_nil, List.sum_cons, List.sum_nil, Nat.zero_add, Nat.add_zero, List.count_eq_zero]
      intro hm
      have := hkids _ hm
      omega
    · intro b _ hin hm
      have := in_lt b hin _ hm
      omega
    · intro b hin _ hm
      have := in_lt b hin _ hm
      omega

/-- **C79**: a change through one pointer is not visible through any other pointer: all the expressions behind pointers that are held elsewhere are the same. -/
theorem C79_isolated (cs : List Cell) (held : List Nat) (p : Nat) (c : Cell) (f : Cell → Cell) (hb : Bounded cs) (hp : cs[p]? = some c)
    (b : ATree) (hheld : b.root ∈ held) (hin : b.In cs) : b.In (mutate cs held p f).1 := by
  obtain ⟨cs', p', h1, h2, h3, h4, h5, h6, _⟩ := makeMut_spec (held := held) hb hp
  simp only [mutate, h1, h2]
  exact in_set b (h3 b hin) (h5 b hheld hin)

/-- **C79**: the pointer through which the change has been made is one to the new expression, whose children are the old children or other expressions that we hold. -/
theorem C79_changed (cs : List Cell) (held : List Nat) (p : Nat) (c : Cell) (f : Cell → Cell) (hb : Bounded cs) (hp : cs[p]? = some c)
    (k : Kind) (ts : List ATree) (hf : f c = ⟨k, roots ts⟩) (hts : ∀ t ∈ ts, t.In cs ∧ (t.root ∈ c.kids ∨ t.root ∈ held)) :
    (ATree.node (mutate cs held p f).2 k ts).In (mutate cs held p f).1 := by
  obtain ⟨cs', p', h1, h2, h3, h4, h5, h6, _⟩ := makeMut_spec (held := held) hb hp
  simp only [mutate, h1, h2, hf]
  have hnot : p' ∉ ptrsAll ts := by
    intro hm
    obtain ⟨t, ht, hm⟩ := mem_ptrsAll.1 hm
    rcases (hts t ht).2 with h | h
    · exact h6 t (hts t ht).1 h hm
    · exact h5 t h (hts t ht).1 hm
  refine ⟨?_, inAll_set ts (inAll_iff.2 fun t ht => h3 t (hts t ht).1) hnot⟩
  rw [List.getElem?_set_self (List.getElem?_eq_some_iff.1 h2).1]

/-- **C79**: a node is copied if and only if there is another pointer to it, and the copy has a new address. -/
theorem C79_copy (cs : List Cell) (held : List Nat) (p : Nat) (c : Cell) (hp : cs[p]? = some c) :
    ((makeMut cs held p).2 = p ↔ p ∉ held ∧ ∀ d ∈ cs, p ∉ d.kids) ∧ ((makeMut cs held p).2 ≠ p → cs[(makeMut cs held p).2]? = none) := by
  have hplt : p < cs.length := (List.getElem?_eq_some_iff.1 hp).1
  have hiff : others cs held p = 0 ↔ p ∉ held ∧ ∀ d ∈ cs, p ∉ d.kids := by
    unfold others inner
    rw [Nat.add_eq_zero_iff, List.count_eq_zero, List.sum_eq_zero_iff]
    simp only [List.mem_map, forall_exists_index, and_imp, forall_apply_eq_imp_iff₂, List.count_eq_zero]
    exact And.comm
  rw [← hiff]
  by_cases h : others cs held p = 0
  · simp [makeMut, h]
  · have hne : cs.length ≠ p := by omega
    simp [makeMut, h, hp, hne]

/-- **C79**: a mutable visitor may visit a clone (as in `init_quantifier_free_vars`, `src/smt/translate_exprs.rs:143-150`): the original expression keeps its nodes, and the
visited clone shares none of them. -/
theorem C79_clone (c : Collector) (n : Nat) (held : List Nat) (s : LitState) (hok : s.Ok) (a₀ : ATree) (hin : a₀.In s.cells) (hplain : a₀.erase.Plain)
    (hn : a₀.ptrs.length ≤ n) (hheld : a₀.root ∈ held) :
    ∃ (s' : LitState) (a : ATree), c.visit n held s a₀.root = some (s', a.root) ∧ a.In s'.cells ∧ a.erase = a₀.erase ∧ a₀.In s'.cells ∧ ∀ q ∈ a.ptrs, q ∉ a₀.ptrs := by
  obtain ⟨s', a, h1, v⟩ := visit_spec c n a₀ hn hplain held s hok hin
  obtain ⟨h2, h3⟩ := v.held a₀ hheld hin
  exact ⟨s', a, h1, v.isIn, v.same, h2, h3⟩

/-- A mutable access to a marked expression loses the mark: the set of marks holds a pointer, so the node is copied. -/
theorem C79_marks_lost (cs : List Cell) (set held : List Nat) (hset : ∀ q ∈ set, q < cs.length) (p : Nat) (hp : p ∈ set) :
    (makeMut cs (set ++ held) p).2 ∉ set := by
  have hplt := hset p hp
  have hc : 0 < (set ++ held).count p := List.count_pos_iff.2 (List.mem_append_left _ hp)
  have h : others cs (set ++ held) p ≠ 0 := by
    unfold others
    omega
  rw [makeMut, if_neg h, List.getElem?_eq_getElem hplt]
  intro hm
  have := hset _ hm
  simp only at this
  omega

/-! ## Examples -/

/-- `-x`, where the node of `x` is also held by somebody else: replacing `x` with a literal in `-x` does not change `x`. -/
example : let r := mutate [⟨.var ⟨"x", 0⟩, []⟩, ⟨.unary, [0]⟩] [1] 0 (fun _ => ⟨.lit, []⟩)
    (ATree.node 1 .unary [.node 0 (.var ⟨"x", 0⟩) []]).In r.1 ∧ (ATree.node r.2 .lit []).In r.1 ∧ r.2 = 2 := by
  have hb : Bounded [⟨.var ⟨"x", 0⟩, []⟩, ⟨.unary, [0]⟩] := by
    intro c hc q hq
    simp only [List.mem_cons, List.not_mem_nil, or_false] at hc
    rcases hc with rfl | rfl <;> simp_all
  exact ⟨C79_isolated _ [1] 0 _ _ hb rfl (.node 1 .unary [.node 0 (.var ⟨"x", 0⟩) []]) (by simp [ATree.root]) ⟨rfl, ⟨rfl, trivial⟩, trivial⟩,
    C79_changed _ [1] 0 _ _ hb rfl .lit [] rfl (by simp), rfl⟩

/-- The only pointer to a node: no copy. -/
example : (makeMut [⟨.var ⟨"x", 0⟩, []⟩, ⟨.unary, [0]⟩] [] 1).2 = 1 := (C79_copy _ [] 1 _ rfl).1.2 (by simp)

end Caesar.Smt.Sharing
