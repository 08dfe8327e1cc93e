import Verif.Smt.Literals

/-!
# Lemmas for C78: the visit of a shared expression

After the visit, the expression is a tree with its own nodes, and nobody else sees a difference.
-/

namespace Caesar.Smt.Sharing

/-- Pointers point to nodes. -/
structure LitState.Ok (s : LitState) : Prop where
  cells : Bounded s.cells
  set : ∀ q ∈ s.set, q < s.cells.length

/-- The result of the visit of `a₀` with the pointers `held`. -/
structure Visited (c : Collector) (held : List Nat) (s : LitState) (a₀ : ATree) (s' : LitState) (a : ATree) : Prop where
  ok : s'.Ok
  isIn : a.In s'.cells
  same : a.erase = a₀.erase
  nodup : a.ptrs.Nodup
  grow : s.cells.length ≤ s'.cells.length
  root : a.root = a₀.root ∧ others s.cells (s.set ++ held) a₀.root = 0 ∨ s.cells.length ≤ a.root
  held : ∀ b : ATree, b.root ∈ held → b.In s.cells → b.In s'.cells ∧ ∀ q ∈ a.ptrs, q ∉ b.ptrs
  inner : ∀ q < s.cells.length, inner s'.cells q ≤ inner s.cells q
  frame : ∀ q < s.cells.length, q ∉ a₀.ptrs → s'.cells[q]? = s.cells[q]?
  unmarked : ∀ q ∈ a.ptrs, q ∉ s.set
  set : ∀ q, q ∈ s'.set ↔ q ∈ s.set ∨ q ∈ a.marks c

/-- The result of the visits of `ts₀`. -/
structure VisitedAll (c : Collector) (held : List Nat) (s : LitState) (ts₀ : List ATree) (s' : LitState) (ts : List ATree) : Prop where
  ok : s'.Ok
  isIn : InAll s'.cells ts
  same : eraseAll ts = eraseAll ts₀
  nodup : (ptrsAll ts).Nodup
  grow : s.cells.length ≤ s'.cells.length
  roots : List.Forall₂ (fun a a₀ : ATree => a.root = a₀.root ∨ s.cells.length ≤ a.root) ts ts₀
  fresh : ∀ r k, s.cells[r]? = some k → r ∉ ptrsAll ts₀ → (∀ q ∈ Sharing.roots ts₀, q ∈ k.kids) → ∀ a ∈ ts, s.cells.length ≤ a.root
  held : ∀ b : ATree, b.root ∈ held → b.In s.cells → b.In s'.cells ∧ ∀ q ∈ ptrsAll ts, q ∉ b.ptrs
  inner : ∀ q < s.cells.length, inner s'.cells q ≤ inner s.cells q
  frame : ∀ q < s.cells.length, q ∉ ptrsAll ts₀ → s'.cells[q]? = s.cells[q]?
  unmarked : ∀ q ∈ ptrsAll ts, q ∉ s.set
  set : ∀ q, q ∈ s'.set ↔ q ∈ s.set ∨ q ∈ marksAll c ts

theorem visitKids_spec (c : Collector) (f : List Nat → LitState → Nat → Option (LitState × Nat)) (held : List Nat) (ts₀ : List ATree)
    (hf : ∀ a₀ ∈ ts₀, ∀ held s, s.Ok → a₀.In s.cells → ∃ s' a, f held s a₀.root = some (s', a.root) ∧ Visited c held s a₀ s' a) :
    ∀ (done : List ATree) (s : LitState), s.Ok → InAll s.cells done → InAll s.cells ts₀ →
      ∃ s' ts, visitKids f held s (roots done) (roots ts₀) = some (s', roots (done ++ ts)) ∧ VisitedAll c (roots done ++ held) s ts₀ s' ts := by
  induction ts₀ with
  | nil =>
    intro done s hok _ _
    refine ⟨s, [], by simp [visitKids, roots], ?_⟩
    exact ⟨hok, trivial, rfl, by simp [ptrsAll], le_refl _, .nil, by simp, fun b _ hb => ⟨hb, by simp [ptrsAll]⟩, fun _ _ => le_refl _, fun _ _ _ => rfl,
      by simp [ptrsAll], by simp [marksAll]⟩
  | cons a₀ ts₀ ih =>
    intro done s hok hdone hts
    obtain ⟨s1, a, h1, v⟩ := hf a₀ List.mem_cons_self (roots done ++ roots ts₀ ++ held) s hok hts.1
    have hdone1 : InAll s1.cells (done ++ [a]) := by
      rw [inAll_iff]
      intro t ht
      rcases List.mem_append.1 ht with ht | ht
      · exact (v.held t (by simp only [List.mem_append]; exact .inl (.inl (List.mem_map_of_mem ht))) (inAll_iff.1 hdone t ht)).1
      · obtain rfl := List.mem_singleton.1 ht
        exact v.isIn
    have hts1 : InAll s1.cells ts₀ := by
      rw [inAll_iff]
      intro t ht
      exact (v.held t (by simp only [List.mem_append]; exact .inl (.inr (List.mem_map_of_mem ht))) (inAll_iff.1 hts.2 t ht)).1
    obtain ⟨s', ts, h2, w⟩ := ih (fun b hb => hf b (List.mem_cons_of_mem _ hb)) (done ++ [a]) s1 v.ok hdone1 hts1
    have hroots : roots (done ++ [a]) = roots done ++ [a.root] := by simp [roots]
    refine ⟨s', a :: ts, ?_, ?_⟩
    · rw [show roots (a₀ :: ts₀) = a₀.root :: roots ts₀ from rfl, visitKids, h1]
      simp only [Option.bind_eq_bind, Option.bind_some]
      rw [← hroots, h2]
      simp [roots]
    · have hself := w.held a (by rw [hroots]; simp) v.isIn
      refine ⟨w.ok, ⟨hself.1, w.isIn⟩, ?_, ?_, le_trans v.grow w.grow, ?_, ?_, ?_, ?_, ?_, ?_, ?_⟩
      · rw [eraseAll, eraseAll, v.same, w.same]
      · rw [ptrsAll, List.nodup_append']
        exact ⟨v.nodup, w.nodup, fun q h1 h2 => hself.2 q h2 h1⟩
      · refine .cons (v.root.imp And.left id) ?_
        refine w.roots.imp fun b b₀ h => h.imp id fun h => le_trans v.grow h
      · intro r k hr hnot hk b hb
        have hlt : r < s.cells.length := (List.getElem?_eq_some_iff.1 hr).1
        simp only [ptrsAll, List.mem_append, not_or] at hnot
        rcases List.mem_cons.1 hb with rfl | hb
        · refine v.root.resolve_left fun h => ?_
          have h2 := h.2
          have := inner_pos hr (hk a₀.root (by simp [roots]))
          unfold others at h2
          omega
        · refine le_trans v.grow (w.fresh r k ?_ hnot.2 (fun q hq => hk q ?_) b hb)
          · rw [v.frame r hlt hnot.1, hr]
          · simp only [roots, List.map_cons, List.mem_cons]
            exact .inr hq
      · intro b hb hin
        have hb1 := v.held b (by simp only [List.mem_append] at hb ⊢; tauto) hin
        have hb2 := w.held b (by rw [hroots]; simp only [List.mem_append] at hb ⊢; tauto) hb1.1
        refine ⟨hb2.1, ?_⟩
        intro q hq
        rcases List.mem_append.1 (show q ∈ a.ptrs ++ ptrsAll ts from hq) with hq | hq
        · exact hb1.2 q hq
        · exact hb2.2 q hq
      · intro q hq
        exact le_trans (w.inner q (lt_of_lt_of_le hq v.grow)) (v.inner q hq)
      · intro q hq hnot
        simp only [ptrsAll, List.mem_append, not_or] at hnot
        rw [w.frame q (lt_of_lt_of_le hq v.grow) hnot.2, v.frame q hq hnot.1]
      · intro q hq
        rcases List.mem_append.1 (show q ∈ a.ptrs ++ ptrsAll ts from hq) with hq | hq
        · exact v.unmarked q hq
        · exact fun h => w.unmarked q hq ((v.set q).2 (.inl h))
      · intro q
        rw [w.set, v.set, marksAll, List.mem_append]
        tauto

theorem mem_insertPtr {p q : Nat} {set : List Nat} : q ∈ insertPtr p set ↔ q = p ∨ q ∈ set := by
  unfold insertPtr
  split
  · rename_i h
    constructor
    · exact .inr
    · rintro (rfl | h')
      · exact h
      · exact h'
  · exact List.mem_cons

theorem mem_removeAll {q : Nat} : ∀ (ks set : List Nat), q ∈ ks.foldl (fun s q => removePtr q s) set ↔ q ∈ set ∧ q ∉ ks
  | [], set => by simp
  | k :: ks, set => by
    rw [List.foldl_cons, mem_removeAll ks]
    simp only [removePtr, List.mem_filter, decide_eq_true_eq, List.mem_cons, not_or]
    tauto

theorem literal_kids {c : Collector} {ts : List ATree} {set : List Nat} (hn : (ptrsAll ts).Nodup) (hu : ∀ q ∈ ptrsAll ts, q ∉ set)
    (set' : List Nat) (hset : ∀ q, q ∈ set' ↔ q ∈ set ∨ q ∈ marksAll c ts) : (∀ q ∈ roots ts, q ∈ set') ↔ ∀ t ∈ eraseAll ts, Literal c t := by
  rw [eraseAll_eq]
  simp only [roots, List.mem_map, forall_exists_index, and_imp, forall_apply_eq_imp_iff₂]
  refine forall₂_congr fun t ht => ?_
  rw [hset, mark_of_kid hn ht (root_mem t), root_marked c t (nodup_kid hn ht)]
  constructor
  · rintro (h | h)
    · exact (hu _ (mem_ptrsAll.2 ⟨t, ht, root_mem t⟩) h).elim
    · exact h
  · exact .inr

/-- The marks after the node. -/
theorem mark_spec (c : Collector) (k : Kind) (p : Nat) (ts : List ATree) (set set' : List Nat) (hk : k ≠ .subst)
    (hleaf : k = .lit ∨ (∃ x, k = .var x) → ts = []) (hn : (ptrsAll ts).Nodup)
    (hu : ∀ q ∈ ptrsAll ts, q ∉ set) (hp : p ∉ ptrsAll ts) (hset : ∀ q, q ∈ set' ↔ q ∈ set ∨ q ∈ marksAll c ts) :
    ∃ set'', c.mark k p (roots ts) set' = some set'' ∧ ∀ q, q ∈ set'' ↔ q ∈ set ∨ q ∈ (ATree.node p k ts).marks c := by
  have hlit := literal_kids hn hu set' hset
  have hop : k = .ite ∨ k = .binary ∨ k = .unary ∨ k = .cast →
      ∀ q, (q ∈ (if ∀ q ∈ roots ts, q ∈ set' then (roots ts).foldl (fun s q => removePtr q s) (insertPtr p set') else set')) ↔
        q ∈ set ∨ q ∈ (ATree.node p k ts).marks c := by
    intro hk q
    have hnc : ¬ k.isCall := by rcases hk with rfl | rfl | rfl | rfl <;> exact id
    rw [ATree.marks]
    by_cases h : ∀ q ∈ roots ts, q ∈ set'
    · rw [if_pos h, if_pos (.op k _ hk (hlit.1 h)), if_neg hnc, mem_removeAll, mem_insertPtr, hset, List.mem_cons, List.mem_filter, decide_eq_true_eq]
      have h1 : q = p → q ∉ roots ts := fun he hr => hp (he ▸ roots_mem hr)
      have h2 : q ∈ set → q ∉ roots ts := fun hs hr => hu q (roots_mem hr) hs
      tauto
    · have h' : ¬ Literal c (.node k (eraseAll ts)) := by
        intro h'
        cases h' with
        | lit => simp at hk
        | var => simp at hk
        | call => simp at hk
        | op _ _ _ h2 => exact h (hlit.2 h2)
      rw [if_neg h, if_neg h', hset]
  cases k with
  | subst => exact (hk rfl).elim
  | quant =>
    refine ⟨_, rfl, fun q => ?_⟩
    have : ¬ Literal c (.node .quant (eraseAll ts)) := by
      intro h
      cases h with
      | op _ _ h => simp at h
    rw [ATree.marks, if_neg this, hset]
  | lit =>
    obtain rfl := hleaf (.inl rfl)
    refine ⟨_, rfl, fun q => ?_⟩
    rw [ATree.marks, if_pos (.lit _), mem_insertPtr, hset]
    simp [marksAll, or_comm]
  | var x =>
    obtain rfl := hleaf (.inr ⟨x, rfl⟩)
    refine ⟨_, rfl, fun q => ?_⟩
    rw [ATree.marks]
    by_cases h : x ∈ c.literalVars
    · rw [if_pos h, if_pos (.var x _ h), mem_insertPtr, hset]
      simp [marksAll, or_comm]
    · have h' : ¬ Literal c (.node (.var x) (eraseAll [])) := by
        intro h'
        cases h' with
        | var _ _ h1 => exact h h1
        | op _ _ h => simp at h
      rw [if_neg h, if_neg h', hset]
  | call f =>
    refine ⟨_, rfl, fun q => ?_⟩
    rw [ATree.marks]
    by_cases h : f ∈ c.computable ∧ ∀ q ∈ roots ts, q ∈ set'
    · have h' : Literal c (.node (.call f) (eraseAll ts)) := .call f _ h.1 (hlit.1 h.2)
      rw [if_pos h, if_pos h', if_pos (show Kind.isCall (.call f) from trivial), mem_insertPtr, hset, List.mem_cons]
      tauto
    · have h' : ¬ Literal c (.node (.call f) (eraseAll ts)) := by
        intro h'
        cases h' with
        | call _ _ h1 h2 => exact h ⟨h1, hlit.2 h2⟩
        | op _ _ h => simp at h
      rw [if_neg h, if_neg h', hset]
  | ite => exact ⟨_, rfl, hop (.inl rfl)⟩
  | binary => exact ⟨_, rfl, hop (.inr (.inl rfl))⟩
  | unary => exact ⟨_, rfl, hop (.inr (.inr (.inl rfl)))⟩
  | cast => exact ⟨_, rfl, hop (.inr (.inr (.inr rfl)))⟩

theorem plainAll_iff {ts : List Tree} : PlainAll ts ↔ ∀ t ∈ ts, t.Plain := by
  induction ts with
  | nil => simp [PlainAll]
  | cons t ts ih => simp [PlainAll, ih]

theorem count_roots_le {n q : Nat} (hq : q < n) {ts ts₀ : List ATree} (h : List.Forall₂ (fun a a₀ : ATree => a.root = a₀.root ∨ n ≤ a.root) ts ts₀) :
    (roots ts).count q ≤ (roots ts₀).count q := by
  induction h with
  | nil => simp [roots]
  | @cons a a₀ ts ts₀ h _ ih =>
    simp only [roots, List.map_cons, List.count_cons] at ih ⊢
    rcases h with h | h
    · rw [h]
      omega
    · have : (a.root == q) = false := by simp; omega
      rw [this]
      simp only [Bool.false_eq_true, if_false, Nat.add_zero]
      omega

theorem eraseAll_nil {ts ts₀ : List ATree} (h : eraseAll ts = eraseAll ts₀) (h0 : ts₀ = []) : ts = [] := by
  subst h0
  cases ts with
  | nil => rfl
  | cons t ts => simp [eraseAll] at h

/-- The visit of a node whose pointer in our hand is the only one: `s` is the memory after `deref_mut`, without the children. -/
theorem visit_node (c : Collector) (n : Nat) (held : List Nat) (cells : List Cell) (set : List Nat) (p : Nat) (k : Kind) (ts₀ : List ATree)
    (hok : LitState.Ok ⟨cells, set⟩) (hk : k ≠ .subst) (hleaf : k = .lit ∨ (∃ x, k = .var x) → ts₀ = [])
    (hp : cells[p]? = some ⟨k, []⟩) (hin : InAll cells ts₀) (h0 : inner cells p = 0) (hset : p ∉ set)
    (hf : ∀ a₀ ∈ ts₀, ∀ held s, s.Ok → a₀.In s.cells → ∃ s' a, c.visit n held s a₀.root = some (s', a.root) ∧ Visited c held s a₀ s' a) :
    ∃ s2 ts set', visitKids (c.visit n) (p :: held) ⟨cells, set⟩ [] (roots ts₀) = some (s2, roots ts) ∧ c.mark k p (roots ts) s2.set = some set' ∧
      VisitedAll c (p :: held) ⟨cells, set⟩ ts₀ s2 ts ∧ p ∉ ptrsAll ts ∧ s2.cells[p]? = some ⟨k, []⟩ ∧
      LitState.Ok ⟨s2.cells.set p ⟨k, roots ts⟩, set'⟩ ∧ (ATree.node p k ts).In (s2.cells.set p ⟨k, roots ts⟩) ∧ (ATree.node p k ts).ptrs.Nodup ∧
      (∀ b : ATree, b.root ∈ held → b.root ≠ p → b.In cells → b.In (s2.cells.set p ⟨k, roots ts⟩) ∧ ∀ q ∈ (ATree.node p k ts).ptrs, q ∉ b.ptrs) ∧
      (∀ q, Sharing.inner (s2.cells.set p ⟨k, roots ts⟩) q = inner s2.cells q + (roots ts).count q) ∧
      (∀ q ∈ (ATree.node p k ts).ptrs, q ∉ set) ∧
      ∀ q, q ∈ set' ↔ q ∈ set ∨ q ∈ (ATree.node p k ts).marks c := by
  obtain ⟨s2, ts, h1, w⟩ := visitKids_spec c (c.visit n) (p :: held) ts₀ hf [] ⟨cells, set⟩ hok trivial hin
  simp only [roots, List.map_nil, List.nil_append] at h1 w
  have hself := w.held (.node p k []) (by simp [ATree.root]) ⟨hp, trivial⟩
  have hpts : p ∉ ptrsAll ts := fun h => hself.2 p h (by simp [ATree.ptrs])
  have hplt : p < s2.cells.length := (List.getElem?_eq_some_iff.1 hself.1.1).1
  obtain ⟨set', h2, h3⟩ := mark_spec c k p ts set s2.set hk (fun h => eraseAll_nil w.same (hleaf h)) w.nodup w.unmarked hpts w.set
  have hlt : ∀ q ∈ ptrsAll ts, q < s2.cells.length := inAll_lt ts w.isIn
  refine ⟨s2, ts, set', h1, h2, w, hpts, hself.1.1, ⟨?_, ?_⟩, ⟨?_, inAll_set ts w.isIn hpts⟩, ?_, ?_, ?_, ?_, h3⟩
  · exact bounded_set w.ok.cells fun q hq => hlt q (roots_mem hq)
  · intro q hq
    rw [List.length_set]
    rcases (h3 q).1 hq with hq | hq
    · exact lt_of_lt_of_le (hok.set q hq) w.grow
    · rcases List.mem_cons.1 (marks_sub c _ q hq : q ∈ p :: ptrsAll ts) with rfl | hq
      · exact hplt
      · exact hlt q hq
  · rw [List.getElem?_set_self hplt]
  · exact List.nodup_cons.2 ⟨hpts, w.nodup⟩
  · intro b hb hne hbin
    have hb2 := w.held b (List.mem_cons_of_mem _ hb) hbin
    have hpb : p ∉ b.ptrs := not_mem_of_inner h0 b hbin hne
    refine ⟨in_set b hb2.1 hpb, ?_⟩
    intro q hq
    rcases List.mem_cons.1 (show q ∈ p :: ptrsAll ts from hq) with rfl | hq
    · exact hpb
    · exact hb2.2 q hq
  · intro q
    have := inner_set (c' := ⟨k, roots ts⟩) hself.1.1 q
    simpa [roots] using this
  · intro q hq
    rcases List.mem_cons.1 (show q ∈ p :: ptrsAll ts from hq) with rfl | hq
    · exact hset
    · exact w.unmarked q hq

theorem length_kid {ts : List ATree} {a : ATree} (ha : a ∈ ts) : a.ptrs.length ≤ (ptrsAll ts).length := by
  induction ts with
  | nil => simp at ha
  | cons t ts ih =>
    simp only [ptrsAll, List.length_append]
    rcases List.mem_cons.1 ha with rfl | ha
    · omega
    · have := ih ha
      omega

theorem visit_spec (c : Collector) : ∀ (n : Nat) (a₀ : ATree), a₀.ptrs.length ≤ n → a₀.erase.Plain → ∀ (held : List Nat) (s : LitState), s.Ok →
    a₀.In s.cells → ∃ s' a, c.visit n held s a₀.root = some (s', a.root) ∧ Visited c held s a₀ s' a
  | 0, .node p k ts, hn, _, _, _, _, _ => by simp [ATree.ptrs] at hn
  | n + 1, .node p k ts₀, hn, hplain, held, s, hok, hin => by
    simp only [ATree.erase, Tree.Plain] at hplain
    obtain ⟨hk, hleaf, hkids⟩ := hplain
    have hleaf : k = .lit ∨ (∃ x, k = .var x) → ts₀ = [] := by
      intro h
      have := hleaf h
      cases ts₀ with
      | nil => rfl
      | cons t ts => simp [eraseAll] at this
    have hf : ∀ a₀ ∈ ts₀, ∀ held s, s.Ok → a₀.In s.cells → ∃ s' a, c.visit n held s a₀.root = some (s', a.root) ∧ Visited c held s a₀ s' a := by
      intro a₀ ha held s hok hin
      refine visit_spec c n a₀ ?_ ?_ held s hok hin
      · have := length_kid ha
        simp only [ATree.ptrs, List.length_cons] at hn
        omega
      · refine plainAll_iff.1 hkids _ ?_
        rw [eraseAll_eq]
        exact List.mem_map_of_mem ha
    have hp0 := hin.1
    have hplt : p < s.cells.length := (List.getElem?_eq_some_iff.1 hp0).1
    have hpts : p ∉ ptrsAll ts₀ := root_not_mem hin
    have htlt := inAll_lt ts₀ hin.2
    by_cases hoth : others s.cells (s.set ++ held) p = 0
    · have h00 := hoth
      unfold others at hoth
      have hinner : inner s.cells p = 0 := by omega
      have hcount : (s.set ++ held).count p = 0 := by omega
      rw [List.count_eq_zero, List.mem_append, not_or] at hcount
      have hmk : makeMut s.cells (s.set ++ held) p = (s.cells, p) := by rw [makeMut, if_pos h00]
      have e0 : ∀ q, inner (s.cells.set p ⟨k, []⟩) q + (roots ts₀).count q = inner s.cells q := by
        intro q
        have := inner_set (c' := ⟨k, []⟩) hp0 q
        simpa using this
      obtain ⟨s2, ts, set', h1, h2, w, hpn, hcell, hok', hin', hnd, hheld, hinn, hum, hset⟩ :=
        visit_node c n held (s.cells.set p ⟨k, []⟩) s.set p k ts₀ ⟨bounded_set hok.cells (by simp), fun q hq => by rw [List.length_set]; exact hok.set q hq⟩
          hk hleaf (by rw [List.getElem?_set_self hplt]) (inAll_set ts₀ hin.2 hpts) (by have := e0 p; omega) hcount.1 hf
      have hlen : (s.cells.set p ⟨k, []⟩).length = s.cells.length := List.length_set
      refine ⟨⟨s2.cells.set p ⟨k, roots ts⟩, set'⟩, .node p k ts, ?_, hok', hin', ?_, hnd, ?_, .inl ⟨rfl, h00⟩, ?_, ?_, ?_, hum, hset⟩
      · simp only [Collector.visit, ATree.root, hmk, hp0, Option.bind_eq_bind, Option.bind_some, h1, h2]
      · rw [ATree.erase, ATree.erase, w.same]
      · have := w.grow
        simp only [hlen] at this
        simpa using this
      · intro b hb hbin
        have hne : b.root ≠ p := fun he => hcount.2 (he ▸ hb)
        exact hheld b hb hne (in_set b hbin (not_mem_of_inner hinner b hbin hne))
      · intro q hq
        rw [hinn]
        have h3 := w.inner q (by simp only [hlen]; exact hq)
        have h4 := count_roots_le (q := q) (by simp only [hlen]; exact hq) w.roots
        have := e0 q
        simp only at h3
        omega
      · intro q hq hnot
        simp only [ATree.ptrs, List.mem_cons, not_or] at hnot
        simp only
        rw [List.getElem?_set_ne (fun h => hnot.1 h.symm), w.frame q (by simp only [hlen]; exact hq) hnot.2]
        exact List.getElem?_set_ne (fun h => hnot.1 h.symm)
    · have hmk : makeMut s.cells (s.set ++ held) p = (s.cells ++ [⟨k, roots ts₀⟩], s.cells.length) := by rw [makeMut, if_neg hoth, hp0]
      have hcells : (s.cells ++ [(⟨k, roots ts₀⟩ : Cell)]).set s.cells.length ⟨k, []⟩ = s.cells ++ [⟨k, []⟩] := by simp
      have e0 : ∀ q, inner (s.cells ++ [⟨k, []⟩]) q = inner s.cells q := by
        intro q
        rw [inner_append]
        simp [inner]
      have hlen : (s.cells ++ [(⟨k, []⟩ : Cell)]).length = s.cells.length + 1 := by simp
      obtain ⟨s2, ts, set', h1, h2, w, hpn, hcell, hok', hin', hnd, hheld, hinn, hum, hset⟩ :=
        visit_node c n held (s.cells ++ [⟨k, []⟩]) s.set s.cells.length k ts₀
          ⟨bounded_append hok.cells (by simp), fun q hq => by have := hok.set q hq; rw [hlen]; omega⟩
          hk hleaf (by simp) (inAll_append ts₀ hin.2) (by rw [e0]; exact inner_bounded hok.cells (le_refl _))
          (fun h => by have := hok.set _ h; omega) hf
      have hgrow := w.grow
      simp only [hlen] at hgrow
      refine ⟨⟨s2.cells.set s.cells.length ⟨k, roots ts⟩, set'⟩, .node s.cells.length k ts, ?_, hok', hin', ?_, hnd, ?_, .inr (le_refl _), ?_, ?_, ?_, hum, hset⟩
      · have hget : (s.cells ++ [(⟨k, roots ts₀⟩ : Cell)])[s.cells.length]? = some ⟨k, roots ts₀⟩ := by simp
        simp only [Collector.visit, ATree.root, hmk, hget, Option.bind_eq_bind, Option.bind_some, hcells, h1, h2]
      · rw [ATree.erase, ATree.erase, w.same]
      · simp only [List.length_set]
        omega
      · intro b hb hbin
        have hne : b.root ≠ s.cells.length := fun he => by
          have := in_lt b hbin _ (root_mem b)
          omega
        exact hheld b hb hne (in_append b hbin)
      · intro q hq
        rw [hinn]
        have h3 := w.inner q (by simp only [hlen]; omega)
        have h4 : (roots ts).count q = 0 := by
          rw [List.count_eq_zero]
          intro hm
          obtain ⟨a, ha, rfl⟩ := List.mem_map.1 hm
          have := w.fresh p ⟨k, roots ts₀⟩ (by simp only; rw [List.getElem?_append_left hplt, hp0]) hpts (fun _ h => h) a ha
          simp only [hlen] at this
          omega
        simp only [e0] at h3
        omega
      · intro q hq hnot
        simp only [ATree.ptrs, List.mem_cons, not_or] at hnot
        simp only
        rw [List.getElem?_set_ne (by omega), w.frame q (by simp only [hlen]; omega) hnot.2]
        simp only
        rw [List.getElem?_append_left hq]

end Caesar.Smt.Sharing
