import Verif.Smt.Stats

/-!
# C98: Statistics are those of the expression
-/

namespace Caesar.Smt.Sharing

/-! ## Specification -/

mutual
/-- The number of nodes of an expression. -/
def Tree.size : Tree → Nat
  | .node _ ts => 1 + sizeAll ts
def sizeAll : List Tree → Nat
  | [] => 0
  | t :: ts => t.size + sizeAll ts
end

mutual
/-- The number of quantifiers in an expression. -/
def Tree.quants : Tree → Nat
  | .node k ts => (if k = .quant then 1 else 0) + quantsAll ts
def quantsAll : List Tree → Nat
  | [] => 0
  | t :: ts => t.quants + quantsAll ts
end

/-- Variables and literals. -/
def Kind.IsLeaf : Kind → Prop
  | .var _ => True
  | .lit => True
  | _ => False

instance : DecidablePred Kind.IsLeaf := fun k => by cases k <;> unfold Kind.IsLeaf <;> infer_instance

mutual
/-- The depths of the variables and literals, from left to right, in an expression at depth `d`. -/
def Tree.leafDepths (d : Nat) : Tree → List Nat
  | .node k ts => (if k.IsLeaf then [d] else []) ++ leafDepthsAll (d + 1) ts
def leafDepthsAll (d : Nat) : List Tree → List Nat
  | [] => []
  | t :: ts => t.leafDepths d ++ leafDepthsAll d ts
end

/-- There is a quantifier somewhere in an expression. -/
inductive HasQuant : Tree → Prop
  | here ts : HasQuant (.node .quant ts)
  | inside k ts t : t ∈ ts → HasQuant t → HasQuant (.node k ts)

/-- The full claim: gathering statistics does not change the memory. -/
def C98_full : Prop := ∀ (a : ATree) (cells cells' : List Cell) (n p : Nat) (held : List Nat) (st : Stats) (w : Bool), a.In cells → Bounded cells →
  traceStats n held cells a.root = some (cells', p, st, w) → cells'.length = cells.length

/-! ## Lemmas -/

/-- Counting up. -/
def Stats.plus (s : Stats) (exprs quants : Nat) (depths : List Nat) : Stats := ⟨s.numExprs + exprs, s.numQuants + quants, s.depths ++ depths⟩

theorem Stats.plus_plus (s : Stats) (e e' q q' : Nat) (d d' : List Nat) : (s.plus e q d).plus e' q' d' = s.plus (e + e') (q + q') (d ++ d') := by
  simp [Stats.plus, Nat.add_assoc]

theorem count_eq (s : StatState) (k : Kind) : s.count k = ⟨s.cells, s.depth + 1, s.stats.plus 1 (if k = .quant then 1 else 0) (if k.IsLeaf then [s.depth + 1] else [])⟩ := by
  cases k <;> simp [StatState.count, Stats.plus, Kind.IsLeaf]

/-- The result of the visit of `a₀` with the pointers `held`. -/
structure StatVisited (held : List Nat) (s : StatState) (a₀ : ATree) (s' : StatState) (a : ATree) : Prop where
  ok : Bounded s'.cells
  isIn : a.In s'.cells
  same : a.erase = a₀.erase
  nodup : a.ptrs.Nodup
  grow : s.cells.length ≤ s'.cells.length
  root : a.root = a₀.root ∧ others s.cells held a₀.root = 0 ∨ s.cells.length ≤ a.root
  held : ∀ b : ATree, b.root ∈ held → b.In s.cells → b.In s'.cells ∧ ∀ q ∈ a.ptrs, q ∉ b.ptrs
  inner : ∀ q < s.cells.length, inner s'.cells q ≤ inner s.cells q
  frame : ∀ q < s.cells.length, q ∉ a₀.ptrs → s'.cells[q]? = s.cells[q]?
  depth : s'.depth = s.depth
  stats : s'.stats = s.stats.plus a₀.erase.size a₀.erase.quants (a₀.erase.leafDepths (s.depth + 1))

/-- The result of the visits of `ts₀`. -/
structure StatVisitedAll (held : List Nat) (s : StatState) (ts₀ : List ATree) (s' : StatState) (ts : List ATree) : Prop where
  ok : Bounded s'.cells
  isIn : InAll s'.cells ts
  same : eraseAll ts = eraseAll ts₀
  nodup : (ptrsAll ts).Nodup
  grow : s.cells.length ≤ s'.cells.length
  roots : List.Forall₂ (fun a a₀ : ATree => a.root = a₀.root ∨ s.cells.length ≤ a.root) ts ts₀
  fresh : ∀ r k, s.cells[r]? = some k → r ∉ ptrsAll ts₀ → (∀ q ∈ Sharing.roots ts₀, q ∈ k.kids) → ∀ a ∈ ts, s.cells.length ≤ a.root
  held : ∀ b : ATree, b.root ∈ held → b.In s.cells → b.In s'.cells ∧ ∀ q ∈ ptrsAll ts, q ∉ b.ptrs
  inner : ∀ q < s.cells.length, inner s'.cells q ≤ inner s.cells q
  frame : ∀ q < s.cells.length, q ∉ ptrsAll ts₀ → s'.cells[q]? = s.cells[q]?
  depth : s'.depth = s.depth
  stats : s'.stats = s.stats.plus (sizeAll (eraseAll ts₀)) (quantsAll (eraseAll ts₀)) (leafDepthsAll (s.depth + 1) (eraseAll ts₀))

theorem statKids_spec (f : List Nat → StatState → Nat → Option (StatState × Nat)) (held : List Nat) (ts₀ : List ATree)
    (hf : ∀ a₀ ∈ ts₀, ∀ held s, Bounded s.cells → a₀.In s.cells → ∃ s' a, f held s a₀.root = some (s', a.root) ∧ StatVisited held s a₀ s' a) :
    ∀ (done : List ATree) (s : StatState), Bounded s.cells → InAll s.cells done → InAll s.cells ts₀ →
      ∃ s' ts, statKids f held s (roots done) (roots ts₀) = some (s', roots (done ++ ts)) ∧ StatVisitedAll (roots done ++ held) s ts₀ s' ts := by
  induction ts₀ with
  | nil =>
    intro done s hok _ _
    refine ⟨s, [], by simp [statKids, roots], ?_⟩
    exact ⟨hok, trivial, rfl, by simp [ptrsAll], le_refl _, .nil, by simp, fun b _ hb => ⟨hb, by simp [ptrsAll]⟩, fun _ _ => le_refl _, fun _ _ _ => rfl,
      rfl, by simp [Stats.plus, eraseAll, sizeAll, quantsAll, leafDepthsAll]⟩
  | cons a₀ ts₀ ih =>
    intro done s hok hdone hts
    obtain ⟨s1, a, h1, v⟩ := hf a₀ List.mem_cons_self (roots done ++ roots ts₀ ++ held) s hok hts.1
    have hdone1 : InAll s1.cells (done ++ [a]) := by
      rw [inAll_iff]
      intro t ht
      rcases List.mem_append.1 ht with ht | ht
      · exact (v.held t (by simp only [List.mem_append]; exact .inl (.inl (List.mem_map_of_mem ht))) (inAll_iff.1 hdone t ht)).1
      · obtain rfl := List.mem_singleton.1 ht
        exact v.isIn
    have hts1 : InAll s1.cells ts₀ := by
      rw [inAll_iff]
      intro t ht
      exact (v.held t (by simp only [List.mem_append]; exact .inl (.inr (List.mem_map_of_mem ht))) (inAll_iff.1 hts.2 t ht)).1
    obtain ⟨s', ts, h2, w⟩ := ih (fun b hb => hf b (List.mem_cons_of_mem _ hb)) (done ++ [a]) s1 v.ok hdone1 hts1
    have hroots : roots (done ++ [a]) = roots done ++ [a.root] := by simp [roots]
    refine ⟨s', a :: ts, ?_, ?_⟩
    · rw [show roots (a₀ :: ts₀) = a₀.root :: roots ts₀ from rfl, statKids, h1]
      simp only [Option.bind_eq_bind, Option.bind_some]
      rw [← hroots, h2]
      simp [roots]
    · have hself := w.held a (by rw [hroots]; simp) v.isIn
      refine ⟨w.ok, ⟨hself.1, w.isIn⟩, ?_, ?_, le_trans v.grow w.grow, ?_, ?_, ?_, ?_, ?_, w.depth.trans v.depth, ?_⟩
      · rw [eraseAll, eraseAll, v.same, w.same]
      · rw [ptrsAll, List.nodup_append']
        exact ⟨v.nodup, w.nodup, fun q h1 h2 => hself.2 q h2 h1⟩
      · refine .cons (v.root.imp And.left id) ?_
        refine w.roots.imp fun b b₀ h => h.imp id fun h => le_trans v.grow h
      · intro r k hr hnot hk b hb
        have hlt : r < s.cells.length := (List.getElem?_eq_some_iff.1 hr).1
        simp only [ptrsAll, List.mem_append, not_or] at hnot
        rcases List.mem_cons.1 hb with rfl | hb
        · refine v.root.resolve_left fun h => ?_
          have h2 := h.2
          have := inner_pos hr (hk a₀.root (by simp [roots]))
          unfold others at h2
          omega
        · refine le_trans v.grow (w.fresh r k ?_ hnot.2 (fun q hq => hk q ?_) b hb)
          · rw [v.frame r hlt hnot.1, hr]
          · simp only [roots, List.map_cons, List.mem_cons]
            exact .inr hq
      · intro b hb hin
        have hb1 := v.held b (by simp only [List.mem_append] at hb ⊢; tauto) hin
        have hb2 := w.held b (by rw [hroots]; simp only [List.mem_append] at hb ⊢; tauto) hb1.1
        refine ⟨hb2.1, ?_⟩
        intro q hq
        rcases List.mem_append.1 (show q ∈ a.ptrs ++ ptrsAll ts from hq) with hq | hq
        · exact hb1.2 q hq
        · exact hb2.2 q hq
      · intro q hq
        exact le_trans (w.inner q (lt_of_lt_of_le hq v.grow)) (v.inner q hq)
      · intro q hq hnot
        simp only [ptrsAll, List.mem_append, not_or] at hnot
        rw [w.frame q (lt_of_lt_of_le hq v.grow) hnot.2, v.frame q hq hnot.1]
      · rw [w.stats, v.stats, v.depth, Stats.plus_plus, eraseAll, sizeAll, quantsAll, leafDepthsAll]

theorem stat_count_roots_le {n q : Nat} (hq : q < n) {ts ts₀ : List ATree} (h : List.Forall₂ (fun a a₀ : ATree => a.root = a₀.root ∨ n ≤ a.root) ts ts₀) :
    (roots ts).count q ≤ (roots ts₀).count q := by
  induction h with
  | nil => simp [roots]
  | @cons a a₀ ts ts₀ h _ ih =>
    simp only [roots, List.map_cons, List.count_cons] at ih ⊢
    rcases h with h | h
    · rw [h]
      omega
    · have : (a.root == q) = false := by simp; omega
      rw [this]
      simp only [Bool.false_eq_true, if_false, Nat.add_zero]
      omega

theorem stat_length_kid {ts : List ATree} {a : ATree} (ha : a ∈ ts) : a.ptrs.length ≤ (ptrsAll ts).length := by
  induction ts with
  | nil => simp at ha
  | cons t ts ih =>
    simp only [ptrsAll, List.length_append]
    rcases List.mem_cons.1 ha with rfl | ha
    · omega
    · have := ih ha
      omega

/-- The visit of a node whose pointer in our hand is the only one: `cells` is the memory after `deref_mut`, without the children. -/
theorem stat_node (f : List Nat → StatState → Nat → Option (StatState × Nat)) (held : List Nat) (s : StatState) (p : Nat) (k : Kind) (ts₀ : List ATree)
    (hok : Bounded s.cells) (hp : s.cells[p]? = some ⟨k, []⟩) (hin : InAll s.cells ts₀) (h0 : inner s.cells p = 0)
    (hf : ∀ a₀ ∈ ts₀, ∀ held s, Bounded s.cells → a₀.In s.cells → ∃ s' a, f held s a₀.root = some (s', a.root) ∧ StatVisited held s a₀ s' a) :
    ∃ s2 ts, statKids f (p :: held) s [] (roots ts₀) = some (s2, roots ts) ∧
      StatVisitedAll (p :: held) s ts₀ s2 ts ∧ p ∉ ptrsAll ts ∧ Bounded (s2.cells.set p ⟨k, roots ts⟩) ∧
      (ATree.node p k ts).In (s2.cells.set p ⟨k, roots ts⟩) ∧ (ATree.node p k ts).ptrs.Nodup ∧
      (∀ b : ATree, b.root ∈ held → b.root ≠ p → b.In s.cells → b.In (s2.cells.set p ⟨k, roots ts⟩) ∧ ∀ q ∈ (ATree.node p k ts).ptrs, q ∉ b.ptrs) ∧
      (∀ q, Sharing.inner (s2.cells.set p ⟨k, roots ts⟩) q = inner s2.cells q + (roots ts).count q) := by
  obtain ⟨s2, ts, h1, w⟩ := statKids_spec f (p :: held) ts₀ hf [] s hok trivial hin
  simp only [roots, List.map_nil, List.nil_append] at h1 w
  have hself := w.held (.node p k []) (by simp [ATree.root]) ⟨hp, trivial⟩
  have hpts : p ∉ ptrsAll ts := fun h => hself.2 p h (by simp [ATree.ptrs])
  have hplt : p < s2.cells.length := (List.getElem?_eq_some_iff.1 hself.1.1).1
  have hlt : ∀ q ∈ ptrsAll ts, q < s2.cells.length := inAll_lt ts w.isIn
  refine ⟨s2, ts, h1, w, hpts, ?_, ⟨?_, inAll_set ts w.isIn hpts⟩, ?_, ?_, ?_⟩
  · exact bounded_set w.ok fun q hq => hlt q (roots_mem hq)
  · rw [List.getElem?_set_self hplt]
  · exact List.nodup_cons.2 ⟨hpts, w.nodup⟩
  · intro b hb hne hbin
    have hb2 := w.held b (List.mem_cons_of_mem _ hb) hbin
    have hpb : p ∉ b.ptrs := not_mem_of_inner h0 b hbin hne
    refine ⟨in_set b hb2.1 hpb, ?_⟩
    intro q hq
    rcases List.mem_cons.1 (show q ∈ p :: ptrsAll ts from hq) with rfl | hq
    · exact hpb
    · exact hb2.2 q hq
  · intro q
    have := inner_set (c' := ⟨k, roots ts⟩) hself.1.1 q
    simpa [roots] using this

theorem statVisit_spec : ∀ (n : Nat) (a₀ : ATree), a₀.ptrs.length ≤ n → ∀ (held : List Nat) (s : StatState), Bounded s.cells →
    a₀.In s.cells → ∃ s' a, statVisit n held s a₀.root = some (s', a.root) ∧ StatVisited held s a₀ s' a
  | 0, .node p k ts, hn, _, _, _, _ => by simp [ATree.ptrs] at hn
  | n + 1, .node p k ts₀, hn, held, s, hok, hin => by
    have hf : ∀ a₀ ∈ ts₀, ∀ held s, Bounded s.cells → a₀.In s.cells → ∃ s' a, statVisit n held s a₀.root = some (s', a.root) ∧ StatVisited held s a₀ s' a := by
      intro a₀ ha held s hok hin
      refine statVisit_spec n a₀ ?_ held s hok hin
      have := stat_length_kid ha
      simp only [ATree.ptrs, List.length_cons] at hn
      omega
    have hp0 := hin.1
    have hplt : p < s.cells.length := (List.getElem?_eq_some_iff.1 hp0).1
    have hpts : p ∉ ptrsAll ts₀ := root_not_mem hin
    have hstats : ∀ st : Stats, (st.plus 1 (if k = .quant then 1 else 0) (if k.IsLeaf then [s.depth + 1] else [])).plus (sizeAll (eraseAll ts₀)) (quantsAll (eraseAll ts₀))
        (leafDepthsAll (s.depth + 1 + 1) (eraseAll ts₀)) =
        st.plus (ATree.node p k ts₀).erase.size (ATree.node p k ts₀).erase.quants ((ATree.node p k ts₀).erase.leafDepths (s.depth + 1)) := by
      intro st
      rw [Stats.plus_plus, ATree.erase, Tree.size, Tree.quants, Tree.leafDepths]
    by_cases hoth : others s.cells held p = 0
    · have h00 := hoth
      unfold others at hoth
      have hinner : inner s.cells p = 0 := by omega
      have hcount : held.count p = 0 := by omega
      rw [List.count_eq_zero] at hcount
      have hmk : makeMut s.cells held p = (s.cells, p) := by rw [makeMut, if_pos h00]
      have e0 : ∀ q, inner (s.cells.set p ⟨k, []⟩) q + (roots ts₀).count q = inner s.cells q := by
        intro q
        have := inner_set (c' := ⟨k, []⟩) hp0 q
        simpa using this
      obtain ⟨s2, ts, h1, w, hpn, hok', hin', hnd, hheld, hinn⟩ :=
        stat_node (statVisit n) held { s.count k with cells := s.cells.set p ⟨k, []⟩ } p k ts₀ (bounded_set hok (by simp))
          (by simp only; rw [List.getElem?_set_self hplt]) (inAll_set ts₀ hin.2 hpts) (by have := e0 p; simp only; omega) hf
      have hlen : (s.cells.set p ⟨k, []⟩).length = s.cells.length := List.length_set
      refine ⟨{ s2 with cells := s2.cells.set p ⟨k, roots ts⟩, depth := s2.depth - 1 }, .node p k ts, ?_, hok', hin', ?_, hnd, ?_, .inl ⟨rfl, h00⟩, ?_, ?_, ?_, ?_, ?_⟩
      · have hc : (s.count k).cells = s.cells := by rw [count_eq]
        simp only [statVisit, ATree.root, hp0, Option.bind_eq_bind, Option.bind_some, hc, hmk, h1]
      · rw [ATree.erase, ATree.erase, w.same]
      · have := w.grow
        simp only [hlen] at this
        simpa using this
      · intro b hb hbin
        have hne : b.root ≠ p := fun he => hcount (he ▸ hb)
        exact hheld b hb hne (in_set b hbin (not_mem_of_inner hinner b hbin hne))
      · intro q hq
        simp only
        rw [hinn]
        have h3 := w.inner q (by simp only [hlen]; exact hq)
        have h4 := stat_count_roots_le (q := q) (by simp only [hlen]; exact hq) w.roots
        have := e0 q
        simp only at h3
        omega
      · intro q hq hnot
        simp only [ATree.ptrs, List.mem_cons, not_or] at hnot
        simp only
        rw [List.getElem?_set_ne (fun h => hnot.1 h.symm), w.frame q (by simp only [hlen]; exact hq) hnot.2]
        exact List.getElem?_set_ne (fun h => hnot.1 h.symm)
      · have := w.depth
        simp only [count_eq] at this ⊢
        omega
      · have := w.stats
        simp only [count_eq] at this ⊢
        rw [this, hstats]
    · have hmk : makeMut s.cells held p = (s.cells ++ [⟨k, roots ts₀⟩], s.cells.length) := by rw [makeMut, if_neg hoth, hp0]
      have hcells : (s.cells ++ [(⟨k, roots ts₀⟩ : Cell)]).set s.cells.length ⟨k, []⟩ = s.cells ++ [⟨k, []⟩] := by simp
      have e0 : ∀ q, inner (s.cells ++ [⟨k, []⟩]) q = inner s.cells q := by
        intro q
        rw [inner_append]
        simp [inner]
      have hlen : (s.cells ++ [(⟨k, []⟩ : Cell)]).length = s.cells.length + 1 := by simp
      obtain ⟨s2, ts, h1, w, hpn, hok', hin', hnd, hheld, hinn⟩ :=
        stat_node (statVisit n) held { s.count k with cells := s.cells ++ [⟨k, []⟩] } s.cells.length k ts₀
          (bounded_append hok (by simp)) (by simp) (inAll_append ts₀ hin.2) (by simp only; rw [e0]; exact inner_bounded hok (le_refl _)) hf
      have hgrow := w.grow
      simp only [hlen] at hgrow
      refine ⟨{ s2 with cells := s2.cells.set s.cells.length ⟨k, roots ts⟩, depth := s2.depth - 1 }, .node s.cells.length k ts, ?_, hok', hin', ?_, hnd, ?_,
        .inr (le_refl _), ?_, ?_, ?_, ?_, ?_⟩
      · have hget : (s.cells ++ [(⟨k, roots ts₀⟩ : Cell)])[s.cells.length]? = some ⟨k, roots ts₀⟩ := by simp
        have hc : (s.count k).cells = s.cells := by rw [count_eq]
        simp only [statVisit, ATree.root, hp0, Option.bind_eq_bind, Option.bind_some, hc, hmk, hget, hcells, h1]
      · rw [ATree.erase, ATree.erase, w.same]
      · simp only [List.length_set]
        omega
      · intro b hb hbin
        have hne : b.root ≠ s.cells.length := fun he => by
          have := in_lt b hbin _ (root_mem b)
          omega
        exact hheld b hb hne (in_append b hbin)
      · intro q hq
        simp only
        rw [hinn]
        have h3 := w.inner q (by simp only [hlen]; omega)
        have h4 : (roots ts).count q = 0 := by
          rw [List.count_eq_zero]
          intro hm
          obtain ⟨a, ha, rfl⟩ := List.mem_map.1 hm
          have := w.fresh p ⟨k, roots ts₀⟩ (by simp only; rw [List.getElem?_append_left hplt, hp0]) hpts (fun _ h => h) a ha
          simp only [hlen] at this
          omega
        simp only [e0] at h3
        omega
      · intro q hq hnot
        simp only [ATree.ptrs, List.mem_cons, not_or] at hnot
        simp only
        rw [List.getElem?_set_ne (by omega), w.frame q (by simp only [hlen]; omega) hnot.2]
        simp only
        rw [List.getElem?_append_left hq]
      · have := w.depth
        simp only [count_eq] at this ⊢
        omega
      · have := w.stats
        simp only [count_eq] at this ⊢
        rw [this, hstats]

mutual
theorem ptrs_size : ∀ a : ATree, a.ptrs.length = a.erase.size
  | .node p k ts => by
    rw [ATree.ptrs, ATree.erase, Tree.size, List.length_cons, ptrsAll_size ts]
    omega
theorem ptrsAll_size : ∀ ts : List ATree, (ptrsAll ts).length = sizeAll (eraseAll ts)
  | [] => rfl
  | t :: ts => by rw [ptrsAll, eraseAll, sizeAll, List.length_append, ptrs_size t, ptrsAll_size ts]
end

mutual
theorem quants_pos : ∀ t : Tree, 0 < t.quants ↔ HasQuant t
  | .node k ts => by
    rw [Tree.quants]
    constructor
    · intro h
      by_cases hk : k = .quant
      · subst hk; exact .here ts
      · rw [if_neg hk, Nat.zero_add] at h
        obtain ⟨t, ht, hq⟩ := (quantsAll_pos ts).1 h
        exact .inside k ts t ht hq
    · intro h
      cases h with
      | here => simp
      | inside _ _ t ht hq =>
        have := (quantsAll_pos ts).2 ⟨t, ht, hq⟩
        omega
theorem quantsAll_pos : ∀ ts : List Tree, 0 < quantsAll ts ↔ ∃ t ∈ ts, HasQuant t
  | [] => by simp [quantsAll]
  | t :: ts => by
    rw [quantsAll, show 0 < t.quants + quantsAll ts ↔ 0 < t.quants ∨ 0 < quantsAll ts by omega, quants_pos t, quantsAll_pos ts]
    simp
end

/-! ## Theorems -/

/-- The statistics are exact: the number of nodes, the number of quantifiers (the warning is there exactly if there is a quantifier), and the depths of variables and literals. The
expression stays the same, and so do all expressions behind other pointers. -/
theorem C98_partial (a : ATree) (cells : List Cell) (held : List Nat) (n : Nat) (hn : a.erase.size ≤ n) (hin : a.In cells) (hb : Bounded cells) :
    ∃ (cells' : List Cell) (a' : ATree) (w : Bool), traceStats n held cells a.root = some (cells', a'.root, ⟨a.erase.size, a.erase.quants, a.erase.leafDepths 1⟩, w) ∧
      (w = true ↔ HasQuant a.erase) ∧ a'.In cells' ∧ a'.erase = a.erase ∧ ∀ b : ATree, b.root ∈ held → b.In cells → b.In cells' := by
  obtain ⟨s', a', h, v⟩ := statVisit_spec n a (by rw [ptrs_size]; exact hn) held ⟨cells, 0, ⟨0, 0, []⟩⟩ hb hin
  refine ⟨s'.cells, a', decide (a.erase.quants > 0), ?_, ?_, v.isIn, v.same, fun b hb hi => (v.held b hb hi).1⟩
  · have hs := v.stats
    simp only [Stats.plus, Nat.zero_add, List.nil_append] at hs
    simp only [traceStats, h, Option.map_some, hs]
  · rw [decide_eq_true_iff]
    exact quants_pos _

/-- Afterwards, the expression does not share any nodes, with itself or with others: each of its nodes is in memory once for every occurrence. -/
theorem C98_unshared (a : ATree) (cells : List Cell) (held : List Nat) (n : Nat) (hn : a.erase.size ≤ n) (hin : a.In cells) (hb : Bounded cells) :
    ∃ (cells' : List Cell) (a' : ATree) (st : Stats) (w : Bool), traceStats n held cells a.root = some (cells', a'.root, st, w) ∧ a'.In cells' ∧ a'.erase = a.erase ∧ a'.ptrs.Nodup ∧
      (∀ b : ATree, b.root ∈ held → b.In cells → ∀ q ∈ a'.ptrs, q ∉ b.ptrs) ∧ a.erase.size ≤ cells'.length := by
  obtain ⟨s', a', h, v⟩ := statVisit_spec n a (by rw [ptrs_size]; exact hn) held ⟨cells, 0, ⟨0, 0, []⟩⟩ hb hin
  refine ⟨s'.cells, a', s'.stats, decide (s'.stats.numQuants > 0), by simp only [traceStats, h, Option.map_some], v.isIn, v.same, v.nodup, fun b hb hi => (v.held b hb hi).2, ?_⟩
  rw [← v.same, ← ptrs_size]
  have hsub : a'.ptrs ⊆ List.range s'.cells.length := fun q hq => List.mem_range.2 (in_lt a' v.isIn q hq)
  simpa using (v.nodup.subperm hsub).length_le

/-- A chain of binary operators with both operands shared: node `i + 1` has node `i` on both sides. -/
def chain : Nat → List Cell
  | 0 => [⟨.lit, []⟩]
  | n + 1 => chain n ++ [⟨.binary, [n, n]⟩]

/-- The expression of the chain. -/
def chainTree : Nat → ATree
  | 0 => .node 0 .lit []
  | n + 1 => .node (n + 1) .binary [chainTree n, chainTree n]

theorem chain_length (n : Nat) : (chain n).length = n + 1 := by
  induction n with
  | zero => rfl
  | succ n ih => simp [chain, ih]

theorem chainTree_root (n : Nat) : (chainTree n).root = n := by cases n <;> rfl

theorem chain_in (n : Nat) : (chainTree n).In (chain n) := by
  induction n with
  | zero => exact ⟨rfl, trivial⟩
  | succ n ih =>
    refine ⟨?_, in_append _ ih, in_append _ ih, trivial⟩
    simp [chain, chain_length, roots, chainTree_root]

theorem chain_bounded (n : Nat) : Bounded (chain n) := by
  induction n with
  | zero => intro c hc q hq; simp only [chain, List.mem_singleton] at hc; subst hc; simp at hq
  | succ n ih =>
    refine bounded_append ih fun q hq => ?_
    rw [chain_length]
    simp only [List.mem_cons, List.not_mem_nil, or_false, or_self] at hq
    omega

theorem chain_size (n : Nat) : (chainTree n).erase.size + 1 = 2 ^ (n + 1) := by
  induction n with
  | zero => rfl
  | succ n ih =>
    simp only [chainTree, ATree.erase, eraseAll, Tree.size, sizeAll]
    rw [Nat.pow_succ]
    omega

/-- Gathering statistics can need exponentially more memory: from `n + 1` nodes to at least `2 ^ (n + 1) - 1`. -/
theorem C98_exponential (n : Nat) : (chainTree n).In (chain n) ∧ (chain n).length = n + 1 ∧
    ∃ cells' p st w, traceStats (2 ^ (n + 1)) [] (chain n) n = some (cells', p, st, w) ∧ 2 ^ (n + 1) ≤ cells'.length + 1 ∧ st.numExprs + 1 = 2 ^ (n + 1) := by
  refine ⟨chain_in n, chain_length n, ?_⟩
  have hs := chain_size n
  obtain ⟨cells', a', st, w, h1, -, -, -, -, h2⟩ := C98_unshared (chainTree n) (chain n) [] (2 ^ (n + 1)) (by omega) (chain_in n) (chain_bounded n)
  obtain ⟨_, _, _, h3, _⟩ := C98_partial (chainTree n) (chain n) [] (2 ^ (n + 1)) (by omega) (chain_in n) (chain_bounded n)
  rw [h1] at h3
  simp only [Option.some.injEq, Prod.mk.injEq] at h3
  rw [chainTree_root] at h1
  exact ⟨cells', _, st, w, h1, by omega, by rw [h3.2.2.1]; exact hs⟩

/-- Gathering statistics copies shared nodes. -/
theorem C98_not_full : ¬ C98_full := by
  intro h
  obtain ⟨h1, h2, cells', p, st, w, h3, h4, -⟩ := C98_exponential 1
  have := h (chainTree 1) (chain 1) cells' _ p [] st w h1 (chain_bounded 1) (by rw [chainTree_root]; exact h3)
  rw [this, h2] at h4
  omega

/-! ## Examples -/

/-- `x + inf y. x` where both `x` are the same node, which is held by someone else as well. -/
def exStats : List Cell := [⟨.var ⟨"x", 0⟩, []⟩, ⟨.quant, [0]⟩, ⟨.binary, [0, 1]⟩]

def exStatsTree : ATree := .node 2 .binary [.node 0 (.var ⟨"x", 0⟩) [], .node 1 .quant [.node 0 (.var ⟨"x", 0⟩) []]]

example : exStatsTree.In exStats := ⟨rfl, ⟨rfl, trivial⟩, ⟨rfl, ⟨rfl, trivial⟩, trivial⟩, trivial⟩

example : Bounded exStats := by unfold Bounded exStats; decide

example : HasQuant exStatsTree.erase := .inside _ _ (.node .quant [.node (.var ⟨"x", 0⟩) []]) (by simp [ATree.erase, eraseAll]) (.here _)

/-- Four nodes, one quantifier, a warning, and two copies of `x`. -/
example : (traceStats 4 [0] exStats 2).map (fun r => (r.1.length, r.2)) = some (5, 2, ⟨4, 1, [2, 3]⟩, true) := by decide

/-- Without anyone else, there is one copy. -/
example : (traceStats 4 [] exStats 2).map (fun r => (r.1.length, r.2)) = some (4, 2, ⟨4, 1, [2, 3]⟩, true) := by decide

end Caesar.Smt.Sharing
