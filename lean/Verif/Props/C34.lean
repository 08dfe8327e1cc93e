import Verif.ProofRules.CallGraph
import Mathlib.Logic.Relation
import Mathlib.Data.List.Dedup

/-!
# C34: recursive procedures are found exactly
-/

namespace Caesar

open Relation

/-- Specification: a statement contains a call of `f`. -/
inductive ContainsCall (f : Ident) : Stmt → Prop
  | call (isDecl lhs args) : ContainsCall f (.call isDecl lhs f args)
  | seqL {a b} : ContainsCall f a → ContainsCall f (.seq a b)
  | seqR {a b} : ContainsCall f b → ContainsCall f (.seq a b)
  | demonicL {a b} : ContainsCall f a → ContainsCall f (.demonic a b)
  | demonicR {a b} : ContainsCall f b → ContainsCall f (.demonic a b)
  | angelicL {a b} : ContainsCall f a → ContainsCall f (.angelic a b)
  | angelicR {a b} : ContainsCall f b → ContainsCall f (.angelic a b)
  | additiveL {a b} : ContainsCall f a → ContainsCall f (.additive a b)
  | additiveR {a b} : ContainsCall f b → ContainsCall f (.additive a b)
  | iteL {c a b} : ContainsCall f a → ContainsCall f (.ite c a b)
  | iteR {c a b} : ContainsCall f b → ContainsCall f (.ite c a b)
  | while {c b} : ContainsCall f b → ContainsCall f (.while c b)
  | annot {an s} : ContainsCall f s → ContainsCall f (.annot an s)

/-- Specification: procedure `p` calls `q` in its body. -/
def Calls (ps : List ProcBody) (p q : Ident) : Prop := ∃ b, ⟨p, some b⟩ ∈ ps ∧ ContainsCall q b

/-- The contract of `petgraph::algo::tarjan_scc` on a directed graph: the result is a partition of the nodes into the classes of
mutually reachable nodes. -/
structure IsSccs (edges : List (Ident × Ident)) (sccs : List (List Ident)) : Prop where
  nodes : ∀ x, (∃ scc ∈ sccs, x ∈ scc) ↔ (∃ e ∈ edges, e.1 = x ∨ e.2 = x)
  nodup : ∀ scc ∈ sccs, scc.Nodup
  classes : ∀ scc ∈ sccs, ∀ x ∈ scc, ∀ y, y ∈ scc ↔
    ReflTransGen (fun a b => (a, b) ∈ edges) x y ∧ ReflTransGen (fun a b => (a, b) ∈ edges) y x

theorem mem_callees (f : Ident) (s : Stmt) : f ∈ s.callees ↔ ContainsCall f s := by
  constructor
  · intro h
    induction s with
    | call d l g a =>
      rcases List.mem_singleton.1 h with rfl
      exact .call ..
    | seq a b iha ihb => exact (List.mem_append.1 h).elim (fun h => .seqL (iha h)) fun h => .seqR (ihb h)
    | demonic a b iha ihb => exact (List.mem_append.1 h).elim (fun h => .demonicL (iha h)) fun h => .demonicR (ihb h)
    | angelic a b iha ihb => exact (List.mem_append.1 h).elim (fun h => .angelicL (iha h)) fun h => .angelicR (ihb h)
    | additive a b iha ihb => exact (List.mem_append.1 h).elim (fun h => .additiveL (iha h)) fun h => .additiveR (ihb h)
    | ite c a b iha ihb => exact (List.mem_append.1 h).elim (fun h => .iteL (iha h)) fun h => .iteR (ihb h)
    | «while» c b ih => exact .while (ih h)
    | annot an s ih => exact .annot (ih h)
    | _ => cases h
  · intro h
    induction h with
    | call => exact List.mem_singleton.2 rfl
    | seqL _ ih | demonicL _ ih | angelicL _ ih | additiveL _ ih | iteL _ ih => exact List.mem_append_left _ ih
    | seqR _ ih | demonicR _ ih | angelicR _ ih | additiveR _ ih | iteR _ ih => exact List.mem_append_right _ ih
    | «while» _ ih | annot _ ih => exact ih

theorem mem_callGraph (ps : List ProcBody) (q p : Ident) : (q, p) ∈ callGraph ps ↔ Calls ps p q := by
  unfold callGraph Calls
  rw [List.mem_flatMap]
  constructor
  · rintro ⟨⟨n, b⟩, hp, h⟩
    cases b with
    | none => cases h
    | some b =>
      obtain ⟨c, hc, he⟩ := List.mem_map.1 h
      cases he
      exact ⟨b, hp, (mem_callees _ _).1 hc⟩
  · rintro ⟨b, hp, h⟩
    exact ⟨_, hp, List.mem_map.2 ⟨q, (mem_callees _ _).2 h, rfl⟩⟩

/-- The blames which a component contributes. -/
def BlameOf (edges : List (Ident × Ident)) (scc : List Ident) (b : Blame) : Prop :=
  (scc.length > 1 ∨ (∃ x ∈ scc.head?, (x, x) ∈ edges)) ∧ b.called ∈ scc ∧ b.recursive ∈ scc ∧ (b.called, b.recursive) ∈ edges

theorem foldl_addBlame (scc : List Ident) (node : Ident) (es : List (Ident × Ident)) (m : List Blame) :
    (∀ b ∈ es.foldl (addBlame scc node) m, b ∈ m ∨ (b.called = node ∧ b.recursive ∈ scc ∧ ∃ e ∈ es, e.2 = b.recursive)) ∧
    (∀ b ∈ m, b ∈ es.foldl (addBlame scc node) m) ∧
    (∀ e ∈ es, e.2 ∈ scc → ∃ b ∈ es.foldl (addBlame scc node) m, b.recursive = e.2) := by
  induction es generalizing m with
  | nil => exact ⟨fun b hb => Or.inl hb, fun b hb => hb, fun e he => (by cases he)⟩
  | cons e es ih =>
    obtain ⟨h1, h2, h3⟩ := ih (addBlame scc node m e)
    refine ⟨fun b hb => ?_, fun b hb => h2 b ?_, fun e' he' hs => ?_⟩
    · rcases h1 b hb with h | ⟨ha, hb, e', he', h⟩
      · unfold addBlame at h
        split at h
        · rename_i hc
          rcases List.mem_append.1 h with h | h
          · exact Or.inl h
          · rcases List.mem_singleton.1 h with rfl
            exact Or.inr ⟨rfl, hc.1, e, List.mem_cons_self, rfl⟩
        · exact Or.inl h
      · exact Or.inr ⟨ha, hb, e', List.mem_cons_of_mem _ he', h⟩
    · unfold addBlame
      split
      · exact List.mem_append_left _ hb
      · exact hb
    · rcases List.mem_cons.1 he' with rfl | he'
      · by_cases hm : e'.2 ∈ m.map Blame.recursive
        · obtain ⟨b, hb, hr⟩ := List.mem_map.1 hm
          refine ⟨b, h2 b ?_, hr⟩
          unfold addBlame
          split
          · exact List.mem_append_left _ hb
          · exact hb
        · refine ⟨⟨node, e'.2⟩, h2 _ ?_, rfl⟩
          unfold addBlame
          rw [if_pos ⟨hs, hm⟩]
          exact List.mem_append_right _ (List.mem_singleton.2 rfl)
      · exact h3 e' he' hs

theorem foldl_nodes (edges : List (Ident × Ident)) (scc ns : List Ident) (m : List Blame) :
    let r := ns.foldl (fun m node => (edges.filter fun e => e.1 = node).foldl (addBlame scc node) m) m
    (∀ b ∈ r, b ∈ m ∨ (b.called ∈ ns ∧ b.recursive ∈ scc ∧ (b.called, b.recursive) ∈ edges)) ∧ (∀ b ∈ m, b ∈ r) ∧
    (∀ x ∈ ns, ∀ y ∈ scc, (x, y) ∈ edges → ∃ b ∈ r, b.recursive = y) := by
  induction ns generalizing m with
  | nil => exact ⟨fun b hb => Or.inl hb, fun b hb => hb, fun e he => (by cases he)⟩
  | cons n ns ih =>
    obtain ⟨h1, h2, h3⟩ := ih ((edges.filter fun e => e.1 = n).foldl (addBlame scc n) m)
    obtain ⟨g1, g2, g3⟩ := foldl_addBlame scc n (edges.filter fun e => e.1 = n) m
    refine ⟨fun b hb => ?_, fun b hb => h2 b (g2 b hb), fun x hx y hy he => ?_⟩
    · rcases h1 b hb with h | ⟨ha, hb, hc⟩
      · rcases g1 b h with h | ⟨ha, hb, e, he, hc⟩
        · exact Or.inl h
        · obtain ⟨he1, he2⟩ := List.mem_filter.1 he
          refine Or.inr ⟨ha ▸ List.mem_cons_self, hb, ?_⟩
          rw [ha, ← hc, ← of_decide_eq_true he2]
          exact he1
      · exact Or.inr ⟨List.mem_cons_of_mem _ ha, hb, hc⟩
    · rcases List.mem_cons.1 hx with rfl | hx
      · obtain ⟨b, hb, hr⟩ := g3 (x, y) (List.mem_filter.2 ⟨he, by simp⟩) hy
        exact ⟨b, h2 b hb, hr⟩
      · exact h3 x hx y hy he

theorem findRecursive_spec (edges : List (Ident × Ident)) (sccs : List (List Ident)) :
    (∀ b ∈ findRecursive edges sccs, ∃ scc ∈ sccs, BlameOf edges scc b) ∧
    (∀ scc ∈ sccs, ∀ b, BlameOf edges scc b → ∃ b' ∈ findRecursive edges sccs, b'.recursive = b.recursive) := by
  have key : ∀ (l : List (List Ident)) (m : List Blame),
      let r := l.foldl (fun m scc =>
        if scc.length > 1 ∨ (∃ x ∈ scc.head?, (x, x) ∈ edges) then
          scc.foldl (fun m node => (edges.filter fun e => e.1 = node).foldl (addBlame scc node) m) m
        else m) m
      (∀ b ∈ r, b ∈ m ∨ ∃ scc ∈ l, BlameOf edges scc b) ∧ (∀ b ∈ m, b ∈ r) ∧
      (∀ scc ∈ l, ∀ b, BlameOf edges scc b → ∃ b' ∈ r, b'.recursive = b.recursive) := by
    intro l
    induction l with
    | nil => exact fun m => ⟨fun b hb => Or.inl hb, fun b hb => hb, fun e he => (by cases he)⟩
    | cons scc l ih =>
      intro m
      by_cases hc : scc.length > 1 ∨ (∃ x ∈ scc.head?, (x, x) ∈ edges)
      · rw [List.foldl_cons, if_pos hc]
        obtain ⟨g1, g2, g3⟩ := foldl_nodes edges scc scc m
        obtain ⟨h1, h2, h3⟩ := ih (scc.foldl (fun m node => (edges.filter fun e => e.1 = node).foldl (addBlame scc node) m) m)
        refine ⟨fun b hb => ?_, fun b hb => h2 b (g2 b hb), fun scc' hs b hb => ?_⟩
        · rcases h1 b hb with h | ⟨s, hs, h⟩
          · rcases g1 b h with h | h
            · exact Or.inl h
            · exact Or.inr ⟨scc, List.mem_cons_self, hc, h⟩
          · exact Or.inr ⟨s, List.mem_cons_of_mem _ hs, h⟩
        · rcases List.mem_cons.1 hs with rfl | hs
          · obtain ⟨b', hb', hr⟩ := g3 _ hb.2.1 _ hb.2.2.1 hb.2.2.2
            exact ⟨b', h2 b' hb', hr⟩
          · exact h3 scc' hs b hb
      · rw [List.foldl_cons, if_neg hc]
        obtain ⟨h1, h2, h3⟩ := ih m
        refine ⟨fun b hb => ?_, h2, fun scc' hs b hb => ?_⟩
        · rcases h1 b hb with h | ⟨s, hs, h⟩
          · exact Or.inl h
          · exact Or.inr ⟨s, List.mem_cons_of_mem _ hs, h⟩
        · rcases List.mem_cons.1 hs with rfl | hs
          · exact (hc hb.1).elim
          · exact h3 scc' hs b hb
  obtain ⟨h1, _, h3⟩ := key sccs []
  exact ⟨fun b hb => (h1 b hb).resolve_left (by simp), h3⟩

theorem blame_iff {edges : List (Ident × Ident)} {sccs : List (List Ident)} (hs : IsSccs edges sccs) (p : Ident) :
    (∃ scc ∈ sccs, ∃ b, BlameOf edges scc b ∧ b.recursive = p) ↔ TransGen (fun a b => (a, b) ∈ edges) p p := by
  constructor
  · rintro ⟨scc, hscc, ⟨c, r⟩, ⟨_, h1, h2, h3⟩, rfl⟩
    have := (hs.classes scc hscc _ h2 c).1 h1
    exact TransGen.tail' this.1 h3
  · intro h
    -- the class of `p`
    obtain ⟨e, hep, hpe⟩ := TransGen.head'_iff.1 h
    obtain ⟨scc, hscc, hp⟩ := (hs.nodes p).2 ⟨(p, e), hep, Or.inl rfl⟩
    obtain ⟨c, hpc, hcp⟩ := TransGen.tail'_iff.1 h
    have hc : c ∈ scc := (hs.classes scc hscc p hp c).2 ⟨hpc, ReflTransGen.single hcp⟩
    refine ⟨scc, hscc, ⟨c, p⟩, ⟨?_, hc, hp, hcp⟩, rfl⟩
    by_cases hl : scc.length > 1
    · exact Or.inl hl
    · right
      match scc, hl, hc, hp with
      | [x], _, hc, hp =>
        rcases List.mem_singleton.1 hc with rfl
        rcases List.mem_singleton.1 hp with rfl
        exact ⟨_, rfl, hcp⟩
      | x :: y :: l, hl, _, _ => exact (hl (by simp)).elim

theorem transGen_swap {α : Type} {r : α → α → Prop} {a b : α} (h : TransGen (fun x y => r y x) a b) : TransGen r b a := by
  induction h with
  | single h => exact .single h
  | tail _ h ih => exact .head h ih

/-- A procedure is reported as recursive exactly if there is a non-empty chain of calls from it back to itself. -/
theorem C34_recursive_iff (ps : List ProcBody) (sccs : List (List Ident)) (hs : IsSccs (callGraph ps) sccs) (p : Ident) :
    (∃ b ∈ findRecursive (callGraph ps) sccs, b.recursive = p) ↔ TransGen (Calls ps) p p := by
  have hr : TransGen (fun a b => (a, b) ∈ callGraph ps) p p ↔ TransGen (Calls ps) p p := by
    have : (fun a b => (a, b) ∈ callGraph ps) = fun a b => Calls ps b a := by
      funext a b
      exact propext (mem_callGraph ps a b)
    rw [this]
    exact ⟨transGen_swap, transGen_swap⟩
  rw [← hr, ← blame_iff hs]
  obtain ⟨h1, h2⟩ := findRecursive_spec (callGraph ps) sccs
  constructor
  · rintro ⟨b, hb, rfl⟩
    obtain ⟨scc, hscc, h⟩ := h1 b hb
    exact ⟨scc, hscc, b, h, rfl⟩
  · rintro ⟨scc, hscc, b, h, rfl⟩
    exact h2 scc hscc b h

theorem reflTransGen_swap {α : Type} {r : α → α → Prop} {a b : α} (h : ReflTransGen (fun x y => r y x) a b) :
    ReflTransGen r b a := by
  induction h with
  | refl => exact .refl
  | tail _ h ih => exact .head h ih

/-- The blame of a recursive procedure: it calls the blamed procedure directly, and this one can reach it again. -/
theorem C34_blame (ps : List ProcBody) (sccs : List (List Ident)) (hs : IsSccs (callGraph ps) sccs) (b : Blame)
    (hb : b ∈ findRecursive (callGraph ps) sccs) :
    Calls ps b.recursive b.called ∧ ReflTransGen (Calls ps) b.called b.recursive := by
  obtain ⟨scc, hscc, _, h1, h2, h3⟩ := (findRecursive_spec (callGraph ps) sccs).1 b hb
  refine ⟨(mem_callGraph ps _ _).1 h3, ?_⟩
  have := ((hs.classes scc hscc _ h2 b.called).1 h1).1
  have he : (fun a b => (a, b) ∈ callGraph ps) = fun a b => Calls ps b a := by
    funext a b
    exact propext (mem_callGraph ps a b)
  rw [he] at this
  exact reflTransGen_swap this

/-- The contract of `tarjan_scc` can be met for each graph. -/
theorem C34_contract (edges : List (Ident × Ident)) : ∃ sccs, IsSccs edges sccs := by
  classical
  let M : Ident → Ident → Prop := fun x y =>
    ReflTransGen (fun a b => (a, b) ∈ edges) x y ∧ ReflTransGen (fun a b => (a, b) ∈ edges) y x
  let nodes : List Ident := (edges.flatMap fun e => [e.1, e.2]).dedup
  have hn : ∀ x, x ∈ nodes ↔ ∃ e ∈ edges, e.1 = x ∨ e.2 = x := by
    intro x
    simp only [nodes, List.mem_dedup, List.mem_flatMap, List.mem_cons, List.not_mem_nil, or_false]
    exact ⟨fun ⟨e, he, h⟩ => ⟨e, he, h.imp Eq.symm Eq.symm⟩, fun ⟨e, he, h⟩ => ⟨e, he, h.imp Eq.symm Eq.symm⟩⟩
  have hclosed : ∀ x ∈ nodes, ∀ y, M x y → y ∈ nodes := by
    intro x hx y hxy
    rcases ReflTransGen.cases_head hxy.2 with rfl | ⟨z, hz, _⟩
    · exact hx
    · exact (hn y).2 ⟨(y, z), hz, Or.inl rfl⟩
  refine ⟨nodes.map fun x => nodes.filter fun y => M x y, ?_, ?_, ?_⟩
  · intro x
    rw [← hn]
    constructor
    · rintro ⟨scc, hs, hx⟩
      obtain ⟨y, _, rfl⟩ := List.mem_map.1 hs
      exact (List.mem_filter.1 hx).1
    · intro hx
      exact ⟨_, List.mem_map.2 ⟨x, hx, rfl⟩, List.mem_filter.2 ⟨hx, decide_eq_true ⟨.refl, .refl⟩⟩⟩
  · intro scc hs
    obtain ⟨y, _, rfl⟩ := List.mem_map.1 hs
    exact (List.nodup_dedup _).filter _
  · intro scc hs x hx y
    obtain ⟨z, hz, rfl⟩ := List.mem_map.1 hs
    obtain ⟨hx1, hx2⟩ := List.mem_filter.1 hx
    have hzx : M z x := of_decide_eq_true hx2
    rw [List.mem_filter, decide_eq_true_iff]
    constructor
    · rintro ⟨_, h⟩
      exact ⟨hzx.2.trans h.1, h.2.trans hzx.1⟩
    · intro h
      have : M z y := ⟨hzx.1.trans h.1, h.2.trans hzx.2⟩
      exact ⟨hclosed z hz y this, this⟩

/-- Non-vacuity: `f` calls `g`, `g` calls `f`, `h` calls `f`; exactly `f` and `g` are recursive. -/
example : let f : Ident := ⟨"f", 0⟩; let g : Ident := ⟨"g", 0⟩; let h : Ident := ⟨"h", 0⟩
    let ps : List ProcBody := [⟨f, some (.call false [] g [])⟩, ⟨g, some (.while (Expr.boolLit true) (.call false [] f []))⟩,
      ⟨h, some (.call false [] f [])⟩]
    (findRecursive (callGraph ps) [[h], [f, g]]).map Blame.recursive = [g, f] := by decide

end Caesar
