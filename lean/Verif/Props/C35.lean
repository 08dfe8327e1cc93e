import Verif.Infra.DepGraph
import Mathlib.Logic.Relation

/-!
# C35: the dependency closure is complete and minimal
-/

namespace Caesar.Infra

open Relation

/-- Specification: declaration `a` directly depends on `b`. Procedures depend on what they mention; axioms and what they mention depend on
each other, because an axiom constrains all the functions it mentions; functions are treated like procedures if they are instantiated
in the decreasing direction only, and like axioms otherwise. -/
def DependsOn (inst : AxiomInst) (ds : List DepDecl) (a b : Ident) : Prop :=
  (∃ deps, .proc a deps ∈ ds ∧ b ∈ deps) ∨
  (inst = .decreasing ∧ ∃ deps, .func a deps ∈ ds ∧ b ∈ deps) ∨
  (inst = .bidirectional ∧ ∃ name deps, .func name deps ∈ ds ∧ a ∈ name :: deps ∧ b ∈ name :: deps) ∨
  (∃ name deps, .axiomDecl name deps ∈ ds ∧ a ∈ name :: deps ∧ b ∈ name :: deps)

theorem mem_entry (key : Ident) (deps : List Ident) (m : List (Ident × List Ident)) (x y : Ident) :
    (∃ e, (DepGraph.extendEntry key deps m).find? (fun e => e.1 = x) = some e ∧ y ∈ e.2) ↔
      (∃ e, m.find? (fun e => e.1 = x) = some e ∧ y ∈ e.2) ∨ (x = key ∧ y ∈ deps) := by
  induction m with
  | nil =>
    by_cases h : key = x
    · simp [DepGraph.extendEntry, h]
    · simp [DepGraph.extendEntry, h, Ne.symm h]
  | cons e m ih =>
    obtain ⟨k, ds⟩ := e
    unfold DepGraph.extendEntry
    by_cases hk : k = key
    · subst hk
      rw [if_pos rfl]
      by_cases hx : k = x
      · subst hx
        simp
      · simp [List.find?_cons, hx, Ne.symm hx]
    · rw [if_neg hk]
      by_cases hx : k = x
      · subst hx
        simp [hk]
      · simpa [List.find?_cons, hx] using ih

theorem mem_successors (g : DepGraph) (x y : Ident) : y ∈ g.successors x ↔
    (∃ e, g.directed.find? (fun e => e.1 = x) = some e ∧ y ∈ e.2) ∨ ∃ scc ∈ g.sccs, x ∈ scc ∧ y ∈ scc := by
  unfold DepGraph.successors
  rw [List.mem_append, List.mem_flatten]
  apply or_congr
  · cases h : g.directed.find? (fun e => e.1 = x) with
    | none => simp
    | some e => simp
  · constructor
    · rintro ⟨l, hl, hy⟩
      obtain ⟨h1, h2⟩ := List.mem_filter.1 hl
      exact ⟨l, h1, of_decide_eq_true h2, hy⟩
    · rintro ⟨l, h1, h2, hy⟩
      exact ⟨l, List.mem_filter.2 ⟨h1, decide_eq_true h2⟩, hy⟩

theorem collectDirected_succ (g : DepGraph) (k : Ident) (deps : List Ident) (x y : Ident) :
    y ∈ (g.collectDirected k deps).successors x ↔ y ∈ g.successors x ∨ (x = k ∧ y ∈ deps) := by
  rw [mem_successors, mem_successors]
  show ((∃ e, (DepGraph.extendEntry k deps g.directed).find? (fun e => e.1 = x) = some e ∧ y ∈ e.2) ∨ _) ↔ _
  rw [mem_entry]
  constructor
  · rintro ((h | h) | h)
    · exact Or.inl (Or.inl h)
    · exact Or.inr h
    · exact Or.inl (Or.inr h)
  · rintro ((h | h) | h)
    · exact Or.inl (Or.inl h)
    · exact Or.inr h
    · exact Or.inl (Or.inr h)

theorem collectMutual_succ (g : DepGraph) (k : Ident) (deps : List Ident) (x y : Ident) :
    y ∈ (g.collectMutual k deps).successors x ↔ y ∈ g.successors x ∨ (x ∈ k :: deps ∧ y ∈ k :: deps) := by
  rw [mem_successors, mem_successors]
  show (_ ∨ ∃ scc ∈ g.sccs ++ [k :: deps], _) ↔ _
  constructor
  · rintro (h | ⟨scc, hs, h⟩)
    · exact Or.inl (Or.inl h)
    · rcases List.mem_append.1 hs with hs | hs
      · exact Or.inl (Or.inr ⟨scc, hs, h⟩)
      · rcases List.mem_singleton.1 hs with rfl
        exact Or.inr h
  · rintro ((h | ⟨scc, hs, h⟩) | h)
    · exact Or.inl h
    · exact Or.inr ⟨scc, List.mem_append_left _ hs, h⟩
    · exact Or.inr ⟨_, List.mem_append_right _ (List.mem_singleton.2 rfl), h⟩

theorem dependsOn_cons (inst : AxiomInst) (d : DepDecl) (ds : List DepDecl) (a b : Ident) :
    DependsOn inst (d :: ds) a b ↔ DependsOn inst [d] a b ∨ DependsOn inst ds a b := by
  unfold DependsOn
  simp only [List.mem_cons, List.not_mem_nil, or_false]
  constructor
  · rintro (⟨deps, h | h, hb⟩ | ⟨hi, deps, h | h, hb⟩ | ⟨hi, n, deps, h | h, hb⟩ | ⟨n, deps, h | h, hb⟩)
    · exact Or.inl (Or.inl ⟨deps, h, hb⟩)
    · exact Or.inr (Or.inl ⟨deps, h, hb⟩)
    · exact Or.inl (Or.inr (Or.inl ⟨hi, deps, h, hb⟩))
    · exact Or.inr (Or.inr (Or.inl ⟨hi, deps, h, hb⟩))
    · exact Or.inl (Or.inr (Or.inr (Or.inl ⟨hi, n, deps, h, hb⟩)))
    · exact Or.inr (Or.inr (Or.inr (Or.inl ⟨hi, n, deps, h, hb⟩)))
    · exact Or.inl (Or.inr (Or.inr (Or.inr ⟨n, deps, h, hb⟩)))
    · exact Or.inr (Or.inr (Or.inr (Or.inr ⟨n, deps, h, hb⟩)))
  · rintro ((⟨deps, h, hb⟩ | ⟨hi, deps, h, hb⟩ | ⟨hi, n, deps, h, hb⟩ | ⟨n, deps, h, hb⟩) |
      (⟨deps, h, hb⟩ | ⟨hi, deps, h, hb⟩ | ⟨hi, n, deps, h, hb⟩ | ⟨n, deps, h, hb⟩))
    · exact Or.inl ⟨deps, Or.inl h, hb⟩
    · exact Or.inr (Or.inl ⟨hi, deps, Or.inl h, hb⟩)
    · exact Or.inr (Or.inr (Or.inl ⟨hi, n, deps, Or.inl h, hb⟩))
    · exact Or.inr (Or.inr (Or.inr ⟨n, deps, Or.inl h, hb⟩))
    · exact Or.inl ⟨deps, Or.inr h, hb⟩
    · exact Or.inr (Or.inl ⟨hi, deps, Or.inr h, hb⟩)
    · exact Or.inr (Or.inr (Or.inl ⟨hi, n, deps, Or.inr h, hb⟩))
    · exact Or.inr (Or.inr (Or.inr ⟨n, deps, Or.inr h, hb⟩))

theorem visit_succ {g g' : DepGraph} {d : DepDecl} (h : g.visit d = some g') (x y : Ident) :
    g'.inst = g.inst ∧ (y ∈ g'.successors x ↔ y ∈ g.successors x ∨ DependsOn g.inst [d] x y) := by
  cases d with
  | proc n deps =>
    cases h
    refine ⟨rfl, (collectDirected_succ ..).trans (or_congr_right ?_)⟩
    simp [DependsOn]
  | func n deps =>
    unfold DepGraph.visit at h
    cases hi : g.inst with
    | decreasing =>
      simp only [hi] at h
      cases h
      refine ⟨hi, (collectDirected_succ ..).trans (or_congr_right ?_)⟩
      simp [DependsOn]
    | bidirectional =>
      simp only [hi] at h
      cases h
      refine ⟨hi, (collectMutual_succ ..).trans (or_congr_right ?_)⟩
      simp [DependsOn]
  | axiomDecl n deps =>
    unfold DepGraph.visit at h
    by_cases hd : deps = []
    · simp [hd] at h
    · simp only [hd, if_false] at h
      cases h
      refine ⟨rfl, (collectMutual_succ ..).trans (or_congr_right ?_)⟩
      simp [DependsOn]

theorem visitAll_succ {ds : List DepDecl} {g g' : DepGraph} (h : g.visitAll ds = some g') (x y : Ident) :
    y ∈ g'.successors x ↔ y ∈ g.successors x ∨ DependsOn g.inst ds x y := by
  induction ds generalizing g with
  | nil =>
    cases h
    simp [DependsOn]
  | cons d ds ih =>
    unfold DepGraph.visitAll at h
    cases hv : g.visit d with
    | none => rw [hv] at h; cases h
    | some g1 =>
      rw [hv] at h
      obtain ⟨hi, hs⟩ := visit_succ hv x y
      rw [ih h, hi, hs, dependsOn_cons _ d ds, or_assoc]

theorem reachLoop_spec (g : DepGraph) (wl R : List Ident) (hR : ∀ x ∈ R, ∀ y ∈ g.successors x, y ∈ R ∨ y ∈ wl) (z : Ident) :
    z ∈ g.reachLoop wl R ↔ z ∈ R ∨ ∃ i ∈ wl, ReflTransGen (fun a b => b ∈ g.successors a) i z := by
  induction wl, R using DepGraph.reachLoop.induct g with
  | case1 R =>
    unfold DepGraph.reachLoop
    simp
  | case2 R x wl hx ih =>
    unfold DepGraph.reachLoop
    rw [if_pos hx, ih fun a ha y hy => (hR a ha y hy).elim Or.inl fun h =>
      (List.mem_cons.1 h).elim (fun h => Or.inl (h ▸ hx)) Or.inr]
    constructor
    · rintro (h | ⟨i, hi, h⟩)
      · exact Or.inl h
      · exact Or.inr ⟨i, List.mem_cons_of_mem _ hi, h⟩
    · rintro (h | ⟨i, hi, h⟩)
      · exact Or.inl h
      · rcases List.mem_cons.1 hi with rfl | hi
        · -- a path from an already visited node either stays in the visited nodes or passes the worklist
          clear ih
          have : ∀ a, ReflTransGen (fun a b => b ∈ g.successors a) a z → a ∈ R →
              z ∈ R ∨ ∃ i ∈ wl, ReflTransGen (fun a b => b ∈ g.successors a) i z := by
            intro a hp
            induction hp using ReflTransGen.head_induction_on with
            | refl => exact fun h => Or.inl h
            | head hab hbz ih =>
              intro ha
              rcases hR _ ha _ hab with hb | hb
              · exact ih hb
              · rcases List.mem_cons.1 hb with rfl | hb
                · exact ih hx
                · exact Or.inr ⟨_, hb, hbz⟩
          exact this i h hx
        · exact Or.inr ⟨i, hi, h⟩
  | case3 R x wl hx ih =>
    unfold DepGraph.reachLoop
    rw [if_neg hx, ih]
    · constructor
      · rintro (h | ⟨i, hi, h⟩)
        · rcases List.mem_cons.1 h with rfl | h
          · exact Or.inr ⟨z, List.mem_cons_self, .refl⟩
          · exact Or.inl h
        · rcases List.mem_append.1 hi with hi | hi
          · exact Or.inr ⟨x, List.mem_cons_self, .head (List.mem_filter.1 (List.mem_reverse.1 hi)).1 h⟩
          · exact Or.inr ⟨i, List.mem_cons_of_mem _ hi, h⟩
      · rintro (h | ⟨i, hi, h⟩)
        · exact Or.inl (List.mem_cons_of_mem _ h)
        · rcases List.mem_cons.1 hi with rfl | hi
          · have : ∀ a, ReflTransGen (fun a b => b ∈ g.successors a) a z → a ∈ i :: R →
                z ∈ i :: R ∨ ∃ j ∈ ((g.successors i).filter fun s => s ∉ i :: R).reverse ++ wl,
                  ReflTransGen (fun a b => b ∈ g.successors a) j z := by
              intro a hp
              induction hp using ReflTransGen.head_induction_on with
              | refl => exact fun h => Or.inl h
              | @head a b hab hbz ih =>
                intro ha
                by_cases hb : b ∈ i :: R
                · exact ih hb
                · rcases List.mem_cons.1 ha with rfl | ha
                  · exact Or.inr ⟨b, List.mem_append_left _ (List.mem_reverse.2 (List.mem_filter.2 ⟨hab, decide_eq_true hb⟩)), hbz⟩
                  · rcases hR _ ha _ hab with h | h
                    · exact (hb (List.mem_cons_of_mem _ h)).elim
                    · rcases List.mem_cons.1 h with rfl | h
                      · exact (hb List.mem_cons_self).elim
                      · exact Or.inr ⟨b, List.mem_append_right _ h, hbz⟩
            exact this i h List.mem_cons_self
          · exact Or.inr ⟨i, List.mem_append_right _ hi, h⟩
    · intro a ha y hy
      rcases List.mem_cons.1 ha with rfl | ha
      · by_cases hya : y ∈ a :: R
        · exact Or.inl hya
        · exact Or.inr (List.mem_append_left _ (List.mem_reverse.2 (List.mem_filter.2 ⟨hy, decide_eq_true hya⟩)))
      · rcases hR a ha y hy with h | h
        · exact Or.inl (List.mem_cons_of_mem _ h)
        · rcases List.mem_cons.1 h with rfl | h
          · exact Or.inl List.mem_cons_self
          · exact Or.inr (List.mem_append_right _ h)

/-- The closure of a set of declarations is the set of all declarations reachable through dependencies, and nothing else. -/
theorem C35_closure (inst : AxiomInst) (ds : List DepDecl) (g : DepGraph) (h : (DepGraph.new inst).visitAll ds = some g)
    (roots : List Ident) (x : Ident) :
    x ∈ g.reachable roots ↔ ∃ r ∈ roots, ReflTransGen (DependsOn inst ds) r x := by
  have hd : (fun a b => b ∈ g.successors a) = DependsOn inst ds := by
    funext a b
    have := visitAll_succ h a b
    simp only [DepGraph.new, DepGraph.successors, List.find?_nil, List.filter_nil, List.flatten_nil, List.append_nil,
      List.not_mem_nil, false_or] at this
    exact propext this
  unfold DepGraph.reachable
  rw [reachLoop_spec g _ _ (fun _ h => (by cases h)), hd]
  simp

/-- `is_potentially_recursive` holds exactly if the declaration depends on itself through at least one step. -/
theorem C35_recursive (inst : AxiomInst) (ds : List DepDecl) (g : DepGraph) (h : (DepGraph.new inst).visitAll ds = some g)
    (x : Ident) : g.isPotentiallyRecursive x = true ↔ TransGen (DependsOn inst ds) x x := by
  unfold DepGraph.isPotentiallyRecursive
  rw [decide_eq_true_iff, C35_closure inst ds g h, TransGen.head'_iff]
  have hd : ∀ b, b ∈ g.successors x ↔ DependsOn inst ds x b := by
    intro b
    have := visitAll_succ h x b
    simpa only [DepGraph.new, DepGraph.successors, List.find?_nil, List.filter_nil, List.flatten_nil, List.append_nil,
      List.not_mem_nil, false_or] using this
  exact ⟨fun ⟨r, hr, hp⟩ => ⟨r, (hd r).1 hr, hp⟩, fun ⟨r, hr, hp⟩ => ⟨r, (hd r).2 hr, hp⟩⟩

/-- The graph can be built exactly if each axiom mentions a declaration. -/
theorem C35_total (inst : AxiomInst) (ds : List DepDecl) :
    ((DepGraph.new inst).visitAll ds).isSome = true ↔ ∀ n deps, DepDecl.axiomDecl n deps ∈ ds → deps ≠ [] := by
  have key : ∀ (ds : List DepDecl) (g : DepGraph), (g.visitAll ds).isSome = true ↔ ∀ n deps, DepDecl.axiomDecl n deps ∈ ds → deps ≠ [] := by
    intro ds
    induction ds with
    | nil => exact fun g => ⟨fun _ _ _ h => (by cases h), fun _ => rfl⟩
    | cons d ds ih =>
      intro g
      cases d with
      | proc n deps =>
        refine (ih (g.collectDirected n deps)).trans ⟨fun h a b hm => h a b ?_, fun h a b hm => h a b (List.mem_cons_of_mem _ hm)⟩
        rcases List.mem_cons.1 hm with hm | hm
        · cases hm
        · exact hm
      | func n deps =>
        have : ∃ g', g.visit (.func n deps) = some g' := by
          unfold DepGraph.visit
          cases g.inst <;> exact ⟨_, rfl⟩
        obtain ⟨g', hg⟩ := this
        have hv : g.visitAll (.func n deps :: ds) = g'.visitAll ds := by
          show (g.visit (.func n deps)).bind _ = _
          rw [hg]
          rfl
        rw [hv]
        refine (ih g').trans ⟨fun h a b hm => h a b ?_, fun h a b hm => h a b (List.mem_cons_of_mem _ hm)⟩
        rcases List.mem_cons.1 hm with hm | hm
        · cases hm
        · exact hm
      | axiomDecl n deps =>
        by_cases hd : deps = []
        · have hv : g.visitAll (.axiomDecl n deps :: ds) = none := by
            show (if deps = [] then none else some (g.collectMutual n deps)).bind _ = _
            rw [if_pos hd]
            rfl
          rw [hv]
          exact ⟨fun h => (by cases h), fun h => (h n deps List.mem_cons_self hd).elim⟩
        · have hv : g.visitAll (.axiomDecl n deps :: ds) = (g.collectMutual n deps).visitAll ds := by
            show (if deps = [] then none else some (g.collectMutual n deps)).bind _ = _
            rw [if_neg hd]
            rfl
          rw [hv]
          refine (ih _).trans ⟨fun h a b hm => ?_, fun h a b hm => h a b (List.mem_cons_of_mem _ hm)⟩
          rcases List.mem_cons.1 hm with hm | hm
          · cases hm
            exact hd
          · exact h a b hm
  exact key ds _

/-- Non-vacuity: a procedure using `f`; an axiom about `f` and `g`; a function `h` using `f`. `h` is not kept, `g` is. -/
example : let p : Ident := ⟨"p", 0⟩; let f : Ident := ⟨"f", 0⟩; let g : Ident := ⟨"g", 0⟩; let h : Ident := ⟨"h", 0⟩
    let ax : Ident := ⟨"a", 0⟩
    ∃ gr, (DepGraph.new .decreasing).visitAll [.proc p [f], .func h [f], .axiomDecl ax [f, g]] = some gr ∧
      g ∈ gr.reachable [p] := by
  intro p f g h ax
  refine ⟨_, rfl, ?_⟩
  rw [C35_closure .decreasing [.proc p [f], .func h [f], .axiomDecl ax [f, g]] _ rfl]
  refine ⟨p, List.mem_singleton.2 rfl, .head (b := f) (Or.inl ⟨[f], by simp, by simp⟩)
    (.single (Or.inr (Or.inr (Or.inr ⟨ax, [f, g], by simp, by simp, by simp⟩))))⟩

end Caesar.Infra
