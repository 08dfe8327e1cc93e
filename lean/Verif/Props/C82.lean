import Verif.Driver.DepsLemmas
import Verif.Props.C35

/-!
# C82: the dependencies of a verification unit suffice

Only the functions, definitions and axioms which a unit depends on are given to the SMT solver. The dependencies are computed from the source of
the unit; the formula is made from it by replacing calls of procedures by their specifications, slicing, generating verification conditions, and optimisations.
-/

namespace Caesar.Driver
open Smt Slicing Infra Relation

theorem mem_domainSpecs {items : List SourceUnit} {s : NamedSpec} : s ∈ domainSpecs items ↔ ∃ specs, SourceUnit.domain specs ∈ items ∧ s ∈ specs := by
  unfold domainSpecs
  rw [List.mem_flatMap]
  constructor
  · rintro ⟨u, hu, hs⟩
    cases u with
    | domain specs => exact ⟨specs, hu, hs⟩
    | _ => nomatch hs
  · rintro ⟨specs, hu, hs⟩
    exact ⟨_, hu, hs⟩

theorem mem_declaredFuncs {deps : List Ident} {specs : List NamedSpec} {f : Ident} :
    f ∈ declaredFuncs deps specs ↔ f ∈ deps ∧ ∃ d, NamedSpec.func d ∈ specs ∧ d.func.name = f := by
  unfold declaredFuncs
  rw [List.mem_filterMap]
  constructor
  · rintro ⟨s, hs, h⟩
    cases s with
    | func d =>
      dsimp only at h
      split at h
      next hd => cases h; exact ⟨hd, d, hs, rfl⟩
      next => cases h
    | prop n e => cases h
  · rintro ⟨hf, d, hd, rfl⟩
    exact ⟨.func d, hd, if_pos hf⟩

theorem mem_requires {p : Proc} {e : Expr .eureal} : e ∈ p.requires ↔ .requires e ∈ p.spec := by
  unfold Proc.requires
  rw [List.mem_filterMap]
  constructor
  · rintro ⟨s, hs, h⟩
    cases s <;> cases h
    exact hs
  · exact fun h => ⟨_, h, rfl⟩

theorem mem_ensures {p : Proc} {e : Expr .eureal} : e ∈ p.ensures ↔ .ensures e ∈ p.spec := by
  unfold Proc.ensures
  rw [List.mem_filterMap]
  constructor
  · rintro ⟨s, hs, h⟩
    cases s <;> cases h
    exact hs
  · exact fun h => ⟨_, h, rfl⟩

/-- The statement of a procedure consists of its specification and its body. -/
theorem task_proc {p : Proc} {d : Dir} {T : Stmt} (h : encodeProcVerify p = some (d, T)) : ∃ S, p.body = some S ∧
    (∀ e ∈ exprsOf T, (∃ x, (.requires x ∈ p.spec ∨ .ensures x ∈ p.spec) ∧ e = ⟨_, x⟩) ∨ e ∈ exprsOf S) ∧ ∀ f ∈ calleesOf T, f ∈ calleesOf S := by
  unfold encodeProcVerify at h
  split at h
  next => cases h
  next S hS =>
    cases h
    have block : ∀ l : List Stmt, (∀ e ∈ exprsOf (Stmt.block l), ∃ s ∈ l, e ∈ exprsOf s) ∧ ∀ f ∈ calleesOf (Stmt.block l), ∃ s ∈ l, f ∈ calleesOf s := by
      intro l
      induction l with
      | nil => exact ⟨fun e he => (nomatch he), fun f hf => (nomatch hf)⟩
      | cons s l ih =>
        refine ⟨fun e he => ?_, fun f hf => ?_⟩
        · rcases List.mem_append.1 he with he | he
          · exact ⟨s, List.mem_cons_self, he⟩
          · obtain ⟨s', h1, h2⟩ := ih.1 e he
            exact ⟨s', List.mem_cons_of_mem _ h1, h2⟩
        · rcases List.mem_append.1 hf with he | he
          · exact ⟨s, List.mem_cons_self, he⟩
          · obtain ⟨s', h1, h2⟩ := ih.2 f he
            exact ⟨s', List.mem_cons_of_mem _ h1, h2⟩
    refine ⟨S, hS, fun e he => ?_, fun f hf => ?_⟩
    · obtain ⟨s, hs, he2⟩ := (block _).1 e he
      rcases List.mem_append.1 hs with hs | hs
      · rcases List.mem_append.1 hs with hs | hs
        · obtain ⟨x, hx, rfl⟩ := List.mem_map.1 hs
          exact .inl ⟨x, .inl (mem_requires.1 hx), List.mem_singleton.1 he2⟩
        · obtain rfl := List.mem_singleton.1 hs
          exact .inr he2
      · obtain ⟨x, hx, rfl⟩ := List.mem_map.1 hs
        exact .inl ⟨x, .inr (mem_ensures.1 hx), List.mem_singleton.1 he2⟩
    · obtain ⟨s, hs, he⟩ := (block _).2 f hf
      rcases List.mem_append.1 hs with hs | hs
      · rcases List.mem_append.1 hs with hs | hs
        · obtain ⟨x, hx, rfl⟩ := List.mem_map.1 hs
          nomatch he
        · obtain rfl := List.mem_singleton.1 hs
          exact he
      · obtain ⟨x, hx, rfl⟩ := List.mem_map.1 hs
        nomatch he

theorem mem_procNames {p : Proc} {f : Ident} (h : (SourceUnit.proc p).CallsFn f ∨ ∃ S, p.body = some S ∧ f ∈ calleesOf S) : f ∈ procNames p := by
  rcases h with (⟨e, he | he, hf⟩ | ⟨S, hS, h⟩) | ⟨S, hS, h⟩
  · exact List.mem_append_left _ (List.mem_flatMap.2 ⟨_, he, (C72_calls f e).2 hf⟩)
  · exact List.mem_append_left _ (List.mem_flatMap.2 ⟨_, he, (C72_calls f e).2 hf⟩)
  · refine List.mem_append_right _ ?_
    rw [hS]
    exact mem_stmtNames (.inl h)
  · refine List.mem_append_right _ ?_
    rw [hS]
    exact mem_stmtNames (.inr h)

section
variable {inst : AxiomInst} {items : List SourceUnit} {g : DepGraph}

theorem reachable_self (hg : generateDepgraph inst items = some g) {roots : List Ident} {x : Ident} (hx : x ∈ roots) : x ∈ g.reachable roots :=
  (C35_closure inst _ g hg roots x).2 ⟨x, hx, .refl⟩

theorem reachable_step (hg : generateDepgraph inst items = some g) {roots : List Ident} {x y : Ident} (hx : x ∈ g.reachable roots)
    (h : DependsOn inst (items.flatMap SourceUnit.depDecls) x y) : y ∈ g.reachable roots := by
  obtain ⟨r, hr, hp⟩ := (C35_closure inst _ g hg roots x).1 hx
  exact (C35_closure inst _ g hg roots y).2 ⟨r, hr, hp.tail h⟩

theorem dependsOn_proc {p : Proc} (hp : SourceUnit.proc p ∈ items) {f : Ident} (hf : f ∈ procNames p) :
    DependsOn inst (items.flatMap SourceUnit.depDecls) p.name f :=
  .inl ⟨procNames p, List.mem_flatMap.2 ⟨_, hp, List.mem_singleton_self _⟩, hf⟩

theorem dependsOn_spec {specs : List NamedSpec} (hu : SourceUnit.domain specs ∈ items) {s : NamedSpec} (hs : s ∈ specs) {f : Ident} (hf : s.CallsFn f) :
    DependsOn inst (items.flatMap SourceUnit.depDecls) s.name f := by
  have hm : s.dep ∈ items.flatMap SourceUnit.depDecls := List.mem_flatMap.2 ⟨_, hu, List.mem_map.2 ⟨s, hs, rfl⟩⟩
  cases s with
  | func d =>
    obtain ⟨b, hb, hf⟩ := hf
    have hf := (C72_calls f b).2 hf
    have hd : DepDecl.func d.func.name (callNames b) ∈ items.flatMap SourceUnit.depDecls := by
      have : NamedSpec.dep (.func d) = .func d.func.name (callNames b) := by
        show FuncDecl.dep d = _
        unfold FuncDecl.dep
        rw [hb]
      exact this ▸ hm
    cases inst with
    | decreasing => exact .inr (.inl ⟨rfl, _, hd, hf⟩)
    | bidirectional => exact .inr (.inr (.inl ⟨rfl, _, _, hd, List.mem_cons_self, List.mem_cons_of_mem _ hf⟩))
  | prop n e => exact .inr (.inr (.inr ⟨n, _, hm, List.mem_cons_self, List.mem_cons_of_mem _ ((C72_calls f e).2 hf)⟩))

theorem task_deps (hg : generateDepgraph inst items = some g) {u : SourceUnit} (hu : u ∈ items) {d : Dir} {T : Stmt} (ht : u.task = some (d, T)) :
    (∀ e ∈ exprsOf T, CallsIn (fun f => f ∈ u.deps g ∧ u.CallsFn f) e.2) ∧ ∀ f ∈ calleesOf T, f ∈ u.deps g := by
  cases u with
  | proc p =>
    obtain ⟨S, hS, h1, h2⟩ := task_proc ht
    have hstep : ∀ f, (SourceUnit.proc p).CallsFn f ∨ (∃ S, p.body = some S ∧ f ∈ calleesOf S) → f ∈ g.reachable [p.name] := fun f hf =>
      reachable_step hg (reachable_self hg (List.mem_singleton_self _)) (dependsOn_proc hu (mem_procNames hf))
    refine ⟨fun e he f hf => ?_, fun f hf => hstep f (.inr ⟨S, hS, h2 f hf⟩)⟩
    have hc : (SourceUnit.proc p).CallsFn f := by
      rcases h1 e he with ⟨x, hx, rfl⟩ | he
      · exact .inl ⟨x, hx, hf⟩
      · exact .inr ⟨S, hS, e, he, hf⟩
    exact ⟨hstep f (.inl hc), hc⟩
  | domain specs => cases ht
  | raw S =>
    cases ht
    exact ⟨fun e he f hf => ⟨reachable_self hg (mem_stmtNames (.inl ⟨e, he, hf⟩)), e, he, hf⟩, fun f hf => reachable_self hg (mem_stmtNames (.inr hf))⟩

/-- All functions called in the formula of a unit are among its dependencies. -/
theorem C82_formula (hg : generateDepgraph inst items = some g) (c : UnitCtx) (hc : ProcsOf c.procs items) (u : SourceUnit) (hu : u ∈ items) (d : Dir) (T : Stmt)
    (ht : u.task = some (d, T)) (opts : UnitOptions) (n : Nat) (b : Expr .bool) (st : St) (h : c.formula opts n d T = some (b, st)) (f : Ident) (hf : CallIn f b) :
    f ∈ u.deps g := by
  obtain ⟨h1, h2⟩ := task_deps hg hu ht
  refine formula_calls (N := fun f => f ∈ u.deps g) (M := fun f => f ∈ u.deps g) ?_ (fun e he f hf => (h1 e he f hf).1) h2 h f hf
  intro q p hq hm e he f hf
  obtain ⟨rfl, hp⟩ := hc q p hq
  have hcf : (SourceUnit.proc p).CallsFn f := .inl ⟨e, he.imp mem_requires.1 mem_ensures.1, hf⟩
  cases u with
  | proc p' => exact reachable_step hg hm (dependsOn_proc hp (mem_procNames (.inl hcf)))
  | domain specs => cases ht
  | raw S => exact reachable_step hg hm (dependsOn_proc hp (mem_procNames (.inl hcf)))

/-- The dependencies are closed: with a function or axiom, the functions called in its definition resp. the axiom are dependencies. -/
theorem C82_closed (hg : generateDepgraph inst items = some g) (u : SourceUnit) (specs : List NamedSpec) (hs : SourceUnit.domain specs ∈ items) (s : NamedSpec) (hm : s ∈ specs)
    (hd : s.name ∈ u.deps g) (f : Ident) (hf : s.CallsFn f) : f ∈ u.deps g := by
  cases u with
  | proc p => exact reachable_step hg hd (dependsOn_spec hs hm hf)
  | domain specs => nomatch hd
  | raw S => exact reachable_step hg hd (dependsOn_spec hs hm hf)

/-- An axiom is given to the solver whenever it mentions a function which is: no axiom about the functions of the formula is left out. -/
theorem C82_axioms (hg : generateDepgraph inst items = some g) (u : SourceUnit) (specs : List NamedSpec) (hs : SourceUnit.domain specs ∈ items) (n : Ident) (e : Expr .bool)
    (hm : .prop n e ∈ specs) (f : Ident) (hf : CallIn f e) (hd : f ∈ u.deps g) : .prop n e ∈ translatedSpecs (u.deps g) (domainSpecs items) := by
  have hdep : DependsOn inst (items.flatMap SourceUnit.depDecls) f n :=
    .inr (.inr (.inr ⟨n, callNames e, List.mem_flatMap.2 ⟨_, hs, List.mem_map.2 ⟨_, hm, rfl⟩⟩, List.mem_cons_of_mem _ ((C72_calls f e).2 hf), List.mem_cons_self⟩))
  refine List.mem_filter.2 ⟨mem_domainSpecs.2 ⟨specs, hs, hm⟩, decide_eq_true ?_⟩
  cases u with
  | proc p => exact reachable_step hg hd hdep
  | domain specs => nomatch hd
  | raw S => exact reachable_step hg hd hdep

/-- The translation of a unit never meets a function which is not declared: for all programs, units, options, and directions of axiom instantiation. -/
theorem C82_all_declared (hr : Resolved items) (hg : generateDepgraph inst items = some g) (c : UnitCtx) (hc : ProcsOf c.procs items) (u : SourceUnit) (hu : u ∈ items) (d : Dir) (T : Stmt)
    (ht : u.task = some (d, T)) (opts : UnitOptions) (n : Nat) (b : Expr .bool) (st : St) (h : c.formula opts n d T = some (b, st)) : AllDeclared items (u.deps g) b := by
  have func : ∀ f, IsFunc items f → f ∈ u.deps g → f ∈ declaredFuncs (u.deps g) (domainSpecs items) := by
    rintro f ⟨specs, d, h1, h2, rfl⟩ hf
    exact mem_declaredFuncs.2 ⟨hf, d, mem_domainSpecs.2 ⟨specs, h1, h2⟩, rfl⟩
  rintro f (hf | ⟨s, hs, hf⟩)
  · refine func f ?_ (C82_formula hg c hc u hu d T ht opts n b st h f hf)
    obtain ⟨h1, -⟩ := task_deps hg hu ht
    refine formula_calls (N := IsFunc items) (M := fun _ => True) ?_ (fun e he f hf => hr.units u hu f (h1 e he f hf).2) (fun _ _ => trivial) h f hf
    intro q p hq _ e he f hf
    exact hr.units _ (hc q p hq).2 f (.inl ⟨e, he.imp mem_requires.1 mem_ensures.1, hf⟩)
  · obtain ⟨h1, h2⟩ := List.mem_filter.1 hs
    obtain ⟨specs, h3, h4⟩ := mem_domainSpecs.1 h1
    exact func f (hr.specs specs h3 s h4 f hf) (C82_closed hg u specs h3 s h4 (of_decide_eq_true h2) f hf)

end

/-! ## Example -/

/-- A function `h(): EUReal`. -/
def c82H : Func .eureal := ⟨⟨"h", 0⟩, []⟩

/-- The call `h()`. -/
def c82E : Expr .eureal := .call c82H fun i => i.elim0

/-- A procedure with the precondition `h()`, without body. -/
def c82G : Proc := ⟨⟨"g", 0⟩, .down, [], [], [.requires c82E], none⟩

/-- A procedure which calls it. -/
def c82F : Proc := ⟨⟨"f", 0⟩, .down, [], [], [], some (.call false [] ⟨"g", 0⟩ [])⟩

/-- `domain D { func h(): EUReal; axiom a h() == h() }` and the two procedures. -/
def c82P : List SourceUnit := [.domain [.func ⟨.eureal, c82H, fun i => i.elim0, none⟩, .prop ⟨"a", 0⟩ (.rel .eq c82E c82E)], .proc c82G, .proc c82F]

/-- The symbol table has the procedures. -/
def c82C : UnitCtx :=
  ⟨fun f => if f = ⟨"f", 0⟩ then some c82F else if f = ⟨"g", 0⟩ then some c82G else none, TyCtx.new, [], fun _ _ => false, 0, 0, 0, 0⟩

theorem c82_call {f : Ident} (h : CallIn f c82E) : f = ⟨"h", 0⟩ := by
  cases h with
  | here _ _ h => exact h.symm
  | arg _ _ i => exact i.elim0

theorem c82_procs : ProcsOf c82C.procs c82P := by
  intro f p h
  simp only [c82C] at h
  split at h
  next hf => cases h; exact ⟨hf.symm, by simp [c82P]⟩
  next =>
    split at h
    next hf => cases h; exact ⟨hf.symm, by simp [c82P]⟩
    next => cases h

theorem c82_resolved : Resolved c82P := by
  have hh : IsFunc c82P ⟨"h", 0⟩ := ⟨_, _, List.mem_cons_self, List.mem_cons_self, rfl⟩
  constructor
  · intro u hu f hf
    simp only [c82P, List.mem_cons, List.not_mem_nil, or_false] at hu
    rcases hu with rfl | rfl | rfl
    · exact hf.elim
    · rcases hf with ⟨e, he, hf⟩ | ⟨S, hS, -⟩
      · rcases he with he | he
        · obtain rfl : e = c82E := by simpa [c82G] using he
          exact c82_call hf ▸ hh
        · simp [c82G] at he
      · cases hS
    · rcases hf with ⟨e, he, hf⟩ | ⟨S, hS, e, he, hf⟩
      · simp [c82F] at he
      · cases hS
        nomatch he
  · intro specs hs s hm f hf
    obtain rfl : specs = _ := by simpa [c82P] using hs
    simp only [List.mem_cons, List.not_mem_nil, or_false] at hm
    rcases hm with rfl | rfl
    · obtain ⟨b, hb, -⟩ := hf
      cases hb
    · cases hf with
      | relL _ _ _ h => exact c82_call h ▸ hh
      | relR _ _ _ h => exact c82_call h ▸ hh

/-- Non-vacuity: the formula of the unit `f` contains the function `h`, which `f` only depends on through the procedure `g`. It is declared, and the axiom about it
is translated. -/
example : ∃ g b st, generateDepgraph .decreasing c82P = some g ∧
    c82C.formula { lower := ⟨true, true, true, false⟩, noSliceError := true } 0 .down (.block [.call false [] ⟨"g", 0⟩ []]) = some (b, st) ∧
    CallIn ⟨"h", 0⟩ b ∧ AllDeclared c82P ((SourceUnit.proc c82F).deps g) b ∧
    .prop ⟨"a", 0⟩ (.rel .eq c82E c82E) ∈ translatedSpecs ((SourceUnit.proc c82F).deps g) (domainSpecs c82P) := by
  have hg : ∃ g, generateDepgraph .decreasing c82P = some g := ⟨_, rfl⟩
  obtain ⟨g, hg⟩ := hg
  have hb : ∃ b st, c82C.formula { lower := ⟨true, true, true, false⟩, noSliceError := true } 0 .down (.block [.call false [] ⟨"g", 0⟩ []]) = some (b, st) ∧
      CallIn ⟨"h", 0⟩ b := ⟨_, _, by with_unfolding_all rfl, .relR _ _ _ (.binL _ _ _ (.here _ _ rfl))⟩
  obtain ⟨b, st, hb, hf⟩ := hb
  have hu : SourceUnit.proc c82F ∈ c82P := by simp [c82P]
  have hh := C82_formula hg c82C c82_procs (.proc c82F) hu .down _ rfl _ 0 b st hb _ hf
  refine ⟨g, b, st, hg, hb, hf, C82_all_declared c82_resolved hg c82C c82_procs (.proc c82F) hu .down _ rfl _ 0 b st hb, ?_⟩
  exact C82_axioms hg (.proc c82F) _ List.mem_cons_self ⟨"a", 0⟩ _ (by simp) ⟨"h", 0⟩ (.relL _ _ _ (.here _ _ rfl)) hh

end Caesar.Driver
