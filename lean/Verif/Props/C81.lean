import Verif.Driver.Filter
import Verif.Props.C34
import Verif.Props.C58
import Verif.Props.C82

/-!
# C81: verifying selected procedures

`--filter` selects the verification units by name. The user expects that a selected procedure is treated as in a run without filter. The
filter removes the other procedures before the search for recursion and before the dependency graph is built.
-/

open scoped ENNReal NNReal

namespace Caesar.Driver
open Smt Slicing Infra Relation

/-! ## What is selected -/

/-- A valid pattern keeps the declarations of domains and the units whose name it matches, in their order. -/
theorem C81_selects (compile : String → Option (String → Bool)) (pattern : String) (items : List Item) :
    (compile pattern = none → filterItems compile pattern items = .error .user) ∧
    ∀ re, compile pattern = some re → ∃ kept, filterItems compile pattern items = .ok kept ∧ kept.Sublist items ∧
      ∀ i ∈ items, i ∈ kept ↔ (∃ specs, i.unit = .domain specs) ∨ re (match i.name.declName with
        | some d => i.name.shortPath ++ "::" ++ d
        | none => i.name.shortPath) = true := by
  refine ⟨fun h => by rw [filterItems, h], fun re h => ⟨retainItems re items, by rw [filterItems, h], List.filter_sublist, fun i hi => ?_⟩⟩
  unfold retainItems
  rw [List.mem_filter, and_iff_right hi]
  obtain ⟨⟨sp, dn⟩, u⟩ := i
  cases u <;> cases dn <;> simp [SourceUnit.isTarget, UnitName.display]

theorem mem_units_retain {re : String → Bool} {items : List Item} {u : SourceUnit} :
    u ∈ units (retainItems re items) ↔ ∃ i ∈ items, i.unit = u ∧ (u.isTarget = true → re i.name.display = true) := by
  unfold units retainItems
  rw [List.mem_map]
  constructor
  · rintro ⟨i, hi, rfl⟩
    obtain ⟨h1, h2⟩ := List.mem_filter.1 hi
    refine ⟨i, h1, rfl, fun h => ?_⟩
    simpa [h] using h2
  · rintro ⟨i, hi, rfl, h⟩
    refine ⟨i, List.mem_filter.2 ⟨hi, ?_⟩, rfl⟩
    cases ht : i.unit.isTarget with
    | false => rfl
    | true => simpa [ht] using h ht

theorem units_retain_subset {re : String → Bool} {items : List Item} {u : SourceUnit} (h : u ∈ units (retainItems re items)) : u ∈ units items := by
  obtain ⟨i, hi, rfl, -⟩ := mem_units_retain.1 h
  exact List.mem_map.2 ⟨i, hi, rfl⟩

theorem mem_procsOf {us : List SourceUnit} {p : Proc} : p ∈ procsOf us ↔ .proc p ∈ us := by
  unfold procsOf
  rw [List.mem_filterMap]
  constructor
  · rintro ⟨u, hu, h⟩
    cases u <;> cases h
    exact hu
  · exact fun h => ⟨_, h, rfl⟩

theorem unitBodies_eq (us : List SourceUnit) : unitBodies us = bodies (procsOf us) := rfl

/-! ## The check of calculi -/

theorem forM_ok {α ε : Type} (f : α → Except ε Unit) (l : List α) : l.forM f = .ok () ↔ ∀ a ∈ l, f a = .ok () := by
  induction l with
  | nil => exact ⟨fun _ a h => absurd h List.not_mem_nil, fun _ => rfl⟩
  | cons a l ih =>
    have hs : (a :: l).forM f = (f a).bind fun _ => l.forM f := rfl
    rw [hs, List.forall_mem_cons]
    cases h : f a with
    | error e => exact ⟨(fun h => nomatch h), (fun h => nomatch h.1)⟩
    | ok u => exact ih.trans ⟨fun h => ⟨rfl, h⟩, fun h => h.2⟩

/-- Specification: the procedure respects its calculus in the program `us`: if it can call itself through procedures of the program, induction is sound, and
the procedures it calls do not have other calculi. -/
def RespectsCalculus (cal : Ident → Option CalculusType) (us : List SourceUnit) (p : Proc) : Prop :=
  ∀ c, cal p.name = some c → (TransGen (fun f g => ∃ q B, SourceUnit.proc q ∈ us ∧ q.name = f ∧ q.body = some B ∧ ContainsCall g B) p.name p.name → InductionSound c p.dir) ∧
    ∀ B, p.body = some B → ∀ g c', ContainsCall g B → cal g = some c' → c' = c

theorem calls_unitBodies (us : List SourceUnit) : Calls (unitBodies us) =
    fun f g => ∃ q B, SourceUnit.proc q ∈ us ∧ q.name = f ∧ q.body = some B ∧ ContainsCall g B := by
  funext f g
  refine propext ⟨?_, ?_⟩
  · rintro ⟨B, hB, hg⟩
    obtain ⟨q, hq, h1, h2⟩ := mem_bodies.1 (unitBodies_eq us ▸ hB)
    exact ⟨q, B, mem_procsOf.1 hq, h1, h2, hg⟩
  · rintro ⟨q, B, hq, h1, h2, hg⟩
    exact ⟨B, unitBodies_eq us ▸ mem_bodies.2 ⟨q, mem_procsOf.2 hq, h1, h2⟩, hg⟩

/-- The check accepts a list of units exactly if all procedures in it respect their calculi in it. -/
theorem C81_check (cal : Ident → Option CalculusType) (us : List SourceUnit) (sccs : List (List Ident)) (hs : IsSccs (callGraph (unitBodies us)) sccs) :
    checkCalculus cal sccs us = .ok () ↔ ∀ p, .proc p ∈ us → RespectsCalculus cal us p := by
  unfold checkCalculus
  rw [forM_ok]
  have key : ∀ p, checkUnit cal (findRecursive (callGraph (unitBodies us)) sccs) (.proc p) = .ok () ↔ RespectsCalculus cal us p := by
    intro p
    have hr := C34_recursive_iff (unitBodies us) sccs hs p.name
    rw [calls_unitBodies] at hr
    have hany : ((findRecursive (callGraph (unitBodies us)) sccs).any fun b => b.recursive = p.name) = true ↔
        ∃ b ∈ findRecursive (callGraph (unitBodies us)) sccs, b.recursive = p.name := by simp
    show checkProc (cal p.name) p.dir _ _ = .ok () ↔ _
    unfold RespectsCalculus
    cases hc : cal p.name with
    | none =>
      refine ⟨(fun _ c h => nomatch h), fun _ => ?_⟩
      show List.forM _ (checkCall none) = .ok ()
      rw [forM_ok]
      exact fun a _ => rfl
    | some c =>
      rw [C33_recursion, hany, hr]
      refine ⟨?_, fun h => ⟨(h c rfl).1, ?_⟩⟩
      · rintro ⟨h1, h2⟩ _ ⟨⟩
        refine ⟨h1, fun B hB g c' hg hc' => h2 c' ?_⟩
        rw [hB]
        exact List.mem_map.2 ⟨g, (mem_callees g B).2 hg, hc'⟩
      · intro c' hc'
        cases hB : p.body with
        | none => rw [hB] at hc'; exact absurd hc' List.not_mem_nil
        | some B =>
          rw [hB] at hc'
          obtain ⟨g, hg, hc'⟩ := List.mem_map.1 hc'
          exact (h c rfl).2 B hB g c' ((mem_callees g B).1 hg) hc'
  constructor
  · exact fun h p hp => (key p).1 (h _ hp)
  · intro h u hu
    cases u with
    | proc p => exact (key p).2 (h p hu)
    | domain _ => rfl
    | raw _ => rfl

/-- A filter causes no new errors: what is accepted without filter is accepted with each filter. -/
theorem C81_accepts (cal : Ident → Option CalculusType) (items : List Item) (re : String → Bool) (sccs sccs' : List (List Ident))
    (hs : IsSccs (callGraph (unitBodies (units items))) sccs) (hs' : IsSccs (callGraph (unitBodies (units (retainItems re items)))) sccs')
    (h : checkCalculus cal sccs (units items) = .ok ()) : checkCalculus cal sccs' (units (retainItems re items)) = .ok () := by
  rw [C81_check _ _ _ hs] at h
  rw [C81_check _ _ _ hs']
  intro p hp c hc
  obtain ⟨h1, h2⟩ := h p (units_retain_subset hp) c hc
  refine ⟨fun hr => h1 (TransGen.mono ?_ _ _ hr), h2⟩
  rintro f g ⟨q, B, hq, h⟩
  exact ⟨q, B, units_retain_subset hq, h⟩

/-- Specification: one procedure calls the other one in its body. -/
def CallsProc (us : List SourceUnit) (f g : Ident) : Prop := ∃ q B, SourceUnit.proc q ∈ us ∧ q.name = f ∧ q.body = some B ∧ ContainsCall g B

/-- The full claim about errors: a selected procedure for which a run without filter reports an error is reported with the filter, too. -/
def C81_errors_full : Prop :=
  ∀ (cal : Ident → Option CalculusType) (items : List Item) (re : String → Bool) (sccs : List (List Ident)),
    IsSccs (callGraph (unitBodies (units (retainItems re items)))) sccs → checkCalculus cal sccs (units (retainItems re items)) = .ok () →
    ∀ p, .proc p ∈ units (retainItems re items) → RespectsCalculus cal (units items) p

/-- The claim holds for procedures such that the filter keeps the procedures on all cycles of calls through them. Missing: other filters, see
`C81_not_errors`. -/
theorem C81_errors_partial (cal : Ident → Option CalculusType) (items : List Item) (re : String → Bool) (sccs : List (List Ident))
    (hs : IsSccs (callGraph (unitBodies (units (retainItems re items)))) sccs) (h : checkCalculus cal sccs (units (retainItems re items)) = .ok ())
    (p : Proc) (hp : .proc p ∈ units (retainItems re items))
    (hk : ∀ q, .proc q ∈ units items → ReflTransGen (CallsProc (units items)) p.name q.name → ReflTransGen (CallsProc (units items)) q.name p.name →
      .proc q ∈ units (retainItems re items)) : RespectsCalculus cal (units items) p := by
  intro c hc
  obtain ⟨h1, h2⟩ := (C81_check _ _ _ hs).1 h p hp c hc
  refine ⟨fun hr => h1 ?_, h2⟩
  have main : ∀ x, TransGen (CallsProc (units items)) p.name x → ReflTransGen (CallsProc (units items)) x p.name →
      TransGen (CallsProc (units (retainItems re items))) p.name x := by
    intro x hx
    induction hx with
    | single h =>
      intro hback
      obtain ⟨q, B, hq, hn, hB⟩ := h
      exact .single ⟨q, B, hk q hq (by rw [hn]) (by rw [hn]), hn, hB⟩
    | tail h1 h ih =>
      intro hback
      have hc := ReflTransGen.head h hback
      obtain ⟨q, B, hq, hn, hB⟩ := h
      exact (ih hc).tail ⟨q, B, hk q hq (by rw [hn]; exact h1.to_reflTransGen) (by rw [hn]; exact hc), hn, hB⟩
  exact main _ hr .refl

/-! ## The dependencies -/

theorem mem_depDecls_retain {re : String → Bool} {items : List Item} {d : DepDecl} (h : d ∈ (units (retainItems re items)).flatMap SourceUnit.depDecls) :
    d ∈ (units items).flatMap SourceUnit.depDecls := by
  obtain ⟨u, hu, hd⟩ := List.mem_flatMap.1 h
  exact List.mem_flatMap.2 ⟨u, units_retain_subset hu, hd⟩

theorem dependsOn_mono {inst : AxiomInst} {ds ds' : List DepDecl} (h : ∀ d ∈ ds, d ∈ ds') {a b : Ident} (hd : DependsOn inst ds a b) : DependsOn inst ds' a b := by
  rcases hd with ⟨x, h1, h2⟩ | ⟨h0, x, h1, h2⟩ | ⟨h0, n, x, h1, h2⟩ | ⟨n, x, h1, h2⟩
  · exact .inl ⟨x, h _ h1, h2⟩
  · exact .inr (.inl ⟨h0, x, h _ h1, h2⟩)
  · exact .inr (.inr (.inl ⟨h0, n, x, h _ h1, h2⟩))
  · exact .inr (.inr (.inr ⟨n, x, h _ h1, h2⟩))

theorem domain_retained {re : String → Bool} {items : List Item} {specs : List NamedSpec} (h : .domain specs ∈ units items) :
    .domain specs ∈ units (retainItems re items) := by
  obtain ⟨i, hi, h⟩ := List.mem_map.1 h
  exact mem_units_retain.2 ⟨i, hi, h, fun h => nomatch h⟩

theorem dep_domain {us : List SourceUnit} {d : DepDecl} (h : d ∈ us.flatMap SourceUnit.depDecls) :
    (∃ p, .proc p ∈ us ∧ d = .proc p.name (procNames p)) ∨ ∃ specs s, .domain specs ∈ us ∧ s ∈ specs ∧ d = NamedSpec.dep s := by
  obtain ⟨u, hu, hd⟩ := List.mem_flatMap.1 h
  cases u with
  | proc p => exact .inl ⟨p, hu, List.mem_singleton.1 hd⟩
  | domain specs =>
    obtain ⟨s, hs, rfl⟩ := List.mem_map.1 hd
    exact .inr ⟨specs, s, hu, hs, rfl⟩
  | raw S => exact absurd hd List.not_mem_nil

/-- With a filter, a unit has at most the dependencies it has without; there is a dependency graph with the filter iff there is one without. If the filter keeps all procedures
among the dependencies of the unit, the dependencies are the same. -/
theorem C81_deps (inst : AxiomInst) (items : List Item) (re : String → Bool) (g : DepGraph) (hg : generateDepgraph inst (units items) = some g) :
    ∃ g', generateDepgraph inst (units (retainItems re items)) = some g' ∧ ∀ u : SourceUnit, (∀ f ∈ u.deps g', f ∈ u.deps g) ∧
      ((∀ p, .proc p ∈ units items → p.name ∈ u.deps g → .proc p ∈ units (retainItems re items)) → ∀ f ∈ u.deps g, f ∈ u.deps g') := by
  have htot := (C35_total inst ((units items).flatMap SourceUnit.depDecls)).1 (by rw [← generateDepgraph, hg]; rfl)
  have htot' : (generateDepgraph inst (units (retainItems re items))).isSome = true :=
    (C35_total inst _).2 fun n deps h => htot n deps (mem_depDecls_retain h)
  obtain ⟨g', hg'⟩ := Option.isSome_iff_exists.1 htot'
  have main : ∀ roots : List Ident, (∀ f ∈ g'.reachable roots, f ∈ g.reachable roots) ∧
      ((∀ p, .proc p ∈ units items → p.name ∈ g.reachable roots → .proc p ∈ units (retainItems re items)) → ∀ f ∈ g.reachable roots, f ∈ g'.reachable roots) := by
    intro roots
    refine ⟨fun f hf => ?_, fun hk f hf => ?_⟩
    · obtain ⟨r, hr, h⟩ := (C35_closure inst _ g' hg' roots f).1 hf
      exact (C35_closure inst _ g hg roots f).2 ⟨r, hr, ReflTransGen.mono (fun a b h => dependsOn_mono (fun d => mem_depDecls_retain) h) _ _ h⟩
    · obtain ⟨r, hr, h⟩ := (C35_closure inst _ g hg roots f).1 hf
      refine (C35_closure inst _ g' hg' roots f).2 ⟨r, hr, ?_⟩
      clear hf
      induction h with
      | refl => exact .refl
      | @tail a b h1 h2 ih =>
        have ha := (C35_closure inst _ g hg roots a).2 ⟨r, hr, h1⟩
        have hdom : ∀ d ∈ (units items).flatMap SourceUnit.depDecls, (∀ n deps, d = .proc n deps → n = a) → d ∈ (units (retainItems re items)).flatMap SourceUnit.depDecls := by
          intro d hd hn
          rcases dep_domain hd with ⟨p, hp, rfl⟩ | ⟨specs, s, h1, h2, rfl⟩
          · have := hn _ _ rfl
            exact List.mem_flatMap.2 ⟨_, hk p hp (this ▸ ha), List.mem_singleton_self _⟩
          · exact List.mem_flatMap.2 ⟨_, domain_retained h1, List.mem_map.2 ⟨s, h2, rfl⟩⟩
        refine ih.tail ?_
        rcases h2 with ⟨x, h1, h2⟩ | ⟨h0, x, h1, h2⟩ | ⟨h0, n, x, h1, h2⟩ | ⟨n, x, h1, h2⟩
        · exact .inl ⟨x, hdom _ h1 (fun _ _ h => (DepDecl.proc.inj h).1.symm), h2⟩
        · exact .inr (.inl ⟨h0, x, hdom _ h1 (fun _ _ h => nomatch h), h2⟩)
        · exact .inr (.inr (.inl ⟨h0, n, x, hdom _ h1 (fun _ _ h => nomatch h), h2⟩))
        · exact .inr (.inr (.inr ⟨n, x, hdom _ h1 (fun _ _ h => nomatch h), h2⟩))
  refine ⟨g', hg', fun u => ?_⟩
  cases u with
  | proc p => exact main _
  | domain specs => exact ⟨fun f hf => absurd hf List.not_mem_nil, fun _ f hf => absurd hf List.not_mem_nil⟩
  | raw S => exact main _

/-- The full claim about the translation: with a filter, too, all functions are declared (C82). -/
def C81_declared_full : Prop :=
  ∀ (inst : AxiomInst) (items : List Item) (re : String → Bool) (g : DepGraph), Resolved (units items) →
    generateDepgraph inst (units (retainItems re items)) = some g → ∀ (c : UnitCtx), ProcsOf c.procs (units items) →
    ∀ u ∈ units (retainItems re items), ∀ d T, u.task = some (d, T) → ∀ opts n b st, c.formula opts n d T = some (b, st) → AllDeclared (units items) (u.deps g) b

/-- The claim holds for units such that the filter keeps all procedures they depend on. Missing: other filters, see `C81_not_declared`. -/
theorem C81_declared_partial (inst : AxiomInst) (items : List Item) (re : String → Bool) (g g' : DepGraph) (hr : Resolved (units items))
    (hg : generateDepgraph inst (units items) = some g) (hg' : generateDepgraph inst (units (retainItems re items)) = some g') (c : UnitCtx)
    (hc : ProcsOf c.procs (units items)) (u : SourceUnit) (hu : u ∈ units (retainItems re items))
    (hk : ∀ p, .proc p ∈ units items → p.name ∈ u.deps g → .proc p ∈ units (retainItems re items)) (d : Dir) (T : Stmt) (ht : u.task = some (d, T))
    (opts : UnitOptions) (n : Nat) (b : Expr .bool) (st : St) (h : c.formula opts n d T = some (b, st)) : AllDeclared (units items) (u.deps g') b := by
  obtain ⟨g'', hg'', hd⟩ := C81_deps inst items re g hg
  obtain rfl : g'' = g' := Option.some.inj (hg''.symm.trans hg')
  have hiff : ∀ f, f ∈ u.deps g'' ↔ f ∈ u.deps g := fun f => ⟨(hd u).1 f, (hd u).2 hk f⟩
  have hall := C82_all_declared hr hg c hc u (units_retain_subset hu) d T ht opts n b st h
  intro f hf
  have hf' : CallIn f b ∨ ∃ s ∈ translatedSpecs (u.deps g) (domainSpecs (units items)), s.CallsFn f := by
    refine hf.imp id fun ⟨s, hs, h⟩ => ⟨s, ?_, h⟩
    obtain ⟨h1, h2⟩ := List.mem_filter.1 hs
    exact List.mem_filter.2 ⟨h1, decide_eq_true ((hiff _).1 (of_decide_eq_true h2))⟩
  have := mem_declaredFuncs.1 (hall f hf')
  exact mem_declaredFuncs.2 ⟨(hiff f).2 this.1, this.2⟩

/-! ## What a run with a filter proves -/

/-- The full claim about verdicts: if each procedure is verified in some run with a filter which reports no errors, the annotated procedures satisfy their specifications. The last
hypothesis excludes the unsoundness of C58. -/
def C81_sound_full : Prop :=
  ∀ (_ : Doms) (_ : Interp) (items : List Item) (d : Dir) (cal : Ident → Option CalculusType) (ext : ProcSem) (procs' : ProcTable),
    ProgramOk (procsOf (units items)) d cal ext → LoopsEncoded d (table (procsOf (units items))) procs' →
    (∀ p ∈ procsOf (units items), ∀ B, p.body = some B → (procSoundness d (cal p.name) B).soundProofs = true) →
    (∀ f p', procs' f = some p' → VcVerified procs' p') →
    (∀ p ∈ procsOf (units items), ∃ re sccs, .proc p ∈ units (retainItems re items) ∧ IsSccs (callGraph (unitBodies (units (retainItems re items)))) sccs ∧
      checkCalculus cal sccs (units (retainItems re items)) = .ok ()) →
    ∀ p ∈ procsOf (units items), ∀ c, cal p.name = some c →
      (∀ q ∈ procsOf (units items), q.body ≠ none → ReflTransGen (Calls (bodies (procsOf (units items)))) p.name q.name → cal q.name ≠ none) →
      p.Meets (progSem c (table (procsOf (units items))) ext p.name)

/-- The claim holds if the filter of each run keeps the procedures on all cycles of calls through the selected one. Missing: other filters, see
`C81_not_sound`. -/
theorem C81_sound_partial [Doms] [Interp] (items : List Item) (d : Dir) (cal : Ident → Option CalculusType) (ext : ProcSem) (procs' : ProcTable)
    (ho : ProgramOk (procsOf (units items)) d cal ext) (he : LoopsEncoded d (table (procsOf (units items))) procs')
    (hs : ∀ p ∈ procsOf (units items), ∀ B, p.body = some B → (procSoundness d (cal p.name) B).soundProofs = true)
    (hv : ∀ f p', procs' f = some p' → VcVerified procs' p')
    (hr : ∀ p ∈ procsOf (units items), ∃ re sccs, .proc p ∈ units (retainItems re items) ∧ IsSccs (callGraph (unitBodies (units (retainItems re items)))) sccs ∧
      checkCalculus cal sccs (units (retainItems re items)) = .ok () ∧
      ∀ q, .proc q ∈ units items → ReflTransGen (CallsProc (units items)) p.name q.name → ReflTransGen (CallsProc (units items)) q.name p.name →
        .proc q ∈ units (retainItems re items))
    (p : Proc) (hp : p ∈ procsOf (units items)) (c : CalculusType) (hc : cal p.name = some c)
    (hann : ∀ q ∈ procsOf (units items), q.body ≠ none → ReflTransGen (Calls (bodies (procsOf (units items)))) p.name q.name → cal q.name ≠ none) :
    p.Meets (progSem c (table (procsOf (units items))) ext p.name) := by
  obtain ⟨sccs, hscc⟩ := C34_contract (callGraph (bodies (procsOf (units items))))
  refine C58_partial _ d cal ext sccs procs' ho ⟨hscc, fun q hq B hB => ?_, he, hs⟩ hv p hp c hc hann
  obtain ⟨re, sccs', h1, h2, h3, h4⟩ := hr q hq
  have h := C81_errors_partial cal items re sccs' h2 h3 q h1 h4
  cases hcal : cal q.name with
  | none =>
    show List.forM _ (checkCall none) = .ok ()
    rw [forM_ok]
    exact fun _ _ => rfl
  | some c' =>
    obtain ⟨ha, hb⟩ := h c' hcal
    rw [C33_recursion]
    refine ⟨fun hrec => ha ?_, fun c'' hc'' => ?_⟩
    · have := (C34_recursive_iff _ sccs hscc q.name).1 (of_decide_eq_true hrec)
      rwa [← unitBodies_eq, calls_unitBodies] at this
    · obtain ⟨g, hg, hg'⟩ := List.mem_map.1 hc''
      exact hb B hB g c'' ((mem_callees g B).1 hg) hg'

/-! ## The refutations -/

/-- `@wp proc f() -> () pre 1 post 1 { g() }`. -/
def c81F : Proc := ⟨⟨"f", 0⟩, .down, [], [], [.requires lit1, .ensures lit1], some (.call false [] ⟨"g", 0⟩ [])⟩

/-- `@wp proc g() -> () pre 1 post 1 { f() }`. -/
def c81G : Proc := ⟨⟨"g", 0⟩, .down, [], [], [.requires lit1, .ensures lit1], some (.call false [] ⟨"f", 0⟩ [])⟩

/-- The two procedures in a file. -/
def c81Items : List Item := [⟨⟨"a.heyvl", some "f"⟩, .proc c81F⟩, ⟨⟨"a.heyvl", some "g"⟩, .proc c81G⟩]

/-- The filter `f$`. -/
def c81ReF : String → Bool := fun s => s == "a.heyvl::f"

/-- The filter `g$`. -/
def c81ReG : String → Bool := fun s => s == "a.heyvl::g"

/-- All procedures have the calculus `wp`. -/
def c81Cal : Ident → Option CalculusType := fun _ => some .wp

theorem c81_retainF : units (retainItems c81ReF c81Items) = [.proc c81F] := by
  have h1 : c81ReF "a.heyvl::f" = true := rfl
  have h2 : c81ReF "a.heyvl::g" = false := rfl
  rfl

theorem c81_retainG : units (retainItems c81ReG c81Items) = [.proc c81G] := rfl

theorem c81_single (x y : Ident) (hxy : y ≠ x) : IsSccs [(x, y)] [[x], [y]] := by
  have hstep : ∀ {a b : Ident}, (a, b) ∈ [(x, y)] → a = x ∧ b = y := fun h => Prod.mk.inj (List.mem_singleton.1 h)
  have hy : ∀ {z : Ident}, ReflTransGen (fun a b => (a, b) ∈ [(x, y)]) y z → z = y := by
    intro z h
    induction h with
    | refl => rfl
    | tail _ h ih => exact (hstep h).2
  have hx : ∀ {z : Ident}, ReflTransGen (fun a b => (a, b) ∈ [(x, y)]) z x → z = x := by
    intro z h
    rcases ReflTransGen.cases_tail h with h | ⟨w, -, h⟩
    · exact h.symm
    · exact absurd (hstep h).2.symm hxy
  refine ⟨fun z => by simp [eq_comm], ?_, ?_⟩
  · intro scc h
    rcases List.mem_cons.1 h with rfl | h
    · exact List.nodup_singleton _
    · rw [List.mem_singleton.1 h]; exact List.nodup_singleton _
  · intro scc h a ha b
    rcases List.mem_cons.1 h with rfl | h
    · obtain rfl := List.mem_singleton.1 ha
      exact ⟨fun h => by rw [List.mem_singleton.1 h]; exact ⟨.refl, .refl⟩, fun h => List.mem_singleton.2 (hx h.2)⟩
    · obtain rfl := List.mem_singleton.1 h
      obtain rfl := List.mem_singleton.1 ha
      exact ⟨fun h => by rw [List.mem_singleton.1 h]; exact ⟨.refl, .refl⟩, fun h => List.mem_singleton.2 (hy h.1)⟩

theorem c81_sccsF : IsSccs (callGraph (unitBodies (units (retainItems c81ReF c81Items)))) [[⟨"g", 0⟩], [⟨"f", 0⟩]] := by
  rw [c81_retainF]
  exact c81_single ⟨"g", 0⟩ ⟨"f", 0⟩ (by decide)

theorem c81_sccsG : IsSccs (callGraph (unitBodies (units (retainItems c81ReG c81Items)))) [[⟨"f", 0⟩], [⟨"g", 0⟩]] := by
  rw [c81_retainG]
  exact c81_single ⟨"f", 0⟩ ⟨"g", 0⟩ (by decide)

theorem c81_checkF : checkCalculus c81Cal [[⟨"g", 0⟩], [⟨"f", 0⟩]] (units (retainItems c81ReF c81Items)) = .ok () := by
  rw [c81_retainF]
  rfl

theorem c81_checkG : checkCalculus c81Cal [[⟨"f", 0⟩], [⟨"g", 0⟩]] (units (retainItems c81ReG c81Items)) = .ok () := by
  rw [c81_retainG]
  rfl

theorem c81_rec : ¬ RespectsCalculus c81Cal (units c81Items) c81F := by
  intro h
  have hc : ∀ f g q, (f = c81F.name ∧ g = c81G.name ∧ q = c81F) ∨ (f = c81G.name ∧ g = c81F.name ∧ q = c81G) →
      CallsProc (units c81Items) f g := by
    rintro f g q (⟨rfl, rfl, rfl⟩ | ⟨rfl, rfl, rfl⟩)
    · exact ⟨c81F, _, by simp [units, c81Items], rfl, rfl, .call ..⟩
    · exact ⟨c81G, _, by simp [units, c81Items], rfl, rfl, .call ..⟩
  have h1 := (h .wp rfl).1 (.tail (.single (hc _ _ _ (.inl ⟨rfl, rfl, rfl⟩))) (hc _ _ _ (.inr ⟨rfl, rfl, rfl⟩)))
  exact nomatch (C33_allowed_iff .wp .down).2 h1

/-- The full claim about errors is false: the recursion of `f` through `g` is an error without filter, but with a filter for `f` it is not found. -/
theorem C81_not_errors : ¬ C81_errors_full := fun h =>
  c81_rec (h c81Cal c81Items c81ReF _ c81_sccsF c81_checkF c81F (by rw [c81_retainF]; exact List.mem_singleton_self _))

theorem c81_procs : procsOf (units c81Items) = [c81F, c81G] := rfl

theorem c81_cases {f : Ident} {p : Proc} (h : table [c81F, c81G] f = some p) : (f = ⟨"f", 0⟩ ∧ p = c81F) ∨ (f = ⟨"g", 0⟩ ∧ p = c81G) := by
  obtain ⟨hp, rfl⟩ := (table_iff (P := [c81F, c81G]) (by decide)).1 h
  rcases List.mem_cons.1 hp with rfl | hp
  · exact .inl ⟨rfl, rfl⟩
  · obtain rfl := List.mem_singleton.1 hp
    exact .inr ⟨rfl, rfl⟩

theorem c81_encoded : LoopsEncoded .down (table [c81F, c81G]) (table [c81F, c81G]) := by
  refine ⟨fun f hf => hf, fun f p hp => ?_⟩
  rcases c81_cases hp with ⟨rfl, rfl⟩ | ⟨rfl, rfl⟩
  · exact ⟨some (.call false [] ⟨"g", 0⟩ []), rfl, (fun h => nomatch h), fun B hB => by cases hB; exact ⟨_, rfl, rfl⟩⟩
  · exact ⟨some (.call false [] ⟨"f", 0⟩ []), rfl, (fun h => nomatch h), fun B hB => by cases hB; exact ⟨_, rfl, rfl⟩⟩

section
variable [Doms] [Interp]

theorem c81_ok (cal : Ident → Option CalculusType) : ProgramOk [c81F, c81G] .down cal (fun _ φ => φ) := by
  have hnt : ∀ v, ¬ Temp (table [c81F, c81G]) v := by
    rintro v ⟨f, p, hp, hv⟩
    rcases c81_cases hp with ⟨-, rfl⟩ | ⟨-, rfl⟩ <;> exact absurd hv List.not_mem_nil
  have hmem : ∀ p ∈ [c81F, c81G], p = c81F ∨ p = c81G := by
    intro p hp
    rcases List.mem_cons.1 hp with rfl | hp
    · exact Or.inl rfl
    · exact Or.inr (List.mem_singleton.1 hp)
  refine ⟨by decide, ⟨?_, ?_, fun _ _ _ v hv => absurd hv (hnt v), ?_, ?_, fun _ _ _ _ _ v hv => absurd hv (hnt v), ?_⟩,
    ⟨fun _ _ _ h => h, ?_, ?_⟩, ?_, ?_, ?_, ?_, ?_, ?_⟩
  · intro f p hp
    rcases c81_cases hp with ⟨-, rfl⟩ | ⟨-, rfl⟩ <;> rfl
  · intro f p hp
    rcases c81_cases hp with ⟨-, rfl⟩ | ⟨-, rfl⟩
    all_goals
      refine ⟨List.nodup_nil, fun e he v hv => ?_, fun e he v hv => ?_, fun e he => ?_, List.nodup_nil,
        fun x hx => absurd hx List.not_mem_nil⟩
      all_goals
        obtain rfl := List.mem_singleton.mp (show e ∈ [lit1] from he)
      · exact hv.elim
      · exact hv.elim
      · trivial
  · intro f p B hp hB
    rcases c81_cases hp with ⟨-, rfl⟩ | ⟨-, rfl⟩ <;> cases hB <;> trivial
  · intro f p B hp hB x hx
    rcases c81_cases hp with ⟨-, rfl⟩ | ⟨-, rfl⟩ <;> exact absurd hx List.not_mem_nil
  · intro f p B hp hB lhs g args hc
    rcases c81_cases hp with ⟨-, rfl⟩ | ⟨-, rfl⟩
    · cases hB
      obtain ⟨rfl, rfl, rfl⟩ := hc
      exact ⟨c81G, rfl, rfl, rfl, fun a ha => absurd ha List.not_mem_nil, fun x hx => absurd hx List.not_mem_nil⟩
    · cases hB
      obtain ⟨rfl, rfl, rfl⟩ := hc
      exact ⟨c81F, rfl, rfl, rfl, fun a ha => absurd ha List.not_mem_nil, fun x hx => absurd hx List.not_mem_nil⟩
  · intro f p hp hB
    rcases c81_cases hp with ⟨-, rfl⟩ | ⟨-, rfl⟩ <;> exact nomatch hB
  · intro f p hp hB
    rcases c81_cases hp with ⟨-, rfl⟩ | ⟨-, rfl⟩ <;> exact nomatch hB
  · intro p hp
    rcases hmem p hp with rfl | rfl <;> exact List.cons_ne_nil _ _
  · intro p hp B hB lhs g args hc q hq
    rcases hmem p hp with rfl | rfl
    · cases hB
      obtain ⟨rfl, rfl, rfl⟩ := hc
      obtain rfl := Option.some.inj (show some c81G = some q from hq)
      exact ⟨List.nodup_nil, trivial, trivial⟩
    · cases hB
      obtain ⟨rfl, rfl, rfl⟩ := hc
      obtain rfl := Option.some.inj (show some c81F = some q from hq)
      exact ⟨List.nodup_nil, trivial, trivial⟩
  · intro p hp B hB
    rcases hmem p hp with rfl | rfl <;> cases hB <;> trivial
  · intro p hp B hB c hc
    rcases hmem p hp with rfl | rfl <;> cases hB <;> trivial
  · intro p hp B hB
    rcases hmem p hp with rfl | rfl <;> cases hB <;> trivial
  · intro p hp B hB
    rcases hmem p hp with rfl | rfl <;> cases hB <;> trivial

theorem c81_verified {f : Ident} {p : Proc} (h : table [c81F, c81G] f = some p) : VcVerified (table [c81F, c81G]) p := by
  let C : SemCtx := ⟨.lfp, fun l _ _ φ σ => ⨅ σ' ∈ {σ' | Agree l σ σ'}, φ σ'⟩
  have key : ∀ {T T' e}, specCall (table [c81F, c81G]) .down T [] = some (T', []) → coreVc .down T' = .ok e → (T'.Guarded ∧ T'.GoodDists) →
      (∀ σ, vcSem C T' (fun _ => ⊤) σ = ⊤) → ∃ declared T' declared' e, specCall (table [c81F, c81G]) .down T declared = some (T', declared') ∧
        coreVc .down T' = .ok e ∧ VcHolds .down e := by
    intro T T' e h1 h2 h3 h5
    refine ⟨[], T', [], e, h1, h2, fun σ => ?_⟩
    have := vcgen_sound C h2 (h3.1.validateOk _) h3.2
    rw [terminal_ev] at this
    exact (congrFun this σ).trans (h5 σ)
  intro d T hT
  rcases c81_cases h with ⟨rfl, rfl⟩ | ⟨rfl, rfl⟩
  all_goals
    obtain ⟨rfl, rfl⟩ := Prod.mk.inj (Option.some.inj hT)
    refine key rfl rfl ⟨?_, ?_⟩ (fun σ => ?_)
    · exact ⟨trivial, ⟨trivial, trivial, trivial, trivial⟩, trivial, trivial⟩
    · exact ⟨trivial, ⟨trivial, trivial, trivial, trivial⟩, trivial, trivial⟩
    · refine if_pos (show lit1.ev σ ≤ min (lit1.ev σ) _ from le_min le_rfl (le_iInf₂ fun σ' _ => ?_))
      refine le_of_le_of_eq le_top (if_pos ?_).symm
      exact le_min le_rfl le_top

end

/-- The full claim about verdicts is false: `f` and `g`, which call each other forever, claim to terminate. Each of them is verified with a filter for its name. -/
theorem C81_not_sound : ¬ C81_sound_full := by
  intro h
  let _ := unitDoms
  let _ := unitInterp
  have h1 := h unitDoms unitInterp c81Items .down c81Cal (fun _ φ => φ) (table [c81F, c81G]) (c81_ok _) c81_encoded
    (fun p hp B hB => by
      rcases List.mem_cons.1 hp with rfl | hp
      · cases hB; rfl
      · obtain rfl := List.mem_singleton.1 hp
        cases hB; rfl)
    (fun f p' hp => c81_verified hp)
    (fun p hp => by
      rcases List.mem_cons.1 hp with rfl | hp
      · exact ⟨c81ReF, _, by rw [c81_retainF]; exact List.mem_singleton_self _, c81_sccsF, c81_checkF⟩
      · obtain rfl := List.mem_singleton.1 hp
        exact ⟨c81ReG, _, by rw [c81_retainG]; exact List.mem_singleton_self _, c81_sccsG, c81_checkG⟩)
    c81F List.mem_cons_self .wp rfl (fun _ _ _ _ h => nomatch h)
  have h2 : c81F.pre zeroEnv ≤ recSem .up .lfp (table [c81F, c81G]) (fun _ φ => φ) ⟨"f", 0⟩ c81F.post zeroEnv := h1 zeroEnv
  have hpre : c81F.pre zeroEnv = 1 := by
    show (⨅ e ∈ [lit1], e.ev zeroEnv) = 1
    simp [lit1_ev]
  let Γ : ProcSem := fun f φ => if f = ⟨"f", 0⟩ ∨ f = ⟨"g", 0⟩ then fun _ => 0 else φ
  have hΓ : (∀ f, Monotone (Γ f)) ∧ ∀ f φ, unfoldProcs .lfp (table [c81F, c81G]) (fun _ φ => φ) Γ f φ ≤ Γ f φ := by
    refine ⟨fun f φ ψ hφ => ?_, fun f φ => ?_⟩
    · show (if _ then _ else _) ≤ (if _ then _ else _)
      split
      · exact le_rfl
      · exact hφ
    · cases hp : table [c81F, c81G] f with
      | none =>
        have hne : ¬ (f = ⟨"f", 0⟩ ∨ f = ⟨"g", 0⟩) := by
          rintro (rfl | rfl) <;> exact nomatch hp
        show (match table [c81F, c81G] f with | none => φ | some p => _) ≤ if _ then _ else _
        rw [hp, if_neg hne]
      | some p =>
        rcases c81_cases hp with ⟨rfl, rfl⟩ | ⟨rfl, rfl⟩
        · exact fun σ => iInf_le (fun _ : Env => (0 : ℝ≥0∞)) σ
        · exact fun σ => iInf_le (fun _ : Env => (0 : ℝ≥0∞)) σ
  have h3 : recSem .up .lfp (table [c81F, c81G]) (fun _ φ => φ) ⟨"f", 0⟩ c81F.post zeroEnv ≤ 0 :=
    iInf₂_le (f := fun (Γ : ProcSem) (_ : Γ ∈ {Γ : ProcSem | (∀ f, Monotone (Γ f)) ∧
      ∀ f φ, unfoldProcs .lfp (table [c81F, c81G]) (fun _ φ => φ) Γ f φ ≤ Γ f φ}) => Γ ⟨"f", 0⟩ c81F.post zeroEnv) Γ hΓ
  rw [hpre] at h2
  exact absurd (h2.trans h3) (by simp)

/-- The program of C82 in a file. -/
def c81Domain : List Item :=
  [⟨⟨"b.heyvl", some "D"⟩, .domain [.func ⟨.eureal, c82H, fun i => i.elim0, none⟩, .prop ⟨"a", 0⟩ (.rel .eq c82E c82E)]⟩,
    ⟨⟨"b.heyvl", some "g"⟩, .proc c82G⟩, ⟨⟨"b.heyvl", some "f"⟩, .proc c82F⟩]

/-- A filter for `f`. -/
def c81ReB : String → Bool := fun s => s == "b.heyvl::f"

/-- The full claim about the translation is false: with a filter for `f`, the procedure `g` it calls is not in the dependency graph. The function `h` of the specification of
`g` is not declared, but it occurs in the formula. -/
theorem C81_not_declared : ¬ C81_declared_full := by
  intro h
  have hg : ∃ g, generateDepgraph .decreasing (units (retainItems c81ReB c81Domain)) = some g ∧ ⟨"h", 0⟩ ∉ (SourceUnit.proc c82F).deps g := by
    refine ⟨_, rfl, fun hx => ?_⟩
    obtain ⟨r, hr, hp⟩ := (C35_closure .decreasing ((units (retainItems c81ReB c81Domain)).flatMap SourceUnit.depDecls) _ rfl _ _).1 hx
    obtain rfl : r = ⟨"f", 0⟩ := List.mem_singleton.1 hr
    have inv : ∀ x, ReflTransGen (Infra.DependsOn .decreasing ((units (retainItems c81ReB c81Domain)).flatMap SourceUnit.depDecls)) ⟨"f", 0⟩ x →
        x = ⟨"f", 0⟩ ∨ x = ⟨"g", 0⟩ := by
      have hds : (units (retainItems c81ReB c81Domain)).flatMap SourceUnit.depDecls =
          [.func ⟨"h", 0⟩ [], .axiomDecl ⟨"a", 0⟩ [⟨"h", 0⟩, ⟨"h", 0⟩], .proc ⟨"f", 0⟩ [⟨"g", 0⟩]] := rfl
      rw [hds]
      intro x hx
      induction hx with
      | refl => exact .inl rfl
      | tail _ h ih =>
        rcases h with ⟨x, h1, h2⟩ | ⟨h0, x, h1, h2⟩ | ⟨h0, n, x, h1, h2⟩ | ⟨n, x, h1, h2⟩
        · simp at h1
          obtain ⟨-, rfl⟩ := h1
          exact .inr (List.mem_singleton.1 h2)
        · simp at h1
          obtain ⟨-, rfl⟩ := h1
          nomatch h2
        · nomatch h0
        · simp at h1
          obtain ⟨rfl, rfl⟩ := h1
          rcases ih with rfl | rfl <;> simp at h2
    rcases inv _ hp with h | h <;> exact absurd h (by decide)
  obtain ⟨g, hg, hn⟩ := hg
  have hb : ∃ b st, c82C.formula { lower := ⟨true, true, true, false⟩, noSliceError := true } 0 .down (.block [.call false [] ⟨"g", 0⟩ []]) = some (b, st) ∧
      CallIn ⟨"h", 0⟩ b := ⟨_, _, by with_unfolding_all rfl, .relR _ _ _ (.binL _ _ _ (.here _ _ rfl))⟩
  obtain ⟨b, st, hb, hf⟩ := hb
  have := h .decreasing c81Domain c81ReB g c82_resolved hg c82C c82_procs (.proc c82F)
    (mem_units_retain.2 ⟨_, List.mem_cons_of_mem _ (List.mem_cons_of_mem _ List.mem_cons_self), rfl, fun _ => rfl⟩) .down _ rfl _ 0 b st hb _ (.inl hf)
  exact hn (mem_declaredFuncs.1 this).1

/-! ## Non-vacuity -/

/-- The program of C58, in a file. -/
def c81Items' : List Item := [⟨⟨"a.heyvl", some "f"⟩, .proc c58F⟩, ⟨⟨"a.heyvl", some "g"⟩, .proc c58G⟩]

/-- Two runs, one for `f` and one for `g`, where `g` does not call `f`, show that both procedures satisfy their specifications. -/
example [Doms] [Interp] : c58F.Meets (progSem .wlp (table c58P) (fun _ φ => φ) ⟨"f", 0⟩) := by
  have hback : ∀ x y, ReflTransGen (CallsProc (units c81Items')) x y → x = ⟨"g", 0⟩ → y = ⟨"g", 0⟩ := by
    rintro x y h rfl
    induction h with
    | refl => rfl
    | tail _ h ih =>
      subst ih
      obtain ⟨q, B, hq, hn, hB, hc⟩ := h
      simp only [units, c81Items', List.map_cons, List.map_nil, List.mem_cons, List.not_mem_nil, or_false, SourceUnit.proc.injEq] at hq
      rcases hq with rfl | rfl
      · exact absurd hn (by decide)
      · cases hB
        cases hc with
        | annot h => cases h with | «while» h => nomatch h
  have hfwd : ∀ x, ReflTransGen (CallsProc (units c81Items')) ⟨"g", 0⟩ x → x = ⟨"g", 0⟩ := fun x h => hback _ _ h rfl
  refine C81_sound_partial c81Items' .down (fun _ => some .wlp) (fun _ φ => φ) (table c58P') (c58_ok _) c58_encoded (fun p hp B hB => ?_)
    (fun f p' hp => c58_verified hp) (fun p hp => ?_) c58F List.mem_cons_self .wlp rfl (fun _ _ _ _ h => nomatch h)
  · rcases List.mem_cons.1 hp with rfl | hp
    · cases hB; rfl
    · obtain rfl := List.mem_singleton.1 hp
      cases hB; rfl
  · rcases List.mem_cons.1 hp with rfl | hp
    · refine ⟨c81ReF, [[⟨"g", 0⟩], [⟨"f", 0⟩]], List.mem_singleton_self _, c81_single ⟨"g", 0⟩ ⟨"f", 0⟩ (by decide), rfl, fun q hq _ h2 => ?_⟩
      simp only [units, c81Items', List.map_cons, List.map_nil, List.mem_cons, List.not_mem_nil, or_false, SourceUnit.proc.injEq] at hq
      rcases hq with rfl | rfl
      · exact List.mem_singleton_self _
      · exact absurd (hfwd _ h2) (by decide)
    · obtain rfl := List.mem_singleton.1 hp
      refine ⟨c81ReG, [], List.mem_singleton_self _, ⟨fun x => by simp [callGraph, unitBodies, procsOf, units, retainItems, c81Items', c81ReG, UnitName.display, SourceUnit.isTarget, c58G, c58Loop, Stmt.callees],
        (fun _ h => nomatch h), (fun _ h => nomatch h)⟩, rfl, fun q hq h1 _ => ?_⟩
      simp only [units, c81Items', List.map_cons, List.map_nil, List.mem_cons, List.not_mem_nil, or_false, SourceUnit.proc.injEq] at hq
      rcases hq with rfl | rfl
      · exact absurd (hfwd _ h1) (by decide)
      · exact List.mem_singleton_self _

/-- Without filter the two procedures which call each other are rejected. -/
example (sccs : List (List Ident)) (hs : IsSccs (callGraph (unitBodies (units c81Items))) sccs) : checkCalculus c81Cal sccs (units c81Items) ≠ .ok () :=
  fun h => c81_rec ((C81_check _ _ _ hs).1 h c81F List.mem_cons_self)

/-- The program of C82 with statements in another file. -/
def c81Domain' : List Item := c81Domain ++ [⟨⟨"c.heyvl", none⟩, .raw .skip⟩]

/-- A filter which drops the statements only: the formula for `f` is translated. -/
example : ∃ g b st, generateDepgraph .decreasing (units (retainItems (fun s => s == "b.heyvl::f" || s == "b.heyvl::g") c81Domain')) = some g ∧
    c82C.formula { lower := ⟨true, true, true, false⟩, noSliceError := true } 0 .down (.block [.call false [] ⟨"g", 0⟩ []]) = some (b, st) ∧
    CallIn ⟨"h", 0⟩ b ∧ AllDeclared (units c81Domain') ((SourceUnit.proc c82F).deps g) b := by
  have hb : ∃ b st, c82C.formula { lower := ⟨true, true, true, false⟩, noSliceError := true } 0 .down (.block [.call false [] ⟨"g", 0⟩ []]) = some (b, st) ∧
      CallIn ⟨"h", 0⟩ b := ⟨_, _, by with_unfolding_all rfl, .relR _ _ _ (.binL _ _ _ (.here _ _ rfl))⟩
  obtain ⟨b, st, hb, hf⟩ := hb
  have hsub : ∀ u ∈ units c81Domain, u ∈ units c81Domain' := fun u hu => by
    rw [c81Domain', units, List.map_append]
    exact List.mem_append_left _ hu
  have hfun : ∀ f, IsFunc c82P f → IsFunc (units c81Domain') f := fun f ⟨specs, d, h1, h2⟩ => ⟨specs, d, hsub _ h1, h2⟩
  have hcase : ∀ u ∈ units c81Domain', u ∈ c82P ∨ u = .raw .skip := fun u hu => by
    rw [c81Domain', units, List.map_append] at hu
    exact (List.mem_append.1 hu).imp id fun h => List.mem_singleton.1 h
  have hres : Resolved (units c81Domain') := by
    refine ⟨fun u hu f h => ?_, fun specs hu s hs f h => ?_⟩
    · rcases hcase u hu with hu | rfl
      · exact hfun f (c82_resolved.units u hu f h)
      · obtain ⟨e, he, -⟩ := h
        nomatch he
    · rcases hcase _ hu with hu | hu
      · exact hfun f (c82_resolved.specs specs hu s hs f h)
      · nomatch hu
  have hprocs : ProcsOf c82C.procs (units c81Domain') := fun f p h => ⟨(c82_procs f p h).1, hsub _ (c82_procs f p h).2⟩
  refine ⟨_, b, st, rfl, hb, hf, C81_declared_partial .decreasing c81Domain' (fun s => s == "b.heyvl::f" || s == "b.heyvl::g") _ _ hres rfl rfl c82C hprocs (.proc c82F) ?_ (fun p hp _ => ?_) .down _ rfl _ 0 b st hb⟩
  · exact mem_units_retain.2 ⟨⟨⟨"b.heyvl", some "f"⟩, .proc c82F⟩, by simp [c81Domain', c81Domain], rfl, fun _ => rfl⟩
  · rcases hcase _ hp with hp | hp
    · obtain ⟨i, hi, h⟩ := List.mem_map.1 (show _ ∈ units c81Domain from hp)
      refine mem_units_retain.2 ⟨i, List.mem_append_left _ hi, h, fun _ => ?_⟩
      simp only [c81Domain, List.mem_cons, List.not_mem_nil, or_false] at hi
      rcases hi with rfl | rfl | rfl
      · nomatch h
      · rfl
      · rfl
    · nomatch hp

end Caesar.Driver
