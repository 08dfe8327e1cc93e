import Verif.Driver.RunFuncs
import Verif.Props.C80
import Verif.Props.C82

/-!
# C83: what is reported to verify does so for all meanings of the functions that satisfy the definitions and axioms

C80 is about one fixed meaning of the functions, which the SMT solver is supposed to know. Here the solver only gets what the code gives to it: symbols, the
encoded definitions and axioms which the unit depends on (C51, C72, C82), and the query of the unit.
-/

open scoped ENNReal NNReal
open Relation

namespace Caesar.Driver
set_option linter.unusedSectionVars false
open Smt Slicing

/-- Specification: the solver tells the truth about the query. After `unsat`, there is no meaning of the function symbols for which the assertions about
functions hold and the query has a model; after `sat` there is one. The symbols in the assertions about functions are not those of the formula, so that they
have their own values `M`. -/
def FuncTruthful [Doms] (q : FuncQuery) (ask : Nat → Nat → Reply) : Prop :=
  ∀ step n, match ask step n with
    | .sat P => ∀ A : Ident → Bool, Completes P A → ∃ W facts q' M M', q W = some (facts, q') ∧ (∀ F ∈ facts, F M) ∧ q'.Counter M' ∧
        (∀ x ∈ q'.vars, ((show Prop from x.2 M') ↔ A x.1.ident = true)) ∧ q'.count M' ≤ n
    | .unsat => ∀ W facts q' M M', q W = some (facts, q') → (∀ F ∈ facts, F M) → q'.Counter M' → n < q'.count M'
    | .unknown _ => True

/-- Specification: division by zero does not depend on the type (see C50). -/
def DivisionOk [Doms] [Interp] : Prop :=
  (∀ x : ℝ≥0, Interp.divR0 (x : ℝ) = (Interp.divU0 x : ℝ≥0)) ∧ ∀ n : ℕ, Interp.modZ0 (n : ℤ) = (Interp.modN0 n : ℕ)

/-- Specification: a function with a definition has the values of the body, an axiom holds in all states. -/
def NamedSpec.Holds [Doms] [Interp] : NamedSpec → Prop
  | .func d => ∀ body, d.body = some body → ∀ σ : Env, Interp.func d.func (fun i => σ ⟨d.ins i, d.func.args.get i⟩) = body.eval σ
  | .prop _ e => ∀ σ, (show Prop from e.eval σ)

/-- Specification: the definitions and axioms of the program are true. -/
def Satisfied [Doms] [Interp] (items : List SourceUnit) : Prop := ∀ specs, SourceUnit.domain specs ∈ items → ∀ s ∈ specs, s.Holds

/-- C83: if a unit is reported to verify, then it does for all meanings of the functions which satisfy the definitions and axioms of the program. -/
def C83_full : Prop :=
  ∀ (_ : Doms) (O : Smt.Oracle) (o : EncodingOptions) (items : List SourceUnit) (g : Infra.DepGraph), generateDepgraph o.encoding.inst items = some g →
    ∀ u ∈ items, ∀ (c : UnitCtx) (opts : UnitOptions) (d : Dir) (T S : Stmt) (declared' : List Var), u.task = some (d, T) →
    specCall c.procs d T c.declared = some (S, declared') →
    (∀ v, S.Touched v → v.id ∈ c.tcx.decls) → S.All (fun e => ∀ v, e.Occurs v → v.id ∈ c.tcx.decls) (fun x => x.id ∈ c.tcx.decls) →
    ∀ (ask : FuncQuery → Nat → Nat → Reply), (∀ q, FuncTruthful q (ask q)) → ∀ sm, RunsFunc O o items g u c opts ask (.proof, sm) →
    ∀ (_ : Interp), DivisionOk → Satisfied items → c.oracle.Sound → S.SGuarded → S.GoodDists →
    ∀ (C : SemCtx), C.Regular → ∀ σ, Succeeds d (vcSem C S (postExp d) σ)

/-- What is assumed about the functions and axioms which the unit depends on (see C51): the strengthened encoding is only used for functions whose parameters
have types without constraints; the expressions contain no infimum or supremum of extended reals and no subtraction of an infinite value. -/
def FuncsOk [Doms] [Interp] (o : EncodingOptions) (items : List SourceUnit) (deps : List Ident) : Prop :=
  ∀ specs, SourceUnit.domain specs ∈ items → ∀ s ∈ specs, s.name ∈ deps → PlainSpec s.spec ∧
    (o.noPartialStrengthening = false ∨ o.encoding = .defineFunRec → ∀ f, s = .func f → ∀ i, Free (f.func.args.get i))

/-! ## Lemmas -/

theorem mkEncoder_total {o : EncodingOptions} {g : Infra.DepGraph} {ds : List DomainSpec} {E : Encoder} (h : mkEncoder o g ds = some E) (ht : E.total = true) :
    o.noPartialStrengthening = false ∨ o.encoding = .defineFunRec := by
  obtain ⟨enc, flag, fuel, syn⟩ := o
  cases flag with
  | false => exact .inl rfl
  | true =>
    cases enc <;> first | exact .inr rfl | (cases h; cases ht)

theorem runFuncUnit_some [Doms] {O : Smt.Oracle} {o : EncodingOptions} {items : List SourceUnit} {g : Infra.DepGraph} {u : SourceUnit} {c : UnitCtx} {opts : UnitOptions}
    {ask : FuncQuery → Nat → Nat → Reply} {n fuel : Nat} {out} (h : runFuncUnit O o items g u c opts ask n fuel = some out) :
    ∃ d T b st E, u.task = some (d, T) ∧ c.formula opts n d T = some (b, st) ∧ mkEncoder o g ((domainSpecs items).map NamedSpec.spec) = some E ∧
      let q := mkFuncQuery O E ((translatedSpecs (u.deps g) (domainSpecs items)).map NamedSpec.spec) b st.stmts st.constraints
      (∀ W, (q W).isSome) ∧ sliceFailing (failingOptions opts.sliceErrorFirst opts.sliceErrorInconsistent) st.stmts (ask q) fuel = some out := by
  obtain ⟨⟨d, T⟩, h1, h⟩ := Option.bind_eq_some_iff.1 h
  obtain ⟨⟨b, st⟩, h2, h⟩ := Option.bind_eq_some_iff.1 h
  obtain ⟨E, h3, h⟩ := Option.bind_eq_some_iff.1 h
  refine ⟨d, T, b, st, E, h1, h2, h3, ?_⟩
  simp only at h
  split at h
  next hq => exact ⟨hq, h⟩
  next => cases h

theorem mkFuncQuery_some [Doms] {O : Smt.Oracle} {E : Encoder} {ds : List DomainSpec} {b : Expr .bool} {stmts : List SliceStmt} {cs : List (Expr .bool)} {W : World}
    {facts : List Fact} {q : SliceQuery} (h : mkFuncQuery O E ds b stmts cs W = some (facts, q)) :
    (∃ st, domainFacts O W E ds .new = some (facts, st)) ∧ @mkQuery _ (W.at E E.fuel) O b stmts cs = some q := by
  obtain ⟨⟨fs, st⟩, h1, h⟩ := Option.bind_eq_some_iff.1 h
  obtain ⟨q', h2, h⟩ := Option.bind_eq_some_iff.1 h
  cases h
  exact ⟨⟨st, h1⟩, h2⟩

section
variable [Doms] [Interp]

/-- C83 for units in the fragment of C80 and functions in the fragment of C51. -/
theorem C83_partial (hdiv : DivisionOk) (O : Smt.Oracle) (o : EncodingOptions) (items : List SourceUnit) (g : Infra.DepGraph) (u : SourceUnit) (c : UnitCtx)
    (opts : UnitOptions) (hi : opts.sliceErrorInconsistent = false) (d : Dir) (T S : Stmt) (declared' : List Var) (hT : u.task = some (d, T))
    (hS : specCall c.procs d T c.declared = some (S, declared')) (ho : c.oracle.Sound) (hok : UnitOk c.tcx opts.lower S)
    (hfin : ∀ n b st, c.formula opts n d T = some (b, st) → FinSub b) (hsat : Satisfied items) (hfun : FuncsOk o items (u.deps g))
    (ask : FuncQuery → Nat → Nat → Reply) (ht : ∀ q, FuncTruthful q (ask q)) (sm : Option SliceModel) (h : RunsFunc O o items g u c opts ask (.proof, sm))
    (C : SemCtx) (hC : C.Regular) : S.Core ∧ ∀ σ, Succeeds d (vcSem C S (postExp d) σ) := by
  obtain ⟨N, hN⟩ := h
  rcases formula_spec C c ho opts d hS hok with ⟨hf, -⟩ | ⟨hcore, N', hN'⟩
  · obtain ⟨fuel, h⟩ := hN N (le_refl N)
    obtain ⟨d', T', b, st, E, h1, h2, -⟩ := runFuncUnit_some h
    cases hT.symm.trans h1
    cases (hf N).symm.trans h2
  obtain ⟨W, F⟩ := world_exists hdiv.1 hdiv.2
  refine ⟨hcore, (let _ := W.base; succeeds_any hok hcore (filter := opts.selection)) ?_⟩
  obtain ⟨fuel, h⟩ := hN (max N N') (le_max_left _ _)
  obtain ⟨d', T', b, st, E, h1, h2, hE, hq, h3⟩ := runFuncUnit_some h
  cases hT.symm.trans h1
  obtain ⟨b', hb1, hb2⟩ := hN' (max N N') (le_max_right _ _)
  rw [h2] at hb1
  cases hb1
  rw [hi] at h3
  generalize hQ : mkFuncQuery _ _ _ _ _ _ = Q at hq h3
  refine proof_of_unsat hC _ _ _ _ hok.touched _ (fun step n hu => ?_) _ _ _ h3
  obtain ⟨⟨facts, q⟩, hW⟩ := Option.isSome_iff_exists.1 (hq W)
  obtain ⟨⟨st', h4⟩, h5⟩ := mkFuncQuery_some (hQ ▸ hW)
  obtain ⟨M, hM⟩ := wf_exists
  have hfacts : ∀ A ∈ facts, A M := by
    have hds : ∀ ds ∈ (translatedSpecs (u.deps g) (domainSpecs items)).map NamedSpec.spec, TrueSpec ds ∧ Supported E ds := by
      intro ds hds
      obtain ⟨s, hs, rfl⟩ := List.mem_map.1 hds
      obtain ⟨hs1, hs2⟩ := List.mem_filter.1 hs
      obtain ⟨specs, hs3, hs4⟩ := mem_domainSpecs.1 hs1
      obtain ⟨hp, hfree⟩ := hfun specs hs3 s hs4 (of_decide_eq_true hs2)
      have hh := hsat specs hs3 s hs4
      refine ⟨by cases s <;> exact hh, ?_⟩
      cases s with
      | func f => exact ⟨fun h i => hfree (mkEncoder_total hE h) f rfl i, hp⟩
      | prop n e => exact hp
    exact fun A hA => C51_facts_partial O W E (F E) _ (fun d hd => (hds d hd).1) (fun d hd => (hds d hd).2) h4 A hA M hM
  let _ := W.at E E.fuel
  -- the answers as they are about the actual functions
  let ask' : Nat → Nat → Reply := fun s k => match ask Q s k with
    | .unsat => .unsat
    | _ => .unknown none
  have ht' : SolverTruthful q ask' := by
    intro s k
    show match (match ask Q s k with | .unsat => Reply.unsat | _ => .unknown none) with | .sat P => _ | .unsat => _ | .unknown _ => _
    have := ht Q s k
    revert this
    cases ask Q s k with
    | sat P => exact fun _ => trivial
    | unknown P => exact fun _ => trivial
    | unsat => exact fun h M' hM' => h W facts q M M' hW hfacts hM'
  have htr := truthful_slices (F E E.fuel) C O (fun s hs => ((hok.sliced opts.selection d).2.2.2.2.2 s hs).1) hb2 (hfin _ _ _ h2) h5 ht'
  have := htr step n
  rw [show ask' step n = .unsat by show (match ask Q step n with | .unsat => Reply.unsat | _ => .unknown none) = _; rw [hu]] at this
  exact this

/-! ## Whole programs -/

/-- The unit of a procedure ends with the verdict that it verifies, with a truthful solver which knows nothing about the functions but the encoded definitions and axioms. -/
def FuncVerified (O : Smt.Oracle) (o : EncodingOptions) (items : List SourceUnit) (g : Infra.DepGraph) (opts : UnitOptions) (procs' : ProcTable) (p' : Proc) : Prop :=
  ∀ d T, encodeProcVerify p' = some (d, T) → ∃ (c : UnitCtx) (S : Stmt) (declared' : List Var), c.procs = procs' ∧ c.oracle.Sound ∧
    specCall procs' d T c.declared = some (S, declared') ∧
    (∀ v, S.Touched v → v.id ∈ c.tcx.decls) ∧ S.All (fun e => ∀ v, e.Occurs v → v.id ∈ c.tcx.decls) (fun x => x.id ∈ c.tcx.decls) ∧
    (opts.lower.noQelim = false → S.All (fun e => e.freshVars = []) (fun _ => True)) ∧
    (opts.lower.optRel = true → S.All (fun e => e.CmpTypes RelCmp) (fun _ => True)) ∧
    (∀ n b st, c.formula opts n d T = some (b, st) → FinSub b) ∧ FuncsOk o items ((SourceUnit.proc p').deps g) ∧
    ∃ ask : FuncQuery → Nat → Nat → Reply, (∀ q, FuncTruthful q (ask q)) ∧ ∃ sm, RunsFunc O o items g (.proc p') c opts ask (.proof, sm)

theorem vcVerified_of_func (hdiv : DivisionOk) (O : Smt.Oracle) (o : EncodingOptions) (items : List SourceUnit) (g : Infra.DepGraph) (hsat : Satisfied items)
    (opts : UnitOptions) (hi : opts.sliceErrorInconsistent = false)
    {P : List Proc} {d : Dir} {cal : Ident → Option CalculusType} {ext : ProcSem} {sccs : List (List Ident)} {procs' : ProcTable}
    (ho : ProgramOk P d cal ext) (hc : Checked P d cal sccs procs') {f : Ident} {p' : Proc} (hf : procs' f = some p')
    (hv : FuncVerified O o items g opts procs' p') : VcVerified procs' p' := by
  intro d' T hT
  obtain ⟨c, S, decl', rfl, hos, hS, h1, h2, h3, h4, hfin, hfun, ask, ht, sm, hrun⟩ := hv d' T hT
  obtain ⟨p, hp, hpp⟩ := hc.encoded.inv hf
  have hpP := ((table_iff ho.names).1 hp).1
  obtain ⟨b', hb1, hb2, hb3⟩ := hc.encoded.2 f p hp
  rw [hb1] at hf
  obtain rfl := Option.some.inj hf
  cases hB : p.body with
  | none =>
    obtain rfl := hb2 hB
    exact nomatch hT
  | some B =>
    obtain ⟨B', hE, rfl⟩ := hb3 B hB
    obtain ⟨hg, hgd⟩ := task_shape hE rfl (ho.noValidate p hpP B hB) (ho.dists p hpP B hB) hT
    have hok : UnitOk c.tcx opts.lower S := ⟨h1, h2, h3, h4, (specCall_guarded hg hS).sguarded, specCall_goodDists hgd hS⟩
    let C : SemCtx := callCtx .lfp c.procs (fun _ φ => φ)
    have hT' : (SourceUnit.proc { p with body := some B' }).task = some (d', T) := hT
    obtain ⟨hcore, hver⟩ := C83_partial hdiv O o items g _ c opts hi d' T S decl' hT' hS hos hok hfin hsat hfun ask ht sm hrun C (callCtx_regular fun _ _ _ h => h)
    obtain ⟨e, he⟩ := core_vcgen hcore (terminal d')
    refine ⟨c.declared, S, decl', e, hS, he, ?_⟩
    have hh : ∀ σ, HoldsAt d' e σ := fun σ => (holdsAt_iff C he hok.guarded hok.dists σ).2 (hver σ)
    cases d' with
    | down => exact hh
    | up => exact hh

/-- C83 for programs: if all checks pass, and all units are reported to verify, then each annotated procedure which only reaches annotated procedures satisfies its
specification in its calculus, for all meanings of the functions which satisfy the definitions and axioms. -/
theorem C83_program_partial (hdiv : DivisionOk) (O : Smt.Oracle) (o : EncodingOptions) (items : List SourceUnit) (g : Infra.DepGraph) (hsat : Satisfied items)
    (opts : UnitOptions) (hi : opts.sliceErrorInconsistent = false)
    (P : List Proc) (d : Dir) (cal : Ident → Option CalculusType) (ext : ProcSem) (sccs : List (List Ident)) (procs' : ProcTable)
    (ho : ProgramOk P d cal ext) (hc : Checked P d cal sccs procs')
    (hv : ∀ f p', procs' f = some p' → FuncVerified O o items g opts procs' p') (p : Proc) (hp : p ∈ P) (c : CalculusType)
    (hcal : cal p.name = some c)
    (hann : ∀ q ∈ P, q.body ≠ none → ReflTransGen (Calls (bodies P)) p.name q.name → cal q.name ≠ none) :
    p.Meets (progSem c (table P) ext p.name) :=
  C58_partial P d cal ext sccs procs' ho hc (fun _ _ hf => vcVerified_of_func hdiv O o items g hsat opts hi ho hc hf (hv _ _ hf)) p hp c hcal hann

end

/-! ## A violation -/

/-- `f(0) = 1`, for the function `f(x: UInt): UInt = if x < 0 then f(x) + 1 else 0`. -/
def c83Goal : Expr .bool := .rel .eq (.call strictFunc fun | ⟨0, _⟩ => .lit (.uint 0)) (.lit (.uint 1))

/-- `assert ?(f(0) = 1)` -/
def c83S : Stmt := .assert .down (.embed c83Goal)

/-- The program with the function and the statement. -/
def c83P : List SourceUnit := [.domain [.func strictDecl], .raw c83S]

/-- `--function-encoding axiomatic` -/
def c83E : EncodingOptions := ⟨.axiomatic, false, 2, false⟩

/-- The formula of a unit `assert ?e`, without slicing and boolification. -/
def c83F (e : Expr .bool) : Expr .bool := .rel .eq (.lit .infty) (.bin (.inf rfl) (.embed e) (.lit .infty))

theorem c83_formula (n : Nat) : ∃ st, (c80C []).formula c80N n .down c83S = some (c83F c83Goal, st) ∧ st.stmts = [] ∧ st.constraints = [] := by
  have h : ∃ args st, (c80C []).formula c80N n .down c83S = some (c83F (.rel .eq (.call strictFunc args) (.lit (.uint 1))), st) ∧ st.stmts = [] ∧ st.constraints = [] ∧
      args = fun | ⟨0, _⟩ => .lit (.uint 0) := ⟨_, _, by with_unfolding_all rfl, rfl, rfl, funext fun | ⟨0, _⟩ => rfl⟩
  obtain ⟨_, st, h1, h2, h3, rfl⟩ := h
  exact ⟨st, h1, h2, h3⟩

open Classical in
/-- A solver which knows whether a query has no model, and nothing else. -/
noncomputable def perfectFunc [Doms] (q : FuncQuery) (_step n : Nat) : Reply :=
  if ∀ W facts q' M M', q W = some (facts, q') → (∀ F ∈ facts, F M) → q'.Counter M' → n < q'.count M' then .unsat else .unknown none

theorem perfectFunc_truthful [Doms] (q : FuncQuery) : FuncTruthful q (perfectFunc q) := by
  intro step n
  unfold perfectFunc
  split
  next h =>
    split at h
    next => cases h
    next => cases h
  next h =>
    split at h
    next h' => exact h'
    next => cases h
  next => trivial

theorem embed_top {c : Prop} (hc : c) : Pair.infinity.smtEq (Lat.inf (boolEmbed c) Pair.infinity) := by
  have h1 := (Pair.repr_iff.1 (C12_constants True 0 0).1)
  have h2 := (Pair.repr_iff.1 (C12_constants c 0 0).2.2.2.2.2.1)
  refine (Pair.smtEq_iff h1.1 (Pair.valid_branch h2.1 h1.1)).2 ?_
  rw [show (branch _ _ _ : Pair).abs = _ from Pair.abs_inf' (a := boolEmbed c) h1.1, Pair.abs_embed, if_pos hc, h1.2, min_self]

/-- If the formula follows from the assertions about functions, the unit is reported to verify. -/
theorem runs_proof [Doms] {o : EncodingOptions} {items : List SourceUnit} {g : Infra.DepGraph} {u : SourceUnit} {c : UnitCtx} {d : Dir} {T : Stmt} {E : Encoder}
    {ds : List DomainSpec} {e : Expr .bool} (hT : u.task = some (d, T)) (hE : mkEncoder o g ((domainSpecs items).map NamedSpec.spec) = some E)
    (hds : (translatedSpecs (u.deps g) (domainSpecs items)).map NamedSpec.spec = ds) (hp : Provable noCache E ds e)
    (hf : ∀ n, ∃ st, c.formula c80N n d T = some (c83F e, st) ∧ st.stmts = [] ∧ st.constraints = []) :
    RunsFunc noCache o items g u c c80N perfectFunc (.proof, none) := by
  have key : ∀ W, ∃ facts q, mkFuncQuery noCache E ds (c83F e) [] [] W = some (facts, q) ∧ ∀ M M', (∀ F ∈ facts, F M) → ¬ q.Counter M' := by
    intro W
    obtain ⟨fs, st, r, st', h1, h2, h3⟩ := hp W
    let _ := W.at E E.fuel
    have hq : ∃ vc, mkQuery noCache (c83F e) [] [] = some ⟨vc, st', [], []⟩ ∧ ∀ M, (show Prop from r M) → (show Prop from vc M) := by
      unfold c83F mkQuery
      simp only [Smt.trans, cached_no, transVars, transAll, Option.bind_eq_bind]
      show ∃ vc, (((((Smt.trans noCache e .new).bind fun x => some ((fun M => boolEmbed (α := Pair) (x.1 M) : Term .eureal), x.2)).bind fun x =>
        some ((fun M => (Lat.inf (α := Pair) (x.1 M) Pair.infinity) : Term .eureal), x.2)).bind fun x => some ((fun M => Pair.infinity.smtEq (x.1 M) : Term .bool), x.2)).bind
          fun a => some (⟨a.1, a.2, [], []⟩ : SliceQuery)) = _ ∧ _
      rw [h2]
      exact ⟨_, rfl, fun M hM => embed_top hM⟩
    obtain ⟨vc, hq, hvc⟩ := hq
    refine ⟨fs, ⟨vc, st', [], []⟩, ?_, fun M M' hM hc => hc.2.1 (hvc M' (h3 M M' hM hc.1))⟩
    unfold mkFuncQuery
    rw [h1]
    show (mkQuery noCache (c83F e) [] []).bind _ = _
    rw [hq]
    rfl
  refine ⟨0, fun n _ => ⟨5, ?_⟩⟩
  obtain ⟨st, h1, h2, h3⟩ := hf n
  unfold runFuncUnit
  simp only [hT, h1, hE, Option.bind_eq_bind, Option.bind_some]
  rw [hds, h2, h3]
  rw [if_pos (fun W => by obtain ⟨facts, q, h, -⟩ := key W; rw [h]; rfl)]
  have ha : perfectFunc (mkFuncQuery noCache E ds (c83F e) [] []) = fun _ _ => .unsat := by
    funext step k
    refine if_pos fun W facts q M M' hW hM hc => ?_
    obtain ⟨facts', q', h, hn⟩ := key W
    rw [h] at hW
    cases hW
    exact (hn M M' hM hc).elim
  rw [ha]
  rfl

/-- The strengthened definition of `f` also speaks about negative numbers and is contradictory (C51), so that `assert ?(f(0) = 1)` is reported to verify. But
the definition has a meaning: the constant `0`. -/
theorem C83_not_full : ¬ C83_full := by
  intro h
  let _ := unitDoms
  obtain ⟨g, hg⟩ : ∃ g, generateDepgraph c83E.encoding.inst c83P = some g := ⟨_, rfl⟩
  have hmem : strictFunc.name ∈ (SourceUnit.raw c83S).deps g := reachable_self hg List.mem_cons_self
  have htr : (translatedSpecs ((SourceUnit.raw c83S).deps g) (domainSpecs c83P)).map NamedSpec.spec = [.func strictDecl] := by
    show (List.filter _ [NamedSpec.func strictDecl]).map NamedSpec.spec = _
    rw [List.filter_cons_of_pos (a := NamedSpec.func strictDecl) (decide_eq_true hmem)]
    rfl
  have hrun : RunsFunc noCache c83E c83P g (.raw c83S) (c80C []) c80N perfectFunc (.proof, none) := by
    refine runs_proof (e := c83Goal) rfl rfl htr (fun W => ?_) c83_formula
    obtain ⟨fs, st, h1, h2⟩ := strict_facts W
    have hr : ∃ r st', @Smt.trans _ (W.at (.basic true) (Encoder.fuel (.basic true))) noCache _ c83Goal .new = some (r, st') := by
      unfold c83Goal
      simp only [Smt.trans, cached_no]
      exact ⟨_, _, rfl⟩
    obtain ⟨r', st'', hr⟩ := hr
    refine ⟨fs, st, r', st'', h1, hr, fun M M' hM _ => (h2 M hM).elim⟩
  let _ := unitInterp
  have hsat : Satisfied c83P := by
    intro specs hs s hs'
    obtain hs | hs : SourceUnit.domain specs = .domain [.func strictDecl] ∨ SourceUnit.domain specs = .raw c83S := by simpa [c83P] using hs
    · cases hs
      obtain rfl := List.mem_singleton.1 hs'
      exact strict_true
    · cases hs
  have := h unitDoms noCache c83E c83P g hg (.raw c83S) (by simp [c83P]) (c80C []) c80N .down c83S c83S [] rfl rfl (fun v hv => hv.elim)
    (fun v hv => by
      rcases (hv : (∃ i, _) ∨ False) with ⟨i, hv⟩ | hv
      · match i with
        | ⟨0, _⟩ => exact hv.elim
      · exact hv.elim)
    perfectFunc perfectFunc_truthful none hrun unitInterp ⟨fun _ => rfl, fun _ => rfl⟩ hsat sound_unknown trivial trivial
    ⟨.lfp, fun l _ _ φ σ => ⨅ σ' ∈ {σ' | Agree l σ σ'}, φ σ'⟩ (regular_havoc _) zeroEnv
  have h3 : (Expr.embed c83Goal).ev zeroEnv = ⊤ :=
    top_le_iff.1 ((le_of_eq (show ⊤ = min _ (⊤ : ENNReal) from this.symm)).trans (min_le_left _ _))
  have h4 : ¬ c83Goal.tv zeroEnv := fun h5 => absurd (show (0 : ℕ) = 1 from h5) (by decide)
  have h5 := (Expr.eval_embed _ _).symm.trans h3
  rw [if_neg (show ¬ holds (Expr.eval _ _) from h4)] at h5
  exact absurd (show (0 : ENNReal) = ⊤ from h5) (by simp)

/-! ## An example -/

/-- `assert ?(double(1) = 2)` -/
def c83D : Stmt := .assert .down (.embed doubleGoal)

def c83Q : List SourceUnit := [.domain [.func doubleDecl], .raw c83D]

/-- `--function-encoding fuel-mono-computation --no-partial-strengthening --no-synonym-axiom` -/
def c83E' : EncodingOptions := ⟨.fuelMonoComputation, true, 2, true⟩

theorem c83_formula' (n : Nat) : ∃ st, (c80C []).formula c80N n .down c83D = some (c83F doubleGoal, st) ∧ st.stmts = [] ∧ st.constraints = [] := by
  have h : ∃ args st, (c80C []).formula c80N n .down c83D = some (c83F (.rel .eq (.call doubleFunc args) (.lit (.uint 2))), st) ∧ st.stmts = [] ∧ st.constraints = [] ∧
      args = fun | ⟨0, _⟩ => .lit (.uint 1) := ⟨_, _, by with_unfolding_all rfl, rfl, rfl, funext fun | ⟨0, _⟩ => rfl⟩
  obtain ⟨_, st, h1, h2, h3, rfl⟩ := h
  exact ⟨st, h1, h2, h3⟩

/-- `assert ?(double(1) = 2)` is reported to verify, and by the theorem it does for the actual function. -/
example : let _ := unitDoms; let _ := doubleInterp; ∃ g, generateDepgraph c83E'.encoding.inst c83Q = some g ∧
    RunsFunc noCache c83E' c83Q g (.raw c83D) (c80C []) c80N perfectFunc (.proof, none) ∧
    ∀ C : SemCtx, C.Regular → ∀ σ, Succeeds .down (vcSem C c83D (postExp .down) σ) := by
  intro _ _
  have hsome : (generateDepgraph c83E'.encoding.inst c83Q).isSome = true := rfl
  obtain ⟨g, hg⟩ := Option.isSome_iff_exists.1 hsome
  have hmem : doubleFunc.name ∈ (SourceUnit.raw c83D).deps g := reachable_self hg List.mem_cons_self
  have htr : (translatedSpecs ((SourceUnit.raw c83D).deps g) (domainSpecs c83Q)).map NamedSpec.spec = [.func doubleDecl] := by
    show (List.filter _ [NamedSpec.func doubleDecl]).map NamedSpec.spec = _
    rw [List.filter_cons_of_pos (a := NamedSpec.func doubleDecl) (decide_eq_true hmem)]
    rfl
  have hdom : ∀ specs, SourceUnit.domain specs ∈ c83Q → ∀ s ∈ specs, s = .func doubleDecl := by
    intro specs hs s hs'
    obtain hs | hs : SourceUnit.domain specs = .domain [.func doubleDecl] ∨ SourceUnit.domain specs = .raw c83D := by simpa [c83Q] using hs
    · cases hs
      exact List.mem_singleton.1 hs'
    · cases hs
  have hrec : doubleFunc.name ∈ fuelFunctions g [.func doubleDecl] := by
    refine of_decide_eq_true (C72_recursion c83E' [doubleDecl.dep] [.func doubleDecl] g (.fuelMono (fuelOptions _ _ _)) (by simp [c83E'])
      (fun d hd => ?_) hg rfl doubleDecl (List.mem_singleton.2 rfl) ?_)
    · obtain rfl := List.mem_singleton.1 hd
      exact List.mem_singleton.2 rfl
    · exact .single ⟨doubleDecl, List.mem_singleton.2 rfl, rfl, doubleBody, rfl, .else _ _ _ (.binL _ _ _ (.here _ _ rfl))⟩
  have hrun : RunsFunc noCache c83E' c83Q g (.raw c83D) (c80C []) c80N perfectFunc (.proof, none) :=
    runs_proof (e := doubleGoal) rfl rfl htr (double_encoder_provable _ (decide_eq_true hrec)) c83_formula'
  refine ⟨g, hg, hrun, fun C hC => (C83_partial ⟨fun _ => rfl, fun _ => rfl⟩ noCache c83E' c83Q g _ (c80C []) c80N rfl .down c83D c83D [] rfl rfl sound_unknown
    ⟨fun v hv => hv.elim, fun v hv => ?_, (fun h => nomatch h), (fun h => nomatch h), trivial, trivial⟩ (fun n b st h => ?_) (fun specs hs s hs' => ?_)
    (fun specs hs s hs' _ => ?_) perfectFunc perfectFunc_truthful none hrun C hC).2⟩
  · rcases (hv : (∃ i, _) ∨ False) with ⟨i, hv⟩ | hv
    · match i with
      | ⟨0, _⟩ => exact hv.elim
    · exact hv.elim
  · obtain ⟨st', h1, -⟩ := c83_formula' n
    rw [h1] at h
    cases h
    exact ⟨trivial, double_supported.2, trivial, fun _ => trivial⟩
  · obtain rfl := hdom specs hs s hs'
    exact double_true
  · obtain rfl := hdom specs hs s hs'
    exact ⟨double_supported.1.2, fun h => by rcases h with h | h <;> cases h⟩

end Caesar.Driver
