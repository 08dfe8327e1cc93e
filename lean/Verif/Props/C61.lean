import Verif.Front.EstablishProg
import Verif.Props.C60

/-!
# C61: the front end establishes what verification relies on

Files which name resolution and type checking accept stand for well-formed programs (`WellFormed`): the assumptions of C24, C27, C18, C58 on names,
scopes and types. With C58 this gives a statement about files as they are written: names as in the source, no types.

The full property is false: the targets of a call need not be distinct (`C61_not_full`), and loops may havoc variables that they do not assign to
(`C61_not_locals`).
-/

namespace Caesar
namespace Front

/-- `us` is a file which name resolution and type checking accept; the result stands for the procedures `Ps`. `Γ` are the declarations of the
built-in names; they contain neither variables nor procedures. -/
structure Accepted (globals : List Ident) (Γ : Ctx) (us : List RUnit) (Ps : List Proc) : Prop where
  builtins : ∀ x ∈ globals, Γ x ≠ none
  noVars : ∀ x t k, Γ x ≠ some (.var t k)
  noProcs : ∀ x ins outs, Γ x ≠ some (.proc ins outs)
  fresh : Fresh Γ (bindsModule (annsOf globals Γ) us)
  calculus : ∀ u ∈ us, u.CalculusOk (globalNames us)
  args : ∀ u ∈ us, u.ArgsOk (annsOf globals Γ)
  run : ∃ us' Γ', frontEnd us (.new globals Γ) = some (us', Γ') ∧ ReadsFile Γ' us' Ps

/-- The full property. -/
def C61_full : Prop := ∀ (globals : List Ident) (Γ : Ctx) (us : List RUnit) (Ps : List Proc), Accepted globals Γ us Ps → WellFormed Ps

section
variable {globals : List Ident} {Γ : Ctx} {us : List RUnit} {Ps : List Proc}

theorem Accepted.program (h : Accepted globals Γ us Ps) : ∃ Γ', FileProgram (annsOf globals Γ) Γ Γ' us Ps := by
  obtain ⟨us', Γ', h1, h2⟩ := h.run
  exact ⟨Γ', fileProgram (new_rep h.builtins) h.fresh h.noVars h.args h.calculus h1 h2⟩

/-- Accepted files stand for well-formed programs, if calls have distinct targets, and loops with annotations assign to all the variables that they havoc.
Both are missing in the full property. -/
theorem C61_partial (h : Accepted globals Γ us Ps)
    (ht : ∀ P ∈ Ps, ∀ B, P.body = some B → ∀ lhs g args, B.Calls lhs g args → lhs.Nodup)
    (hh : ∀ P ∈ Ps, ∀ B, P.body = some B → B.HavocsAssigned) : WellFormed Ps := by
  obtain ⟨Γ', F⟩ := h.program
  refine ⟨F.names, fun P hP => ?_, fun P hP => ?_, fun P hP => ?_, fun P hP B hB => ?_, fun P hP B hB lhs g args hc => ?_, ht, fun P hP B hB => ?_⟩ <;>
    obtain ⟨p, hp⟩ := F.proc hP
  · exact hp.params
  · exact hp.requires
  · exact hp.ensures
  · exact F.ins hp hB
  · obtain ⟨-, Q, hQ, -, h1⟩ := F.calls h.noProcs hp hB hc
    exact ⟨Q, hQ, h1⟩
  · exact hp.locals hB (hh P hP B hB)

/-- The temporaries `old_x` for the parameters of a program are no variables of the file. (They have the span of a parameter, and another name.) -/
def TempsFresh (anns : Anns) (us : List RUnit) : Prop :=
  ∀ p, .proc p ∈ us → ∀ a ∈ p.proc.inputs, a.old.id ∉ (bindsModule anns us).map Prod.fst

/-- What is assumed about programs in addition to acceptance by the front end. None of it is about names, scopes or types, except the two gaps of `C61_partial`
and recursive calls which mention parameters. -/
structure Fragment [Doms] [Interp] (Ps : List Proc) (d : Dir) (cal : Ident → Option CalculusType) (ext : ProcSem) : Prop where
  dir : ∀ P ∈ Ps, P.dir = d
  posts : ∀ P ∈ Ps, P.ensures ≠ []
  noSubst : ∀ P ∈ Ps, ∀ e ∈ P.ensures, e.NoSubst
  noNeg : ∀ P ∈ Ps, ∀ B, P.body = some B → B.NoNeg
  noValidate : ∀ P ∈ Ps, ∀ B, P.body = some B → B.NoValidate
  dists : ∀ P ∈ Ps, ∀ B, P.body = some B → B.GoodDists
  unrolls : ∀ P ∈ Ps, ∀ B, P.body = some B → ∀ c, cal P.name = some c → B.UnrollsOk c.toFix
  targets : ∀ P ∈ Ps, ∀ B, P.body = some B → ∀ lhs g args, B.Calls lhs g args → lhs.Nodup
  havocs : ∀ P ∈ Ps, ∀ B, P.body = some B → B.HavocsAssigned
  clash : ∀ P ∈ Ps, ∀ B, P.body = some B → ∀ lhs args, B.Calls lhs P.name args → NoClash P lhs args
  ext : ExtOk (table Ps) ext

/-- Accepted files in this fragment satisfy the assumptions of C58. -/
theorem C61_program_partial [Doms] [Interp] {d : Dir} {cal : Ident → Option CalculusType} {ext : ProcSem} (h : Accepted globals Γ us Ps)
    (ho : TempsFresh (annsOf globals Γ) us) (hf : Fragment Ps d cal ext) : ProgramOk Ps d cal ext := by
  have hw := C61_partial h hf.targets hf.havocs
  obtain ⟨Γ', F⟩ := h.program
  have tab : ∀ {f P}, table Ps f = some P ↔ P ∈ Ps ∧ P.name = f := table_iff hw.names
  -- temporaries do not belong to procedures
  have told : ∀ {p P q Q}, ProcFacts (annsOf globals Γ) Γ' us p P → ProcFacts (annsOf globals Γ) Γ' us q Q → ∀ v ∈ Q.inputs.map Param.old,
      v.id ∉ p.own (annsOf globals Γ) := by
    intro p P q Q hp hq v hv hm
    rw [hq.inputs] at hv
    obtain ⟨a, ha, rfl⟩ := List.mem_map.1 hv
    refine ho q hq.src a ha ?_
    obtain ⟨b, hb, he⟩ := List.mem_map.1 hm
    exact List.mem_map.2 ⟨b, List.mem_append_right _ (List.mem_flatMap.2 ⟨_, hp.src, hb⟩), he⟩
  have temps : ∀ {p P}, ProcFacts (annsOf globals Γ) Γ' us p P → ∀ v, Temp (table Ps) v → v.id ∉ p.own (annsOf globals Γ) := by
    rintro p P hp v ⟨f, Q, hQ, hv⟩
    obtain ⟨q, hq⟩ := F.proc (tab.1 hQ).1
    exact told hp hq v hv
  have hold : ∀ {p P}, ProcFacts (annsOf globals Γ) Γ' us p P → (P.inputs.map Param.old).Nodup := by
    intro p P hp
    have h1 := hp.paramNames
    simp only [RProc.paramNames, List.map_append, List.map_map] at h1
    rw [hp.inputs]
    refine List.Nodup.of_map (fun v => v.id.name) ?_
    rw [List.map_map, show (fun v : Var => v.id.name) ∘ Param.old = (fun s => "old_" ++ s) ∘ (fun a : Param => a.var.id.name) from rfl, ← List.map_map]
    refine List.Nodup.map (fun a b hab => ?_) h1.of_append_left
    exact String.append_right_inj _ |>.1 hab
  refine ⟨hw.names, ⟨?_, ?_, ?_, ?_, ?_, ?_, ?_⟩, hf.ext, hf.posts, ?_, hw.locals, hf.unrolls, hf.noValidate, hf.dists⟩
  · exact fun f P hP => hf.dir P (tab.1 hP).1
  · intro f P hP
    have hP := (tab.1 hP).1
    obtain ⟨p, hp⟩ := F.proc hP
    refine ⟨hw.params P hP, hw.requires P hP, hw.ensures P hP, hf.noSubst P hP, hold hp, fun v hv => ?_⟩
    exact ⟨fun hm => told hp hp v hv (hp.params_own (.inl hm)), fun hm => told hp hp v hv (hp.params_own (.inr hm))⟩
  · intro f P hP v hv
    obtain ⟨p, hp⟩ := F.proc (tab.1 hP).1
    exact ⟨fun hm => temps hp v hv (hp.params_own (.inl hm)), fun hm => temps hp v hv (hp.params_own (.inr hm))⟩
  · exact fun f P B hP hB => hf.noNeg P (tab.1 hP).1 B hB
  · exact fun f P B hP hB => hw.ins P (tab.1 hP).1 B hB
  · intro f P B hP hB v hv hr
    obtain ⟨p, hp⟩ := F.proc (tab.1 hP).1
    exact temps hp v hv (hp.readsSome hB hr)
  · intro f P B hP hB lhs g args hc
    obtain ⟨p, hp⟩ := F.proc (tab.1 hP).1
    obtain ⟨q, Q, hQ, hq, h1, h2, h3⟩ := F.calls h.noProcs hp hB hc
    obtain ⟨h4, h5⟩ := hp.callVars hB hc
    exact ⟨Q, tab.2 ⟨hQ, h1⟩, h2, h3, fun a ha v hv hfr => told hp hq v hv (h4 a ha v hfr), fun v hv hm => told hp hq v hv (h5 v hm)⟩
  · intro P hP B hB lhs g args hc Q hQ
    obtain ⟨hQP, rfl⟩ := tab.1 hQ
    obtain ⟨p, hp⟩ := F.proc hP
    obtain ⟨q, hq⟩ := F.proc hQP
    by_cases hn : Q.name = P.name
    · obtain rfl : Q = P := Option.some.inj ((tab.2 ⟨hQP, rfl⟩).symm.trans (tab.2 ⟨hP, hn.symm⟩))
      exact hf.clash Q hP B hB lhs args hc
    · exact F.noClash hp hq hn hB hc (hf.targets P hP B hB _ _ _ hc)

/-- From the file to the meaning of its procedures: if name resolution and type checking accept the file, the checks on calculi accept the program, and the solver
accepts the verification conditions of all procedures, each annotated procedure satisfies its specification in the meaning that its calculus gives to the program.
Missing: programs outside the fragment, and annotated procedures which call procedures without annotation (see C58). -/
theorem C61_verified_partial [Doms] [Interp] [Smt.SmtInterp] (S : Smt.Faithful) {o : Oracle} (hos : o.Sound) (O : Smt.Oracle) (opts : LowerOptions)
    {d : Dir} {cal : Ident → Option CalculusType} {ext : ProcSem} {sccs : List (List Ident)} {procs' : ProcTable} (h : Accepted globals Γ us Ps)
    (ho : TempsFresh (annsOf globals Γ) us) (hf : Fragment Ps d cal ext) (hc : Checked Ps d cal sccs procs')
    (hv : ∀ f p', procs' f = some p' → SolverVerified o O opts procs' p') (p : Proc) (hp : p ∈ Ps) (c : CalculusType) (hcal : cal p.name = some c)
    (hann : ∀ q ∈ Ps, q.body ≠ none → Relation.ReflTransGen (Calls (bodies Ps)) p.name q.name → cal q.name ≠ none) :
    p.Meets (progSem c (table Ps) ext p.name) :=
  C58_solver_partial S hos O opts Ps d cal ext sccs procs' (C61_program_partial h ho hf) hc hv p hp c hcal hann

end

/-! ## Counterexamples -/

def c61Invariant : Ident := ⟨"invariant", 0⟩
def c61Wlp : Ident := ⟨"wlp", 1⟩

/-- Some of the built-in names. -/
def c61Globals : List Ident := [c61Invariant, c61Wlp]

def c61Ctx : Ctx := fun x => if x = c61Invariant then some (.annot .invariant) else if x = c61Wlp then some .other else none

theorem c61Ctx_globals : ∀ x ∈ c61Globals, c61Ctx x ≠ none := by
  intro x hx
  simp only [c61Globals, List.mem_cons, List.not_mem_nil, or_false] at hx
  rcases hx with rfl | rfl <;> simp [c61Ctx, c61Invariant, c61Wlp]

theorem c61Ctx_other {x : Ident} {d : RDecl} (h : c61Ctx x = some d) : d = .annot .invariant ∨ d = .other := by
  unfold c61Ctx at h
  split at h
  · exact .inl (Option.some.inj h).symm
  · split at h
    · exact .inr (Option.some.inj h).symm
    · exact nomatch h

theorem c61Ctx_fresh {ds : List (Ident × RDecl)} (h : (ds.map Prod.fst).Nodup) (h' : ∀ d ∈ ds, 2 ≤ d.1.span) : Fresh c61Ctx ds := by
  refine ⟨h, fun d hd => ?_⟩
  have := h' d hd
  unfold c61Ctx
  rw [if_neg, if_neg]
  · rintro he
    rw [he] at this
    exact absurd this (by decide)
  · rintro he
    rw [he] at this
    exact absurd this (by decide)

theorem c61_accepted {us us' : List RUnit} {Ps : List Proc} (hf : Fresh c61Ctx (bindsModule (annsOf c61Globals c61Ctx) us))
    (hc : ∀ u ∈ us, u.CalculusOk (globalNames us)) (ha : ∀ u ∈ us, u.ArgsOk (annsOf c61Globals c61Ctx))
    (hr : (frontEnd us (.new c61Globals c61Ctx)).map Prod.fst = some us')
    (hp : ∀ Γ', Ext (declCtx c61Ctx (bindsModule (annsOf c61Globals c61Ctx) us)) Γ' → ReadsFile Γ' us' Ps) : Accepted c61Globals c61Ctx us Ps := by
  obtain ⟨⟨us'', Γ'⟩, hfe, rfl⟩ := Option.map_eq_some_iff.1 hr
  refine ⟨c61Ctx_globals, fun x t k hx => ?_, fun x ins outs hx => ?_, hf, hc, ha, us'', Γ', hfe,
    hp _ (frontEnd_units (new_rep c61Ctx_globals) hf ha hc hfe).1⟩
  all_goals rcases c61Ctx_other hx with h | h <;> exact nomatch h

/-- `proc g() -> (a: UReal, b: UReal)`. -/
def c61Pair : SProc where
  proc := ⟨⟨"g", 10⟩, .down, [], [⟨⟨"a", 11⟩, .ureal⟩, ⟨⟨"b", 12⟩, .ureal⟩], [], none⟩
  calculus := none

/-- `proc f() -> (x: UReal) { x, x = g() }`. -/
def c61Twice : SProc where
  proc := ⟨⟨"f", 13⟩, .down, [], [⟨⟨"x", 14⟩, .ureal⟩], [], some [.assign [⟨"x", 15⟩, ⟨"x", 16⟩] (.call none ⟨"g", 17⟩ [])]⟩
  calculus := none

/-- The call with the target `x` twice. -/
def c61TwiceProc : Proc :=
  ⟨⟨"f", 13⟩, .down, [], [⟨⟨"x", 14⟩, .ureal⟩], [],
    some (.seq (.call false [⟨⟨"x", 14⟩, .ureal⟩, ⟨⟨"x", 14⟩, .ureal⟩] ⟨"g", 10⟩ []) .skip)⟩

theorem c61Twice_accepted : Accepted c61Globals c61Ctx [.proc c61Pair, .proc c61Twice]
    [⟨⟨"g", 10⟩, .down, [], [⟨⟨"a", 11⟩, .ureal⟩, ⟨⟨"b", 12⟩, .ureal⟩], [], none⟩, c61TwiceProc] := by
  refine c61_accepted (us' := [.proc c61Pair, .proc { c61Twice with proc := { c61Twice.proc with
      body := some [.assign [⟨"x", 14⟩, ⟨"x", 14⟩] (.call (some (.tuple [.ureal, .ureal])) ⟨"g", 10⟩ [])] } }])
    (c61Ctx_fresh (by decide) (by decide)) ?_ ?_ rfl fun Γ' hE => ?_
  · simp [c61Pair, c61Twice, RUnit.CalculusOk]
  · simp [c61Pair, c61Twice, RUnit.ArgsOk, ArgsOkB, RStmt.ArgsOk, RProc.block]
  · have hx : Assignable Γ' ⟨"x", 14⟩ .ureal := ⟨.output, hE.val rfl, .inr rfl⟩
    have hg : Γ' ⟨"g", 10⟩ = some (.proc [] [.ureal, .ureal]) := hE.decl (fun _ h => nomatch h) rfl
    refine .cons ⟨rfl, rfl, rfl, rfl, .nil, .none⟩ (.cons ⟨rfl, rfl, rfl, rfl, .nil, .some (.cons ?_ .nil)⟩ .nil)
    exact .call (lhs := [⟨⟨"x", 14⟩, .ureal⟩, ⟨⟨"x", 14⟩, .ureal⟩]) (.cons hx (.cons hx .nil)) rfl hg ⟨rfl, .nil⟩

/-- The full property is false: `x, x = g()` is accepted. -/
theorem C61_not_full : ¬ C61_full := fun h =>
  absurd ((h _ _ _ _ c61Twice_accepted).targets c61TwiceProc (.tail _ (.head _)) _ rfl _ _ _ (.inl ⟨rfl, rfl, rfl⟩)) (by decide)

/-- `proc h() -> (x: UReal) { @invariant(∞) while true { havoc x } }`. -/
def c61Havoc : SProc where
  proc := ⟨⟨"h", 20⟩, .down, [], [⟨⟨"x", 21⟩, .ureal⟩], [],
    some [.annot ⟨"invariant", 22⟩ [.lit none .infinity] (.while (.lit none (.bool true)) [.havoc .down [⟨"x", 23⟩]])]⟩
  calculus := none

/-- The loop. -/
def c61HavocLoop : Stmt := .annot (.invariant (.lit .infty)) (.while (.lit (.bool true)) (.seq (.havoc .down [⟨⟨"x", 21⟩, .ureal⟩]) .skip))

def c61HavocProc : Proc := ⟨⟨"h", 20⟩, .down, [], [⟨⟨"x", 21⟩, .ureal⟩], [], some (.seq c61HavocLoop .skip)⟩

theorem c61Havoc_accepted : Accepted c61Globals c61Ctx [.proc c61Havoc] [c61HavocProc] := by
  refine c61_accepted (us' := [.proc { c61Havoc with proc := { c61Havoc.proc with
      body := some [.annot c61Invariant [.lit (some (.val .eureal)) .infinity] (.while (.lit (some (.val .bool)) (.bool true)) [.havoc .down [⟨"x", 21⟩]])] } }])
    (c61Ctx_fresh (by decide) (by decide)) ?_ ?_ rfl fun Γ' hE => ?_
  · simp [c61Havoc, RUnit.CalculusOk]
  · simp [c61Havoc, RUnit.ArgsOk, ArgsOkB, RStmt.ArgsOk, RProc.block]
    have : annsOf c61Globals c61Ctx "invariant" = some (c61Invariant, .invariant) := rfl
    simp [this]
  · have hx : Assignable Γ' ⟨"x", 21⟩ .ureal := ⟨.output, hE.val rfl, .inr rfl⟩
    have hi : Γ' c61Invariant = some (.annot .invariant) := hE.decl (fun _ h => nomatch h) rfl
    refine .cons ⟨rfl, rfl, rfl, rfl, .nil, .some (.cons (.annot hi (.invariant (.lit .infinity)) (.while (.lit (.bool true)) (.cons ?_ .nil))) .nil)⟩ .nil
    exact .havoc (xs := [⟨⟨"x", 21⟩, .ureal⟩]) fun y hy => List.mem_singleton.1 hy ▸ hx

/-- The other gap: the loop changes the output, but no assignment in the loop does. -/
theorem C61_not_locals : Accepted c61Globals c61Ctx [.proc c61Havoc] [c61HavocProc] ∧
    ¬ (Stmt.seq c61HavocLoop .skip).LocalsOk (fun v => v ∉ c61HavocProc.ins ∧ v ∉ c61HavocProc.outputs) :=
  ⟨c61Havoc_accepted, fun h => (h.2.1 ⟨⟨"x", 21⟩, .ureal⟩ ⟨.inl (.head _), by decide⟩).1.2.elim (fun h => h.2 (.head _)) id⟩

/-! ## Examples -/

/-- `@wlp proc f(x: UInt) -> (y: UReal) pre x post y { var z: UReal = g(x); y = z }`. -/
def c61F : SProc where
  proc := {
    name := ⟨"f", 30⟩
    dir := .down
    inputs := [⟨⟨⟨"x", 31⟩, .uint⟩, 31⟩]
    outputs := [⟨⟨"y", 32⟩, .ureal⟩]
    spec := [.requires (.var none ⟨"x", 33⟩), .ensures (.var none ⟨"y", 34⟩)]
    body := some [.var ⟨"z", 35⟩ .ureal (some (.call none ⟨"g", 36⟩ [.var none ⟨"x", 37⟩])), .assign [⟨"y", 38⟩] (.var none ⟨"z", 39⟩)] }
  calculus := some ⟨"wlp", 29⟩

/-- `@wlp proc g(x: UInt) -> (y: UReal) pre x post y { y = x; @invariant(y) while y <= x { var z: UReal = y; y = z + 1 } }`. -/
def c61G : SProc where
  proc := {
    name := ⟨"g", 50⟩
    dir := .down
    inputs := [⟨⟨⟨"x", 51⟩, .uint⟩, 51⟩]
    outputs := [⟨⟨"y", 52⟩, .ureal⟩]
    spec := [.requires (.var none ⟨"x", 53⟩), .ensures (.var none ⟨"y", 54⟩)]
    body := some [.assign [⟨"y", 55⟩] (.var none ⟨"x", 56⟩),
      .annot ⟨"invariant", 57⟩ [.var none ⟨"y", 58⟩] (.while (.bin none .le (.var none ⟨"y", 59⟩) (.var none ⟨"x", 60⟩))
        [.var ⟨"z", 61⟩ .ureal (some (.var none ⟨"y", 62⟩)), .assign [⟨"y", 63⟩] (.bin none .add (.var none ⟨"z", 64⟩) (.lit none (.uint 1)))])] }
  calculus := some ⟨"wlp", 49⟩

def c61File : List RUnit := [.proc c61F, .proc c61G]

/-- Types. -/
def tyN : Option RTy := some (.val .uint)
def tyR : Option RTy := some (.val .ureal)
def tyE : Option RTy := some (.val .eureal)

/-- The result of both phases. -/
def c61Typed : List RUnit :=
  [.proc ⟨{ c61F.proc with
      spec := [.requires (.cast tyE (.var tyN ⟨"x", 31⟩)), .ensures (.cast tyE (.var tyR ⟨"y", 32⟩))],
      body := some [.var ⟨"z", 35⟩ .ureal (some (.call (some (.tuple [.ureal])) ⟨"g", 50⟩ [.var tyN ⟨"x", 31⟩])), .assign [⟨"y", 32⟩] (.var tyR ⟨"z", 35⟩)] },
      some c61Wlp⟩,
    .proc ⟨{ c61G.proc with
      spec := [.requires (.cast tyE (.var tyN ⟨"x", 51⟩)), .ensures (.cast tyE (.var tyR ⟨"y", 52⟩))],
      body := some [.assign [⟨"y", 52⟩] (.cast tyR (.var tyN ⟨"x", 51⟩)),
        .annot c61Invariant [.cast tyE (.var tyR ⟨"y", 52⟩)] (.while (.bin (some (.val .bool)) .le (.var tyR ⟨"y", 52⟩) (.cast tyR (.var tyN ⟨"x", 51⟩)))
          [.var ⟨"z", 61⟩ .ureal (some (.var tyR ⟨"y", 52⟩)),
            .assign [⟨"y", 52⟩] (.bin tyR .add (.var tyR ⟨"z", 61⟩) (.cast tyR (.lit tyN (.uint 1))))])] },
      some c61Wlp⟩]

/-- Variables. -/
def c61Fx : Var := ⟨⟨"x", 31⟩, .uint⟩
def c61Fy : Var := ⟨⟨"y", 32⟩, .ureal⟩
def c61Fz : Var := ⟨⟨"z", 35⟩, .ureal⟩
def c61Gx : Var := ⟨⟨"x", 51⟩, .uint⟩
def c61Gy : Var := ⟨⟨"y", 52⟩, .ureal⟩
def c61Gz : Var := ⟨⟨"z", 61⟩, .ureal⟩

def c61FBody : Stmt := .seq (.call true [c61Fz] ⟨"g", 50⟩ [⟨.uint, .var c61Fx.id⟩]) (.seq (.assign c61Fy (.var c61Fz.id)) .skip)

def c61GBody : Stmt := .seq (.assign c61Gy (.cast .uintUReal (.var c61Gx.id))) (.seq
  (.annot (.invariant (.cast .urealEUReal (.var c61Gy.id))) (.while (.rel (.le rfl) (.var c61Gy.id) (.cast .uintUReal (.var c61Gx.id)))
    (.seq (.varInit c61Gz (.var c61Gy.id)) (.seq (.assign c61Gy (.bin (.add rfl) (.var c61Gz.id) (.cast .uintUReal (.lit (.uint 1))))) .skip)))) .skip)

/-- The procedures of the file. -/
def c61FProc : Proc := ⟨⟨"f", 30⟩, .down, [⟨c61Fx, 31⟩], [c61Fy], [.requires (.cast .uintEUReal (.var c61Fx.id)), .ensures (.cast .urealEUReal (.var c61Fy.id))], some c61FBody⟩
def c61GProc : Proc := ⟨⟨"g", 50⟩, .down, [⟨c61Gx, 51⟩], [c61Gy], [.requires (.cast .uintEUReal (.var c61Gx.id)), .ensures (.cast .urealEUReal (.var c61Gy.id))], some c61GBody⟩

theorem c61File_accepted : Accepted c61Globals c61Ctx c61File [c61FProc, c61GProc] := by
  refine c61_accepted (us' := c61Typed) (c61Ctx_fresh (by decide) (by decide)) ?_ ?_ rfl fun Γ' hE => ?_
  · simp [c61File, c61F, c61G, RUnit.CalculusOk, globalNames, RUnit.names, RUnit.items, RProc.paramNames]
    constructor <;> rintro x (rfl | rfl) <;> simp
  · have : annsOf c61Globals c61Ctx "invariant" = some (c61Invariant, .invariant) := rfl
    simp [c61File, c61F, c61G, RUnit.ArgsOk, ArgsOkB, RStmt.ArgsOk, RProc.block, this]
  · have fx : Γ' c61Fx.id = some (.var (.val .uint) .input) := hE.val rfl
    have fy : Γ' c61Fy.id = some (.var (.val .ureal) .output) := hE.val rfl
    have fz : Γ' c61Fz.id = some (.var (.val .ureal) .mut) := hE.val rfl
    have gx : Γ' c61Gx.id = some (.var (.val .uint) .input) := hE.val rfl
    have gy : Γ' c61Gy.id = some (.var (.val .ureal) .output) := hE.val rfl
    have gz : Γ' c61Gz.id = some (.var (.val .ureal) .mut) := hE.val rfl
    have hg : Γ' ⟨"g", 50⟩ = some (.proc [.uint] [.ureal]) := hE.decl (fun _ h => nomatch h) rfl
    have hi : Γ' c61Invariant = some (.annot .invariant) := hE.decl (fun _ h => nomatch h) rfl
    refine .cons ⟨rfl, rfl, rfl, rfl, .cons (.requires (.cast _ (.var fx))) (.cons (.ensures (.cast _ (.var fy))) .nil),
      .some (.cons (.varCall ⟨_, fz, .inl rfl⟩ hg ⟨rfl, .cons (.var fx) .nil⟩) (.cons (.assign ⟨_, fy, .inr rfl⟩ (.var fz)) .nil))⟩ (.cons ⟨rfl, rfl, rfl, rfl,
      .cons (.requires (.cast _ (.var gx))) (.cons (.ensures (.cast _ (.var gy))) .nil),
      .some (.cons (.assign ⟨_, gy, .inr rfl⟩ (.cast _ (.var gx))) (.cons (.annot hi (.invariant (.cast _ (.var gy)))
        (.while (.rel rfl (.var gy) (.cast _ (.var gx))) (.cons (.varInit ⟨_, gz, .inl rfl⟩ (.var gy))
          (.cons (.assign ⟨_, gy, .inr rfl⟩ (.bin rfl (.var gz) (.cast _ (.lit (.uint 1))))) .nil)))) .nil))⟩ .nil)

theorem c61File_temps : TempsFresh (annsOf c61Globals c61Ctx) c61File := by
  intro p hp a ha
  rcases List.mem_cons.1 hp with h | h
  · cases h
    obtain rfl := List.mem_singleton.1 ha
    decide
  · cases List.mem_singleton.1 h
    obtain rfl := List.mem_singleton.1 ha
    decide

theorem c61File_all {R : Proc → Prop} (hf : R c61FProc) (hg : R c61GProc) : ∀ P ∈ [c61FProc, c61GProc], R P := by
  intro P h
  rcases List.mem_cons.1 h with rfl | h
  · exact hf
  · rw [List.mem_singleton.1 h]; exact hg

theorem c61File_fragment [Doms] [Interp] : Fragment [c61FProc, c61GProc] .down (fun _ => some .wlp) (fun _ φ => φ) where
  dir := c61File_all rfl rfl
  posts := c61File_all (List.cons_ne_nil _ _) (List.cons_ne_nil _ _)
  noSubst := c61File_all (fun e he => by rw [List.mem_singleton.1 he]; trivial) (fun e he => by rw [List.mem_singleton.1 he]; trivial)
  noNeg := c61File_all (by rintro B ⟨⟩; exact ⟨trivial, trivial, trivial⟩) (by rintro B ⟨⟩; exact ⟨trivial, ⟨trivial, trivial, trivial⟩, trivial⟩)
  noValidate := c61File_all (by rintro B ⟨⟩; exact ⟨trivial, trivial, trivial⟩) (by rintro B ⟨⟩; exact ⟨trivial, ⟨trivial, trivial, trivial⟩, trivial⟩)
  dists := c61File_all (by rintro B ⟨⟩; exact ⟨trivial, trivial, trivial⟩) (by rintro B ⟨⟩; exact ⟨trivial, ⟨trivial, trivial, trivial⟩, trivial⟩)
  unrolls := c61File_all (by rintro B ⟨⟩ c -; exact ⟨trivial, trivial, trivial⟩) (by rintro B ⟨⟩ c -; exact ⟨trivial, ⟨trivial, trivial, trivial⟩, trivial⟩)
  targets := c61File_all (by
      rintro B ⟨⟩ lhs g args (⟨rfl, -⟩ | h | h)
      · exact List.nodup_singleton _
      · exact h.elim
      · exact h.elim) (by
      rintro B ⟨⟩ lhs g args (h | (h | h | h) | h) <;> exact h.elim)
  havocs := c61File_all (by rintro B ⟨⟩; exact ⟨trivial, trivial, trivial⟩) (by
      rintro B ⟨⟩
      exact ⟨trivial, ⟨(fun v hv => by rcases hv with h | h | h <;> exact h.elim), trivial, trivial, trivial⟩, trivial⟩)
  clash := c61File_all (by
      rintro B ⟨⟩ lhs args (⟨-, h, -⟩ | h | h)
      · exact absurd h (by decide)
      · exact h.elim
      · exact h.elim) (by
      rintro B ⟨⟩ lhs args (h | (h | h | h) | h) <;> exact h.elim)
  ext := by
    have ha : ∀ P ∈ [c61FProc, c61GProc], P.body ≠ none := c61File_all (fun h => nomatch h) (fun h => nomatch h)
    have hb : ∀ f p, table [c61FProc, c61GProc] f = some p → p.body ≠ none := fun f p hp => ha p ((table_iff (by decide)).1 hp).1
    exact ⟨fun f a b h => h, fun f p hp h => (hb f p hp h).elim, fun f p hp h => (hb f p hp h).elim⟩

/-- The file meets the assumptions, and stands for a well-formed program. -/
example : WellFormed [c61FProc, c61GProc] :=
  let _ := unitDoms
  let _ := unitInterp
  C61_partial c61File_accepted c61File_fragment.targets c61File_fragment.havocs

/-- It also meets the assumptions of C58. -/
example [Doms] [Interp] : ProgramOk [c61FProc, c61GProc] .down (fun _ => some .wlp) (fun _ φ => φ) :=
  C61_program_partial c61File_accepted c61File_temps c61File_fragment

/-! ## A file whose verification conditions are accepted -/

/-- `@wlp proc f() -> () pre 1 post 1 { g() }`. -/
def c61SF : SProc where
  proc := ⟨⟨"f", 0⟩, .down, [], [], [.requires (.lit none (.uint 1)), .ensures (.lit none (.uint 1))], some [.assign [] (.call none ⟨"g", 3⟩ [])]⟩
  calculus := some ⟨"wlp", 4⟩

/-- `@wlp proc g() -> () pre 1 post 1 { @invariant(1) while true {} }`. -/
def c61SG : SProc where
  proc := ⟨⟨"g", 0⟩, .down, [], [], [.requires (.lit none (.uint 1)), .ensures (.lit none (.uint 1))],
    some [.annot ⟨"invariant", 5⟩ [.lit none (.uint 1)] (.while (.lit none (.bool true)) [])]⟩
  calculus := some ⟨"wlp", 6⟩

def c61Small : List RUnit := [.proc c61SF, .proc c61SG]

/-- The expression `1`. -/
def c61One : Expr .eureal := .cast .uintEUReal (.lit (.uint 1))

def c61SLoop : Stmt := .seq (.annot (.invariant c61One) (.while (.lit (.bool true)) .skip)) .skip

def c61SFProc : Proc := ⟨⟨"f", 0⟩, .down, [], [], [.requires c61One, .ensures c61One], some (.seq (.call false [] ⟨"g", 0⟩ []) .skip)⟩
def c61SGProc : Proc := ⟨⟨"g", 0⟩, .down, [], [], [.requires c61One, .ensures c61One], some c61SLoop⟩
def c61SGProc' : Proc := { c61SGProc with body := some (.seq (transformKInduction .down 1 c61One (.lit (.bool true)) .skip) .skip) }

def c61S : List Proc := [c61SFProc, c61SGProc]
def c61S' : List Proc := [c61SFProc, c61SGProc']

/-- The literal with its cast. -/
def c61SOne : RExpr := .cast tyE (.lit tyN (.uint 1))

theorem c61Small_accepted : Accepted c61Globals c61Ctx c61Small c61S := by
  refine c61_accepted (us' := [
      .proc ⟨{ c61SF.proc with spec := [.requires c61SOne, .ensures c61SOne], body := some [.assign [] (.call (some (.tuple [])) ⟨"g", 0⟩ [])] }, some c61Wlp⟩,
      .proc ⟨{ c61SG.proc with spec := [.requires c61SOne, .ensures c61SOne], body := some [.annot c61Invariant [c61SOne] (.while (.lit (some (.val .bool)) (.bool true)) [])] },
        some c61Wlp⟩])
    ⟨by decide, ?_⟩ ?_ ?_ rfl fun Γ' hE => ?_
  · intro d hd
    have : bindsModule (annsOf c61Globals c61Ctx) c61Small = [(⟨"f", 0⟩, .proc [] []), (⟨"g", 0⟩, .proc [] [])] := rfl
    rw [this] at hd
    rcases List.mem_cons.1 hd with rfl | hd
    · rfl
    · rw [List.mem_singleton.1 hd]; rfl
  · simp [c61Small, c61SF, c61SG, RUnit.CalculusOk, globalNames, RUnit.names, RUnit.items, RProc.paramNames]
  · have : annsOf c61Globals c61Ctx "invariant" = some (c61Invariant, .invariant) := rfl
    simp [c61Small, c61SF, c61SG, RUnit.ArgsOk, ArgsOkB, RStmt.ArgsOk, RProc.block, this]
  · have hg : Γ' ⟨"g", 0⟩ = some (.proc [] []) := hE.decl (fun _ h => nomatch h) rfl
    have hi : Γ' c61Invariant = some (.annot .invariant) := hE.decl (fun _ h => nomatch h) rfl
    have h1 : Reads Γ' c61SOne .eureal c61One := .cast _ (.lit (.uint 1))
    exact .cons ⟨rfl, rfl, rfl, rfl, .cons (.requires h1) (.cons (.ensures h1) .nil), .some (.cons (.call (lhs := []) .nil rfl hg ⟨rfl, .nil⟩) .nil)⟩ (.cons
      ⟨rfl, rfl, rfl, rfl, .cons (.requires h1) (.cons (.ensures h1) .nil), .some (.cons (.annot hi (.invariant h1) (.while (.lit (.bool true)) .nil)) .nil)⟩ .nil)

theorem c61S_all {R : Proc → Prop} (hf : R c61SFProc) (hg : R c61SGProc) : ∀ P ∈ c61S, R P := by
  intro P h
  rcases List.mem_cons.1 h with rfl | h
  · exact hf
  · rw [List.mem_singleton.1 h]; exact hg

theorem c61S_cases {f : Ident} {p : Proc} (h : table c61S f = some p) : (f = ⟨"f", 0⟩ ∧ p = c61SFProc) ∨ (f = ⟨"g", 0⟩ ∧ p = c61SGProc) := by
  obtain ⟨h1, h2⟩ := (table_iff (P := c61S) (by decide)).1 h
  rcases List.mem_cons.1 h1 with rfl | h1
  · exact .inl ⟨h2.symm, rfl⟩
  · obtain rfl := List.mem_singleton.1 h1
    exact .inr ⟨h2.symm, rfl⟩

theorem c61S'_cases {f : Ident} {p : Proc} (h : table c61S' f = some p) : (f = ⟨"f", 0⟩ ∧ p = c61SFProc) ∨ (f = ⟨"g", 0⟩ ∧ p = c61SGProc') := by
  obtain ⟨h1, h2⟩ := (table_iff (P := c61S') (by decide)).1 h
  rcases List.mem_cons.1 h1 with rfl | h1
  · exact .inl ⟨h2.symm, rfl⟩
  · obtain rfl := List.mem_singleton.1 h1
    exact .inr ⟨h2.symm, rfl⟩

section
variable [Doms] [Interp]

theorem c61S_fragment : Fragment c61S .down (fun _ => some .wlp) (fun _ φ => φ) where
  dir := c61S_all rfl rfl
  posts := c61S_all (List.cons_ne_nil _ _) (List.cons_ne_nil _ _)
  noSubst := c61S_all (fun e he => by rw [List.mem_singleton.1 he]; trivial) (fun e he => by rw [List.mem_singleton.1 he]; trivial)
  noNeg := c61S_all (by rintro B ⟨⟩; exact ⟨trivial, trivial⟩) (by rintro B ⟨⟩; exact ⟨trivial, trivial⟩)
  noValidate := c61S_all (by rintro B ⟨⟩; exact ⟨trivial, trivial⟩) (by rintro B ⟨⟩; exact ⟨trivial, trivial⟩)
  dists := c61S_all (by rintro B ⟨⟩; exact ⟨trivial, trivial⟩) (by rintro B ⟨⟩; exact ⟨trivial, trivial⟩)
  unrolls := c61S_all (by rintro B ⟨⟩ c -; exact ⟨trivial, trivial⟩) (by rintro B ⟨⟩ c -; exact ⟨trivial, trivial⟩)
  targets := c61S_all (by
      rintro B ⟨⟩ lhs g args (⟨rfl, -⟩ | h)
      · exact List.nodup_nil
      · exact h.elim) (by rintro B ⟨⟩ lhs g args (h | h) <;> exact h.elim)
  havocs := c61S_all (by rintro B ⟨⟩; exact ⟨trivial, trivial⟩) (by rintro B ⟨⟩; exact ⟨⟨fun v hv => hv.elim, trivial⟩, trivial⟩)
  clash := c61S_all (by
      rintro B ⟨⟩ lhs args (⟨-, h, -⟩ | h)
      · exact absurd h (by decide)
      · exact h.elim) (by rintro B ⟨⟩ lhs args (h | h) <;> exact h.elim)
  ext := by
    have ha : ∀ P ∈ c61S, P.body ≠ none := c61S_all (fun h => nomatch h) (fun h => nomatch h)
    have hb : ∀ f p, table c61S f = some p → p.body ≠ none := fun f p hp => ha p ((table_iff (by decide)).1 hp).1
    exact ⟨fun f a b h => h, fun f p hp h => (hb f p hp h).elim, fun f p hp h => (hb f p hp h).elim⟩

omit [Doms] [Interp] in
theorem c61S_encoded : LoopsEncoded .down (table c61S) (table c61S') := by
  refine ⟨fun f hf => ?_, fun f p hp => ?_⟩
  · cases h : table c61S' f with
    | none => rfl
    | some p => rcases c61S'_cases h with ⟨rfl, -⟩ | ⟨rfl, -⟩ <;> exact nomatch hf
  · rcases c61S_cases hp with ⟨rfl, rfl⟩ | ⟨rfl, rfl⟩
    · exact ⟨_, rfl, (fun h => nomatch h), fun B hB => by cases hB; exact ⟨_, rfl, rfl⟩⟩
    · exact ⟨_, rfl, (fun h => nomatch h), fun B hB => by cases hB; exact ⟨_, rfl, rfl⟩⟩

theorem c61S_checked : Checked c61S .down (fun _ => some .wlp) [[⟨"g", 0⟩], [⟨"f", 0⟩]] (table c61S') := by
  have hrec : ∀ f, ¬ ∃ b ∈ findRecursive (callGraph (bodies c61S)) [[⟨"g", 0⟩], [⟨"f", 0⟩]], b.recursive = f := by
    rintro f ⟨b, hb, -⟩
    have : findRecursive (callGraph (bodies c61S)) [[⟨"g", 0⟩], [⟨"f", 0⟩]] = [] := rfl
    rw [this] at hb
    exact absurd hb List.not_mem_nil
  refine ⟨c58_sccs, fun p hp B hB => ?_, c61S_encoded, c61S_all (by rintro B ⟨⟩; rfl) (by rintro B ⟨⟩; rfl)⟩
  rw [decide_eq_false (hrec p.name), C33_recursion]
  refine ⟨(fun h => nomatch h), fun c' hc' => ?_⟩
  obtain ⟨x, -, hx⟩ := List.mem_map.1 hc'
  exact (Option.some.inj hx).symm

theorem c61S_tasks {f : Ident} {p' : Proc} (h : table c61S' f = some p') {d : Dir} {T : Stmt} (hT : encodeProcVerify p' = some (d, T)) :
    d = .down ∧ ∃ T' e, specCall (table c61S') .down T [] = some (T', []) ∧ coreVc .down T' = .ok e ∧ VcHolds .down e ∧
      T'.All (fun e => ∀ v, e.Occurs v → v.id ∈ TyCtx.new.decls) (fun x => x.id ∈ TyCtx.new.decls) ∧
      (∀ n, lowerQuant (fun _ _ => false) 0 0 0 ⟨true, true, true, false⟩ n .down e (TyCtx.new, 0) = some (intoBoolVc .down e, (TyCtx.new, 0))) ∧
      Smt.FinSub (intoBoolVc .down e) ∧ ∀ _ : Smt.SmtInterp, ∃ r st, Smt.trans Smt.noCache (intoBoolVc .down e) .new = some (r, st) := by
  let C : SemCtx := ⟨.lfp, fun l _ _ φ σ => ⨅ σ' ∈ {σ' | Agree l σ σ'}, φ σ'⟩
  have key : ∀ {T T' e} {R : Stmt → Expr .eureal → Prop}, specCall (table c61S') .down T [] = some (T', []) → coreVc .down T' = .ok e → (T'.Guarded ∧ T'.GoodDists) →
      (∀ σ, vcSem C T' (fun _ => ⊤) σ = ⊤) → R T' e → ∃ T' e, specCall (table c61S') .down T [] = some (T', []) ∧
        coreVc .down T' = .ok e ∧ VcHolds .down e ∧ R T' e := by
    intro T T' e R h1 h2 h3 h5 h6
    refine ⟨T', e, h1, h2, fun σ => ?_, h6⟩
    have := vcgen_sound C h2 (h3.1.validateOk _) h3.2
    rw [terminal_ev] at this
    exact (congrFun this σ).trans (h5 σ)
  have hlit : ∀ v, c61One.Occurs v → v.id ∈ TyCtx.new.decls := fun v h => h.elim
  rcases c61S'_cases h with ⟨rfl, rfl⟩ | ⟨rfl, rfl⟩
  · obtain ⟨rfl, rfl⟩ := Prod.mk.inj (Option.some.inj hT)
    refine ⟨rfl, key rfl rfl ⟨?_, ?_⟩ (fun σ => ?_) ⟨?_, (fun n => rfl), ?_, fun _ => ?_⟩⟩
    · exact ⟨trivial, ⟨⟨trivial, trivial, trivial, trivial⟩, trivial⟩, trivial, trivial⟩
    · exact ⟨trivial, ⟨⟨trivial, trivial, trivial, trivial⟩, trivial⟩, trivial, trivial⟩
    · refine if_pos (show c61One.ev σ ≤ min (c61One.ev σ) _ from le_min le_rfl (le_iInf₂ fun σ' _ => ?_))
      refine le_of_le_of_eq le_top (if_pos ?_).symm
      exact le_min le_rfl le_top
    · exact ⟨hlit, ⟨⟨hlit, fun x hx => absurd hx List.not_mem_nil, hlit, trivial⟩, trivial⟩, hlit, trivial⟩
    · simp only [intoBoolVc, Smt.FinSub, Expr.topLit]
      repeat' (first | exact trivial | exact fun _ => trivial | constructor)
    · simp only [intoBoolVc, Expr.topLit, Smt.trans, Smt.cached_no]
      exact ⟨_, _, rfl⟩
  · obtain ⟨rfl, rfl⟩ := Prod.mk.inj (Option.some.inj hT)
    refine ⟨rfl, key rfl rfl ⟨?_, ?_⟩ (fun σ => ?_) ⟨?_, (fun n => rfl), ?_, fun _ => ?_⟩⟩
    · exact ⟨trivial, ⟨transform_guarded (c := .lit (.bool true)) (b := .skip) trivial 1 c61One .down, trivial⟩, trivial, trivial⟩
    · exact ⟨trivial, ⟨transform_goodDists (c := .lit (.bool true)) (b := .skip) trivial 1 c61One .down, trivial⟩, trivial, trivial⟩
    · refine if_pos (show c61One.ev σ ≤ vcSem C (transformKInduction .down 1 c61One (.lit (.bool true)) .skip) _ σ from ?_)
      rw [transformKInduction_sem]
      refine le_of_eq (if_pos ?_).symm
      intro σ' _
      exact le_of_eq (if_pos (show (Expr.lit (.bool true)).tv σ' from rfl)).symm
    · refine ⟨hlit, ⟨⟨hlit, (fun x hx => absurd hx List.not_mem_nil), trivial, hlit, ⟨?_, ⟨trivial, hlit, ?_, trivial⟩, trivial⟩, trivial⟩, trivial⟩, hlit, trivial⟩
      · exact fun v h => h.elim
      · exact fun v h => h.elim
    · simp only [intoBoolVc, Smt.FinSub, Expr.topLit]
      repeat' (first | exact trivial | exact fun _ => trivial | constructor)
    · simp only [intoBoolVc, Expr.topLit, Smt.trans, Smt.cached_no]
      exact ⟨_, _, rfl⟩

/-- All assumptions of `C61_verified_partial` hold for the file. -/
example [Smt.SmtInterp] (S : Smt.Faithful) : c61SFProc.Meets (progSem .wlp (table c61S) (fun _ φ => φ) ⟨"f", 0⟩) := by
  refine C61_verified_partial S (o := fun _ _ => false) (fun _ _ h => nomatch h) Smt.noCache ⟨true, true, true, false⟩ c61Small_accepted ?_ c61S_fragment c61S_checked
    (fun f p' h => ?_) c61SFProc (.head _) .wlp rfl fun q _ _ _ h => nomatch h
  · intro p hp a ha
    rcases List.mem_cons.1 hp with h | h
    · cases h; exact nomatch ha
    · cases List.mem_singleton.1 h; exact nomatch ha
  · intro d T hT
    obtain ⟨rfl, T', e, h1, h2, h3, h4, h5, h6, h7⟩ := c61S_tasks h hT
    obtain ⟨r, st, h7⟩ := h7 _
    refine ⟨[], T', [], e, h1, h2, (TyCtx.new, 0), 0, 0, 0, h4, (fun h => nomatch h), (fun h => nomatch h), fun N =>
      ⟨N, le_rfl, _, _, r, st, h5 N, h6, h7, (Smt.C50_validity_partial S _ _ h6 h7).2 fun σ => ?_⟩⟩
    exact (Expr.eval_topLit rfl σ).trans (h3 σ).symm

end

end Front
end Caesar
