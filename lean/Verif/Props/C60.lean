import Verif.Front.Module

/-!
# C60: Names refer to the declarations of lexical scoping

The specification is `lexModule` in `Verif.Front.Lexical`: an environment that is handed down the syntax tree. `Resolve` is a stack of scopes that visits open and
close, together with the table of declarations.
-/

namespace Caesar
namespace Front

/-! ## Statement -/

/-- The built-in declaration of a name. -/
def builtinOf (globals : List Ident) (n : String) : Option Ident := globals.find? fun x => x.name = n

/-- The built-in annotation of a name. -/
def annsOf (globals : List Ident) (Γ : Ctx) (n : String) : Option (Ident × AnnKind) :=
  match builtinOf globals n with
  | none => none
  | some x =>
    match Γ x with
    | some (.annot k) => some (x, k)
    | _ => none

/-- Name resolution of a file gives what lexical scoping gives, and records all declarations in the file. If names are missing or declared twice, there is an
error, and no panic. -/
def ResolvesLexically (globals : List Ident) (Γ : Ctx) (us : List RUnit) : Prop :=
  match lexModule (builtinOf globals) (annsOf globals Γ) us with
  | some us' => ∃ st', resModule us (.new globals Γ) = .ok (us', st') ∧ st'.ctx = declCtx Γ (bindsModule (annsOf globals Γ) us)
  | none => ∃ err, resModule us (.new globals Γ) = .error err ∧ err ≠ .panic

/-- The full property. `Γ` are the declarations of the built-in names. -/
def C60_full : Prop :=
  ∀ (globals : List Ident) (Γ : Ctx) (us : List RUnit), (∀ x ∈ globals, Γ x ≠ none) → Fresh Γ (bindsModule (annsOf globals Γ) us) →
    ResolvesLexically globals Γ us

/-! ## Counterexamples -/

def c60Len : Ident := ⟨"len", 0⟩
def c60Wp : Ident := ⟨"wp", 1⟩
def c60Omega : Ident := ⟨"omega_invariant", 2⟩
def c60Ost : Ident := ⟨"ost", 3⟩

/-- Some of the built-in names. -/
def c60Globals : List Ident := [c60Len, c60Wp, c60Omega, c60Ost]

def c60Ctx : Ctx := fun x =>
  if x = c60Len then some (.listOp .len)
  else if x = c60Wp then some .other
  else if x = c60Omega then some (.annot .omegaInvariant)
  else if x = c60Ost then some (.annot .ost)
  else none

theorem c60Ctx_globals : ∀ x ∈ c60Globals, c60Ctx x ≠ none := by
  intro x hx
  simp only [c60Globals, List.mem_cons, List.not_mem_nil, or_false] at hx
  rcases hx with rfl | rfl | rfl | rfl <;> simp [c60Ctx, c60Len, c60Wp, c60Omega, c60Ost]

theorem c60Ctx_none {x : Ident} (h : 4 ≤ x.span) : c60Ctx x = none := by
  have : ∀ y ∈ c60Globals, x ≠ y := by
    rintro y hy rfl
    simp only [c60Globals, List.mem_cons, List.not_mem_nil, or_false] at hy
    rcases hy with rfl | rfl | rfl | rfl <;> simp [c60Len, c60Wp, c60Omega, c60Ost] at h
  unfold c60Ctx
  rw [if_neg (this _ (by simp [c60Globals])), if_neg (this _ (by simp [c60Globals])), if_neg (this _ (by simp [c60Globals])),
    if_neg (this _ (by simp [c60Globals]))]

/-- New declarations have later spans. -/
theorem c60Ctx_fresh {ds : List (Ident × RDecl)} (h : (ds.map Prod.fst).Nodup) (h' : ∀ d ∈ ds, 4 ≤ d.1.span) : Fresh c60Ctx ds :=
  ⟨h, fun d hd => c60Ctx_none (h' d hd)⟩

/-- A procedure with parameter `l: []UInt`, whose precondition has `len(l)`. The name `len` is written at span 12. -/
def c60User : SProc where
  proc :=
    { name := ⟨"user", 10⟩, dir := .down, inputs := [⟨⟨⟨"l", 11⟩, .list .uint⟩, 11⟩], outputs := [],
      spec := [.requires (.call none ⟨"len", 12⟩ [.var none ⟨"l", 13⟩])], body := none }
  calculus := none

/-- `domain Lists { func len(l: []UInt): UReal }` -/
def c60Lists : RUnit := .domain ⟨"Lists", 20⟩ [.func ⟨"len", 21⟩ [⟨⟨"l", 22⟩, .list .uint⟩] .ureal none]

/-- The procedure comes before the domain. -/
def c60Late : List RUnit := [.proc c60User, c60Lists]

/-- `len` refers to the function of the domain by lexical scoping, and to the built-in function after name resolution, because the functions of a domain are declared
when it is visited. -/
theorem C60_not_full : ¬ C60_full := by
  intro h
  have h := h c60Globals c60Ctx c60Late c60Ctx_globals (c60Ctx_fresh (by decide) (by decide))
  have hl : lexModule (builtinOf c60Globals) (annsOf c60Globals c60Ctx) c60Late =
      some [.proc { c60User with proc := { c60User.proc with
        spec := [.requires (.call none ⟨"len", 21⟩ [.var none ⟨"l", 11⟩])] } }, c60Lists] := rfl
  unfold ResolvesLexically at h
  rw [hl] at h
  obtain ⟨st', hr, -⟩ := h
  have hr' : (resModule c60Late (.new c60Globals c60Ctx)).map Prod.fst =
      .ok [.proc { c60User with proc := { c60User.proc with
        spec := [.requires (.call none c60Len [.var none ⟨"l", 11⟩])] } }, c60Lists] := rfl
  rw [hr] at hr'
  simp [Except.map, c60Len, c60User, c60Lists] at hr'

/-- The same file with a function `size`. -/
def c60LateSize : List RUnit :=
  [.proc { c60User with proc := { c60User.proc with spec := [.requires (.call none ⟨"size", 12⟩ [.var none ⟨"l", 13⟩])] } },
    .domain ⟨"Lists", 20⟩ [.func ⟨"size", 21⟩ [⟨⟨"l", 22⟩, .list .uint⟩] .ureal none]]

/-- Here the file is rejected. With the domain first it is accepted. -/
theorem C60_not_late : (lexModule (builtinOf c60Globals) (annsOf c60Globals c60Ctx) c60LateSize).isSome = true ∧
    resModule c60LateSize (.new c60Globals c60Ctx) = .error (.notFound ⟨"size", 12⟩) ∧
    ((resModule c60LateSize.reverse (.new c60Globals c60Ctx)).map Prod.fst).toOption.isSome = true := ⟨rfl, rfl, rfl⟩

/-- `@wp proc user(wp: UReal) -> ()` -/
def c60Shadow : List RUnit :=
  [.proc ⟨{ name := ⟨"user", 10⟩, dir := .down, inputs := [⟨⟨⟨"wp", 11⟩, .ureal⟩, 11⟩], outputs := [], spec := [], body := none }, some ⟨"wp", 12⟩⟩]

/-- A parameter hides the calculus. Then the procedure is treated as if it had no calculus, as `get_proc_calculus` returns `None` for every declaration that is
not a calculus (`src/proof_rules/mod.rs:401-425`). -/
theorem C60_not_calculus :
    (lexModule (builtinOf c60Globals) (annsOf c60Globals c60Ctx) c60Shadow).map (fun us => us.map fun
      | .proc p => p.calculus
      | _ => none) = some [some c60Wp] ∧
    (resModule c60Shadow (.new c60Globals c60Ctx)).toOption.map (fun r => r.1.map fun
      | .proc p => p.calculus
      | _ => none) = some [some ⟨"wp", 11⟩] := ⟨rfl, rfl⟩

/-- `@ost(0) while true {}` -/
def c60Panic : List RUnit := [.raw [.annot ⟨"ost", 10⟩ [.lit none (.uint 0)] (.while (.lit none (.bool true)) [])]]

/-- Too few arguments of `@ost` are a panic. The type checker, which would report them, comes later. -/
theorem C60_not_panics : resModule c60Panic (.new c60Globals c60Ctx) = .error .panic := rfl

/-- `@omega_invariant(n, 1) while true {} assert n` -/
def c60Leak : List RUnit :=
  [.raw [.annot ⟨"omega_invariant", 10⟩ [.var none ⟨"n", 11⟩, .lit none (.uint 1)] (.while (.lit none (.bool true)) []),
    .assert .down (.var none ⟨"n", 12⟩)]]

/-- The variable of `@omega_invariant` is in scope after the loop. The specification says so too. -/
theorem C60_leak : (resModule c60Leak (.new c60Globals c60Ctx)).toOption.map Prod.fst =
    some [.raw [.annot c60Omega [.var none ⟨"n", 11⟩, .lit none (.uint 1)] (.while (.lit none (.bool true)) []),
      .assert .down (.var none ⟨"n", 11⟩)]] := rfl

/-! ## Theorems -/

theorem getIn_globals (globals : List Ident) (n : String) :
    IndexMap.get (globals.map fun x => (x.name, ScopeEntry.value x)) n = (builtinOf globals n).map .value := by
  induction globals with
  | nil => rfl
  | cons x xs ih =>
    simp only [List.map_cons, IndexMap.get, builtinOf, List.find?_cons]
    by_cases hx : x.name = n
    · simp [hx]
    · simp only [hx, if_false, decide_false]
      exact ih

theorem builtinOf_mem {globals : List Ident} {n : String} {x : Ident} (h : builtinOf globals n = some x) : x ∈ globals ∧ x.name = n :=
  ⟨List.mem_of_find?_eq_some h, by simpa using List.find?_some h⟩

/-- The initial state. -/
theorem new_rep {globals : List Ident} {Γ : Ctx} (h : ∀ x ∈ globals, Γ x ≠ none) :
    Rep (annsOf globals Γ) (.new globals Γ) ⟨builtinOf globals, fun _ => false⟩ := by
  refine ⟨fun h => (nomatch h), fun n => ?_, fun n => rfl, fun n x hx => h x (builtinOf_mem hx).1, fun n => ?_⟩
  · simp only [ScopeMap.get, RState.new, ScopeMap.getIn, IndexMap.get, getIn_globals]
    cases builtinOf globals n <;> rfl
  · simp only [ScopeMap.findMap, RState.new, ScopeMap.findMapIn, IndexMap.get, getIn_globals, annsOf]
    cases builtinOf globals n with
    | none => rfl
    | some x =>
      simp only [Option.map_some, RState.asAnnot]
      cases Γ x with
      | none => rfl
      | some d => cases d <;> rfl

/-- Files whose domains come before the uses of their functions, without names that hide calculi, and with the right number of arguments for `@ost` and `@ast` are
resolved as lexical scoping says. -/
theorem C60_partial {globals : List Ident} {Γ : Ctx} {us : List RUnit} (hg : ∀ x ∈ globals, Γ x ≠ none)
    (hf : Fresh Γ (bindsModule (annsOf globals Γ) us)) (hn : NoneLate us) (hc : ∀ u ∈ us, u.CalculusOk (globalNames us))
    (ho : ∀ u ∈ us, u.ArgsOk (annsOf globals Γ)) : ResolvesLexically globals Γ us := by
  have h := resModule_lex (new_rep hg) hf ho hc hn
  unfold ResolvesLexically
  cases hl : lexModule (builtinOf globals) (annsOf globals Γ) us with
  | none =>
    rw [hl] at h
    exact h
  | some us' =>
    rw [hl] at h
    obtain ⟨⟨us'', st'⟩, hr, h1, env', h2⟩ := h
    simp only at h1
    subst h1
    exact ⟨st', hr, h2.ctx⟩

/-- Every declaration in the file is recorded with its kind and type, and the built-in ones are kept. -/
theorem C60_declared {globals : List Ident} {Γ : Ctx} {us us' : List RUnit} {st' : RState} (hg : ∀ x ∈ globals, Γ x ≠ none)
    (hf : Fresh Γ (bindsModule (annsOf globals Γ) us)) (hc : ∀ u ∈ us, u.CalculusOk (globalNames us))
    (ho : ∀ u ∈ us, u.ArgsOk (annsOf globals Γ)) (hr : resModule us (.new globals Γ) = .ok (us', st')) :
    (∀ d ∈ bindsModule (annsOf globals Γ) us, st'.ctx d.1 = some d.2) ∧ (∀ x, Γ x ≠ none → st'.ctx x = Γ x) ∧
      ∀ x, Γ x = none → x ∉ (bindsModule (annsOf globals Γ) us).map Prod.fst → st'.ctx x = none := by
  have h := resModule_seq (annsOf globals Γ) us (new_rep hg) hf ho hc
  revert h
  cases ((Env.mk (builtinOf globals) fun _ => false).bindAll (us.flatMap RUnit.names) >>=
    fun env => lexSeq (builtinOf globals) (annsOf globals Γ) env us) with
  | none =>
    rintro ⟨err, he, -⟩
    rw [hr] at he
    exact nomatch he
  | some us₁ =>
    rintro ⟨b, hb, -, env', h2⟩
    rw [hr] at hb
    cases hb
    have hctx : st'.ctx = declCtx Γ (bindsModule (annsOf globals Γ) us) := h2.ctx
    rw [hctx]
    refine ⟨fun d hd => declCtx_mem hf.nodup hd, fun x hx => ?_, fun x hx hm => (declCtx_not_mem hm).trans hx⟩
    cases hd : Γ x with
    | none => exact (hx hd).elim
    | some d => exact hf.old hd

/-- What name resolution and type checking accept stands for typed trees. With this, `ResolvedP` and its variants in the theorems of C59 are
consequences of name resolution. -/
theorem C60_front_partial {globals : List Ident} {Γ Γ' : Ctx} {us us' : List RUnit} (hg : ∀ x ∈ globals, Γ x ≠ none)
    (hv : ∀ x t k, Γ x ≠ some (.var t k)) (hf : Fresh Γ (bindsModule (annsOf globals Γ) us)) (hc : ∀ u ∈ us, u.CalculusOk (globalNames us))
    (ho : ∀ u ∈ us, u.ArgsOk (annsOf globals Γ)) (ha : ∀ u ∈ us, u.AnnsOk (annsOf globals Γ)) (hp : ∀ u ∈ us, u.Plain)
    (hr : frontEnd us (.new globals Γ) = some (us', Γ'))
    (hl : ∀ u ∈ us', u.LenOk (declCtx Γ (bindsModule (annsOf globals Γ) us))) : ∀ u ∈ us', ReadsUnit Γ' u :=
  frontEnd_reads (new_rep hg) hv hf ho hc ha hp hr hl

/-! ## Examples -/

/-- A procedure with a block that hides a variable and a call of the second procedure, which calls the first one. -/
def c60A : SProc where
  proc := {
    name := ⟨"a", 40⟩
    dir := .down
    inputs := [⟨⟨⟨"x", 41⟩, .ureal⟩, 41⟩]
    outputs := [⟨⟨"y", 42⟩, .ureal⟩]
    spec := [.requires (.call none ⟨"twice", 43⟩ [.var none ⟨"x", 44⟩])]
    body := some [
      .seq [.var ⟨"x", 45⟩ .ureal (some (.var none ⟨"x", 46⟩)), .assign [⟨"x", 47⟩] (.call none ⟨"b", 48⟩ [.var none ⟨"x", 49⟩])],
      .assign [⟨"y", 50⟩] (.subst none ⟨"x", 51⟩ (.var none ⟨"x", 52⟩) (.var none ⟨"x", 53⟩))] }
  calculus := some ⟨"wp", 39⟩

def c60B : SProc where
  proc := {
    name := ⟨"b", 60⟩
    dir := .down
    inputs := [⟨⟨⟨"x", 61⟩, .ureal⟩, 61⟩]
    outputs := [⟨⟨"y", 62⟩, .ureal⟩]
    spec := []
    body := some [.assign [⟨"y", 63⟩] (.call none ⟨"a", 64⟩ [.var none ⟨"x", 65⟩])] }
  calculus := none

/-- The procedures come after a domain. -/
def c60File : List RUnit :=
  [.domain ⟨"D", 30⟩ [.func ⟨"twice", 31⟩ [⟨⟨"x", 32⟩, .ureal⟩] .ureal (some (.bin none .add (.var none ⟨"x", 33⟩) (.var none ⟨"x", 34⟩)))],
    .proc c60A, .proc c60B]

/-- The result: names have the spans of their declarations. -/
def c60A' : SProc where
  proc := {
    name := ⟨"a", 40⟩
    dir := .down
    inputs := [⟨⟨⟨"x", 41⟩, .ureal⟩, 41⟩]
    outputs := [⟨⟨"y", 42⟩, .ureal⟩]
    spec := [.requires (.call none ⟨"twice", 31⟩ [.var none ⟨"x", 41⟩])]
    body := some [
      .seq [.var ⟨"x", 45⟩ .ureal (some (.var none ⟨"x", 41⟩)), .assign [⟨"x", 45⟩] (.call none ⟨"b", 60⟩ [.var none ⟨"x", 45⟩])],
      .assign [⟨"y", 42⟩] (.subst none ⟨"x", 51⟩ (.var none ⟨"x", 41⟩) (.var none ⟨"x", 51⟩))] }
  calculus := some ⟨"wp", 1⟩

def c60B' : SProc where
  proc := {
    name := ⟨"b", 60⟩
    dir := .down
    inputs := [⟨⟨⟨"x", 61⟩, .ureal⟩, 61⟩]
    outputs := [⟨⟨"y", 62⟩, .ureal⟩]
    spec := []
    body := some [.assign [⟨"y", 62⟩] (.call none ⟨"a", 40⟩ [.var none ⟨"x", 61⟩])] }
  calculus := none

def c60Resolved : List RUnit :=
  [.domain ⟨"D", 30⟩ [.func ⟨"twice", 31⟩ [⟨⟨"x", 32⟩, .ureal⟩] .ureal (some (.bin none .add (.var none ⟨"x", 32⟩) (.var none ⟨"x", 32⟩)))],
    .proc c60A', .proc c60B']

example : lexModule (builtinOf c60Globals) (annsOf c60Globals c60Ctx) c60File = some c60Resolved := rfl

theorem c60File_fresh : Fresh c60Ctx (bindsModule (annsOf c60Globals c60Ctx) c60File) := c60Ctx_fresh (by decide) (by decide)

theorem c60File_late : NoneLate c60File := by
  simp [NoneLate, c60File, c60A, c60B, RUnit.Avoids, RUnit.items, DomItem.Avoids, RExpr.Avoids, AvoidsB, RStmt.Avoids, AvoidsL, RProc.block, RSpec.expr]

theorem c60File_calculus : ∀ u ∈ c60File, u.CalculusOk (globalNames c60File) := by
  simp [c60File, c60A, c60B, RUnit.CalculusOk, globalNames, RUnit.names, RUnit.items, DomItem.name, RProc.paramNames]
  rintro x (rfl | rfl) <;> simp

theorem c60File_args : ∀ u ∈ c60File, u.ArgsOk (annsOf c60Globals c60Ctx) := by
  simp [c60File, c60A, c60B, RUnit.ArgsOk, ArgsOkB, RStmt.ArgsOk, RProc.block]

/-- The hypotheses of `C60_partial` hold for this file. -/
example : ∃ st', resModule c60File (.new c60Globals c60Ctx) = .ok (c60Resolved, st') ∧
    st'.ctx = declCtx c60Ctx (bindsModule (annsOf c60Globals c60Ctx) c60File) :=
  C60_partial c60Ctx_globals c60File_fresh c60File_late c60File_calculus c60File_args

/-- The type annotation `UReal`. -/
def c60R : Option RTy := some (.val .ureal)

/-- The result of both phases. -/
def c60Typed : List RUnit :=
  [.domain ⟨"D", 30⟩ [.func ⟨"twice", 31⟩ [⟨⟨"x", 32⟩, .ureal⟩] .ureal
      (some (.bin c60R .add (.var c60R ⟨"x", 32⟩) (.var c60R ⟨"x", 32⟩)))],
    .proc { c60A' with proc := { c60A'.proc with
      spec := [.requires (.cast (some (.val .eureal)) (.call c60R ⟨"twice", 31⟩ [.var c60R ⟨"x", 41⟩]))],
      body := some [
        .seq [.var ⟨"x", 45⟩ .ureal (some (.var c60R ⟨"x", 41⟩)),
          .assign [⟨"x", 45⟩] (.call (some (.tuple [.ureal])) ⟨"b", 60⟩ [.var c60R ⟨"x", 45⟩])],
        .assign [⟨"y", 42⟩] (.subst c60R ⟨"x", 51⟩ (.var c60R ⟨"x", 41⟩) (.var c60R ⟨"x", 51⟩))] } },
    .proc { c60B' with proc := { c60B'.proc with
      body := some [.assign [⟨"y", 62⟩] (.call (some (.tuple [.ureal])) ⟨"a", 40⟩ [.var c60R ⟨"x", 61⟩])] } }]

/-- The hypotheses of `C60_front_partial` hold for this file. -/
example : ∃ Γ', frontEnd c60File (.new c60Globals c60Ctx) = some (c60Typed, Γ') ∧ ∀ u ∈ c60Typed, ReadsUnit Γ' u := by
  have hsome : (frontEnd c60File (.new c60Globals c60Ctx)).map Prod.fst = some c60Typed := rfl
  obtain ⟨⟨us', Γ'⟩, h, rfl⟩ := Option.map_eq_some_iff.1 hsome
  refine ⟨Γ', h, C60_front_partial c60Ctx_globals ?_ c60File_fresh c60File_calculus c60File_args ?_ ?_ h ?_⟩
  · intro x t k hx
    unfold c60Ctx at hx
    repeat' split at hx
    all_goals exact nomatch hx
  · simp [c60File, c60A, c60B, RUnit.AnnsOk, AnnsOkB, RStmt.AnnsOk, RProc.block]
  · simp [c60File, c60A, c60B, RUnit.Plain, DomItem.Plain, RExpr.Plain, PlainB, PlainL, RStmt.Plain, RProc.block, RSpec.expr]
  · have h1 : declCtx c60Ctx (bindsModule (annsOf c60Globals c60Ctx) c60File) ⟨"twice", 31⟩ = some (.func [.ureal] .ureal) := rfl
    have h2 : declCtx c60Ctx (bindsModule (annsOf c60Globals c60Ctx) c60File) ⟨"b", 60⟩ = some (.proc [.ureal] [.ureal]) := rfl
    have h3 : declCtx c60Ctx (bindsModule (annsOf c60Globals c60Ctx) c60File) ⟨"a", 40⟩ = some (.proc [.ureal] [.ureal]) := rfl
    simp [c60Typed, c60B', RUnit.LenOk, DomItem.LenOk, LenOnListsP, LenOnLists, RExpr.LenOk, LenOkL, LenOkB, RStmt.LenOk, RProc.block, RSpec.expr,
      h1, h2, h3]

/-- A file with two declarations of the same name in a block is an error for both. -/
example : ResolvesLexically c60Globals c60Ctx [.raw [.var ⟨"x", 10⟩ .uint none, .var ⟨"x", 11⟩ .uint none]] ∧
    lexModule (builtinOf c60Globals) (annsOf c60Globals c60Ctx) [.raw [.var ⟨"x", 10⟩ .uint none, .var ⟨"x", 11⟩ .uint none]] = none :=
  ⟨⟨_, rfl, fun h => nomatch h⟩, rfl⟩

end Front
end Caesar
