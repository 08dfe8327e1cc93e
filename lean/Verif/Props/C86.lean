import Verif.Mc.FnModel
import Verif.Props.C57

/-!
# C86: the functions of the exported JANI model

Specification: "this uses a worklist algorithm to find all functions that are mentioned […], as well as in the functions' bodies that we
translate. For those, we also translate their dependencies" (`src/mc/mod.rs:589-593`). JANI knows a function only by its definition in the
model, so every function that is called has to be defined there, once, and its definition has to give it the meaning it has in HeyVL.
Model: `translateFn`, `fnsLoop` and `translateFns` (`Verif/Mc/Translate.lean`); `Needed` and `Exportable` (`Verif/Mc/FnSpec.lean`) are the
specification.

* `C86_exported`: the functions of the model are exactly those that are called in it or in definitions of such functions, each once, with the
  parameters, types and body of their declaration.
* `C86_fails`: the export fails exactly if one of the functions needed cannot be translated; in particular the worklist algorithm ends, also
  for recursive functions.
* `C86_found`: functions in translated expressions are declared with a body, so that `unwrap` and `unreachable!` are never reached.
* `C86_types`: the types of the functions of a model are supported.
* `C86_full`, that the functions of the model have the meaning they have in HeyVL whenever both languages satisfy the definitions, is false:
  `func f(x: UInt): UInt = f(x)` is exported, but the definition does not determine its value (`C86_not_full`).
* `C86_meaning_partial`: it is true if the functions of the model are not recursive.
* `C86_local`: the value of the model only depends on the meaning of the functions called in it.
-/

open scoped ENNReal NNReal

namespace Caesar.Mc
set_option linter.unusedSectionVars false

/-- The full property: the functions of a model have the meaning they have in HeyVL. -/
def C86_full : Prop :=
  ∀ (_ : Fns) (_ : Doms) (_ : Interp) (_ : JOps), SameDiv → FnsScoped → FnsMeaning → ∀ (o : McOptions) (p : Proc) (M : JModel),
    procToModel o p = some M → M.FnsDefined → ∀ (n : String) (d : FnDecl), Needed M.Calls n → findName n = some d →
      ∀ vals, JOps.func n (List.ofFn fun i => toJ _ (vals i)) = toJ d.out (Interp.func d.func vals)

section
variable [Fns]

/-- The functions of a model are those that are needed, each once, as they are declared. -/
theorem C86_exported {o : McOptions} {p : Proc} {M : JModel} (h : procToModel o p = some M) :
    (∀ n, n ∈ M.functions.map JFun.name ↔ Needed M.Calls n) ∧ (M.functions.map JFun.name).Nodup ∧
    ∀ f ∈ M.functions, ∃ d b, findName f.name = some d ∧ d.body = some b ∧ translate b = some f.body ∧ f.ty = d.out ∧
      f.params = List.ofFn fun i => ((d.ins i).name, d.func.args.get i) := by
  obtain ⟨m, hm, hfn⟩ := model_fns h
  obtain ⟨h1, h2, h3⟩ := translateFns_some hfn
  refine ⟨fun n => (h1 n).trans ⟨Needed.trans fun k hk => .mentioned ((hm k).1 hk), Needed.trans fun k hk => .mentioned ((hm k).2 hk)⟩, h2,
    fun f hf => ?_⟩
  obtain ⟨d, j1, j2⟩ := h3 f hf
  obtain ⟨_, _, b, k1, k2, k3, k4, k5⟩ := translateFn_some j2
  exact ⟨d, b, j1, k1, k2, k4, k5⟩

/-- The export of the functions fails exactly if one that is needed cannot be translated. -/
theorem C86_fails (m : List String) : translateFns m = none ↔ ∃ n, Needed (· ∈ m) n ∧ ¬ Exportable n := translateFns_none m

/-- Functions called in translated expressions are declared with a body. -/
theorem C86_found {t : Ty} {e : Expr t} {j : JExpr} (h : translate e = some j) {n : String} (hn : n ∈ j.calls) :
    ∃ d ∈ Fns.decls, d.func.name.name = n ∧ d.body ≠ none := by
  obtain ⟨h1, h2⟩ := translate_calls e h
  obtain ⟨x, hx, rfl⟩ := (h1 n).1 hn
  have hb := h2 x hx
  unfold hasBody at hb
  split at hb
  next d hd =>
    refine ⟨d, List.mem_of_find?_eq_some hd, ?_, ?_⟩
    · have : d.func.name = x := of_decide_eq_true (List.find?_some hd :)
      rw [this]
    · intro hnone
      rw [hnone] at hb
      cases hb
  next => cases hb

/-- The types of the functions of a model are supported. -/
theorem C86_types {o : McOptions} {p : Proc} {M : JModel} (h : procToModel o p = some M) {n : String} (hn : Needed M.Calls n) :
    ∃ d, findName n = some d ∧ isJaniTy d.out = true ∧ ∀ i, isJaniTy (d.func.args.get i) = true := by
  obtain ⟨m, hm, hfn⟩ := model_fns h
  obtain ⟨f, hf, rfl⟩ := List.mem_map.1 (((C86_exported h).1 n).2 hn)
  obtain ⟨d, j1, j2⟩ := (translateFns_some hfn).2.2 f hf
  obtain ⟨k1, k2, _⟩ := translateFn_some j2
  exact ⟨d, j1, k1, k2⟩

/-- The functions of a model have the meaning they have in HeyVL, on all values of the types of their parameters. -/
theorem C86_meaning_partial [Doms] [Interp] [JOps] (hd : SameDiv) (hF : FnsScoped) (hI : FnsMeaning) {o : McOptions} {p : Proc} {M : JModel}
    (h : procToModel o p = some M) (hJ : M.FnsDefined) (hrec : M.NotRecursive) {n : String} (hn : Needed M.Calls n) {d : FnDecl}
    (hf : findName n = some d) (vals : (i : Fin d.func.args.length) → (d.func.args.get i).den) :
    JOps.func n (List.ofFn fun i => toJ _ (vals i)) = toJ d.out (Interp.func d.func vals) := by
  obtain ⟨m, hm, hfn⟩ := model_fns h
  obtain ⟨rank, hrank⟩ := hrec
  obtain ⟨d', j1, k1, k2⟩ := C86_types h hn
  obtain rfl : d = d' := Option.some.inj (hf.symm.trans j1)
  exact fns_same hd hF hI hfn hJ hrank n (((C86_exported h).1 n).2 hn) d (List.mem_of_find?_eq_some hf) (findName_name hf) ⟨k1, k2⟩ vals

/-- The value of a model only depends on the meaning of the functions called in it. -/
theorem C86_local {o₁ o₂ : JOps} {M : JModel} (h0 : o₁.div0 = o₂.div0) (h1 : o₁.mod = o₂.mod)
    (h2 : ∀ n, M.Calls n → o₁.func n = o₂.func n) (d : Dir) (l : Loc) (s : JState) :
    @JAutomaton.value o₁ M.automaton d l s = @JAutomaton.value o₂ M.automaton d l s :=
  AgreeOps.value (P := M.Calls) ⟨h0, h1, h2⟩ ⟨fun e he n hn => .inr (.inr (.inl ⟨e, he, hn⟩)), fun l e he n hn => .inr (.inl ⟨l, e, he, hn⟩)⟩ d l s

end

/-! ## Examples -/

namespace C86

def dbl : Func .uint := ⟨⟨"double", 1⟩, [.uint]⟩
def quad : Func .uint := ⟨⟨"quad", 2⟩, [.uint]⟩
def other : Func .uint := ⟨⟨"other", 3⟩, [.uint]⟩
def x : Ident := ⟨"x", 4⟩
def n : Var := ⟨⟨"n", 5⟩, .uint⟩

/-- A call with one argument. -/
def call (f : Ident) (e : Expr .uint) : Expr .uint := .call ⟨f, [.uint]⟩ fun i => match i with | ⟨0, _⟩ => e

/-- A function with one parameter. -/
def fn (f : Ident) (b : Expr .uint) : FnDecl := ⟨.uint, ⟨f, [.uint]⟩, fun _ => x, some b⟩

/-- `func double(x: UInt): UInt = x + x`, `func quad(x: UInt): UInt = double(double(x))`, `func other(x: UInt): UInt = x`. -/
@[reducible] def fns : Fns := ⟨[fn dbl.name (.bin (.add rfl) (.var x) (.var x)), fn quad.name (call dbl.name (call dbl.name (.var x))),
  fn other.name (.var x)]⟩

/-- `proc main(n: UInt) -> () post quad(n) {}` -/
def main : Proc := ⟨⟨"main", 6⟩, .down, [⟨n, 0⟩], [], [.ensures (.cast .uintEUReal (call quad.name (.var n.id)))], some .skip⟩

/-- A meaning in HeyVL. -/
@[reducible] noncomputable def interp : @Interp unitDoms :=
  let _ := unitDoms
  { unitInterp with
    func := fun {t} f vals => match t, f with
      | .uint, ⟨g, [.uint]⟩ =>
        let v : ℕ := vals ⟨0, Nat.zero_lt_one⟩
        if g = dbl.name then (v + v : ℕ) else if g = quad.name then ((v + v) + (v + v) : ℕ) else v
      | t, _ => t.default }

/-- A meaning in JANI; `other` is not a function of the model. -/
@[reducible] noncomputable def ops : JOps :=
  { unitJOps with
    func := fun g vs => match vs with
      | [v] => if g = "double" then .num (v.real + v.real) else if g = "quad" then .num ((v.real + v.real) + (v.real + v.real)) else .bool True
      | _ => .bool True }

attribute [local instance] fns

/-- The value of `n`. -/
def nval (σ : @Env unitDoms) : ℕ := σ n

theorem model_some : (procToModel C57.opts main).isSome = true := rfl

/-- `double` is exported because it is called in `quad`; `other` is not exported. -/
theorem model_names : (procToModel C57.opts main).map (fun M => M.functions.map JFun.name) = some ["quad", "double"] := rfl

theorem uint_ok (i : Fin 1) : isJaniTy ([Ty.uint].get i) = true := by
  match i with
  | ⟨0, _⟩ => rfl

theorem call_ok [Fns] {V : Var → Prop} {f : Ident} {d : FnDecl} (hf : findFn f = some d) (hd : (⟨d.out, d.func⟩ : (t : Ty) × Func t) = ⟨.uint, ⟨f, [.uint]⟩⟩)
    {e : Expr .uint} (he : ExprOk V e) : ExprOk V (call f e) := by
  refine ⟨⟨d, hf, hd, rfl, uint_ok⟩, fun i => ?_⟩
  match i with
  | ⟨0, _⟩ => exact he

theorem decls_eq : (Fns.decls : List FnDecl) = [fn dbl.name (.bin (.add rfl) (.var x) (.var x)),
    fn quad.name (call dbl.name (call dbl.name (.var x))), fn other.name (.var x)] := rfl

theorem fns_scoped : FnsScoped where
  names := by decide
  params d hd i j _ := by
    rw [decls_eq] at hd
    simp only [List.mem_cons, List.not_mem_nil, or_false] at hd
    rcases hd with rfl | rfl | rfl <;> exact Subsingleton.elim (α := Fin 1) i j
  bodies d hd b hb _ _ := by
    rw [decls_eq] at hd
    simp only [List.mem_cons, List.not_mem_nil, or_false] at hd
    rcases hd with rfl | rfl | rfl <;> cases hb
    · exact ⟨trivial, ⟨⟨0, Nat.zero_lt_one⟩, rfl⟩, ⟨⟨0, Nat.zero_lt_one⟩, rfl⟩⟩
    · exact call_ok rfl rfl (call_ok rfl rfl ⟨⟨0, Nat.zero_lt_one⟩, rfl⟩)
    · exact ⟨⟨0, Nat.zero_lt_one⟩, rfl⟩

theorem fns_meaning : @FnsMeaning _ unitDoms interp := by
  let _ := unitDoms
  let _ := interp
  intro d hd b hb σ
  rw [decls_eq] at hd
  simp only [List.mem_cons, List.not_mem_nil, or_false] at hd
  rcases hd with rfl | rfl | rfl <;> cases hb
  · rfl
  · rfl
  · rfl

theorem same_div : @SameDiv unitDoms interp ops :=
  let _ := unitDoms
  let _ := interp
  let _ := ops
  { divU := @SameDiv.divU unitDoms unitInterp unitJOps unit_sameDiv
    divR := @SameDiv.divR unitDoms unitInterp unitJOps unit_sameDiv
    modN := @SameDiv.modN unitDoms unitInterp unitJOps unit_sameDiv }

theorem ops_dbl (v : JVal) : ops.func "double" [v] = .num (v.real + v.real) := if_pos rfl

theorem ops_quad (v : JVal) : ops.func "quad" [v] = .num ((v.real + v.real) + (v.real + v.real)) :=
  (if_neg (by decide)).trans (if_pos rfl)

theorem fns_defined {M : JModel} (h : procToModel C57.opts main = some M) : @JModel.FnsDefined ops M := by
  let _ := ops
  intro f hf
  have hn := model_names
  rw [h, Option.map_some] at hn
  have hn := Option.some.inj hn
  obtain ⟨d, b, h1, h2, h3, _, h5⟩ := (C86_exported h).2.2 f hf
  have hm : f.name = "quad" ∨ f.name = "double" := by
    have := List.mem_map_of_mem (f := JFun.name) hf
    rw [hn] at this
    simpa using this
  intro s hs
  rcases hm with hm | hm
  · rw [hm] at h1 ⊢
    cases h1
    cases h2
    rw [h5, ← Option.some.inj h3]
    show ops.func "quad" [s "x"] = ops.func "double" [ops.func "double" [s "x"]]
    rw [ops_quad, ops_dbl, ops_dbl]
    rfl
  · rw [hm] at h1 ⊢
    cases h1
    cases h2
    rw [h5, ← Option.some.inj h3]
    exact ops_dbl _

theorem not_recursive {M : JModel} (h : procToModel C57.opts main = some M) : M.NotRecursive := by
  refine ⟨fun n => if n = "quad" then 1 else 0, fun f hf k hk => ?_⟩
  have hn : (procToModel C57.opts main).map (fun M => M.functions.map fun f => (f.name, f.body.calls)) =
    some [("quad", ["double", "double"]), ("double", [])] := rfl
  rw [h, Option.map_some] at hn
  have hn := Option.some.inj hn
  have := List.mem_map_of_mem (f := fun f : JFun => (f.name, f.body.calls)) hf
  rw [hn] at this
  simp only [List.mem_cons, List.not_mem_nil, or_false, Prod.mk.injEq] at this
  rcases this with ⟨h1, h2⟩ | ⟨h1, h2⟩
  · rw [h2] at hk
    simp only [List.mem_cons, List.not_mem_nil, or_false, or_self] at hk
    subst hk
    rw [h1]
    decide
  · rw [h2] at hk
    cases hk

theorem main_scoped : ProcScoped main .skip where
  pre e he := nomatch he
  post e he := by
    rw [List.mem_singleton.1 he]
    exact call_ok (d := fn quad.name (call dbl.name (call dbl.name (.var x)))) rfl rfl (.inl List.mem_cons_self)
  body := trivial

/-- `func f(x: UInt): UInt = f(x)` -/
@[reducible] def recFns : Fns := ⟨[fn ⟨"f", 1⟩ (call ⟨"f", 1⟩ (.var x))]⟩

/-- `proc main(n: UInt) -> () post f(n) {}` -/
def recMain : Proc := ⟨⟨"main", 6⟩, .down, [⟨n, 0⟩], [], [.ensures (.cast .uintEUReal (call ⟨"f", 1⟩ (.var n.id)))], some .skip⟩

/-- The worklist algorithm ends for recursive functions. -/
theorem rec_names : (@procToModel recFns C57.opts recMain).map (fun M => M.functions.map JFun.name) = some ["f"] := rfl

theorem rec_scoped : @FnsScoped recFns :=
  let _ := recFns
  { names := by decide
    params := fun d hd i j _ => by
      have hd : d ∈ [fn ⟨"f", 1⟩ (call ⟨"f", 1⟩ (.var x))] := hd
      rw [List.mem_singleton] at hd
      subst hd
      exact Subsingleton.elim (α := Fin 1) i j
    bodies := fun d hd b hb _ _ => by
      have hd : d ∈ [fn ⟨"f", 1⟩ (call ⟨"f", 1⟩ (.var x))] := hd
      rw [List.mem_singleton] at hd
      subst hd
      cases hb
      exact @call_ok recFns _ _ (fn ⟨"f", 1⟩ (call ⟨"f", 1⟩ (.var x))) rfl rfl _ ⟨⟨0, Nat.zero_lt_one⟩, rfl⟩ }

theorem rec_meaning : @FnsMeaning recFns unitDoms unitInterp := by
  let _ := unitDoms
  let _ := unitInterp
  intro d hd b hb σ
  have hd : d ∈ [fn ⟨"f", 1⟩ (call ⟨"f", 1⟩ (.var x))] := hd
  rw [List.mem_singleton] at hd
  subst hd
  cases hb
  rfl

/-- All functions are `1` in JANI. -/
@[reducible] noncomputable def oneOps : JOps := { unitJOps with func := fun _ _ => .num 1 }

/-- A result that is not supported: `func e(x: UInt): EUReal = 0`. -/
@[reducible] def badFns : Fns := ⟨[⟨.eureal, ⟨⟨"e", 1⟩, [.uint]⟩, fun _ => x, some (.lit (.efrac 0))⟩]⟩

end C86

open C86 in
/-- The value of a recursive function is not determined by its definition. -/
theorem C86_not_full : ¬ C86_full := by
  intro hfull
  let _ := recFns
  let _ := unitDoms
  let _ := unitInterp
  let _ := oneOps
  have hd : SameDiv := { divU := @SameDiv.divU unitDoms unitInterp unitJOps unit_sameDiv
                         divR := @SameDiv.divR unitDoms unitInterp unitJOps unit_sameDiv
                         modN := @SameDiv.modN unitDoms unitInterp unitJOps unit_sameDiv }
  have hsome : (procToModel C57.opts recMain).isSome = true := rfl
  obtain ⟨M, hM⟩ := Option.isSome_iff_exists.1 hsome
  have hn := rec_names
  rw [hM, Option.map_some] at hn
  have hn := Option.some.inj hn
  have hJ : M.FnsDefined := by
    intro f hf s _
    obtain ⟨d, b, h1, h2, h3, _, _⟩ := (C86_exported hM).2.2 f hf
    have hm : f.name = "f" := by
      have := List.mem_map_of_mem (f := JFun.name) hf
      rw [hn] at this
      exact List.mem_singleton.1 this
    rw [hm] at h1
    cases h1
    cases h2
    rw [← Option.some.inj h3]
    rfl
  have h := hfull _ _ _ _ hd rec_scoped rec_meaning C57.opts recMain M hM hJ "f" _ (((C86_exported hM).1 _).1 (by rw [hn]; decide)) rfl
    fun _ => default
  have h : JVal.num 1 = .num ((0 : ℕ) : ℝ) := h
  rw [Nat.cast_zero] at h
  exact one_ne_zero (JVal.num.inj h)

open C86 in
/-- Functions without supported types cannot be exported. -/
example : @translateFns badFns ["e"] = none ∧ @Needed badFns (· ∈ ["e"]) "e" ∧ ¬ @Exportable badFns "e" := by
  let _ := badFns
  refine ⟨rfl, .mentioned List.mem_cons_self, ?_⟩
  rintro ⟨d, hd, h, _⟩
  cases hd
  cases h

open C86 in
/-- The hypotheses of the theorems above and of C57 hold for a program with functions; the expected reward is `4 · n`, although JANI
gives another meaning to the function that is not exported. -/
example : ∃ M : JModel, @procToModel fns C57.opts main = some M ∧ @Needed fns M.Calls "double" ∧
    ∀ (σ : @Env unitDoms) (s : JState), @Rep unitDoms (paramVars main) σ s → @JModel.Initial ops M s →
      @JAutomaton.value ops M.automaton .down M.initial s = 4 * (nval σ : ℝ≥0∞) := by
  let _ := fns
  let _ := unitDoms
  let _ := interp
  let _ := ops
  obtain ⟨M, hM⟩ := Option.isSome_iff_exists.1 model_some
  have hn := model_names
  rw [hM, Option.map_some] at hn
  have hn := Option.some.inj hn
  refine ⟨M, hM, ((C86_exported hM).1 _).1 (by rw [hn]; decide), fun σ s hr hi => ?_⟩
  have := C57_value_partial same_div fns_scoped fns_meaning ⟨.lfp, fun l _ _ φ σ => ⨅ σ' ∈ {σ' | Agree l σ σ'}, φ σ'⟩ rfl
    (regular_havoc LoopSem.lfp).mono rfl hM (fns_defined hM) (not_recursive hM) main_scoped trivial nofun hi hr
  refine this.trans ?_
  show (⨅ e ∈ [Expr.cast .uintEUReal (call quad.name (.var n.id))], e.ev σ) = _
  simp only [List.mem_singleton, iInf_iInf_eq_left]
  show (((nval σ + nval σ) + (nval σ + nval σ) : ℕ) : ℝ≥0∞) = _
  push_cast
  ring

end Caesar.Mc
