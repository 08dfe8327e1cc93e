import Verif.Smt.FuncsSound
import Verif.Props.C50

/-!
# C51: the assertions about functions are sound

`domainFacts` (`Smt/Funcs.lean`) are the assertions made about functions before the obligation is checked.
-/

open scoped ENNReal NNReal

namespace Caesar.Smt
set_option linter.unusedSectionVars false

/-- Specification: the definitions of functions and the assertions written by the user are true. -/
def TrueSpec [Doms] [Interp] : DomainSpec → Prop
  | .func d => ∀ body, d.body = some body → ∀ σ : Env, Interp.func d.func (fun i => σ ⟨d.ins i, d.func.args.get i⟩) = body.eval σ
  | .prop e => ∀ σ, (show Prop from e.eval σ)

/-- Specification: the obligation is provable if it follows from the assertions, whatever the SMT functions are. The symbols of
the obligation are not those of the assertions, so that they have their own values `M'`. -/
def Provable [Doms] (O : Oracle) (E : Encoder) (ds : List DomainSpec) (e : Expr .bool) : Prop :=
  ∀ W : World, ∃ fs st r st', domainFacts O W E ds .new = some (fs, st) ∧ @trans _ (W.at E E.fuel) O _ e .new = some (r, st') ∧
    ∀ M M', (∀ A ∈ fs, A M) → Respects st' M' → (show Prop from r M')

/-- The full property, for encoders for which `P` holds. The types must agree on `x / 0` and `x % 0` (see C50). -/
def C51_full_for (P : Encoder → Prop) : Prop := ∀ (_ : Doms) (_ : Interp) (O : Oracle) (E : Encoder) (ds : List DomainSpec) (e : Expr .bool),
  (∀ x : ℝ≥0, Interp.divR0 (x : ℝ) = (Interp.divU0 x : ℝ≥0)) → (∀ n : ℕ, Interp.modZ0 (n : ℤ) = (Interp.modN0 n : ℕ)) →
  P E → (∀ d ∈ ds, TrueSpec d) → FinSub e → Provable O E ds e → ∀ σ, (show Prop from e.eval σ)

/-- The full property. -/
def C51_full : Prop := C51_full_for fun _ => True

/-- Specification: what the encoding supports. With the strengthened encoding, all parameters have types without constraints; the
expressions contain no infimum or supremum of extended reals and no subtraction of an infinite value. -/
def Supported [Doms] [Interp] (E : Encoder) : DomainSpec → Prop
  | .func d => (E.total = true → ∀ i, Free (d.func.args.get i)) ∧ ∀ body, d.body = some body → FinSub body ∧ NoExt body
  | .prop e => FinSub e ∧ NoExt e

theorem specOk [Doms] [Interp] {E : Encoder} {d : DomainSpec} (ht : TrueSpec d) (hs : Supported E d) : SpecOk E d := by
  cases d with
  | func d =>
    refine ⟨fun h v hv => ?_, hs.2, ht⟩
    obtain ⟨i, rfl⟩ := List.mem_ofFn.1 hv
    exact hs.1 h i
  | prop e => exact ⟨hs, ht⟩

theorem top_new [Doms] [Interp] [SmtInterp] : Top TState.new := ⟨inv_new, rfl, rfl⟩

/-- All assertions hold of the actual functions: in each SMT model in which all variants of the functions are the actual functions. -/
theorem C51_facts_partial [Doms] [Interp] (O : Oracle) (W : World) (E : Encoder) (F : ∀ n, @Faithful _ _ (W.at E n)) (ds : List DomainSpec)
    (ht : ∀ d ∈ ds, TrueSpec d) (hs : ∀ d ∈ ds, Supported E d) {fs : List Fact} {st : TState} (h : domainFacts O W E ds .new = some (fs, st)) :
    ∀ A ∈ fs, ∀ M : Model, (∀ n t, inv t (M.val n t)) → A M := by
  let _ := W.at E 0
  exact (domainFacts_spec F (fun d hd => specOk (ht d hd) (hs d hd)) _ top_new _ _ h).2

theorem wf_exists [Doms] : ∃ M : Model, ∀ n t, inv t (M.val n t) :=
  ⟨⟨fun _ t => (inv_exists t).choose, fun _ _ => Pair.zero⟩, fun _ t => (inv_exists t).choose_spec⟩

/-- Every variant of a function is the actual function. -/
theorem world_exists [Doms] [Interp] (hdiv : ∀ x : ℝ≥0, Interp.divR0 (x : ℝ) = (Interp.divU0 x : ℝ≥0))
    (hmod : ∀ n : ℕ, Interp.modZ0 (n : ℤ) = (Interp.modN0 n : ℕ)) : ∃ W : World, ∀ E n, @Faithful _ _ (W.at E n) := by
  obtain ⟨S, F⟩ := faithful_exists hdiv hmod
  refine ⟨⟨S, fun _ {_} f as => S.func f as⟩, fun E n => @Faithful.mk _ _ (World.at _ E n) (fun {t} ht f as xs h => ?_) F.divU F.divR F.modN F.modZ⟩
  show DRep t ((if E.isFuel f = true then fun as => S.func f as else S.func f) as) _
  split <;> exact F.func ht f as xs h

/-- The assertions make no false obligation provable. -/
theorem C51_sound_partial [Doms] [Interp] (hdiv : ∀ x : ℝ≥0, Interp.divR0 (x : ℝ) = (Interp.divU0 x : ℝ≥0))
    (hmod : ∀ n : ℕ, Interp.modZ0 (n : ℤ) = (Interp.modN0 n : ℕ)) (O : Oracle) (E : Encoder) (ds : List DomainSpec) (e : Expr .bool)
    (ht : ∀ d ∈ ds, TrueSpec d) (hs : ∀ d ∈ ds, Supported E d) (hfin : FinSub e) (hp : Provable O E ds e) (σ : Env) : (show Prop from e.eval σ) := by
  obtain ⟨W, F⟩ := world_exists hdiv hmod
  obtain ⟨fs, st, r, st', h1, h2, h⟩ := hp W
  obtain ⟨M, hM⟩ := wf_exists
  let _ := W.at E E.fuel
  exact (C50_validity_partial (F E E.fuel) O e hfin h2).1 (fun M' hM' => h M M' (fun A hA => C51_facts_partial O W E (F E) ds ht hs h1 A hA M hM) hM') σ

/-! ## An example -/

/-- The value of a first argument of type `UInt`. -/
def argNat [Doms] : (t : Ty) → t.den → ℕ
  | .uint => fun n => n
  | _ => fun _ => 0

/-- An interpretation: functions to `UInt` double their first argument, functions to `EUReal` return it. -/
@[reducible] noncomputable def doubleInterp : @Interp unitDoms :=
  letI := unitDoms
  { unitInterp with func := fun {t} f xs =>
      let n : ℕ := if h : 0 < f.args.length then argNat _ (xs ⟨0, h⟩) else 0
      match t with
      | .uint => (2 * n : ℕ)
      | .eureal => ((n : ℕ) : ℝ≥0∞)
      | t => t.default }

/-- `double(n: UInt): UInt`. -/
def doubleFunc : Func .uint := ⟨⟨"double", 0⟩, [.uint]⟩

def doubleCall (a : Expr .uint) : Expr .uint := .call doubleFunc fun | ⟨0, _⟩ => a

/-- `if n = 0 then 0 else double(n - 1) + 2`. -/
def doubleBody : Expr .uint :=
  .ite (.rel .eq (.var ⟨"n", 0⟩) (.lit (.uint 0))) (.lit (.uint 0))
    (.bin (.add rfl) (doubleCall (.bin (.sub rfl) (.var ⟨"n", 0⟩) (.lit (.uint 1)))) (.lit (.uint 2)))

def doubleDecl : FuncDecl := ⟨.uint, doubleFunc, fun _ => ⟨"n", 0⟩, some doubleBody⟩

/-- The fuel encoding with fuel 2. -/
def doubleEncoder : Encoder := .fuelMono ⟨false, 2, true, false, fun _ => true⟩

/-- `double(1) = 2`. -/
def doubleGoal : Expr .bool := .rel .eq (doubleCall (.lit (.uint 1))) (.lit (.uint 2))

theorem double_true : let _ := unitDoms; let _ := doubleInterp; TrueSpec (.func doubleDecl) := by
  intro _ _ body hb σ
  cases hb
  have key : ∀ n : ℕ, 2 * n = if n = 0 then 0 else 2 * (n - 1) + 2 := by
    intro n
    split <;> omega
  refine (key (σ ⟨⟨"n", 0⟩, .uint⟩)).trans ?_
  by_cases h : (show ℕ from σ ⟨⟨"n", 0⟩, .uint⟩) = 0
  · exact (if_pos h).trans (if_pos h).symm
  · exact (if_neg h).trans (if_neg h).symm

theorem double_supported : let _ := unitDoms; let _ := doubleInterp; Supported doubleEncoder (.func doubleDecl) ∧ FinSub doubleGoal := by
  intro _ _
  refine ⟨And.intro (fun h => by cases h) (fun body hb => ?_), ?_⟩
  · cases hb
    refine ⟨⟨⟨trivial, trivial⟩, trivial, ?_, trivial, fun _ => trivial⟩, ⟨trivial, trivial⟩, trivial, ?_, trivial⟩
    · intro i
      match i with
      | ⟨0, _⟩ => exact ⟨trivial, trivial, fun _ => trivial⟩
    · intro i
      match i with
      | ⟨0, _⟩ => exact ⟨trivial, trivial⟩
  · refine ⟨fun i => ?_, trivial⟩
    match i with
    | ⟨0, _⟩ => trivial


/-- The state after the parameter has got its symbol. -/
def paramState [Doms] (x : Ident) : TState := ⟨1, ⟨[[(⟨x, .uint⟩, .value 0)]]⟩, [], [], [[]]⟩

/-- The arguments of a function with one parameter. -/
def oneArg [Doms] (z : ℤ) : (i : Fin [Ty.uint].length) → DVal ([Ty.uint].get i) := fun | ⟨0, _⟩ => z

theorem oneArg_eq [Doms] (as : (i : Fin [Ty.uint].length) → DVal ([Ty.uint].get i)) : as = oneArg (as ⟨0, Nat.one_pos⟩) := by
  funext i
  match i with
  | ⟨0, _⟩ => rfl

/-- A model which gives the parameter a value. -/
noncomputable def paramModel [Doms] (z : ℤ) : Model := ⟨fun _ t => match t with | .uint => z | t => (inv_exists t).choose, fun _ _ => Pair.zero⟩

theorem paramModel_inv [Doms] {z : ℤ} (h : z ≥ 0) : invOn [(0, Ty.uint)] (paramModel z) := by
  intro s hs
  obtain rfl := List.mem_singleton.1 hs
  exact h

theorem paramModel_val [Doms] (M : Model) (z : ℤ) : (M.over [(0, Ty.uint)] (paramModel z)).val 0 .uint = z := Model.over_in (List.mem_singleton.2 rfl)

theorem double_equation [Doms] (H B : SmtInterp) (st : TState) (hst : st = .new ∨ st = paramState ⟨"n", 0⟩) :
    ∃ A, equation noCache H B true false doubleDecl doubleDecl.call doubleBody st = some (A, paramState ⟨"n", 0⟩) ∧ ∀ M, A M → ∀ z : ℤ, z ≥ 0 →
      H.func doubleFunc (oneArg z) = smtIte (z = 0) (0 : ℤ) ((show ℤ from B.func doubleFunc (oneArg (intMonus z 1))) + 2) := by
  have key : ∀ (as bs : (i : Fin doubleFunc.args.length) → DVal (doubleFunc.args.get i)) (c : Prop) (z : ℤ), H.func doubleFunc as =
      smtIte c (0 : ℤ) ((show ℤ from B.func doubleFunc bs) + 2) → as ⟨0, Nat.one_pos⟩ = z → bs ⟨0, Nat.one_pos⟩ = intMonus z 1 → (c ↔ z = 0) →
      H.func doubleFunc (oneArg z) = smtIte (z = 0) (0 : ℤ) ((show ℤ from B.func doubleFunc (oneArg (intMonus z 1))) + 2) := by
    intro as bs c z h ha hb hc
    rw [show as = oneArg z from (oneArg_eq as).trans (congrArg oneArg ha), show bs = oneArg (intMonus z 1) from (oneArg_eq bs).trans (congrArg oneArg hb), propext hc] at h
    exact h
  rcases hst with rfl | rfl <;>
  · simp only [equation, if_true, doubleDecl, FuncDecl.call, doubleBody, doubleCall, trans, cached_no]
    exact ⟨_, rfl, fun M h z hz => key _ _ _ z (h (paramModel z) fun _ => paramModel_inv hz) (paramModel_val M z)
      (congrArg (intMonus · 1) (paramModel_val M z)) (iff_of_eq (congrArg (· = (0 : ℤ)) (paramModel_val M z)))⟩

theorem double_return [Doms] (H : SmtInterp) : ∃ A, returnInvariant noCache H true doubleDecl (paramState ⟨"n", 0⟩) = some (A, paramState ⟨"n", 0⟩) := by
  simp only [returnInvariant, if_true, doubleDecl, FuncDecl.call, trans, cached_no]
  exact ⟨_, rfl⟩

theorem double_provable : let _ := unitDoms; Provable noCache doubleEncoder [.func doubleDecl] doubleGoal := by
  intro _ W
  let v (k : ℕ) (z : ℤ) : ℤ := (W.at doubleEncoder k).func doubleFunc (oneArg z)
  have hd : ∃ fs st, domainFacts noCache W doubleEncoder [.func doubleDecl] .new = some (fs, st) ∧
      ∀ M, (∀ A ∈ fs, A M) → ∀ k < 2, ∀ z : ℤ, z ≥ 0 → v (k + 1) z = smtIte (z = 0) 0 (v k (intMonus z 1) + 2) := by
    obtain ⟨A0, e0, p0⟩ := double_equation (W.at doubleEncoder 1) (W.at doubleEncoder 0) .new (.inl rfl)
    obtain ⟨A1, e1, p1⟩ := double_equation (W.at doubleEncoder 2) (W.at doubleEncoder 1) (paramState ⟨"n", 0⟩) (.inr rfl)
    obtain ⟨R0, r0⟩ := double_return (W.at doubleEncoder 0)
    obtain ⟨R1, r1⟩ := double_return (W.at doubleEncoder 1)
    obtain ⟨R2, r2⟩ := double_return (W.at doubleEncoder 2)
    obtain ⟨C1, c1, _⟩ := double_equation (W.at doubleEncoder 1) (W.at doubleEncoder 1) (paramState ⟨"n", 0⟩) (.inr rfl)
    obtain ⟨C2, c2, _⟩ := double_equation (W.at doubleEncoder 2) (W.at doubleEncoder 2) (paramState ⟨"n", 0⟩) (.inr rfl)
    have hf : funcFacts noCache W doubleEncoder doubleDecl .new = monoFacts noCache W doubleEncoder ⟨false, 2, true, false, fun _ => true⟩ doubleDecl doubleBody .new := rfl
    have hm : monoFacts noCache W doubleEncoder ⟨false, 2, true, false, fun _ => true⟩ doubleDecl doubleBody .new = some ([A0, A1, R0, R1, R2, C1, C2], paramState ⟨"n", 0⟩) := by
      have h1 : forFuels (fuelDefinition noCache W doubleEncoder ⟨false, 2, true, false, fun _ => true⟩ doubleDecl doubleBody) (List.range 2) .new = some ([A0, A1], paramState ⟨"n", 0⟩) := by
        show forFuels _ [0, 1] _ = _
        simp only [forFuels, fuelDefinition, e0, e1, Option.bind_eq_bind, Option.bind_some]
      have h2 : forFuels (fuelReturn noCache W doubleEncoder doubleDecl) (List.range 3) (paramState ⟨"n", 0⟩) = some ([R0, R1, R2], paramState ⟨"n", 0⟩) := by
        show forFuels _ [0, 1, 2] _ = _
        simp only [forFuels, fuelReturn, r0, r1, r2, Option.bind_eq_bind, Option.bind_some]
      have h3 : forFuels (fuelComputation noCache W doubleEncoder doubleDecl doubleBody) (List.range' 1 2) (paramState ⟨"n", 0⟩) = some ([C1, C2], paramState ⟨"n", 0⟩) := by
        show forFuels _ [1, 2] _ = _
        simp only [forFuels, fuelComputation, c1, c2, Option.bind_eq_bind, Option.bind_some]
      simp only [monoFacts, h1, h2, given, h3, if_true, Bool.false_eq_true, if_false, Option.bind_eq_bind, Option.bind_some]
      rfl
    refine ⟨[A0, A1, R0, R1, R2, C1, C2], paramState ⟨"n", 0⟩, ?_, fun M h k hk z hz => ?_⟩
    · simp only [domainFacts, hf, hm, Option.bind_eq_bind, Option.bind_some, List.append_nil]
    · match k, hk with
      | 0, _ => exact p0 M (h _ (by simp)) z hz
      | 1, _ => exact p1 M (h _ (by simp)) z hz
  obtain ⟨fs, st, h1, h2⟩ := hd
  have hg : ∃ r st', @trans _ (W.at doubleEncoder doubleEncoder.fuel) noCache _ doubleGoal .new = some (r, st') ∧ ∀ M, v 2 1 = 2 → (show Prop from r M) := by
    simp only [doubleGoal, doubleCall, trans, cached_no]
    exact ⟨_, _, rfl, fun M h => (congrArg ((W.at doubleEncoder 2).func doubleFunc) (oneArg_eq _)).trans h⟩
  obtain ⟨r, st', h3, h4⟩ := hg
  refine ⟨fs, st, r, st', h1, h3, fun M M' hA _ => h4 M' ?_⟩
  have e1 := h2 M hA 1 (by norm_num) 1 (by norm_num)
  have e0 := h2 M hA 0 (by norm_num) 0 (by norm_num)
  rw [show intMonus 1 1 = 0 from smtIte_pos (le_refl (1 : ℤ)) _ _, e0, smtIte_neg (by norm_num), smtIte_pos rfl] at e1
  exact e1

/-- The soundness theorem applies to it. -/
example : let _ := unitDoms; let _ := doubleInterp; ∀ σ, (show Prop from doubleGoal.eval σ) := by
  intro _ _
  exact C51_sound_partial (fun _ => rfl) (fun _ => rfl) noCache doubleEncoder [.func doubleDecl] doubleGoal
    (fun d hd => by obtain rfl := List.mem_singleton.1 hd; exact double_true)
    (fun d hd => by obtain rfl := List.mem_singleton.1 hd; exact double_supported.1) double_supported.2 double_provable

/-- The assertions of the encoding with a parameter for fuel are emitted as well. -/
example [Doms] (W : World) (E : Encoder) : (forAllFuel (fuelDefinition noCache W E ⟨false, 2, true, true, fun _ => true⟩ doubleDecl doubleBody) .new).isSome := by
  have h : ∀ n, (fuelDefinition noCache W E ⟨false, 2, true, true, fun _ => true⟩ doubleDecl doubleBody n .new).isSome := by
    intro n
    obtain ⟨A, h, _⟩ := double_equation (W.at E (n + 1)) (W.at E n) .new (.inl rfl)
    exact Option.isSome_iff_exists.2 ⟨_, h⟩
  unfold forAllFuel
  rw [dif_pos h]
  rfl

/-! ## Violations -/

/-- `f(x: UInt): UInt = if x < 0 then f(x) + 1 else 0`. -/
def strictFunc : Func .uint := ⟨⟨"f", 0⟩, [.uint]⟩

def strictBody : Expr .uint :=
  .ite (.rel (.lt rfl) (.var ⟨"x", 0⟩) (.lit (.uint 0))) (.bin (.add rfl) (.call strictFunc fun | ⟨0, _⟩ => .var ⟨"x", 0⟩) (.lit (.uint 1))) (.lit (.uint 0))

def strictDecl : FuncDecl := ⟨.uint, strictFunc, fun _ => ⟨"x", 0⟩, some strictBody⟩

/-- What is asserted about `f` is contradictory. -/
theorem strict_facts : let _ := unitDoms; ∀ W : World, ∃ fs st, domainFacts noCache W (.basic true) [.func strictDecl] .new = some (fs, st) ∧
    ∀ M, ¬ ∀ A ∈ fs, A M := by
  intro _ W
  have he : ∃ A, equation noCache W.base W.base false true strictDecl strictDecl.call strictBody .new = some (A, paramState ⟨"x", 0⟩) ∧ ∀ M, ¬ A M := by
    have key : ∀ (as bs : (i : Fin strictFunc.args.length) → DVal (strictFunc.args.get i)) (c : Prop), W.base.func strictFunc as =
        smtIte c ((show ℤ from W.base.func strictFunc bs) + 1) (0 : ℤ) → as ⟨0, Nat.one_pos⟩ = bs ⟨0, Nat.one_pos⟩ → ¬ c := by
      intro as bs c h hab hc
      rw [show as = bs from (oneArg_eq as).trans ((congrArg oneArg hab).trans (oneArg_eq bs).symm), smtIte_pos hc] at h
      exact Int.ne_of_lt (Int.lt_succ _) h
    simp only [equation, strictDecl, FuncDecl.call, strictBody, trans, cached_no]
    refine ⟨_, rfl, fun M h => key _ _ _ (h (paramModel (-1)) fun h => by cases h) rfl ?_⟩
    have := paramModel_val M (-1)
    exact (this.symm ▸ (by norm_num : (-1 : ℤ) < 0) : (show ℤ from (M.over [(0, Ty.uint)] (paramModel (-1))).val 0 .uint) < 0)
  have hr : ∃ A, returnInvariant noCache W.base false strictDecl (paramState ⟨"x", 0⟩) = some (A, paramState ⟨"x", 0⟩) := by
    simp only [returnInvariant, strictDecl, FuncDecl.call, trans, cached_no]
    exact ⟨_, rfl⟩
  obtain ⟨A, hA, hn⟩ := he
  obtain ⟨R, hR⟩ := hr
  have hf : funcFacts noCache W (.basic true) strictDecl .new = basicFacts noCache W.base true strictDecl .new := rfl
  have hs : basicDefinition noCache W.base true strictDecl = single (equation noCache W.base W.base false true strictDecl strictDecl.call strictBody) := rfl
  refine ⟨[A, R], paramState ⟨"x", 0⟩, ?_, fun M hM => hn M (hM A (List.mem_cons_self ..))⟩
  simp only [domainFacts, hf, basicFacts, hs, single, hA, hR, Option.bind_eq_bind, Option.bind_some, List.append_nil, List.cons_append, List.nil_append]

theorem strict_provable : let _ := unitDoms; Provable noCache (.basic true) [.func strictDecl] (.lit (.bool false)) := by
  intro _ W
  obtain ⟨fs, st, h1, h2⟩ := strict_facts W
  have hg : ∃ r st', @trans _ (W.at (.basic true) 0) noCache _ (.lit (.bool false)) .new = some (r, st') := by
    simp only [trans, cached_no]
    exact ⟨_, _, rfl⟩
  obtain ⟨r, st', h3⟩ := hg
  exact ⟨fs, st, r, st', h1, h3, fun M M' hM _ => (h2 M hM).elim⟩

theorem strict_true : let _ := unitDoms; let _ := unitInterp; TrueSpec (.func strictDecl) := by
  intro _ _ body hb σ
  cases hb
  have hn : ¬ holds ((Expr.rel (.lt rfl) (.var ⟨"x", 0⟩) (.lit (.uint 0)) : Expr .bool).eval σ) := fun h =>
    Nat.not_lt_zero _ (lt_of_le_of_ne (show (show ℕ from _) ≤ 0 from h.1) h.2)
  exact (if_neg hn : strictBody.eval σ = (0 : ℕ)).symm

/-- The full property fails for the default encoding: the strengthened definition also speaks about negative numbers, and is
contradictory there, although the definition is true. -/
theorem C51_not_full : ¬ C51_full := by
  intro h
  let _ := unitDoms
  let _ := unitInterp
  have ht : ∀ d ∈ [DomainSpec.func strictDecl], TrueSpec d := by
    intro d hd
    obtain rfl := List.mem_singleton.1 hd
    exact strict_true
  have h : (false = true) := h _ _ noCache (.basic true) [.func strictDecl] (.lit (.bool false)) (fun _ => rfl) (fun _ => rfl) trivial ht trivial strict_provable zeroEnv
  cases h

/-- `g(x: UInt): EUReal = inf y: UInt. x + y`. -/
def infFunc : Func .eureal := ⟨⟨"g", 0⟩, [.uint]⟩

def infBody : Expr .eureal :=
  .quant (t := .eureal) .inf rfl [⟨false, ⟨⟨"y", 0⟩, .uint⟩⟩] (.cast .uintEUReal (.bin (.add rfl) (.var ⟨"x", 0⟩) (.var ⟨"y", 0⟩)))

def infDecl : FuncDecl := ⟨.eureal, infFunc, fun _ => ⟨"x", 0⟩, some infBody⟩

/-- `g(0) = g(1)`. -/
def infGoal : Expr .bool := .rel .eq (.call infFunc fun | ⟨0, _⟩ => .lit (.uint 0)) (.call infFunc fun | ⟨0, _⟩ => .lit (.uint 1))

theorem inf_equation [Doms] (H : SmtInterp) : ∃ A st, equation noCache H H false false infDecl infDecl.call infBody .new = some (A, st) ∧
    st.locals = (paramState ⟨"x", 0⟩).locals ∧
    ∀ M, A M → ∃ c, ∀ z : ℤ, z ≥ 0 → pairToData (@dataToPair H.toJunk (H.func infFunc (oneArg z))) = c := by
  have key : ∀ (as : (i : Fin infFunc.args.length) → DVal (infFunc.args.get i)) (z : ℤ) (p q : Pair), pairToData (@dataToPair H.toJunk (H.func infFunc as)) = pairToData p →
      as ⟨0, Nat.one_pos⟩ = z → p = q → pairToData (@dataToPair H.toJunk (H.func infFunc (oneArg z))) = pairToData q := by
    intro as z p q h ha hq
    rw [show as = oneArg z from (oneArg_eq as).trans (congrArg oneArg ha), hq] at h
    exact h
  have h1 : ∃ r, @trans _ H noCache _ infDecl.call .new = some (r, paramState ⟨"x", 0⟩) ∧
      r = fun M => dataToPair (H.func infFunc fun i => toDyn _ ((Fin.cases (motive := fun i => Term (infFunc.args.get i)) (fun M => M.val 0 .uint) (fun i => i.elim0) i) M)) := by
    simp only [infDecl, FuncDecl.call, trans, cached_no]
    exact ⟨_, rfl, rfl⟩
  have h2 : ∃ r st, @trans _ H noCache infDecl.out infBody (paramState ⟨"x", 0⟩) = some (r, st) ∧ r = (fun M => M.sk 2 []) ∧ st.locals = (paramState ⟨"x", 0⟩).locals := by
    exact ⟨_, _, rfl, rfl, rfl⟩
  have h3 : ∀ st : TState, st.locals = (paramState ⟨"x", 0⟩).locals → st.mkScope infDecl.inputs = some ([(0, .uint)], st) := by
    intro st hst
    obtain ⟨n, l, q, g, c⟩ := st
    obtain rfl : l = _ := hst
    rfl
  obtain ⟨r, h1, hr⟩ := h1
  obtain ⟨r', st, h2, hr', hst⟩ := h2
  refine ⟨fun M => ∀ N : Model, (false = false → invOn [(0, .uint)] N) → pairToData (r (M.over [(0, .uint)] N)) = pairToData (r' (M.over [(0, .uint)] N)), st, ?_, hst, fun M h => ?_⟩
  · simp only [equation, Bool.false_eq_true, if_false, h1, h2, h3 st hst, Option.bind_eq_bind, Option.bind_some]
    rfl
  · refine ⟨pairToData (M.sk 2 []), fun z hz => ?_⟩
    have := h (paramModel z) fun _ => paramModel_inv hz
    rw [hr, hr'] at this
    exact key _ z _ _ this (paramModel_val M z) rfl

theorem data_roundtrip [Data.Junk] (d : Data) : pairToData (dataToPair d) = d := by
  obtain ⟨⟩ | r := d
  · rw [show dataToPair Data.inf = Pair.infinity from Pair.branch_pos _ _ trivial]
    exact if_pos trivial
  · rw [show dataToPair (Data.real r) = Pair.fromUReal r from Pair.branch_neg _ _ fun h => h]
    exact if_neg fun h => h

theorem data_smtEq [Data.Junk] {d e : Data} (h : pairToData (dataToPair d) = pairToData (dataToPair e)) : (dataToPair d).smtEq (dataToPair e) := by
  rw [data_roundtrip, data_roundtrip] at h
  subst h
  exact ⟨rfl, fun _ => rfl⟩

theorem inf_provable : let _ := unitDoms; Provable noCache (.basic false) [.func infDecl] infGoal := by
  intro _ W
  obtain ⟨A, st, hA, hst, hn⟩ := inf_equation W.base
  have hr : ∃ R, returnInvariant noCache W.base false infDecl st = some (R, st) := by
    obtain ⟨n, l, q, g, c⟩ := st
    obtain rfl : l = _ := hst
    simp only [returnInvariant, infDecl, FuncDecl.call, trans, cached_no]
    exact ⟨_, rfl⟩
  obtain ⟨R, hR⟩ := hr
  have hf : funcFacts noCache W (.basic false) infDecl .new = basicFacts noCache W.base false infDecl .new := rfl
  have hs : basicDefinition noCache W.base false infDecl = single (equation noCache W.base W.base false false infDecl infDecl.call infBody) := rfl
  have hg : ∃ r st', @trans _ (W.at (.basic false) 0) noCache _ infGoal .new = some (r, st') ∧ ∀ M, r M =
      (@dataToPair W.base.toJunk (W.base.func infFunc (oneArg 0))).smtEq (@dataToPair W.base.toJunk (W.base.func infFunc (oneArg 1))) := by
    simp only [infGoal, trans, cached_no]
    refine ⟨_, _, rfl, fun M => ?_⟩
    have key : ∀ (as bs : (i : Fin infFunc.args.length) → DVal (infFunc.args.get i)), as ⟨0, Nat.one_pos⟩ = (0 : ℤ) → bs ⟨0, Nat.one_pos⟩ = (1 : ℤ) →
        (@dataToPair W.base.toJunk (W.base.func infFunc as)).smtEq (@dataToPair W.base.toJunk (W.base.func infFunc bs)) =
        (@dataToPair W.base.toJunk (W.base.func infFunc (oneArg 0))).smtEq (@dataToPair W.base.toJunk (W.base.func infFunc (oneArg 1))) := by
      intro as bs ha hb
      rw [show as = oneArg 0 from (oneArg_eq as).trans (congrArg oneArg ha), show bs = oneArg 1 from (oneArg_eq bs).trans (congrArg oneArg hb)]
    exact key _ _ rfl rfl
  obtain ⟨r, st', h3, h4⟩ := hg
  refine ⟨[A, R], st, r, st', ?_, h3, fun M M' hM _ => ?_⟩
  · simp only [domainFacts, hf, basicFacts, hs, single, hA, hR, Option.bind_eq_bind, Option.bind_some, List.append_nil, List.cons_append, List.nil_append]
  · obtain ⟨c, hc⟩ := hn M (hM A (List.mem_cons_self ..))
    have h01 := (hc 0 (le_refl 0)).trans (hc 1 zero_le_one).symm
    show r M'
    rw [h4 M']
    exact @data_smtEq W.base.toJunk _ _ h01

/-- Without the strengthening, the full property fails as well: the infimum in a definition becomes one constant instead of a
function of the parameters, so that `g(0) = g(1)` is provable. -/
theorem C51_partial_encoding_not_full : ¬ C51_full_for fun E => E.total = false := by
  intro h
  let _ := unitDoms
  let _ := doubleInterp
  have ht : ∀ d ∈ [DomainSpec.func infDecl], TrueSpec d := by
    intro d hd
    obtain rfl := List.mem_singleton.1 hd
    intro body hb σ
    cases hb
    have key : ∀ n : ℕ, (n : ℝ≥0∞) = ⨅ m : ℕ, ((n + m : ℕ) : ℝ≥0∞) := fun n =>
      le_antisymm (le_iInf fun m => Nat.cast_le.2 (Nat.le_add_right n m)) (iInf_le_of_le 0 le_rfl)
    exact (key (σ ⟨⟨"x", 0⟩, .uint⟩))
  have hf : FinSub infGoal := by
    refine ⟨fun i => ?_, fun i => ?_⟩ <;>
    · match i with
      | ⟨0, _⟩ => trivial
  have h : ((0 : ℕ) : ℝ≥0∞) = ((1 : ℕ) : ℝ≥0∞) :=
    h _ _ noCache (.basic false) [.func infDecl] infGoal (fun _ => rfl) (fun _ => rfl) rfl ht hf inf_provable zeroEnv
  simp at h

end Caesar.Smt
