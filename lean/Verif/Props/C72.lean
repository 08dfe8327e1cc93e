import Verif.Driver.FuncEncoder
import Verif.Props.C51
import Verif.Props.C35

/-!
# C72: the options about functions

`mkEncoder` (`Driver/FuncEncoder.lean`) chooses the encoder. The documentation (`src/driver/commands/options.rs:224-237`) says about the option
`--no-partial-strengthening`: "This flag disables strengthening, making definitions 'obviously correct'", and "The `define-fun-rec` encoding
always strengthens definitions, and this option will result in an error". The option `--function-encoding fuel-…` bounds the unfolding of
recursive functions.
-/

open scoped ENNReal NNReal

namespace Caesar.Smt
open Relation

/-- Specification: the expressions of a declaration contain no infimum or supremum of extended reals and no subtraction of an infinite
value (see C51). -/
def PlainSpec [Doms] [Interp] : DomainSpec → Prop
  | .func d => ∀ body, d.body = some body → FinSub body ∧ NoExt body
  | .prop e => FinSub e ∧ NoExt e

/-- Specification: with options for which `P` holds, no false obligation becomes provable from true definitions. -/
def C72_sound_for (P : EncodingOptions → Prop) : Prop :=
  ∀ (_ : Doms) (_ : Interp) (O : Oracle) (o : EncodingOptions) (decls : List Infra.DepDecl) (g : Infra.DepGraph) (ds : List DomainSpec) (e : Expr .bool) (E : Encoder),
  (∀ x : ℝ≥0, Interp.divR0 (x : ℝ) = (Interp.divU0 x : ℝ≥0)) → (∀ n : ℕ, Interp.modZ0 (n : ℤ) = (Interp.modN0 n : ℕ)) →
  P o → encoderGraph o decls = some g → mkEncoder o g ds = some E → (∀ d ∈ ds, TrueSpec d) → (∀ d ∈ ds, PlainSpec d) → FinSub e →
  Provable O E ds e → ∀ σ, (show Prop from e.eval σ)

/-- The full property: the flag makes definitions correct, it is an error together with `define-fun-rec`, and nothing else is an error. -/
def C72_full : Prop :=
  C72_sound_for (fun o => o.noPartialStrengthening = true) ∧
  ∀ o g ds, mkEncoder o g ds = none ↔ o.encoding = .defineFunRec ∧ o.noPartialStrengthening = true

/-- With the flag, all encodings but `define-fun-rec` are sound. -/
theorem C72_sound_partial : C72_sound_for fun o => o.noPartialStrengthening = true ∧ o.encoding ≠ .defineFunRec := by
  intro _ _ O o decls g ds e E hdiv hmod ho _ hE ht hp hfin hprov
  have hE : E.total = false := by
    obtain ⟨enc, flag, fuel, syn⟩ := o
    obtain ⟨rfl, ho⟩ : flag = true ∧ enc ≠ .defineFunRec := ho
    cases enc with
    | defineFunRec => exact absurd rfl ho
    | axiomatic => cases hE; rfl
    | decreasing => cases hE; rfl
    | fuelMono => cases hE; rfl
    | fuelParam => cases hE; rfl
    | fuelMonoComputation => cases hE; rfl
    | fuelParamComputation => cases hE; rfl
  refine C51_sound_partial hdiv hmod O E ds e ht (fun d hd => ?_) hfin hprov
  have := hp d hd
  cases d with
  | func d => exact And.intro (fun h => by rw [hE] at h; cases h) this
  | prop e => exact this

/-- Whatever the options, the encodings are sound for functions whose parameters have types without constraints. -/
theorem C72_unconstrained_partial [Doms] [Interp] (O : Oracle) (o : EncodingOptions) (g : Infra.DepGraph) (ds : List DomainSpec) (e : Expr .bool) (E : Encoder)
    (hdiv : ∀ x : ℝ≥0, Interp.divR0 (x : ℝ) = (Interp.divU0 x : ℝ≥0)) (hmod : ∀ n : ℕ, Interp.modZ0 (n : ℤ) = (Interp.modN0 n : ℕ))
    (hfree : ∀ d ∈ functions ds, ∀ i, Free (d.func.args.get i)) (_hE : mkEncoder o g ds = some E)
    (ht : ∀ d ∈ ds, TrueSpec d) (hp : ∀ d ∈ ds, PlainSpec d) (hfin : FinSub e) (hprov : Provable O E ds e) (σ : Env) : (show Prop from e.eval σ) := by
  have key : ∀ ds : List DomainSpec, ∀ d, DomainSpec.func d ∈ ds → d ∈ functions ds := by
    intro ds d hd
    induction ds with
    | nil => cases hd
    | cons a ds ih =>
      cases a with
      | func a =>
        rcases List.mem_cons.1 hd with h | h
        · cases h
          exact List.mem_cons_self ..
        · exact List.mem_cons_of_mem _ (ih h)
      | prop e =>
        rcases List.mem_cons.1 hd with h | h
        · cases h
        · exact ih h
  refine C51_sound_partial hdiv hmod O E ds e ht (fun d hd => ?_) hfin hprov σ
  have := hp d hd
  cases d with
  | func d => exact And.intro (fun _ => hfree d (key ds d hd)) this
  | prop e => exact this

/-- What the code does: `define-fun-rec` is an error exactly *without* the flag. -/
theorem C72_error (o : EncodingOptions) (g : Infra.DepGraph) (ds : List DomainSpec) :
    mkEncoder o g ds = none ↔ o.encoding = .defineFunRec ∧ o.noPartialStrengthening = false := by
  obtain ⟨enc, flag, fuel, syn⟩ := o
  cases enc <;> cases flag <;> simp [mkEncoder]

/-- The documented error is missing. -/
theorem C72_error_not_full : ¬ ∀ o g ds, mkEncoder o g ds = none ↔ o.encoding = .defineFunRec ∧ o.noPartialStrengthening = true := by
  intro h
  have := (h ⟨.defineFunRec, true, 0, false⟩ ⟨.decreasing, [], []⟩ []).2 ⟨rfl, rfl⟩
  cases this

theorem strict_recFun : let _ := unitDoms; Provable noCache .recFun [.func strictDecl] (.lit (.bool false)) := by
  intro _ W
  obtain ⟨fs, st, r, st', h1, h2, h3⟩ := strict_provable W
  refine ⟨fs, st, r, st', ?_, ?_, h3⟩
  · simp only [domainFacts] at h1 ⊢
    exact h1
  · exact h2

/-- The flag does not make definitions correct: together with `define-fun-rec`, a contradiction follows from the true definition
`f(x: UInt): UInt = if x < 0 then f(x) + 1 else 0`. -/
theorem C72_sound_not_full : ¬ C72_sound_for fun o => o.noPartialStrengthening = true := by
  intro h
  let _ := unitDoms
  let _ := unitInterp
  have ht : ∀ d ∈ [DomainSpec.func strictDecl], TrueSpec d := by
    intro d hd
    obtain rfl := List.mem_singleton.1 hd
    intro body hb σ
    cases hb
    have hn : ¬ holds ((Expr.rel (.lt rfl) (.var ⟨"x", 0⟩) (.lit (.uint 0)) : Expr .bool).eval σ) := fun h =>
      Nat.not_lt_zero _ (lt_of_le_of_ne (show (show ℕ from _) ≤ 0 from h.1) h.2)
    exact (if_neg hn : strictBody.eval σ = (0 : ℕ)).symm
  have hp : ∀ d ∈ [DomainSpec.func strictDecl], PlainSpec d := by
    intro d hd
    obtain rfl := List.mem_singleton.1 hd
    intro body hb
    cases hb
    have key : ∀ i : Fin strictFunc.args.length, FinSub (match i with | ⟨0, _⟩ => .var ⟨"x", 0⟩ : Expr (strictFunc.args.get i)) := by
      intro i
      match i with
      | ⟨0, _⟩ => trivial
    have key2 : ∀ i : Fin strictFunc.args.length, NoExt (match i with | ⟨0, _⟩ => .var ⟨"x", 0⟩ : Expr (strictFunc.args.get i)) := by
      intro i
      match i with
      | ⟨0, _⟩ => trivial
    exact ⟨⟨⟨trivial, trivial⟩, ⟨key, trivial, fun _ => trivial⟩, trivial⟩, ⟨trivial, trivial⟩, ⟨key2, trivial⟩, trivial⟩
  have h : (false = true) := h _ _ noCache ⟨.defineFunRec, true, 0, false⟩ [] _ [.func strictDecl] (.lit (.bool false)) .recFun (fun _ => rfl) (fun _ => rfl) rfl rfl rfl
    ht hp trivial strict_recFun zeroEnv
  cases h

theorem C72_not_full : ¬ C72_full := fun h => C72_error_not_full h.2

/-! ## Recursion -/

/-- Specification: a call of `n` occurs in the expression, at any place. -/
inductive CallIn (n : Ident) : {t : Ty} → Expr t → Prop
  | here {t} (f : Func t) args : f.name = n → CallIn n (.call f args)
  | arg {t} (f : Func t) args i : CallIn n (args i) → CallIn n (.call f args)
  | cond {t} c (a b : Expr t) : CallIn n c → CallIn n (.ite c a b)
  | then {t} c (a b : Expr t) : CallIn n a → CallIn n (.ite c a b)
  | else {t} c (a b : Expr t) : CallIn n b → CallIn n (.ite c a b)
  | binL {t} o (a b : Expr t) : CallIn n a → CallIn n (.bin o a b)
  | binR {t} o (a b : Expr t) : CallIn n b → CallIn n (.bin o a b)
  | relL {t} o (a b : Expr t) : CallIn n a → CallIn n (.rel o a b)
  | relR {t} o (a b : Expr t) : CallIn n b → CallIn n (.rel o a b)
  | un {t} o (a : Expr t) : CallIn n a → CallIn n (.un o a)
  | embed a : CallIn n a → CallIn n (.embed a)
  | iverson a : CallIn n a → CallIn n (.iverson a)
  | cast {s t} c (a : Expr s) : CallIn n a → CallIn n (.cast (t := t) c a)
  | quant {t} q vs ts (a : Expr t) : CallIn n a → CallIn n (.quant q vs ts a)
  | substE {t} (x : Var) (e : Expr x.ty) (a : Expr t) : CallIn n e → CallIn n (.subst x e a)
  | substA {t} (x : Var) (e : Expr x.ty) (a : Expr t) : CallIn n a → CallIn n (.subst x e a)

/-- The dependency graph sees exactly the calls in the definition. -/
theorem C72_calls {t : Ty} (n : Ident) (e : Expr t) : n ∈ callNames e ↔ CallIn n e := by
  constructor
  · intro h
    induction e with
    | var _ => simp [callNames] at h
    | lit _ => simp [callNames] at h
    | call f args ih =>
      simp only [callNames, List.mem_cons, List.mem_flatten, List.mem_ofFn] at h
      rcases h with h | ⟨_, ⟨i, rfl⟩, h⟩
      · exact .here _ _ h.symm
      · exact .arg _ _ i (ih i h)
    | ite c a b hc ha hb =>
      simp only [callNames, List.mem_append] at h
      rcases h with (h | h) | h
      · exact .cond _ _ _ (hc h)
      · exact .then _ _ _ (ha h)
      · exact .else _ _ _ (hb h)
    | bin o a b ha hb =>
      simp only [callNames, List.mem_append] at h
      rcases h with h | h
      · exact .binL _ _ _ (ha h)
      · exact .binR _ _ _ (hb h)
    | rel o a b ha hb =>
      simp only [callNames, List.mem_append] at h
      rcases h with h | h
      · exact .relL _ _ _ (ha h)
      · exact .relR _ _ _ (hb h)
    | un o a ih => exact .un _ _ (ih h)
    | embed a ih => exact .embed _ (ih h)
    | iverson a ih => exact .iverson _ (ih h)
    | cast c a ih => exact .cast _ _ (ih h)
    | quant q vs ts a ih => exact .quant _ _ _ _ (ih h)
    | subst x e a he ha =>
      simp only [callNames, List.mem_append] at h
      rcases h with h | h
      · exact .substE _ _ _ (he h)
      · exact .substA _ _ _ (ha h)
  · intro h
    induction h with
    | here f args h => simp [callNames, h]
    | arg f args i _ ih =>
      simp only [callNames, List.mem_cons, List.mem_flatten, List.mem_ofFn]
      exact .inr ⟨_, ⟨i, rfl⟩, ih⟩
    | _ => simp_all [callNames]

/-- Specification: the definition of `f` calls `g`. -/
def CallsFunc (ds : List DomainSpec) (f g : Ident) : Prop :=
  ∃ d ∈ functions ds, d.func.name = f ∧ ∃ body, d.body = some body ∧ CallIn g body

/-- Specification: the encoder bounds the unfolding of the function. -/
def Bounded (E : Encoder) (d : FuncDecl) : Prop :=
  match E with
  | .fuelMono o => o.isFuel d.func = true
  | .fuelParam o => o.isFuel d.func = true
  | .basic _ => False
  | .recFun => False

/-- With a fuel encoding, the unfolding of every function on a cycle of definitions is bounded, whatever else is declared. -/
theorem C72_recursion (o : EncodingOptions) (decls : List Infra.DepDecl) (ds : List DomainSpec) (g : Infra.DepGraph) (E : Encoder)
    (henc : o.encoding ∈ [.fuelMono, .fuelParam, .fuelMonoComputation, .fuelParamComputation])
    (hdecls : ∀ d ∈ functions ds, d.dep ∈ decls) (hg : encoderGraph o decls = some g) (hE : mkEncoder o g ds = some E)
    (d : FuncDecl) (_hd : d ∈ functions ds) (hcycle : TransGen (CallsFunc ds) d.func.name d.func.name) : Bounded E d := by
  have hinst : o.encoding.inst = .decreasing := by
    unfold EncodingOption.inst
    rw [if_neg]
    intro h
    rw [h] at henc
    simp at henc
  have hg' : (Infra.DepGraph.new .decreasing).visitAll decls = some g := by
    unfold encoderGraph at hg
    rw [hinst] at hg
    exact hg
  have hcalls : ∀ a b, CallsFunc ds a b → Infra.DependsOn .decreasing decls a b := by
    rintro a b ⟨d, hd, rfl, body, hb, hm⟩
    refine .inr (.inl ⟨rfl, callNames body, ?_, (C72_calls _ _).2 hm⟩)
    have := hdecls d hd
    unfold FuncDecl.dep at this
    rw [hb] at this
    exact this
  have hrec : g.isPotentiallyRecursive d.func.name = true := (Infra.C35_recursive _ _ _ hg' _).2 (TransGen.mono hcalls _ _ hcycle)
  have hname : d.func.name ∈ fuelFunctions g ds := by
    obtain ⟨b, hb, _⟩ := TransGen.head'_iff.1 hcycle
    obtain ⟨d', hd', hn, body, hbody, _⟩ := hb
    refine List.mem_map.2 ⟨d', List.mem_filter.2 ⟨hd', ?_⟩, hn⟩
    rw [hbody, hn, hrec]
    rfl
  obtain ⟨enc, flag, fuel, syn⟩ := o
  cases enc with
  | axiomatic => simp at henc
  | decreasing => simp at henc
  | defineFunRec => simp at henc
  | fuelMono => cases hE; exact decide_eq_true hname
  | fuelParam => cases hE; exact decide_eq_true hname
  | fuelMonoComputation => cases hE; exact decide_eq_true hname
  | fuelParamComputation => cases hE; exact decide_eq_true hname

/-- Only functions with a definition that depend on themselves get fuel, so that the encoders never look for a definition that does not
exist. -/
theorem C72_fuel_defined (o : EncodingOptions) (decls : List Infra.DepDecl) (ds : List DomainSpec) (g : Infra.DepGraph) (E : Encoder)
    (hnames : ((functions ds).map fun d => d.func.name).Nodup) (hg : encoderGraph o decls = some g) (hE : mkEncoder o g ds = some E)
    (d : FuncDecl) (hd : d ∈ functions ds) (hf : Bounded E d) :
    (∃ body, d.body = some body) ∧ TransGen (Infra.DependsOn o.encoding.inst decls) d.func.name d.func.name := by
  have hname : d.func.name ∈ fuelFunctions g ds := by
    obtain ⟨enc, flag, fuel, syn⟩ := o
    cases enc with
    | axiomatic => cases hE; exact hf.elim
    | decreasing => cases hE; exact hf.elim
    | defineFunRec => cases flag <;> cases hE; exact hf.elim
    | fuelMono => cases hE; exact of_decide_eq_true hf
    | fuelParam => cases hE; exact of_decide_eq_true hf
    | fuelMonoComputation => cases hE; exact of_decide_eq_true hf
    | fuelParamComputation => cases hE; exact of_decide_eq_true hf
  obtain ⟨d', hd', hn⟩ := List.mem_map.1 hname
  obtain ⟨hmem, hcond⟩ := List.mem_filter.1 hd'
  have heq : d' = d := List.inj_on_of_nodup_map hnames hmem hd hn
  subst heq
  rw [Bool.and_eq_true] at hcond
  refine ⟨Option.isSome_iff_exists.1 hcond.1, ?_⟩
  exact (Infra.C35_recursive _ _ _ hg _).1 hcond.2

/-! ## The meaning of the options -/

/-- What the documentation of the options says (`src/driver/commands/options.rs:145-171`): one version of a function for each fuel value. -/
def Encoder.versions : Encoder → Prop
  | .fuelMono _ => True
  | _ => False

/-- A symbolic parameter for the fuel. -/
def Encoder.fuelParameter : Encoder → Prop
  | .fuelParam _ => True
  | _ => False

/-- Unbounded unfolding for literal arguments. -/
def Encoder.unfoldsLiterals : Encoder → Prop
  | .fuelMono o => o.computation = true
  | .fuelParam o => o.computation = true
  | _ => False

/-- Every option chooses the encoding in its documentation, with the given fuel. -/
theorem C72_options (o : EncodingOptions) (g : Infra.DepGraph) (ds : List DomainSpec) (E : Encoder) (hE : mkEncoder o g ds = some E) :
    (E.versions ↔ o.encoding = .fuelMono ∨ o.encoding = .fuelMonoComputation) ∧
    (E.fuelParameter ↔ o.encoding = .fuelParam ∨ o.encoding = .fuelParamComputation) ∧
    (E.unfoldsLiterals ↔ o.encoding = .fuelMonoComputation ∨ o.encoding = .fuelParamComputation) ∧
    (E = .recFun ↔ o.encoding = .defineFunRec) ∧
    ∀ p, E = .fuelMono p ∨ E = .fuelParam p → p.maxFuel = o.maxFuel ∧ (p.synonym = true ↔ o.noSynonymAxiom = false) := by
  obtain ⟨enc, flag, fuel, syn⟩ := o
  cases enc
  case defineFunRec =>
    cases flag <;> cases hE
    simp [Encoder.versions, Encoder.fuelParameter, Encoder.unfoldsLiterals]
  all_goals
    cases hE
    simp [Encoder.versions, Encoder.fuelParameter, Encoder.unfoldsLiterals, fuelOptions]

example : ∃ E, mkEncoder ⟨.fuelParamComputation, false, 3, true⟩ (Infra.DepGraph.new .decreasing) [.func doubleDecl] = some E ∧ E.fuelParameter ∧ E.unfoldsLiterals :=
  ⟨_, rfl, (C72_options ⟨.fuelParamComputation, false, 3, true⟩ _ _ _ rfl).2.1.2 (.inr rfl),
    (C72_options ⟨.fuelParamComputation, false, 3, true⟩ _ _ _ rfl).2.2.1.2 (.inr rfl)⟩

/-! ## Examples -/

theorem double_gets_fuel : doubleFunc.name ∈ fuelFunctions ((encoderGraph ⟨.fuelMonoComputation, true, 2, true⟩ [doubleDecl.dep]).get rfl) [.func doubleDecl] := by
  refine of_decide_eq_true (C72_recursion ⟨.fuelMonoComputation, true, 2, true⟩ [doubleDecl.dep] [.func doubleDecl] _ (.fuelMono (fuelOptions _ _ _)) (by simp) (fun d hd => ?_) (Option.some_get _).symm rfl doubleDecl (List.mem_singleton.2 rfl) ?_)
  · obtain rfl := List.mem_singleton.1 hd
    exact List.mem_singleton.2 rfl
  · refine .single ⟨doubleDecl, List.mem_singleton.2 rfl, rfl, doubleBody, rfl, ?_⟩
    exact .else _ _ _ (.binL _ _ _ (.here _ _ rfl))

/-- `double` is recursive and gets fuel. -/
example : ∃ g E, encoderGraph ⟨.fuelParam, true, 2, false⟩ [doubleDecl.dep] = some g ∧ mkEncoder ⟨.fuelParam, true, 2, false⟩ g [.func doubleDecl] = some E ∧ Bounded E doubleDecl := by
  refine ⟨_, _, rfl, rfl, ?_⟩
  refine C72_recursion ⟨.fuelParam, true, 2, false⟩ [doubleDecl.dep] [.func doubleDecl] _ _ (by simp) (fun d hd => ?_) rfl rfl doubleDecl (List.mem_singleton.2 rfl) ?_
  · obtain rfl := List.mem_singleton.1 hd
    exact List.mem_singleton.2 rfl
  · refine .single ⟨doubleDecl, List.mem_singleton.2 rfl, rfl, doubleBody, rfl, ?_⟩
    exact .else _ _ _ (.binL _ _ _ (.here _ _ rfl))

theorem double_encoder_provable (p : {t : Ty} → Func t → Bool) (hp : p doubleFunc = true) :
    let _ := unitDoms; Provable noCache (.fuelMono ⟨false, 2, true, false, p⟩) [.func doubleDecl] doubleGoal := by
  intro _ W
  let W' : World := ⟨W.base, fun n {_} f => if p f then W.variant n f else W.base.func f⟩
  have hat : ∀ n, W'.at doubleEncoder n = W.at (.fuelMono ⟨false, 2, true, false, p⟩) n := fun n => rfl
  obtain ⟨fs, st, r, st', h1, h2, h3⟩ := double_provable W'
  refine ⟨fs, st, r, st', ?_, h2, h3⟩
  have hf : funcFacts noCache W (.fuelMono ⟨false, 2, true, false, p⟩) doubleDecl = funcFacts noCache W' doubleEncoder doubleDecl := by
    funext st
    have : Encoder.isFuel (.fuelMono ⟨false, 2, true, false, p⟩) doubleDecl.func = true := hp
    unfold funcFacts
    rw [if_pos this, if_pos (show doubleEncoder.isFuel doubleDecl.func = true from rfl)]
    rfl
  simp only [domainFacts, hf] at h1 ⊢
  exact h1

/-- The soundness theorem applies to `double(1) = 2` with the options `--function-encoding fuel-mono-computation --no-partial-strengthening
--no-synonym-axiom`. -/
example : let _ := unitDoms; let _ := doubleInterp; ∀ σ, (show Prop from doubleGoal.eval σ) := by
  intro _ _
  refine C72_sound_partial _ _ noCache ⟨.fuelMonoComputation, true, 2, true⟩ [doubleDecl.dep] _ [.func doubleDecl] doubleGoal _ (fun _ => rfl) (fun _ => rfl)
    ⟨rfl, by decide⟩ rfl rfl (fun d hd => by obtain rfl := List.mem_singleton.1 hd; exact double_true)
    (fun d hd => by obtain rfl := List.mem_singleton.1 hd; exact double_supported.1.2) double_supported.2 ?_
  exact double_encoder_provable _ (decide_eq_true double_gets_fuel)

end Caesar.Smt
