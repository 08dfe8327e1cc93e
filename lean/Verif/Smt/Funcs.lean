import Verif.Smt.Translate

/-!
# Encodings of functions

The axiomatic encoding (`src/smt/funcs/axiomatic.rs`), the two fuel encodings (`src/smt/funcs/fuel/`) and `define-fun-rec`
(`src/smt/funcs/recfun.rs`). The meaning of `define-fun-rec` is that of the SMT-LIB standard, the universally quantified equation; parameters
of type `EUReal`, for which Z3 gets a term instead of a variable, are included as if they were variables. Patterns and weights only guide the solver and are left out. The marker `Lit`
(`z3rro/src/lit.rs`), axiomatised as the identity function, is left out as well.
-/

namespace Caesar.Smt

variable [Doms]

/-- `FuncDecl` (`src/ast/decl.rs`): the symbol, the names of its inputs and the definition. -/
structure FuncDecl where
  out : Ty
  func : Func out
  ins : Fin func.args.length → Ident
  body : Option (Expr out)

/-- The parameters as variables. (`src/ast/decl.rs:495`) -/
def FuncDecl.inputs (d : FuncDecl) : List Var := List.ofFn fun i => ⟨d.ins i, d.func.args.get i⟩

/-- `mk_call_expr` (`src/smt/funcs/util.rs:151-164`). -/
def FuncDecl.call (d : FuncDecl) : Expr d.out := .call d.func fun i => .var (d.ins i)

/-- `FuelEncodingOptions` (`src/smt/funcs/fuel/mod.rs:28-45`). `total` is `partial_encoding == StrengthenToTotal`. -/
structure FuelOptions where
  total : Bool
  maxFuel : Nat
  computation : Bool
  synonym : Bool
  isFuel : {t : Ty} → Func t → Bool

/-- The function encoders (`src/driver/smt_proof.rs:174-250`). -/
inductive Encoder where
  | basic (total : Bool)
  | fuelMono (o : FuelOptions)
  | fuelParam (o : FuelOptions)
  | recFun

/-- The functions which have a parameter for fuel, or one variant for each value of the fuel. -/
def Encoder.isFuel : Encoder → {t : Ty} → Func t → Bool
  | .basic _, _, _ => false
  | .fuelMono o, _, f => o.isFuel f
  | .fuelParam o, _, f => o.isFuel f
  | .recFun, _, _ => false

/-- `PartialEncoding` (`src/smt/funcs/axiomatic.rs:36-64`). `define-fun-rec` defines a function on all values of the SMT sort
(`src/smt/funcs/recfun.rs:41-82`). Functions without a definition have no equation, so that for them the value does not matter. -/
def Encoder.total : Encoder → Bool
  | .basic t => t
  | .fuelMono o => o.total
  | .fuelParam o => o.total
  | .recFun => true

/-- The fuel of calls outside of definitions (`src/smt/funcs/fuel/fuel_mono.rs:65`, `src/smt/funcs/fuel/fuel_param.rs:77-82`). -/
def Encoder.fuel : Encoder → Nat
  | .basic _ => 0
  | .fuelMono o => o.maxFuel
  | .fuelParam o => o.maxFuel
  | .recFun => 0

/-- The functions of an SMT model: `base` for the functions without fuel, `variant n` for the functions `f$n`
(`src/smt/funcs/fuel/fuel_mono.rs:191-198`), or for `f(n, …)` (`src/smt/funcs/fuel/fuel_param.rs:175-186`; the datatype of fuel is that of the natural numbers). -/
structure World where
  base : SmtInterp
  variant : Nat → {t : Ty} → (f : Func t) → ((i : Fin f.args.length) → DVal (f.args.get i)) → DVal t

/-- The functions which `translate_call` uses while the current fuel is `n` (`src/smt/funcs/fuel/fuel_mono.rs:169-184`, `src/smt/funcs/fuel/fuel_param.rs:175-186`). -/
@[reducible] def World.at (W : World) (E : Encoder) (n : Nat) : SmtInterp :=
  { W.base with func := fun f => if E.isFuel f then W.variant n f else W.base.func f }

/-- An assertion. (`src/smt/mod.rs:146`) -/
abbrev Fact := Model → Prop

/-- `clear_cache` (`src/smt/translate_exprs.rs:123-125, 848-852`). -/
def TState.clearCache (st : TState) : TState := { st with cache := st.cache.map fun _ => [] }

/-- `translate_equational_axiom` with `inputs_scope` (`src/smt/funcs/util.rs:76-91, 24-38`), of two expressions translated with
possibly different fuel: `H` for the head and `B` for the body. With `fuel`, the cache is cleared before each of them
(`set_translate_fuel`, `src/smt/funcs/fuel/fuel_mono.rs:88-98`, `src/smt/funcs/fuel/fuel_param.rs:113-124`). With `total`, the constraints of the scope are cleared
(`src/smt/funcs/axiomatic.rs:161-164`, `src/smt/funcs/fuel/mod.rs:107-110`). -/
noncomputable def equation (O : Oracle) (H B : SmtInterp) (fuel total : Bool) (d : FuncDecl) (head body : Expr d.out) (st : TState) : Option (Fact × TState) := do
  let (h, st) ← @trans _ H O _ head (if fuel then st.clearCache else st)
  let (b, st) ← @trans _ B O _ body (if fuel then st.clearCache else st)
  let (bs, st) ← st.mkScope d.inputs
  some (fun M => ∀ N : Model, (total = false → invOn bs N) → toDyn d.out (h (M.over bs N)) = toDyn d.out (b (M.over bs N)),
    if fuel then st.clearCache else st)

/-- `translate_return_invariant` (`src/smt/funcs/util.rs:98-115`). For types without an invariant, the assertion is trivial instead
of left out. -/
noncomputable def returnInvariant (O : Oracle) (H : SmtInterp) (fuel : Bool) (d : FuncDecl) (st : TState) : Option (Fact × TState) := do
  let (bs, st) ← (if fuel then st.clearCache else st).mkScope d.inputs
  let (h, st) ← @trans _ H O _ d.call st
  some (fun M => ∀ N : Model, invOn bs N → inv d.out (h (M.over bs N)), if fuel then st.clearCache else st)

/-- A single assertion. -/
def single (f : TState → Option (Fact × TState)) (st : TState) : Option (List Fact × TState) := do
  let (a, st) ← f st
  some ([a], st)

/-- Assertions which depend on an option. -/
def given (b : Bool) (f : TState → Option (List Fact × TState)) (st : TState) : Option (List Fact × TState) :=
  if b then f st else some ([], st)

/-- `definitional_axiom`, if there is a definition (`src/smt/funcs/axiomatic.rs:118-120, 146-174`). -/
noncomputable def basicDefinition (O : Oracle) (H : SmtInterp) (total : Bool) (d : FuncDecl) : TState → Option (List Fact × TState) :=
  match d.body with
  | none => fun st => some ([], st)
  | some body => single (equation O H H false total d d.call body)

/-- `AxiomaticFunctionEncoder::translate_axioms` (`src/smt/funcs/axiomatic.rs:114-133`). -/
noncomputable def basicFacts (O : Oracle) (H : SmtInterp) (total : Bool) (d : FuncDecl) (st : TState) : Option (List Fact × TState) := do
  let (fs, st) ← basicDefinition O H total d st
  let (f, st) ← returnInvariant O H false d st
  some (fs ++ [f], st)

/-- Assertions for a list of fuel values. -/
def forFuels (f : Nat → TState → Option (Fact × TState)) : List Nat → TState → Option (List Fact × TState)
  | [], st => some ([], st)
  | n :: ns, st => do
    let (a, st) ← f n st
    let (as, st) ← forFuels f ns st
    some (a :: as, st)

open Classical in
/-- An assertion quantified over all values of the fuel (`src/smt/funcs/fuel/fuel_param.rs:87-102`). The translation is the same for all of them. -/
noncomputable def forAllFuel (f : Nat → TState → Option (Fact × TState)) (st : TState) : Option (Fact × TState) :=
  if h : ∀ n, (f n st).isSome then some (fun M => ∀ n, ((f n st).get (h n)).1 M, ((f 0 st).get (h 0)).2) else none

section fuel
variable (O : Oracle) (W : World) (E : Encoder) (o : FuelOptions) (d : FuncDecl) (body : Expr d.out)

/-- `fuel_definitional_axiom` (`src/smt/funcs/fuel/mod.rs:84-127`). -/
noncomputable def fuelDefinition (n : Nat) : TState → Option (Fact × TState) :=
  equation O (W.at E (n + 1)) (W.at E n) true o.total d d.call body

/-- `fuel_return_invariant` (`src/smt/funcs/fuel/mod.rs:133-153`). -/
noncomputable def fuelReturn (n : Nat) : TState → Option (Fact × TState) := returnInvariant O (W.at E n) true d

/-- `fuel_synonym_axiom` (`src/smt/funcs/fuel/mod.rs:160-190`). -/
noncomputable def fuelSynonym (n : Nat) : TState → Option (Fact × TState) :=
  equation O (W.at E (n + 1)) (W.at E n) true false d d.call d.call

/-- `fuel_computation_axiom` (`src/smt/funcs/fuel/mod.rs:202-256`). -/
noncomputable def fuelComputation (n : Nat) : TState → Option (Fact × TState) :=
  equation O (W.at E n) (W.at E n) true false d d.call body

/-- `FuelMonoFunctionEncoder::translate_axioms` for functions with fuel (`src/smt/funcs/fuel/fuel_mono.rs:132-166`). -/
noncomputable def monoFacts (st : TState) : Option (List Fact × TState) := do
  let (ds, st) ← forFuels (fuelDefinition O W E o d body) (List.range o.maxFuel) st
  let (rs, st) ← forFuels (fuelReturn O W E d) (List.range (o.maxFuel + 1)) st
  let (ss, st) ← given o.synonym (forFuels (fuelSynonym O W E d) (List.range o.maxFuel)) st
  let (cs, st) ← given o.computation (forFuels (fuelComputation O W E d body) (List.range' 1 o.maxFuel)) st
  some (ds ++ rs ++ ss ++ cs, st)

/-- `FuelParamFunctionEncoder::translate_axioms` for functions with fuel (`src/smt/funcs/fuel/fuel_param.rs:146-170`). -/
noncomputable def paramFacts (st : TState) : Option (List Fact × TState) := do
  let (df, st) ← forAllFuel (fuelDefinition O W E o d body) st
  let (ss, st) ← given o.synonym (single (forAllFuel (fuelSynonym O W E d))) st
  let (rf, st) ← forAllFuel (fuelReturn O W E d) st
  let (cs, st) ← given o.computation (single (forAllFuel (fuelComputation O W E d body))) st
  some (df :: ss ++ rf :: cs, st)

end fuel

/-- `FunctionEncoder::translate_axioms` of each encoder (for `define-fun-rec`: `src/smt/funcs/recfun.rs:112-135`). The functions with fuel have a definition
(`src/driver/smt_proof.rs:202-211`); otherwise, `unwrap` panics. -/
noncomputable def funcFacts (O : Oracle) (W : World) (E : Encoder) (d : FuncDecl) (st : TState) : Option (List Fact × TState) :=
  if E.isFuel d.func then
    match E, d.body with
    | .fuelMono o, some body => monoFacts O W E o d body st
    | .fuelParam o, some body => paramFacts O W E o d body st
    | _, _ => none
  else basicFacts O (W.at E E.fuel) E.total d st

/-- `DomainSpec` (`src/ast/decl.rs`). -/
inductive DomainSpec where
  | func (d : FuncDecl)
  | prop (e : Expr .bool)

/-- Step 3 of `SmtCtx::init_dependencies` (`src/smt/mod.rs:110-149`). The constraints created by infima and suprema stay in the
translator, which is dropped. -/
noncomputable def domainFacts (O : Oracle) (W : World) (E : Encoder) : List DomainSpec → TState → Option (List Fact × TState)
  | [], st => some ([], st)
  | .func d :: ds, st => do
    let (fs, st) ← funcFacts O W E d st
    let (gs, st) ← domainFacts O W E ds st
    some (fs ++ gs, st)
  | .prop e :: ds, st => do
    let (r, st) ← @trans _ (W.at E E.fuel) O _ e st
    let (gs, st) ← domainFacts O W E ds st
    some ((fun M => (show Prop from r M)) :: gs, st)

end Caesar.Smt
