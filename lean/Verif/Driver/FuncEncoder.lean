import Verif.Smt.Funcs
import Verif.Infra.DepGraph

/-!
# The choice of the function encoder

Models `mk_function_encoder` (`src/driver/smt_proof.rs:177-257`) and the options it reads (`src/driver/commands/options.rs:145-181, 215-245`).
The warning about MBQI is left out, as are patterns: the two axiomatic encodings differ in patterns only.
-/

namespace Caesar.Smt

/-- `FunctionEncodingOption` (`src/driver/commands/options.rs:145-171`). -/
inductive EncodingOption where
  | axiomatic | decreasing | fuelMono | fuelParam | fuelMonoComputation | fuelParamComputation | defineFunRec
  deriving DecidableEq

/-- `FunctionEncodingOption::axiom_instantiation` (`src/driver/commands/options.rs:173-181`). -/
def EncodingOption.inst (o : EncodingOption) : Infra.AxiomInst :=
  if o = .axiomatic then .bidirectional else .decreasing

/-- The options about functions in `OptimizationOptions` (`src/driver/commands/options.rs:215-242`). -/
structure EncodingOptions where
  encoding : EncodingOption
  noPartialStrengthening : Bool
  maxFuel : Nat
  noSynonymAxiom : Bool

/-- The names of the called functions (`visit_expr` in `src/depgraph.rs:180-185`). -/
def callNames : {t : Ty} → Expr t → List Ident
  | _, .var _ => []
  | _, .lit _ => []
  | _, .call f args => f.name :: (List.ofFn fun i => callNames (args i)).flatten
  | _, .ite c a b => callNames c ++ callNames a ++ callNames b
  | _, .bin _ a b => callNames a ++ callNames b
  | _, .rel _ a b => callNames a ++ callNames b
  | _, .un _ a => callNames a
  | _, .embed a => callNames a
  | _, .iverson a => callNames a
  | _, .cast _ a => callNames a
  | _, .quant _ _ _ a => callNames a
  | _, .subst _ e a => callNames e ++ callNames a

/-- A function as the dependency graph sees it (`visit_func`, `src/depgraph.rs:141-149`). Types are not included. -/
def FuncDecl.dep (d : FuncDecl) : Infra.DepDecl :=
  .func d.func.name (match d.body with | some b => callNames b | none => [])

/-- The functions of the domains (`TyCtx::get_function_decls`). -/
def functions : List DomainSpec → List FuncDecl
  | [] => []
  | .func d :: ds => d :: functions ds
  | .prop _ :: ds => functions ds

/-- The functions with fuel: they have a definition and are potentially recursive (`src/driver/smt_proof.rs:200-209`). -/
def fuelFunctions (g : Infra.DepGraph) (ds : List DomainSpec) : List Ident :=
  ((functions ds).filter fun d => d.body.isSome && g.isPotentiallyRecursive d.func.name).map fun d => d.func.name

/-- `fuel_options` (`src/driver/smt_proof.rs:211-221`). -/
def fuelOptions (o : EncodingOptions) (g : Infra.DepGraph) (ds : List DomainSpec) : FuelOptions where
  total := !o.noPartialStrengthening
  maxFuel := o.maxFuel
  computation := o.encoding = .fuelMonoComputation ∨ o.encoding = .fuelParamComputation
  synonym := !o.noSynonymAxiom
  isFuel := fun f => f.name ∈ fuelFunctions g ds

/-- `mk_function_encoder` (`src/driver/smt_proof.rs:177-257`). `none` is the `UserError`. -/
def mkEncoder (o : EncodingOptions) (g : Infra.DepGraph) (ds : List DomainSpec) : Option Encoder :=
  let total := !o.noPartialStrengthening
  match o.encoding with
  | .axiomatic => some (.basic total)
  | .decreasing => some (.basic total)
  | .fuelMono => some (.fuelMono (fuelOptions o g ds))
  | .fuelMonoComputation => some (.fuelMono (fuelOptions o g ds))
  | .fuelParam => some (.fuelParam (fuelOptions o g ds))
  | .fuelParamComputation => some (.fuelParam (fuelOptions o g ds))
  | .defineFunRec => if total then none else some .recFun

/-- `Module::generate_depgraph` (`src/driver/front.rs:270-279`) for the given other declarations. -/
def encoderGraph (o : EncodingOptions) (decls : List Infra.DepDecl) : Option Infra.DepGraph :=
  (Infra.DepGraph.new o.encoding.inst).visitAll decls

end Caesar.Smt
