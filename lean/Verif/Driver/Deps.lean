import Verif.Driver.FuncEncoder
import Verif.Driver.RunUnit
import Verif.Procs.ProcVerify

/-!
# The declarations which a verification unit depends on

Models `Module::generate_depgraph` (`src/driver/front.rs:270-279`), `SourceUnit::populate_depgraph` (`src/driver/front.rs:464-472`), the traversal of
procedures and statements by `DepGraph` (`src/depgraph.rs:105-185` with `src/ast/visit.rs`), the dependencies in `CoreVerifyTask::from_source_unit`
(`src/driver/core_verify.rs:81-89`), and which functions, definitions and axioms `SmtCtx::init_dependencies` selects (`src/smt/mod.rs:75-150`). Types are left out: domains
have no names in this model.
-/

namespace Caesar.Driver
open Smt

/-- The calls in the arguments of a distribution. (`walk_expr`, `src/ast/visit.rs:172-176`; only `flip` can have an argument with calls.) The name of the distribution is also collected by
the code, but nothing is declared with it. -/
def distNames : {t : Ty} → DistCall t → List Ident
  | _, .flip p => callNames p
  | _, _ => []

/-- The calls in the arguments of an annotation (`walk_stmt`, `src/ast/visit.rs:281-285`). -/
def annotNames : Annot → List Ident
  | .invariant I => callNames I
  | .kInduction _ I => callNames I
  | .unroll _ e => callNames e
  | .omegaInvariant _ I => callNames I
  | .past I e k => callNames I ++ callNames e ++ callNames k
  | .ost I p c q => callNames I ++ callNames p ++ callNames c ++ callNames q
  | .ast I v _ p d => callNames I ++ callNames v ++ callNames p ++ callNames d
  | .slicing _ => []

/-- What `DepGraph::visit_expr` (`src/depgraph.rs:174-179`) collects in a statement (`walk_stmt`, `src/ast/visit.rs:224-291`), including the names of called procedures. -/
def stmtNames : Stmt → List Ident
  | .skip => []
  | .seq a b => stmtNames a ++ stmtNames b
  | .varDecl _ => []
  | .varInit _ e => callNames e
  | .assign _ e => callNames e
  | .sample _ _ d => distNames d
  | .call _ _ f args => f :: args.flatMap fun a => callNames a.2
  | .havoc _ _ => []
  | .assert _ e => callNames e
  | .assume _ e => callNames e
  | .compare _ e => callNames e
  | .negate _ => []
  | .validate _ => []
  | .tick e => callNames e
  | .weigh e => callNames e
  | .demonic a b => stmtNames a ++ stmtNames b
  | .angelic a b => stmtNames a ++ stmtNames b
  | .additive a b => stmtNames a ++ stmtNames b
  | .ite c a b => callNames c ++ stmtNames a ++ stmtNames b
  | .while c s => callNames c ++ stmtNames s
  | .annot an s => annotNames an ++ stmtNames s
  | .label _ => []

/-- `walk_proc_spec` (`src/ast/visit.rs:122-128`). -/
def specNames : ProcSpec → List Ident
  | .requires e => callNames e
  | .ensures e => callNames e

/-- What is collected in a procedure (`walk_proc`, `src/ast/visit.rs:95-113`): in the specification and in the body. -/
def procNames (p : Proc) : List Ident :=
  p.spec.flatMap specNames ++ match p.body with | some s => stmtNames s | none => []

/-- `DomainSpec` with the names of axioms (`src/ast/decl.rs`). -/
inductive NamedSpec where
  | func (d : FuncDecl)
  | prop (name : Ident) (e : Expr .bool)

/-- The name of the declaration. (`src/ast/decl.rs`) -/
def NamedSpec.name : NamedSpec → Ident
  | .func d => d.func.name
  | .prop n _ => n

/-- The calls in the definition or the axiom. (`src/depgraph.rs:131-170`) -/
def NamedSpec.calls : NamedSpec → List Ident
  | .func d => match d.body with | some b => callNames b | none => []
  | .prop _ e => callNames e

/-- What the dependency graph gets (`visit_func`, `visit_axiom`, `src/depgraph.rs:141-170`). -/
def NamedSpec.dep : NamedSpec → Infra.DepDecl
  | .func d => d.dep
  | .prop n e => .axiomDecl n (callNames e)

/-- `SourceUnit` (`src/driver/front.rs`): a declaration, or a sequence of statements without one. Functions are declared in domains only
(`src/front/parser/grammar.lalrpop:249-290`). -/
inductive SourceUnit where
  | proc (p : Proc)
  | domain (specs : List NamedSpec)
  | raw (S : Stmt)

/-- `SourceUnit::populate_depgraph` (`src/driver/front.rs:464-472`) with `visit_proc` and `visit_domain` (`src/depgraph.rs:105-139`). -/
def SourceUnit.depDecls : SourceUnit → List Infra.DepDecl
  | .proc p => [.proc p.name (procNames p)]
  | .domain specs => specs.map NamedSpec.dep
  | .raw _ => []

/-- `Module::generate_depgraph` (`src/driver/front.rs:270-279`). `none` is the error about an axiom which mentions no declaration. -/
def generateDepgraph (inst : Infra.AxiomInst) (items : List SourceUnit) : Option Infra.DepGraph :=
  (Infra.DepGraph.new inst).visitAll (items.flatMap SourceUnit.depDecls)

/-- The dependencies of a unit (`src/driver/core_verify.rs:81-89`). Domains are no verification units; their dependencies are not used. -/
def SourceUnit.deps (g : Infra.DepGraph) : SourceUnit → List Ident
  | .proc p => g.reachable [p.name]
  | .domain _ => []
  | .raw S => g.reachable (stmtNames S)

/-- The verification task of a unit: its direction and statement (`src/driver/core_verify.rs:91-125`). -/
def SourceUnit.task : SourceUnit → Option (Dir × Stmt)
  | .proc p => encodeProcVerify p
  | .domain _ => none
  | .raw S => some (.down, S)

/-- All declarations in domains (`TyCtx::domains_owned`, `src/tyctx.rs:135-144`). -/
def domainSpecs (items : List SourceUnit) : List NamedSpec :=
  items.flatMap fun u => match u with | .domain specs => specs | _ => []

/-- The functions which `init_dependencies` declares (Step 2, `src/smt/mod.rs:89-108`). -/
def declaredFuncs (deps : List Ident) (specs : List NamedSpec) : List Ident :=
  specs.filterMap fun s => match s with
    | .func d => if d.func.name ∈ deps then some d.func.name else none
    | .prop _ _ => none

/-- The functions and axioms which `init_dependencies` translates (Step 3, `src/smt/mod.rs:110-144`). -/
def translatedSpecs (deps : List Ident) (specs : List NamedSpec) : List NamedSpec :=
  specs.filter fun s => s.name ∈ deps

end Caesar.Driver
