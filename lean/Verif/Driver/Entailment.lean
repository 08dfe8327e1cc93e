import Verif.Procs.ProcVerify
import Verif.Procs.SpecCall
import Verif.Driver.Lower
import Verif.Driver.Module

/-!
# The entailment command

Models `src/driver/commands/refinement.rs`.
-/

namespace Caesar

/-- `ProcDecl::params_iter` (`src/ast/decl.rs:331-333`). -/
def Proc.params (p : Proc) : List Var := p.ins ++ p.outputs

/-- `ParameterMappingError` (`src/driver/commands/refinement.rs:264-270`), without the names and types in the messages. -/
inductive MappingError where
  | unexpectedDirection | countMismatch | nameMismatch | typeMismatch
  deriving DecidableEq

/-- The loop over the zipped parameters (`src/driver/commands/refinement.rs:211-229`). The keys of the `IndexMap` are the parameters of the first
procedure, which are distinct (`src/front/resolve.rs:45-61`), so every insertion appends. -/
def mapParams : List Var → List Var → Except MappingError (List (Var × Var))
  | x :: xs, y :: ys =>
    if x.id.name ≠ y.id.name then .error .nameMismatch
    else if x.ty ≠ y.ty then .error .typeMismatch
    else (mapParams xs ys).map ((x, y) :: ·)
  | _, _ => .ok []

/-- `EntailmentParameterMapping::new` (`src/driver/commands/refinement.rs:188-232`). -/
def parameterMapping (a b : Proc) : Except MappingError (List (Var × Var)) :=
  if a.dir ≠ .up then .error .unexpectedDirection
  else if b.dir ≠ .down then .error .unexpectedDirection
  else if a.params.length ≠ b.params.length then .error .countMismatch
  else mapParams a.params b.params

/-- `EntailmentParameterMapping::entails` (`src/driver/commands/refinement.rs:234-260`): the expression of the new task; its direction is `Down`.
`ExprBuilder::subst` (`src/ast/expr.rs:540-549`) nests the substitutions like `substPairs`. -/
def entailsExpr (m : List (Var × Var)) (A B : Expr .eureal) : Expr .eureal :=
  .bin (.impl rfl) A (substPairs B (m.map fun p => ⟨p.2, .var p.1.id⟩))

/-- The task of one procedure (`src/driver/commands/refinement.rs:124-146`, `src/driver/core_verify.rs:43-66,82-118`): statements, specification calls,
verification condition. `none` is an error or a panic. Slicing (property C54) is left out. -/
def procTask (procs : ProcTable) (declared : List Var) (p : Proc) : Option (Expr .eureal × List Var) := do
  let (d, S) ← encodeProcVerify p
  let (S, declared) ← specCall procs d S declared
  match coreVc d S with
  | .ok e => some (e, declared)
  | .error _ => none

/-- The quantitative task of a pair of procedures (`src/driver/commands/refinement.rs:109-148`). -/
def pairTask (procs : ProcTable) (declared : List Var) (a b : Proc) : Option (Expr .eureal) :=
  match parameterMapping a b with
  | .error _ => none
  | .ok m => do
    let (A, declared) ← procTask procs declared a
    let (B, _) ← procTask procs declared b
    return entailsExpr m A B

namespace Driver

/-- The loop over the pairs (`src/driver/commands/refinement.rs:103-180`). `run` is everything from the parameter mapping to the result of
`run_smt_prove_task`; `[_]` is the second `unwrap` on a chunk with one element. With `ProcSoundness::default()`, `run_smt_prove_task` emits no error
diagnostic (`src/driver/smt_proof.rs:583-585`). -/
def entailmentLoop {α : Type} (run : α → α → Except CaesarError ProveResult) : List α → Except CaesarError Bool
  | [] => .ok true
  | [_] => .error .panic
  | a :: b :: rest =>
    match run a b with
    | .error e => .error e
    | .ok (.unknown .interrupted) => .error .interrupted
    | .ok (.unknown .timeout) => .error .timeout
    | .ok _ => entailmentLoop run rest

/-- `run_verify_entailment_command` and `verify_entailment` (`src/driver/commands/refinement.rs:32-181`): `front` is the result of everything before the
loop, with the server's error flag, and the procedures with a body in source order. -/
def entailmentExit {α : Type} (front : Except CaesarError (Bool × List α)) (run : α → α → Except CaesarError ProveResult) : Nat :=
  exitCode <| match front with
    | .error e => .error e
    | .ok (emitted, procs) => (entailmentLoop run procs).map (·, emitted)

end Driver

end Caesar
