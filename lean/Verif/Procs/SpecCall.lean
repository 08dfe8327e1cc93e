import Verif.Procs.Spec
import Verif.FreeVars
import Verif.ProofRules.Loops

/-!
# Calls replaced by specifications

Models `src/procs/spec_call.rs`.
-/

namespace Caesar

/-- `params.iter().zip(args)` (`src/procs/spec_call.rs:150-152,177-181,196-197`). The type checker makes the types agree
(`src/front/tycheck.rs:590-640`); pairs whose types differ do not occur and are dropped. -/
def zipArgs : List Var → List ((t : Ty) × Expr t) → List ((x : Var) × Expr x.ty)
  | x :: xs, ⟨t, e⟩ :: as => if h : t = x.ty then ⟨x, h ▸ e⟩ :: zipArgs xs as else zipArgs xs as
  | _, _ => []

/-- `subst` (`src/procs/spec_call.rs:271-279`): nested substitutions, the first pair is the innermost one. -/
def substPairs (e : Expr .eureal) (pairs : List ((x : Var) × Expr x.ty)) : Expr .eureal :=
  pairs.foldl (fun acc p => .subst p.1 p.2 acc) e

/-- `ident_to_expr` (`src/procs/spec_call.rs:259-269`). -/
def varExpr (x : Var) : Expr x.ty := .var x.id

/-- The temporary variable for a parameter (`src/procs/spec_call.rs:224-228`). -/
def Param.old (p : Param) : Var := ⟨⟨"old_" ++ p.var.id.name, p.span⟩, p.var.ty⟩

/-- `assign_to_temp` (`src/procs/spec_call.rs:223-257`). `declared` are the temporaries which exist in the `TyCtx`; the first
use declares the variable, later uses assign to it. -/
def assignToTemp (declared : List Var) (p : Param) (e : Expr p.var.ty) : Stmt × List Var :=
  if p.old ∈ declared then (.assign p.old e, declared) else (.varInit p.old e, p.old :: declared)

/-- The free variables of the postconditions (`src/procs/spec_call.rs:166-175`); panics (`none`) of the collector become the
empty list: source expressions contain no substitutions. -/
def Proc.ensuresVars (p : Proc) : List Var :=
  (p.ensures.foldlM (fun acc (e : Expr .eureal) => e.collect acc) []).getD []

/-- The loop which computes `stable_inputs` (`src/procs/spec_call.rs:165-191`): emitted statements, pairs, new temporaries. -/
def stableInputs (free : List Var) : List Var → List Param → List ((t : Ty) × Expr t) →
    List Stmt × List ((x : Var) × Expr x.ty) × List Var
  | declared, p :: ps, ⟨t, e⟩ :: as =>
    if h : t = p.var.ty then
      if p.var ∈ free then
        let (s, declared) := assignToTemp declared p (h ▸ e)
        let (ss, pairs, declared) := stableInputs free declared ps as
        (s :: ss, ⟨p.var, varExpr p.old⟩ :: pairs, declared)
      else
        let (ss, pairs, declared) := stableInputs free declared ps as
        (ss, ⟨p.var, h ▸ e⟩ :: pairs, declared)
    else stableInputs free declared ps as
  | declared, _, _ => ([], [], declared)

/-- `encode_assign` (`src/procs/spec_call.rs:131-219`) for a call of the procedure `p`. -/
def encodeAssign (declared : List Var) (p : Proc) (lhs : List Var) (args : List ((t : Ty) × Expr t)) :
    List Stmt × List Var :=
  let asserts := p.requires.map fun e => wrapError (.assert p.dir (substPairs e (zipArgs p.ins args)))
  let (temps, stable, declared) := stableInputs p.ensuresVars declared p.inputs args
  let outs := zipArgs p.outputs (lhs.map fun x => ⟨x.ty, varExpr x⟩)
  let compares := p.ensures.map fun e => wrapSuccess (.compare p.dir (substPairs e (stable ++ outs)))
  (asserts ++ temps ++ [.havoc p.dir lhs] ++ compares, declared)

/-- The procedures of the `TyCtx`. -/
abbrev ProcTable := Ident → Option Proc

/-- `SpecCall::visit_stmt` and `visit_expr` (`src/procs/spec_call.rs:73-127`) with `walk_stmt` (`src/ast/visit.rs:224-291`), in a
procedure of direction `d`. `none` is the error `ProcDirectionMismatch`. Calls to procedures only occur as the
right-hand side of assignments and declarations (`src/front/tycheck.rs:583`), so `visit_expr` has an effect only for the
right-hand side of an assignment. -/
def specCall (procs : ProcTable) (d : Dir) : Stmt → List Var → Option (Stmt × List Var)
  | .call isDecl lhs f args, declared =>
    match procs f with
    | none => some (.call isDecl lhs f args, declared)
    | some p =>
      if isDecl then
        let (block, declared) := encodeAssign declared p lhs args
        some (Stmt.block ((lhs.map .varDecl) ++ block), declared)
      else if d ≠ p.dir then none
      else
        let (block, declared) := encodeAssign declared p lhs args
        some (Stmt.block block, declared)
  | .seq a b, declared => do
    let (a, declared) ← specCall procs d a declared
    let (b, declared) ← specCall procs d b declared
    return (.seq a b, declared)
  | .demonic a b, declared => do
    let (a, declared) ← specCall procs d a declared
    let (b, declared) ← specCall procs d b declared
    return (.demonic a b, declared)
  | .angelic a b, declared => do
    let (a, declared) ← specCall procs d a declared
    let (b, declared) ← specCall procs d b declared
    return (.angelic a b, declared)
  | .additive a b, declared => do
    let (a, declared) ← specCall procs d a declared
    let (b, declared) ← specCall procs d b declared
    return (.additive a b, declared)
  | .ite c a b, declared => do
    let (a, declared) ← specCall procs d a declared
    let (b, declared) ← specCall procs d b declared
    return (.ite c a b, declared)
  | .while c s, declared => do
    let (s, declared) ← specCall procs d s declared
    return (.while c s, declared)
  | .annot an s, declared => do
    let (s, declared) ← specCall procs d s declared
    return (.annot an s, declared)
  | s, declared => some (s, declared)

end Caesar
