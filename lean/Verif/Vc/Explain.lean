import Verif.Vcgen
import Verif.Opt.Unfolder
import Verif.Opt.ConstFold
import Verif.ProofRules.Negations
import Verif.ProofRules.Loops
import Verif.Procs.SpecCall

/-!
# Verification condition generation with explanations

Models `src/vc/explain.rs` and the parts of `src/vc/vcgen.rs` which are active when explanations are requested. With `--explain-core-vc`, the
verification condition that is computed in this way is the one that is proved (`src/driver/core_verify.rs:155-188`). With `--explain-vc`, the procedures are explained
as they are written, with calls and annotated loops, and the condition is only shown.
-/

namespace Caesar
namespace Explain

/-- One step towards a place in a program: the components of a sequence and the branches of a statement (`fst`, `snd`), the body of a loop (`fst`), the end of a
block (`fin`). -/
inductive Step where
  | fst | snd | fin
  deriving DecidableEq, Repr

/-- A place in a program. The code has spans. -/
abbrev Place := List Step

/-- `VcExplanation` (`src/vc/explain.rs:95-103`): the direction, the symbol table with the number of solver queries, and the expressions shown so far with
their places, last one first. Expressions for the same span are grouped in the code, and spans of surrounding blocks are stored to decide on the layout: neither is
modelled. -/
structure State where
  dir : Dir
  unf : UState
  shown : List (Place × Expr .eureal)

/-- Why there is no verification condition. (`src/vc/vcgen.rs:127-134`) -/
inductive Error where
  /-- as without explanations -/
  | vc (e : VcError)
  /-- `unsupported_stmt_diagnostic` at a negation -/
  | negation
  /-- panic of one of the passes -/
  | panic

/-- Computations of `Vcgen` with explanations. (`src/vc/vcgen.rs:23-28`) -/
abbrev M (α : Type) := StateT State (Except Error) α

/-- `add_expr` (`src/vc/explain.rs:115-129`). -/
def addExpr (p : Place) (e : Expr .eureal) : M Unit := fun s => .ok ((), { s with shown := (p, e) :: s.shown })

/-- Run a pass on the symbol table and the solver. -/
def pass {α : Type} (m : PM UState α) : M α := fun s =>
  match m s.unf with
  | some (a, u) => .ok (a, { s with unf := u })
  | none => .error .panic

/-- `explain_subst` (`src/vc/explain.rs:147-182`). The passes that simplify have no limits here, so that there are no errors to ignore. -/
def explainSubst (o : Oracle) (span : Nat) (p : Place) (e : Expr .eureal) : M (Expr .eureal) := do
  addExpr p e
  let e ← pass (liftTcx (applySubstTop span e))
  addExpr p e
  let e ← pass (unfoldTop o span e)
  pass (fun s => e.constFold.map (·, s))

/-- Errors which do not depend on explanations. -/
def ofVc {α : Type} : Except VcError α → M α
  | .ok a => pure a
  | .error e => throw (.vc e)

/-- The end of `vcgen_stmt` (`src/vc/vcgen.rs:206-210`). -/
def finish (p : Place) (e : Expr .eureal) : M (Expr .eureal) := do
  addExpr p e
  return e

/-- `handle_negation_backwards` with the error of `src/vc/vcgen.rs:127-134`. -/
def turn (S : Stmt) : M Unit := fun s =>
  match handleNegationBackwards s.dir S with
  | .ok d => .ok ((), { s with dir := d })
  | .error _ => .error .negation

/-- `fold_spec` (`src/vc/explain.rs:345-355`). -/
def foldSpec (d : Dir) : List (Expr .eureal) → Expr .eureal
  | [] => match d with | .down => Expr.topLit .eureal rfl | .up => Expr.botLit .eureal rfl
  | e :: es => es.foldl (fun acc e => match d with | .down => .bin (.inf rfl) acc e | .up => .bin (.sup rfl) acc e) e

/-- `explain_proc_call` (`src/vc/explain.rs:325-341`): `ExprBuilder::subst` (`src/ast/expr.rs:540-549`) nests the substitutions like `substPairs`. -/
def explainProcCall (p : Proc) (args : List ((t : Ty) × Expr t)) : Expr .eureal := substPairs (foldSpec p.dir p.requires) (zipArgs p.ins args)

/-- `let _inner_pre = …` (`src/vc/explain.rs:252,283`): an error is ignored, a panic is not. What the computation has shown before an error, and the
direction it has reached, are lost here, in contrast to the code. -/
def attempt {α : Type} (m : M α) : M Unit := fun s =>
  match m s with
  | .ok (_, s') => .ok ((), s')
  | .error .panic => .error .panic
  | .error (.vc .callPanic) => .error (.vc .callPanic)
  | .error (.vc .zeroOdds) => .error (.vc .zeroOdds)
  | .error _ => .ok ((), s)

/-- `vcgen_unroll` (`src/vc/explain.rs:306-323`): without explanations. -/
def vcgenUnroll (d : Dir) (c : Expr .bool) (body : Stmt) (k : Nat) (t post : Expr .eureal) : M (Expr .eureal) :=
  ofVc (vcgen (encodeUnroll c body k (heyConst t d)) post)

/-- `vcgen_stmt`, `vcgen_stmts`, `vcgen_block`, `generate_assign` (`src/vc/vcgen.rs:42-245`) with explanations, `explain_annotated_while`, `explain_park_induction`,
`explain_unroll` (`src/vc/explain.rs:183-300`). A sequence of statements shows nothing itself. `P` are the declared procedures; calls of others are panics. -/
def vcgenX (P : ProcTable) (o : Oracle) (span : Nat) : Stmt → Place → Expr .eureal → M (Expr .eureal)
  | .skip, _, post => pure post
  | .seq a b, p, post => do
      let post ← vcgenX P o span b (p ++ [.snd]) post
      vcgenX P o span a (p ++ [.fst]) post
  | .varInit x e, p, post => do finish p (← explainSubst o span p (.subst x e post))
  | .assign x e, p, post => do finish p (← explainSubst o span p (.subst x e post))
  | .sample b x d, p, post => do
      let e ← ofVc (vcgen (.sample b x d) post)
      finish p (← explainSubst o span p e)
  | .negate d, p, post => do
      turn (.negate d)
      finish p (← ofVc (vcgen (.negate d) post))
  | .validate .down, p, post =>
      match post with
      | .bin (.impl _) l r => pure (.bin (.compare rfl) l r)
      | post => finish p (.un (.not rfl) (.un (.not rfl) post))
  | .validate .up, p, post =>
      match post with
      | .bin (.coimpl _) l r => pure (.bin (.cocompare rfl) l r)
      | post => finish p (.un (.non rfl) (.un (.non rfl) post))
  | .demonic a b, p, post => do
      addExpr (p ++ [.fst, .fin]) post
      let p1 ← vcgenX P o span a (p ++ [.fst]) post
      addExpr (p ++ [.snd, .fin]) post
      let p2 ← vcgenX P o span b (p ++ [.snd]) post
      finish p (.bin (.inf rfl) p1 p2)
  | .angelic a b, p, post => do
      addExpr (p ++ [.fst, .fin]) post
      let p1 ← vcgenX P o span a (p ++ [.fst]) post
      addExpr (p ++ [.snd, .fin]) post
      let p2 ← vcgenX P o span b (p ++ [.snd]) post
      finish p (.bin (.sup rfl) p1 p2)
  | .additive a b, p, post => do
      addExpr (p ++ [.fst, .fin]) post
      let p1 ← vcgenX P o span a (p ++ [.fst]) post
      addExpr (p ++ [.snd, .fin]) post
      let p2 ← vcgenX P o span b (p ++ [.snd]) post
      finish p (.bin (.add rfl) p1 p2)
  | .ite c a b, p, post => do
      addExpr (p ++ [.fst, .fin]) post
      let p1 ← vcgenX P o span a (p ++ [.fst]) post
      addExpr (p ++ [.snd, .fin]) post
      let p2 ← vcgenX P o span b (p ++ [.snd]) post
      finish p (.ite c p1 p2)
  | .call b l f args, p, post =>
      match P f with
      | some q => do finish p (← explainSubst o span p (explainProcCall q args))
      | none => do finish p (← ofVc (vcgen (.call b l f args) post))
  | .annot (.slicing _) s, p, post => vcgenX P o span s p post
  | .annot (.invariant I) (.while _ body), p, _ => do
      attempt (do addExpr (p ++ [.fst, .fin]) I; vcgenX P o span body (p ++ [.fst]) I)
      finish p I
  | .annot (.unroll k t) (.while c body), p, post => do
      let d := (← get).dir
      (if k > 0 then do
        let prev ← vcgenUnroll d c body (k - 1) t post
        attempt (do addExpr (p ++ [.fst, .fin]) prev; vcgenX P o span body (p ++ [.fst]) prev)
      else pure ())
      let e ← vcgenUnroll d c body k t post
      finish p (← explainSubst o span p e)
  | s, p, post => do finish p (← ofVc (vcgen s post))

/-- `CoreVerifyTask::vcgen` with `explain_core_vc` (`src/driver/core_verify.rs:155-188`): the condition and what is shown. -/
def explainVc (P : ProcTable) (o : Oracle) (span : Nat) (d : Dir) (S : Stmt) (post : Expr .eureal) (c : TyCtx) :
    Except Error (Expr .eureal × List (Place × Expr .eureal)) :=
  match (do addExpr [.fin] post; vcgenX P o span S [] post : M (Expr .eureal)) ⟨d, (c, 0), []⟩ with
  | .ok (e, s) => .ok (e, s.shown)
  | .error e => .error e

/-- `explain_decl_vc` (`src/vc/explain.rs:217-232`) with `explain_raw_vc` (`src/vc/explain.rs:234-245`). There is nothing to explain without a body. -/
def explainDecl (P : ProcTable) (o : Oracle) (span : Nat) (q : Proc) (c : TyCtx) : Except Error (Option (Expr .eureal × List (Place × Expr .eureal))) :=
  match q.body with
  | some B => (explainVc P o span q.dir B (foldSpec q.dir q.ensures) c).map some
  | none => .ok none

end Explain
end Caesar
