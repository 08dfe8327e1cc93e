import Verif.Front.Tycheck

/-!
# Model of the arguments of annotations in the encoders

Models how the proof rules take their arguments apart (`src/proof_rules/util.rs:236-317` and the beginnings of the methods `transform` in
`src/proof_rules/*.rs`), the checks which the `EncodingVisitor` does before (`src/proof_rules/mod.rs:262-322`), and how the messages of slicing
annotations are read (`src/slicing/selection.rs:276-298,346-356`). The trees are those that the type checker leaves (`Verif.Front.Tycheck`).

What is generated from the arguments is modelled in `Verif.ProofRules.Loops`, `Omega`, `Past`, `Ost`, `Ast` and `Unroll`, which start from typed
arguments.
-/

namespace Caesar
namespace ProofRules
namespace Unpack

open Front

/-- How an encoding stops: with a panic, or with an `AnnotationError` (`src/intrinsic/annotations.rs:28-48`). -/
inductive Stop where
  | panic
  | notInProcedure
  | notOnWhile
  | notTerminator
  | wrongArgument (arg : RExpr)

abbrev M (α : Type) := Except Stop α

/-- `one_arg` (`src/proof_rules/util.rs:236-242`). -/
def oneArg : List RExpr → M RExpr
  | [a] => .ok a
  | _ => .error .panic

/-- `two_args` (`src/proof_rules/util.rs:244-250`). -/
def twoArgs : List RExpr → M (RExpr × RExpr)
  | [a, b] => .ok (a, b)
  | _ => .error .panic

/-- `three_args` (`src/proof_rules/util.rs:252-258`). -/
def threeArgs : List RExpr → M (RExpr × RExpr × RExpr)
  | [a, b, c] => .ok (a, b, c)
  | _ => .error .panic

/-- `four_args` (`src/proof_rules/util.rs:260-266`). -/
def fourArgs : List RExpr → M (RExpr × RExpr × RExpr × RExpr)
  | [a, b, c, d] => .ok (a, b, c, d)
  | _ => .error .panic

/-- `five_args` (`src/proof_rules/util.rs:276-282`). -/
def fiveArgs : List RExpr → M (RExpr × RExpr × RExpr × RExpr × RExpr)
  | [a, b, c, d, e] => .ok (a, b, c, d, e)
  | _ => .error .panic

/-- `lit_u128` (`src/proof_rules/util.rs:310-317`). The literals are big integers, and the conversion to `u128` is unwrapped. -/
def litU128 : RExpr → M Nat
  | .lit _ (.uint n) => if n < 2 ^ 128 then .ok n else .error .panic
  | _ => .error .panic

/-- `lit_rational` (`src/proof_rules/util.rs:292-308`). -/
def litRational : RExpr → M ℚ≥0
  | .lit _ (.frac q) => .ok q
  | .lit _ (.uint n) => .ok n
  | .lit _ _ => .ok 0
  | .cast _ a => litRational a
  | _ => .error .panic

/-- The free variable of `@omega_invariant` and `@ast` (`src/proof_rules/omega.rs:140-144`, `src/proof_rules/mciver_ast.rs:184-188`). -/
def freeVar : RExpr → M Ident
  | .var _ x => .ok x
  | _ => .error .panic

/-- `StmtKind::While(_, _)` (`src/proof_rules/mod.rs:294`). -/
def isWhile : RStmt → Bool
  | .while _ _ => true
  | _ => false

/-- `encode_iter(…).unwrap()` (`src/proof_rules/util.rs:67-82`, `src/proof_rules/induction.rs:287`). -/
def iter (inner : RStmt) : M Unit := if isWhile inner then .ok () else .error .panic

/-- The calls of `encode_iter(…).unwrap()` in `encode_unroll` (`src/proof_rules/util.rs:53-64`): there are none for `k = 0`. -/
def iters (k : Nat) (inner : RStmt) : M Unit := if k = 0 then .ok () else iter inner

/-- The error `WrongArgument` (`src/proof_rules/induction.rs:221-227`, `src/proof_rules/past.rs:133-139`). -/
def refuse (p : Prop) [Decidable p] (arg : RExpr) : M Unit := if p then .error (.wrongArgument arg) else .ok ()

/-- The destructuring of the loop in `@past`, `@ost` and `@ast` (`src/proof_rules/past.rs:161-169`, `src/proof_rules/ost.rs:159-167`,
`src/proof_rules/mciver_ast.rs:174-182`). -/
def theLoop (inner : RStmt) : M Unit := if isWhile inner then .ok () else .error .notOnWhile

/-- The arguments with which the encoders work. -/
inductive Rule where
  | invariant (inv : RExpr)
  | kInduction (k : Nat) (inv : RExpr)
  | unroll (k : Nat) (terminator : RExpr)
  | omegaInvariant (x : Ident) (inv : RExpr)
  | past (inv eps k : RExpr)
  | ost (inv pastInv c post : RExpr)
  | ast (inv variant : RExpr) (x : Ident) (prob decrease : RExpr)

/-- The beginnings of the methods `transform`: `src/proof_rules/induction.rs:111-121,211-230`, `src/proof_rules/unroll.rs:120-129` with
`encode_unroll` (`src/proof_rules/util.rs:53-64`), `src/proof_rules/omega.rs:126-168`, `src/proof_rules/past.rs:117-169`,
`src/proof_rules/ost.rs:124-167`, `src/proof_rules/mciver_ast.rs:159-188`. Slicing annotations have no such method. -/
def transform (k : AnnKind) (args : List RExpr) (inner : RStmt) : M (Option Rule) :=
  match k with
  | .invariant => do
    let inv ← oneArg args
    iter inner
    return some (.invariant inv)
  | .kInduction => do
    let (k, inv) ← twoArgs args
    let n ← litU128 k
    refuse (n = 0) k
    iter inner
    return some (.kInduction n inv)
  | .unroll => do
    let (k, terminator) ← twoArgs args
    let n ← litU128 k
    iters n inner
    return some (.unroll n terminator)
  | .omegaInvariant => do
    let (x, inv) ← twoArgs args
    let x ← freeVar x
    iter inner
    return some (.omegaInvariant x inv)
  | .past => do
    let (inv, eps, k) ← threeArgs args
    let p ← litRational eps
    let q ← litRational k
    refuse (q ≤ p) eps
    theLoop inner
    return some (.past inv eps k)
  | .ost => do
    let (inv, pastInv, c, post) ← fourArgs args
    theLoop inner
    return some (.ost inv pastInv c post)
  | .ast => do
    let (inv, variant, x, prob, decrease) ← fiveArgs args
    theLoop inner
    let x ← freeVar x
    return some (.ast inv variant x prob decrease)
  | .slice _ _ => return none

/-- `is_terminator` (`src/proof_rules/ost.rs:397-399`; `false` for the others, e.g. `src/proof_rules/past.rs:319-321`). -/
def isTerminator : AnnKind → Bool
  | .ost => true
  | _ => false

/-- The state of the `EncodingVisitor` (`src/proof_rules/mod.rs:200-206`): whether there is a `proc_context`, `nesting_level`, and whether there is a
`terminator_annotation`. `rules` are the calls of `transform` so far. -/
structure VState where
  inProc : Bool
  nesting : Nat
  ended : Bool
  rules : List Rule

/-- The state in which the visit of the body of a procedure begins (`src/proof_rules/mod.rs:209-217,248-257`, `src/driver/front.rs:454`). -/
def VState.start : VState := ⟨true, 0, false, []⟩

/-- The checks before `transform` and what comes after it (`src/proof_rules/mod.rs:271-357`), for the annotation `k`. -/
def apply (k : AnnKind) (args : List RExpr) (inner : RStmt) (st : VState) : M VState :=
  match k with
  | .slice _ _ => .ok st
  | k =>
    if st.inProc = false then .error .notInProcedure
    else if isWhile inner = false then .error .notOnWhile
    else if isTerminator k = true ∧ 0 < st.nesting then .error .notTerminator
    else do
      let r ← transform k args inner
      return { st with rules := st.rules ++ r.toList, ended := st.ended || isTerminator k }

mutual

/-- `EncodingVisitor::visit_stmt` (`src/proof_rules/mod.rs:262-398`). The declarations are those after type checking.

Simplifications: the statement is not replaced by the generated block, and the generated block and the generated procedures are not visited. They
have no annotations of proof rules, because the annotations of the body have been replaced before, and the visit finds no terminator. For the
check that the annotated statement is a loop it does not matter that inner annotations were replaced by blocks. -/
def encS (Γ : Ctx) : RStmt → VState → M VState
  | .annot f args s, st => do
    let st ← encS Γ s { st with nesting := st.nesting + 1 }
    let st := { st with nesting := st.nesting - 1 }
    match Γ f with
    | some (.annot k) => apply k args s st
    | some _ => return st
    | none => .error .panic
  | .ite _ a b, st | .demonic a b, st | .angelic a b, st | .additive a b, st =>
    if st.ended then .error .notTerminator
    else do
      let st ← encB Γ a { st with nesting := st.nesting + 1 }
      let st ← encB Γ b st
      return { st with nesting := st.nesting - 1 }
  | .seq ss, st =>
    if st.ended then .error .notTerminator
    else do
      let st ← encB Γ ss { st with nesting := st.nesting + 1 }
      return { st with nesting := st.nesting - 1 }
  | .while _ b, st => if st.ended then .error .notTerminator else encB Γ b st
  | _, st => if st.ended then .error .notTerminator else .ok st

/-- `visit_stmts` (`src/ast/visit.rs:60-69`). -/
def encB (Γ : Ctx) : List RStmt → VState → M VState
  | [], st => .ok st
  | s :: ss, st => do
    let st ← encS Γ s st
    encB Γ ss st

end

/-- `lit_expr_to_symbol` (`src/slicing/selection.rs:348-356`). -/
def litSymbol : RExpr → M String
  | .lit _ (.str s) => .ok s
  | _ => .error .panic

/-- The part of `SelectionBuilder::push_annotation` that looks at the arguments (`src/slicing/selection.rs:277-298`). -/
def message (withMessage : Bool) (args : List RExpr) : M (Option String) :=
  if withMessage then
    match args with
    | [a] => do
      let s ← litSymbol a
      return some s
    | _ => .error .panic
  else
    match args with
    | [] => .ok none
    | _ => .error .panic

end Unpack
end ProofRules
end Caesar
