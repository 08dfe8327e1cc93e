import Verif.ProofRules.Frame

/-!
# Loop encodings: `@invariant`, `@k_induction`, `@unroll`

Models `src/proof_rules/induction.rs`, `src/proof_rules/unroll.rs`, `src/proof_rules/util.rs:17-101` and the
statement part of the `EncodingVisitor` (`src/proof_rules/mod.rs:264-394`). Blocks are right-nested sequences.
-/

namespace Caesar

/-- `encode_iter` (`src/proof_rules/util.rs:67-82`): `if c { body; next_iter } else {}`. -/
def encodeIter (c : Expr .bool) (body next : Stmt) : Stmt := .ite c (.seq body next) (Stmt.block [])

/-- `encode_extend` (`src/proof_rules/util.rs:26-45`). -/
def encodeExtend (c : Expr .bool) (body : Stmt) : Nat → Expr .eureal → Dir → Stmt → Stmt
  | 0, _, _, next => next
  | k + 1, I, d, next => Stmt.block [.assert d I, encodeIter c body (encodeExtend c body k I d next)]

/-- `encode_unroll` (`src/proof_rules/util.rs:53-64`). -/
def encodeUnroll (c : Expr .bool) (body : Stmt) : Nat → Stmt → Stmt
  | 0, next => next
  | k + 1, next => Stmt.block [encodeIter c body (encodeUnroll c body k next)]

/-- The literal `⊤` (up) or `⊥` (down) used in `hey_const` (`src/proof_rules/util.rs:93-96`) and the iteration
terminators (`src/proof_rules/induction.rs:335-338,357-360`); `spec_ty` is `EUReal`. -/
def extremeLit : Dir → Expr .eureal
  | .up => Expr.topLit .eureal rfl
  | .down => Expr.botLit .eureal rfl

/-- `hey_const` (`src/proof_rules/util.rs:85-101`). -/
def heyConst (e : Expr .eureal) (d : Dir) : Stmt := Stmt.block [.assert d e, .assume d (extremeLit d)]

/-- `wrap_with_error_message` (`src/slicing/mod.rs`): only the annotation is kept, not the text. -/
def wrapError (s : Stmt) : Stmt := .annot (.slicing 0) s

/-- `wrap_with_success_message` (`src/slicing/mod.rs`). -/
def wrapSuccess (s : Stmt) : Stmt := .annot (.slicing 1) s

/-- `iteration_terminator` (`src/proof_rules/induction.rs:355-365`). -/
def iterationTerminator (I : Expr .eureal) (d : Dir) : Stmt :=
  Stmt.block [.assert d I, .assume d (extremeLit d)]

/-- `park_iteration_terminator` (`src/proof_rules/induction.rs:323-349`). -/
def parkIterationTerminator (I : Expr .eureal) (d : Dir) : Stmt :=
  Stmt.block [wrapError (.assert d I), wrapSuccess (.assume d (extremeLit d))]

/-- `transform_k_induction` (`src/proof_rules/induction.rs:243-293`) with `encode_loop_spec`
(`src/proof_rules/induction.rs:296-319`) inlined; `k - 1` is evaluated on unsigned integers, `k > 0` being
checked before. -/
def transformKInduction (d : Dir) (k : Nat) (I : Expr .eureal) (c : Expr .bool) (body : Stmt) : Stmt :=
  let havocVars := (Stmt.while c body).modified
  let terminator := if k = 1 then parkIterationTerminator I d else iterationTerminator I d
  let next := encodeExtend c body (k - 1) I d.toggle terminator
  Stmt.block [wrapError (.assert d I), .havoc d havocVars, .validate d, wrapSuccess (.assume d I),
    encodeIter c body next]

/-- Errors of the encoding pass. (`src/proof_rules/mod.rs:220-223`) -/
inductive EncodeError where
  /-- `AnnotationError::NotOnWhile` (`src/proof_rules/mod.rs:293-302`). -/
  | notOnWhile
  /-- `AnnotationError::WrongArgument` (`src/proof_rules/induction.rs:216-222`). -/
  | kIsZero
  /-- Not in the code: one of the rules that generate further procedures, which are modelled separately. -/
  | otherRule
  deriving DecidableEq

/-- `Encoding::transform` of the annotation, after the check that it is on a loop
(`src/proof_rules/mod.rs:270-323`). Annotations without an encoding are left alone. -/
def encodeAnnot (d : Dir) : Annot → Stmt → Except EncodeError Stmt
  | .slicing n, s => .ok (.annot (.slicing n) s)
  | .invariant I, .while c body => .ok (transformKInduction d 1 I c body)
  | .kInduction k I, .while c body =>
      if k = 0 then .error .kIsZero else .ok (transformKInduction d k I c body)
  | .unroll k t, .while c body => .ok (encodeUnroll c body k (heyConst t d))
  | _, .while _ _ => .error .otherRule
  | _, _ => .error .notOnWhile

/-- `EncodingVisitor::visit_stmt` (`src/proof_rules/mod.rs:262-396`) in a procedure of direction `d`: the
annotated statement is encoded first, then the annotation is replaced. The second visit of the generated
statements (which contain no encoding annotations any more) and the bookkeeping for terminator annotations
are left out. -/
def encodeLoops (d : Dir) : Stmt → Except EncodeError Stmt
  | .annot an s => do
      let s' ← encodeLoops d s
      encodeAnnot d an s'
  | .seq a b => do
      let a' ← encodeLoops d a
      let b' ← encodeLoops d b
      return .seq a' b'
  | .demonic a b => do
      let a' ← encodeLoops d a
      let b' ← encodeLoops d b
      return .demonic a' b'
  | .angelic a b => do
      let a' ← encodeLoops d a
      let b' ← encodeLoops d b
      return .angelic a' b'
  | .additive a b => do
      let a' ← encodeLoops d a
      let b' ← encodeLoops d b
      return .additive a' b'
  | .ite c a b => do
      let a' ← encodeLoops d a
      let b' ← encodeLoops d b
      return .ite c a' b'
  | .while c s => do
      let s' ← encodeLoops d s
      return .while c s'
  | s => .ok s

end Caesar
