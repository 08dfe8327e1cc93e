import Verif.TyCtx
import Verif.ProofRules.Negations

/-!
# The slicing transformation

Models `src/slicing/selection.rs` and `src/slicing/transform.rs`: each sliced statement gets a fresh Boolean variable which
enables or disables it. Messages and spans are left out (the order of the list of slice variables by span,
`src/slicing/transform.rs:167-171`, with them).
-/

namespace Caesar.Slicing

/-- `SliceEffect` (`src/slicing/selection.rs:29-81`). -/
inductive Effect where
  | concordant | discordant | ambiguous
  deriving DecidableEq, Repr

/-- `SliceSelection` (`src/slicing/selection.rs:146-161`), without the messages. -/
structure Selection where
  concordant : Bool := false
  discordant : Bool := false
  inVerify : Bool := false
  inError : Bool := false
  ticks : Bool := false
  sampling : Bool := false
  deriving DecidableEq, Repr

/-- `VERIFIED_SELECTION` (`src/slicing/selection.rs:170-179`). -/
def Selection.verified : Selection := ⟨true, false, true, false, false, false⟩

/-- `FAILURE_SELECTION` (`src/slicing/selection.rs:188-197`). -/
def Selection.failure : Selection := ⟨false, true, false, true, false, false⟩

/-- `enables` (`src/slicing/selection.rs:215-220`). -/
def Selection.enables (a b : Selection) : Bool :=
  a.concordant && b.concordant || a.discordant && b.discordant || a.inVerify && b.inVerify || a.inError && b.inError

/-- `bitor` (`src/slicing/selection.rs:226-239`). -/
def Selection.or (a b : Selection) : Selection :=
  ⟨a.concordant || b.concordant, a.discordant || b.discordant, a.inVerify || b.inVerify, a.inError || b.inError, a.ticks || b.ticks,
    a.sampling || b.sampling⟩

/-- The selection built in `prepare_slicing` (`src/driver/core_verify.rs:136-144`). -/
def prepareSelection (noSliceError sliceTicks sliceSampling sliceVerify : Bool) : Selection :=
  let s : Selection := if noSliceError then {} else Selection.or {} Selection.failure
  let s := { s with ticks := sliceTicks, sampling := sliceSampling }
  if sliceVerify then s.or Selection.verified else s

/-- `push_annotation` (`src/slicing/selection.rs:277-298`) on the top of the stack. Code 2 stands for `@slice_verify`, 3 for
`@slice_error`; the message annotations (0 and 1, see `wrapError`) only change messages. -/
def pushAnnotation (state : Selection) : Nat → Selection
  | 2 => { state with inVerify := true }
  | 3 => { state with inError := true }
  | _ => state

/-- `make_selection` (`src/slicing/selection.rs:318-338`). -/
def makeSelection (state : Selection) (eff : Effect) : Selection :=
  { state with concordant := eff == .concordant, discordant := eff == .discordant }

/-- `should_slice` (`src/slicing/selection.rs:302-304`). -/
def shouldSlice (filter state : Selection) (eff : Effect) : Bool := filter.enables (makeSelection state eff)

/-- `SliceStmt` (`src/slicing/transform.rs:56-60`), without the span. -/
structure SliceStmt where
  ident : Ident
  selection : Selection

/-- The Boolean variable of a slice statement. (`src/slicing/transform.rs:56-60`) -/
def SliceStmt.var (s : SliceStmt) : Var := ⟨s.ident, .bool⟩

/-- The mutable part of `StmtSliceVisitor` (`src/slicing/transform.rs:77-83`): symbol table, tracked direction, and the collected `SliceStmts`. -/
structure St where
  tcx : TyCtx
  dir : Dir
  stmts : List SliceStmt := []
  constraints : List (Expr .bool) := []

/-- `reductive_effect` (`src/slicing/transform.rs:99-104`). -/
def reductiveEffect : Dir → Effect
  | .down => .discordant
  | .up => .concordant

/-- `extensive_effect` (`src/slicing/transform.rs:108-113`). -/
def extensiveEffect : Dir → Effect
  | .down => .concordant
  | .up => .discordant

/-- The fresh, declared identifier for a slice variable (`src/slicing/transform.rs:119-143`); all spans are 0. The second case
does not occur (`TyCtx.freshIdent_some`). -/
def freshToggle (c : TyCtx) : Ident × TyCtx :=
  match c.freshIdent ⟨"slice_toggle", 0⟩ 0 with
  | some (i, c') => (i, { c' with decls := i :: c'.decls })
  | none => (⟨"slice_toggle", 0⟩, c)

/-- `add_slice_stmt` (`src/slicing/transform.rs:118-148`). -/
def addSlice (state : Selection) (eff : Effect) (st : St) : Expr .bool × St :=
  let (i, tcx) := freshToggle st.tcx
  (.var i, { st with tcx := tcx, stmts := st.stmts ++ [⟨i, makeSelection state eff⟩] })

/-- `mk_top_toggle` (`src/slicing/transform.rs:153-164`). -/
def topToggle (e : Expr .eureal) (d : Dir) (v : Expr .bool) : Expr .eureal :=
  .ite v e (match d with | .down => Expr.topLit .eureal rfl | .up => Expr.botLit .eureal rfl)

/-- The effect of a `weigh` (`src/slicing/transform.rs:295-302`): literals are compared with one. -/
def weighEffect (d : Dir) : Expr .eureal → Effect
  | .lit (.efrac q) => if 1 ≤ q then extensiveEffect d else reductiveEffect d
  | .lit .infty => extensiveEffect d
  | _ => .ambiguous

/-- `one_lit` for `EUReal` (`src/ast/expr.rs:625-630`). -/
def oneE : Expr .eureal := .cast .uintEUReal (Expr.uintLit 1)

/-- The statement in front of a branch of a demonic choice (`src/slicing/transform.rs:334-355`). -/
def demonicGuard (d : Dir) (v : Expr .bool) : Stmt :=
  match d with
  | .down => .assume .down (.ite v (Expr.topLit .eureal rfl) (Expr.botLit .eureal rfl))
  | .up => .assert .up (.ite v (Expr.botLit .eureal rfl) (Expr.topLit .eureal rfl))

/-- The statement in front of a branch of an angelic choice (`src/slicing/transform.rs:383-404`). -/
def angelicGuard (d : Dir) (v : Expr .bool) : Stmt :=
  match d with
  | .down => .assert .down (.ite v (Expr.topLit .eureal rfl) (Expr.botLit .eureal rfl))
  | .up => .assume .up (.ite v (Expr.botLit .eureal rfl) (Expr.topLit .eureal rfl))

/-- The effect of an `assume` (`src/slicing/transform.rs:263-267`). -/
def assumeEffect (cur d : Dir) : Effect := if cur = d then .concordant else .discordant

/-- The effect of an `assert` (`src/slicing/transform.rs:275-279`). -/
def assertEffect (cur d : Dir) : Effect := if cur = d then .discordant else .concordant

/-- Transformed statement, new state, and whether the traversal may go on (`false`: a direction error has occurred; the program is used as it
is then, see `prepare_slicing`, `src/driver/core_verify.rs:145-149`). -/
abbrev Res := Stmt × St × Bool

/-- Statements without substatements in `visit_stmt` (`src/slicing/transform.rs:239-319,435-438`). Distribution expressions and procedure calls
are not pure (`is_pure_expr`, `src/slicing/transform.rs:450-460`); a call is sliced if it has one left-hand side. Declarations are no assignments. -/
def sliceLeaf (filter state : Selection) (st : St) : Stmt → Res
  | .assign x e =>
      if shouldSlice filter state .ambiguous then
        let (v, st) := addSlice state .ambiguous st
        (.assign x (.ite v e (.var x.id)), st, true)
      else (.assign x e, st, true)
  | .sample false x d =>
      if shouldSlice filter state .ambiguous && filter.sampling then
        let (v, st) := addSlice state .ambiguous st
        (.ite v (Stmt.block [.sample false x d]) (Stmt.block []), st, true)
      else (.sample false x d, st, true)
  | .call false [x] f args =>
      if shouldSlice filter state .ambiguous && filter.sampling then
        let (v, st) := addSlice state .ambiguous st
        (.ite v (Stmt.block [.call false [x] f args]) (Stmt.block []), st, true)
      else (.call false [x] f args, st, true)
  | .assume d e =>
      if shouldSlice filter state (assumeEffect st.dir d) then
        let (v, st) := addSlice state (assumeEffect st.dir d) st
        (.assume d (topToggle e d v), st, true)
      else (.assume d e, st, true)
  | .assert d e =>
      if shouldSlice filter state (assertEffect st.dir d) then
        let (v, st) := addSlice state (assertEffect st.dir d) st
        (.assert d (topToggle e d v), st, true)
      else (.assert d e, st, true)
  | .tick e =>
      if filter.ticks && shouldSlice filter state (extensiveEffect st.dir) then
        let (v, st) := addSlice state (extensiveEffect st.dir) st
        (.tick (topToggle e .up v), st, true)
      else (.tick e, st, true)
  | .weigh e =>
      if filter.ticks && shouldSlice filter state (weighEffect st.dir e) then
        let (v, st) := addSlice state (weighEffect st.dir e) st
        (.weigh (.ite v e oneE), st, true)
      else (.weigh e, st, true)
  | .negate d =>
      match handleNegationForwards st.dir (.negate d) with
      | .ok dir => (.negate d, { st with dir := dir }, true)
      | .error _ => (.negate d, st, false)
  | s => (s, st, true)

/-- Toggles for the two branches of a nondeterministic choice (`src/slicing/transform.rs:357-373,406-422`). -/
def addBranches (state : Selection) (eff : Effect) (guard : Dir → Expr .bool → Stmt) (mk : Stmt → Stmt → Stmt) (a b : Stmt) (st : St) : Res :=
  let dir := st.dir
  let (v, st) := addSlice state eff st
  let (w, st) := addSlice state eff st
  (mk (.seq (guard dir v) a) (.seq (guard dir w) b), { st with constraints := st.constraints ++ [.bin .or v w] }, true)

/-- Two substatements in sequence; after an error the second one is left alone. (`src/slicing/transform.rs:213`) -/
def visitTwo (mk : Stmt → Stmt → Stmt) (ra : Res) (b : Stmt) (vb : St → Res) (k : Stmt → Stmt → St → Res) : Res :=
  match ra with
  | (a', st, false) => (mk a' b, st, false)
  | (a', st, true) =>
    match vb st with
    | (b', st, false) => (mk a' b', st, false)
    | (b', st, true) => k a' b' st

/-- `visit_stmt` (`src/slicing/transform.rs:213-444`) with `walk_stmt` (`src/ast/visit.rs:224-291`): substatements first, with the direction
threaded through them from left to right. Slicing annotations are removed, other annotations are kept. -/
def visit (filter : Selection) : Selection → St → Stmt → Res
  | state, st, .annot (.slicing n) s => visit filter (pushAnnotation state n) st s
  | state, st, .annot an s =>
      let (s', st', ok) := visit filter state st s
      (.annot an s', st', ok)
  | state, st, .seq a b =>
      visitTwo .seq (visit filter state st a) b (fun st => visit filter state st b) fun a b st => (.seq a b, st, true)
  | state, st, .demonic a b =>
      visitTwo .demonic (visit filter state st a) b (fun st => visit filter state st b) fun a b st =>
        if shouldSlice filter state (reductiveEffect st.dir) then
          addBranches state (reductiveEffect st.dir) demonicGuard .demonic a b st
        else (.demonic a b, st, true)
  | state, st, .angelic a b =>
      visitTwo .angelic (visit filter state st a) b (fun st => visit filter state st b) fun a b st =>
        if shouldSlice filter state (extensiveEffect st.dir) then
          addBranches state (extensiveEffect st.dir) angelicGuard .angelic a b st
        else (.angelic a b, st, true)
  | state, st, .additive a b =>
      visitTwo .additive (visit filter state st a) b (fun st => visit filter state st b) fun a b st => (.additive a b, st, true)
  | state, st, .ite c a b =>
      visitTwo (.ite c) (visit filter state st a) b (fun st => visit filter state st b) fun a b st => (.ite c a b, st, true)
  | state, st, .while c s =>
      let (s', st', ok) := visit filter state st s
      (.while c s', st', ok)
  | state, st, s => sliceLeaf filter state st s

/-- `StmtSliceVisitor::new`, `visit_block`, `finish` (`src/driver/core_verify.rs:145-150`). -/
def transform (filter : Selection) (tcx : TyCtx) (d : Dir) (S : Stmt) : Stmt × St :=
  let r := visit filter {} { tcx := tcx, dir := d } S
  (r.1, r.2.1)

end Caesar.Slicing
