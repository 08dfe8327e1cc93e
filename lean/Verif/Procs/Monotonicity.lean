import Verif.Syntax

/-!
# The monotonicity check

Models `src/procs/monotonicity.rs`.
-/

namespace Caesar

/-- `MonotonicityVisitor::visit_stmt` (`src/procs/monotonicity.rs:73-90`) with `walk_stmt` (`src/ast/visit.rs:224-291`): the new value
of `current_dir`; `none` is the error. -/
def monoVisit : Dir → Stmt → Option Dir
  | cur, .negate d => if cur ≠ d then none else some cur.toggle
  | cur, .seq a b => do monoVisit (← monoVisit cur a) b
  | cur, .demonic a b => do monoVisit (← monoVisit cur a) b
  | cur, .angelic a b => do monoVisit (← monoVisit cur a) b
  | cur, .additive a b => do monoVisit (← monoVisit cur a) b
  | cur, .ite _ a b => do monoVisit (← monoVisit cur a) b
  | cur, .while _ s => monoVisit cur s
  | cur, .annot _ s => monoVisit cur s
  | cur, _ => some cur

/-- `MonotonicityVisitor::new` (`src/procs/monotonicity.rs:25-36`) followed by the visit: a body is accepted if the traversal, started with the
direction of the procedure, finds no error. -/
def monoAccepts (d : Dir) (body : Stmt) : Bool := (monoVisit d body).isSome

end Caesar
