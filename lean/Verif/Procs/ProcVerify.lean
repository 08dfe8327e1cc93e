import Verif.Procs.Spec
import Verif.ProofRules.Loops

/-!
# Verification of a procedure

Models `src/procs/proc_verify.rs` and the initial postexpectation (`src/driver/core_verify.rs:160-201`).
-/

namespace Caesar

/-- `encode_proc_verify` (`src/procs/proc_verify.rs:28-66`): the statements to verify, together with the direction; `none` for
procedures without body. -/
def encodeProcVerify (p : Proc) : Option (Dir × Stmt) :=
  match p.body with
  | none => none
  | some body =>
    some (p.dir, Stmt.block ((p.requires.map fun e => wrapSuccess (.assume p.dir e)) ++ [body] ++
      (p.ensures.map fun e => wrapError (.assert p.dir e))))

/-- `to_direction_lower_bounds` (`src/procs/proc_verify.rs:74-87`). -/
def toDirectionLowerBounds : Dir × Stmt → Dir × Stmt
  | (.down, s) => (.down, s)
  | (.up, s) => (.down, Stmt.block [.negate .down, s, .negate .up])

/-- `top_lit_in_lattice` (`src/driver/core_verify.rs:188-201`): the initial postexpectation. -/
def topLitInLattice : Dir → Expr .eureal
  | .down => Expr.inftyLit
  | .up => .un (.non rfl) Expr.inftyLit

end Caesar
