import Verif.ProofRules.Approx

/-!
# Calculi

Models `CalculusType` (`src/intrinsic/annotations.rs:168-201`), `infer_fixpoint_semantics_kind`
(`src/proof_rules/mod.rs:80-90`), the approximation of induction (`src/proof_rules/induction.rs:84-108,182-206`) and
`CalculusVisitor` (`src/proof_rules/calculus/calculus_checker.rs:50-143`).
-/

namespace Caesar

/-- `CalculusType` (`src/intrinsic/annotations.rs:168-173`). -/
inductive CalculusType where
  | wp | wlp | ert
  deriving DecidableEq, Repr

/-- `FixpointSemanticsKind` (`src/proof_rules/mod.rs:70-74`). -/
inductive FixKind where
  | lfp | gfp
  deriving DecidableEq, Repr

namespace CalculusType

/-- `is_induction_allowed` (`src/intrinsic/annotations.rs:185-192`). -/
def isInductionAllowed : CalculusType → Dir → Bool
  | .wlp, .down => true
  | .wp, .up => true
  | .ert, .up => true
  | _, _ => false

/-- `to_fixed_point_semantics_kind` (`src/intrinsic/annotations.rs:194-199`). -/
def toFix : CalculusType → FixKind
  | .wp | .ert => .lfp
  | .wlp => .gfp

end CalculusType

/-- `default_fixpoint_semantics` of `InvariantAnnotation` and `KIndAnnotation`
(`src/proof_rules/induction.rs:97-106,195-204`). -/
def inductionDefaultFix : Dir → FixKind
  | .up => .lfp
  | .down => .gfp

/-- `get_approximation` of `InvariantAnnotation` and `KIndAnnotation` (`src/proof_rules/induction.rs:84-95,182-193`). -/
def inductionApprox (fix : FixKind) (inner : ApproxKind) : ApproxKind :=
  (match fix with | .lfp => ApproxKind.over' | .gfp => ApproxKind.under').and inner

/-- `infer_fixpoint_semantics_kind` (`src/proof_rules/mod.rs:80-90`) for the induction rules. -/
def inductionFix (calculus : Option CalculusType) (d : Dir) : FixKind :=
  match calculus with
  | some c => c.toFix
  | none => inductionDefaultFix d

/-- Errors of the calculus check. (`src/proof_rules/calculus/calculus_checker.rs:36-39`) -/
inductive CalculusError where
  | callMismatch (context callee : CalculusType)
  | unsoundRecursion (d : Dir) (c : CalculusType)
  deriving DecidableEq, Repr

/-- `CalculusVisitor::visit_expr` on a procedure call (`src/proof_rules/calculus/calculus_checker.rs:52-78`). The code compares the
names of the calculi; each type has one name. -/
def checkCall (context callee : Option CalculusType) : Except CalculusError Unit :=
  match context, callee with
  | some c, some c' => if c ≠ c' then .error (.callMismatch c c') else .ok ()
  | _, _ => .ok ()

/-- `CalculusVisitor::visit_proc` (`src/proof_rules/calculus/calculus_checker.rs:80-142`): `recursive` tells whether the procedure is in
`recursive_procs`, `callees` are the calculi of the procedures called in the body, in the order of the visit. An unknown
annotation name is rejected before and is left out. -/
def checkProc (calculus : Option CalculusType) (d : Dir) (recursive : Bool) (callees : List (Option CalculusType)) :
    Except CalculusError Unit := do
  match calculus with
  | some c => if !c.isInductionAllowed d && recursive then .error (.unsoundRecursion d c) else .ok ()
  | none => .ok ()
  callees.forM (checkCall calculus)

end Caesar
