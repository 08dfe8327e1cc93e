import Verif.Syntax

/-!
# Approximation kinds

Models `ApproximationKind` and `ProcSoundness` of `src/proof_rules/calculus/soundness_checker.rs`.
-/

namespace Caesar

/-- `ApproximationKind` (`src/proof_rules/calculus/soundness_checker.rs:157-162`). -/
structure ApproxKind where
  under : Bool
  over : Bool
  deriving DecidableEq, Repr

namespace ApproxKind

/-- `BitAnd` (`src/proof_rules/calculus/soundness_checker.rs:164-174`). -/
def and (a b : ApproxKind) : ApproxKind := ⟨a.under && b.under, a.over && b.over⟩

/-- `EXACT` (`src/proof_rules/calculus/soundness_checker.rs:185-188`). -/
def exact : ApproxKind := ⟨true, true⟩
/-- `UNDER` (`src/proof_rules/calculus/soundness_checker.rs:190-193`). -/
def under' : ApproxKind := ⟨true, false⟩
/-- `OVER` (`src/proof_rules/calculus/soundness_checker.rs:195-198`). -/
def over' : ApproxKind := ⟨false, true⟩
/-- `UNKNOWN` (`src/proof_rules/calculus/soundness_checker.rs:200-203`). -/
def unknown : ApproxKind := ⟨false, false⟩

/-- `infimum` (`src/proof_rules/calculus/soundness_checker.rs:178-182`). Of the records, only the kind is kept. -/
def infimum (l : List ApproxKind) : ApproxKind := l.foldl and exact

end ApproxKind

/-- `ProcSoundness` (`src/proof_rules/calculus/soundness_checker.rs:48-56`). -/
structure ProcSoundness where
  soundProofs : Bool
  soundRefutations : Bool
  deriving DecidableEq, Repr

/-- `ProcSoundness::new` (`src/proof_rules/calculus/soundness_checker.rs:66-86`). -/
def ProcSoundness.new (d : Dir) (approximations : List ApproxKind) : ProcSoundness :=
  let approx := ApproxKind.infimum approximations
  match d with
  | .down => ⟨approx.under, approx.over⟩
  | .up => ⟨approx.over, approx.under⟩

end Caesar
