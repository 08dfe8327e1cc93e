import Verif.ProofRules.Calculus
import Verif.ProofRules.LoopsSound
import Verif.Opt.ConstFold

/-!
# Approximation tracking

Models `track_approximation_in_statement` (`src/proof_rules/calculus/soundness_checker.rs:257-320`) with the
`default_fixpoint_semantics` and `get_approximation` functions of all loop annotations.
-/

namespace Caesar

/-- The fixed point denoted by a `FixpointSemanticsKind` (`src/proof_rules/mod.rs:70-74`). -/
def FixKind.loopSem : FixKind → LoopSem
  | .lfp => .lfp
  | .gfp => .gfp

/-- `default_fixpoint_semantics` of each annotation: `src/proof_rules/induction.rs:97-106,195-204`,
`src/proof_rules/unroll.rs:98-118`, `src/proof_rules/omega.rs:116-125`, `src/proof_rules/past.rs:109-115`,
`src/proof_rules/ost.rs:116-122`, `src/proof_rules/mciver_ast.rs:151-157`. Slicing annotations have none; the value for
them is never used. -/
def Annot.defaultFix (d : Dir) : Annot → FixKind
  | .invariant _ => inductionDefaultFix d
  | .kInduction _ _ => inductionDefaultFix d
  | .unroll _ t =>
      if t.isBotLit then .lfp
      else if t.isTopLit || t.isOneLit then .gfp
      else match d with | .up => .gfp | .down => .lfp
  | .omegaInvariant _ _ => match d with | .up => .gfp | .down => .lfp
  | .past _ _ _ => .lfp
  | .ost _ _ _ _ => .lfp
  | .ast _ _ _ _ _ => .lfp
  | .slicing _ => .lfp

/-- `infer_fixpoint_semantics_kind` (`src/proof_rules/mod.rs:80-90`). -/
def Annot.inferFix (an : Annot) (calculus : Option CalculusType) (d : Dir) : FixKind :=
  match calculus with
  | some c => c.toFix
  | none => an.defaultFix d

/-- `get_approximation` of each annotation: `src/proof_rules/induction.rs:84-95,182-193`, `src/proof_rules/unroll.rs:85-96`,
`src/proof_rules/omega.rs:103-114`, `src/proof_rules/past.rs:89-107`, `src/proof_rules/ost.rs:96-114`,
`src/proof_rules/mciver_ast.rs:131-149`. -/
def Annot.approximation (an : Annot) (fix : FixKind) (inner : ApproxKind) (calculus : Option CalculusType) : ApproxKind :=
  match an with
  | .invariant _ => inductionApprox fix inner
  | .kInduction _ _ => inductionApprox fix inner
  | .unroll _ _ | .omegaInvariant _ _ =>
      (match fix with | .lfp => ApproxKind.under' | .gfp => ApproxKind.over').and inner
  | .past _ _ _ =>
      match calculus with
      | some .wp | some .wlp => ApproxKind.unknown
      | _ => if fix = .lfp ∧ inner = ApproxKind.exact then ApproxKind.exact else ApproxKind.unknown
  | .ost _ _ _ _ | .ast _ _ _ _ _ =>
      match calculus with
      | some .ert | some .wlp => ApproxKind.unknown
      | _ => if fix = .lfp ∧ inner = ApproxKind.exact then ApproxKind.exact else ApproxKind.unknown
  | .slicing _ => ApproxKind.exact

/-- Whether the annotation is one of the loop rules (`AnnotationKind::Encoding`, `src/intrinsic/annotations.rs:203`). -/
def Annot.isEncoding : Annot → Bool
  | .slicing _ => false
  | _ => true

/-- `track_approximation_in_statement` (`src/proof_rules/calculus/soundness_checker.rs:257-320`); of the records only the
kinds are kept. -/
def trackApprox (d : Dir) (calculus : Option CalculusType) : Stmt → List ApproxKind
  | .seq a b => trackApprox d calculus a ++ trackApprox d calculus b
  | .ite _ a b => trackApprox d calculus a ++ trackApprox d calculus b
  | .demonic a b => trackApprox d calculus a ++ trackApprox d calculus b
  | .angelic a b => trackApprox d calculus a ++ trackApprox d calculus b
  | .while _ s => trackApprox d calculus s
  | .annot an s =>
      let inner := trackApprox d calculus s
      if an.isEncoding then
        inner ++ [an.approximation (an.inferFix calculus d) (ApproxKind.infimum inner) calculus]
      else inner
  | .negate _ => [ApproxKind.unknown]
  | _ => []

/-- `soundness_blame_of_proc` (`src/proof_rules/calculus/soundness_checker.rs:321-332`). -/
def procSoundness (d : Dir) (calculus : Option CalculusType) (body : Stmt) : ProcSoundness :=
  ProcSoundness.new d (trackApprox d calculus body)

end Caesar
