import Verif.Driver.Smtlib

/-!
# Quantifier instantiation

The ids of the quantifiers in queries (`z3rro/src/quantifiers.rs`), and the heuristics that Z3 uses for them (`src/driver/smt_proof.rs`).
-/

namespace Caesar.Driver.Query

/-- `SpanVariant` (`src/ast/diagnostic.rs:216-229`). -/
inductive SpanKind where
  | combined | parser | vc | implicitCast | procVerify | specCall | encoding | qelim | boolify | subst | slicing
  deriving DecidableEq

/-- `Span` (`src/ast/diagnostic.rs:231-241`). -/
structure QSpan where
  file : ℕ
  start : ℕ
  stop : ℕ
  kind : SpanKind
  deriving DecidableEq

/-- The prefix for a variant (`src/ast/diagnostic.rs:325-337`). -/
def SpanKind.text : SpanKind → FText
  | .combined => "?/".toList
  | .parser => []
  | .vc => "vc/".toList
  | .implicitCast => "cast/".toList
  | .procVerify => "verify/".toList
  | .specCall => "spec-call/".toList
  | .encoding => "encoding/".toList
  | .qelim => "qelim/".toList
  | .boolify => "boolify/".toList
  | .subst => "subst/".toList
  | .slicing => "slicing/".toList

/-- `Debug for Span` (`src/ast/diagnostic.rs:323-340`). -/
def QSpan.text (s : QSpan) : FText := s.kind.text ++ Smt.natText s.start ++ '-' :: Smt.natText s.stop

/-- `QuantifierMeta` (`z3rro/src/quantifiers.rs:27-44`) without weights and patterns. -/
structure QMeta where
  userName : FText
  mbqi : Bool
  variant : Option FText

/-- `QuantifierMeta::qid` (`z3rro/src/quantifiers.rs:62-72`). The variant is written with `writeln!`, i.e. with a line break. -/
def QMeta.qid (m : QMeta) : FText :=
  (if m.mbqi then "mbqi_".toList else []) ++ m.userName ++ m.variant.elim [] fun v => '_' :: v ++ ['\n']

/-- The quantifiers of the encoding of an infimum or a supremum (`z3rro/src/orders.rs:276-322`). -/
inductive ExtPart where
  | invariant | lowerInner | lowerOuter | glbInner | glbOuter
  deriving DecidableEq

/-- The variants of the five quantifiers (`z3rro/src/orders.rs:282,296,300,315,319`). -/
def ExtPart.text : ExtPart → FText
  | .invariant => "extremum_invariant".toList
  | .lowerInner => "extremum_lower_bound_inner".toList
  | .lowerOuter => "extremum_lower_bound_outer".toList
  | .glbInner => "extremum_glb_inner".toList
  | .glbOuter => "extremum_glb_outer".toList

/-- The axioms of functions (`src/smt/funcs/axiomatic.rs:130,170`, `src/smt/funcs/recfun.rs:137`, `src/smt/funcs/fuel/mod.rs:116,148,184,248`). -/
inductive FuncAxiom where
  | definitional | returnInvariant | fuelSynonym | computation
  deriving DecidableEq

/-- The ends of the names of the axioms (`src/smt/funcs/fuel/mod.rs:116,148,184,248`). -/
def FuncAxiom.text : FuncAxiom → FText
  | .definitional => "(definitional)".toList
  | .returnInvariant => "(return_invariant)".toList
  | .fuelSynonym => "(fuel_synonym)".toList
  | .computation => "(computation)".toList

/-- The places in the code that make quantifiers: Boolean quantifiers of programs (`src/smt/translate_exprs.rs:249-265`), the encoding of
infima and suprema (`src/smt/translate_exprs.rs:595-621`), axioms of functions (`src/smt/funcs/util.rs:80-115`), axioms of literal markers
(`z3rro/src/lit.rs:60-70`), equality of lists (`z3rro/src/list.rs:282-293`), and the exists-forall solver (`z3rro/src/prover.rs:314-326`). -/
inductive Quantifier where
  | bool (s : QSpan)
  | extremum (s : QSpan) (part : ExtPart)
  | func (name : FText) (ax : FuncAxiom)
  | literal (sort : FText)
  | listEq
  | existsForall

/-- The metadata of a quantifier, at the places that are listed with `Quantifier`. `forall_const` does not set an id (`z3rro/src/prover.rs:317-322`). -/
def Quantifier.meta : Quantifier → Option QMeta
  | .bool s => some ⟨"span".toList ++ s.text, false, none⟩
  | .extremum s p => some ⟨"span".toList ++ s.text, true, some p.text⟩
  | .func f a => some ⟨f ++ a.text, false, none⟩
  | .literal s => some ⟨"Lit".toList ++ s ++ "(definitional)".toList, false, none⟩
  | .listEq => some ⟨"list_eq".toList, false, none⟩
  | .existsForall => none

/-- The id of a quantifier, as given to Z3 (`z3rro/src/quantifiers.rs:104,110`). -/
def Quantifier.id (q : Quantifier) : Option FText := q.meta.map QMeta.qid

/-- Z3's use of the parameter `smt.mbqi.id` (set in `src/driver/smt_proof.rs:104,111`): model-based instantiation is for the quantifiers whose id
starts with the text, and for all if it is not set. Quantifiers without an id only pass if the text is empty. Z3 is trusted to do this. -/
def usesMbqi (ps : Params) (q : Quantifier) : Bool :=
  match ps.lookup "smt.mbqi.id".toList with
  | none => true
  | some p => match q.id with
    | some t => p.isPrefixOf t
    | none => p.isEmpty

/-- Z3's use of the parameter `smt.ematching` (set in `src/driver/smt_proof.rs:107,110`), for all quantifiers. Z3 is trusted to do this. -/
def usesEmatching (ps : Params) : Bool := ps.lookup "smt.ematching".toList != some "false".toList

end Caesar.Driver.Query
