import Verif.Smt.Orders

/-!
# Model of the SMT encodings of nonnegative numbers

Models `z3rro/src/ureal.rs`, `z3rro/src/uint.rs` (numbers), `z3rro/src/eureal/pair.rs`,
`z3rro/src/eureal/datatype.rs`, and the conversions in `z3rro/src/eureal/mod.rs`.
-/

namespace Caesar.Smt

/-- `real_monus` (`z3rro/src/ureal.rs:149-152`). `UReal` terms are terms of sort `Real`. -/
noncomputable def realMonus (a b : ℝ) : ℝ := smtIte (a ≥ b) (a - b) 0

/-! ## Pairs -/

/-- `pair::EUReal` (`z3rro/src/eureal/pair.rs:36-41`). -/
structure Pair where
  isInf : Prop
  num : ℝ

namespace Pair

/-- `EUReal::infinity` (`z3rro/src/eureal/pair.rs:44-50`). -/
def infinity : Pair := ⟨True, 1⟩

/-- `EUReal::from_ureal` (`z3rro/src/eureal/pair.rs:60-66`). -/
def fromUReal (r : ℝ) : Pair := ⟨False, r⟩

/-- `EUReal::zero` (`z3rro/src/eureal/pair.rs:56-58`). -/
def zero : Pair := fromUReal 0

/-- `SmtBranch for EUReal` (`z3rro/src/eureal/pair.rs:122-130`). -/
noncomputable instance : Branch Pair := ⟨fun c a b => ⟨smtIte c a.isInf b.isInf, smtIte c a.num b.num⟩⟩

/-- `EUReal::iverson` (`z3rro/src/eureal/pair.rs:68-74`). -/
noncomputable def iverson (c : Prop) : Pair := branch c (fromUReal 1) zero

/-- `EUReal::from_uint` (`z3rro/src/eureal/pair.rs:76-78`) with `UReal::from_uint` (`z3rro/src/ureal.rs:29-31`). -/
noncomputable def fromUInt (n : ℤ) : Pair := fromUReal (n : ℝ)

/-- `SmtInvariant for EUReal` (`z3rro/src/eureal/pair.rs:93-100`) with `UReal::smt_invariant` (`z3rro/src/ureal.rs:59-62`). -/
instance : Invariant Pair := ⟨fun a => a.num ≥ 0 ∧ (a.isInf → a.num = 1)⟩

/-- `Add for EUReal` (`z3rro/src/eureal/pair.rs:160-169`). -/
noncomputable def add (a b : Pair) : Pair := ⟨a.isInf ∨ b.isInf, a.num + b.num⟩

/-- `Sub for EUReal` (`z3rro/src/eureal/pair.rs:174-183`). -/
noncomputable def sub (a b : Pair) : Pair := ⟨a.isInf ∧ ¬ b.isInf, realMonus a.num b.num⟩

/-- `Mul for EUReal` (`z3rro/src/eureal/pair.rs:188-203`). -/
noncomputable def mul (a b : Pair) : Pair :=
  let aNonzero := a.isInf ∨ ¬ a.num = 0
  let bNonzero := b.isInf ∨ ¬ b.num = 0
  ⟨(a.isInf ∧ bNonzero) ∨ (b.isInf ∧ aNonzero), a.num * b.num⟩

/-- `SmtEq for EUReal` (`z3rro/src/eureal/pair.rs:207-215`). -/
def smtEq (a b : Pair) : Prop := a.isInf = b.isInf ∧ (¬ a.isInf ∨ ¬ b.isInf → a.num = b.num)

/-- `eureal_le` (`z3rro/src/eureal/pair.rs:219-224`). -/
def le (a b : Pair) : Prop := b.isInf ∨ (¬ a.isInf ∧ a.num ≤ b.num)

/-- `SmtPartialOrd for EUReal` (`z3rro/src/eureal/pair.rs:217-233`). -/
instance : PartialOrd Pair := ⟨fun a b o => match o with
  | .less => ¬ le b a
  | .lessOrEqual => le a b
  | .equal => smtEq a b
  | .greaterOrEqual => le b a
  | .greater => ¬ le a b⟩

/-- `SmtLattice for EUReal` (`z3rro/src/eureal/pair.rs:236-252`). -/
noncomputable instance : Lat Pair where
  bot := fromUReal 0
  top := infinity
  inf := smtMin
  sup := smtMax

end Pair

/-! ## Datatype -/

/-- Values of the SMT datatype `EUReal` (`z3rro/src/eureal/datatype.rs:44-51`). -/
inductive Data where
  | inf
  | real (r : ℝ)

namespace Data

/-- The value of the accessor `rplus_real` on `Rplus_inf`, which SMT-LIB leaves to the model. (`z3rro/src/eureal/datatype.rs:47-50,154`) -/
class Junk where
  junk : ℝ

/-- `EUReal::is_infinity` (`z3rro/src/eureal/datatype.rs:110-116`). -/
def isInfinity : Data → Prop
  | .inf => True
  | .real _ => False

/-- `EUReal::is_real` (`z3rro/src/eureal/datatype.rs:146-152`). -/
def isReal : Data → Prop
  | .inf => False
  | .real _ => True

variable [Junk]

/-- `EUReal::get_ureal` (`z3rro/src/eureal/datatype.rs:154-162`). -/
def getUReal : Data → ℝ
  | .inf => Junk.junk
  | .real r => r

/-- `EUReal::infinity` (`z3rro/src/eureal/datatype.rs:102-108`). -/
def infinity : Data := .inf

/-- `EUReal::from_ureal` (`z3rro/src/eureal/datatype.rs:122-132`). -/
def fromUReal (r : ℝ) : Data := .real r

/-- `EUReal::zero` (`z3rro/src/eureal/datatype.rs:118-120`). -/
def zero : Data := fromUReal 0

/-- `SmtBranch for EUReal` (`z3rro/src/eureal/datatype.rs:210-217`). -/
noncomputable instance : Branch Data := ⟨smtIte⟩

/-- `SmtInvariant for EUReal` (`z3rro/src/eureal/datatype.rs:184-188`). -/
instance : Invariant Data := ⟨fun a => a.getUReal ≥ 0⟩

/-- `SmtEq for EUReal` (`z3rro/src/eureal/datatype.rs:206-210`). -/
def smtEq (a b : Data) : Prop := a = b

/-- `eureal_le` (`z3rro/src/eureal/datatype.rs:316-321`). -/
def le (a b : Data) : Prop := b.isInfinity ∨ (a.isReal ∧ a.getUReal ≤ b.getUReal)

/-- `eureal_add` (`z3rro/src/eureal/datatype.rs:323-328`). -/
noncomputable def add (a b : Data) : Data :=
  branch (a.isInfinity ∨ b.isInfinity) infinity (fromUReal (a.getUReal + b.getUReal))

/-- `eureal_sub` (`z3rro/src/eureal/datatype.rs:330-340`). -/
noncomputable def sub (a b : Data) : Data :=
  branch b.isInfinity zero (branch a.isInfinity infinity (fromUReal (realMonus a.getUReal b.getUReal)))

/-- `eureal_mul` (`z3rro/src/eureal/datatype.rs:342-356`). -/
noncomputable def mul (a b : Data) : Data :=
  let isBothFinite := a.isReal ∧ b.isReal
  let isResultZero := (a.isInfinity ∧ b = zero) ∨ (b.isInfinity ∧ a = zero)
  branch isBothFinite (fromUReal (a.getUReal * b.getUReal)) (branch isResultZero zero infinity)

/-- `SmtPartialOrd for EUReal` (`z3rro/src/eureal/datatype.rs:406-424`). -/
instance : PartialOrd Data := ⟨fun a b o => match o with
  | .less => le a b ∧ ¬ a = b
  | .lessOrEqual => le a b
  | .equal => a = b
  | .greaterOrEqual => ¬ le a b ∨ a = b
  | .greater => ¬ le a b⟩

/-- `SmtLattice for EUReal` (`z3rro/src/eureal/datatype.rs:427-443`). -/
noncomputable instance : Lat Data where
  bot := fromUReal 0
  top := infinity
  inf := smtMin
  sup := smtMax

/-- `EUReal::iverson` (`z3rro/src/eureal/datatype.rs:134-140`). -/
noncomputable def iverson (c : Prop) : Data := branch c (fromUReal 1) zero

/-- `EUReal::from_uint` (`z3rro/src/eureal/datatype.rs:142-144`). -/
noncomputable def fromUInt (n : ℤ) : Data := fromUReal (n : ℝ)

end Data

/-! ## Conversions -/

/-- `pair_to_datatype` (`z3rro/src/eureal/mod.rs:80-93`). The short cut for the result of a previous conversion
(`extract_datatype_to_pair`) looks at the syntax of terms and is not modelled. -/
noncomputable def pairToData (p : Pair) : Data := branch p.isInf Data.infinity (Data.fromUReal p.num)

/-- `datatype_to_pair` (`z3rro/src/eureal/mod.rs:156-165`). -/
noncomputable def dataToPair [Data.Junk] (d : Data) : Pair :=
  branch d.isInfinity Pair.infinity (Pair.fromUReal d.getUReal)

end Caesar.Smt
