import Verif.Driver.Deps
import Verif.Driver.Module
import Verif.ProofRules.CallGraph
import Verif.ProofRules.Calculus

/-!
# Selecting verification units by name

Models `Module::filter` (`src/driver/front.rs:192-203`), which is applied after type checking (`src/driver/front.rs:86-89`), and the
analyses which run on the items that are left: `Module::check_calculus_rules` (`src/driver/front.rs:248-263`) and `Module::generate_depgraph`
(`src/driver/front.rs:270-279`). The symbol table is not filtered.
-/

namespace Caesar.Driver

/-- `SourceUnitName` (`src/driver/item.rs:13-20`), without the span. -/
structure UnitName where
  shortPath : String
  declName : Option String
  deriving DecidableEq

/-- `SourceUnitName::fmt` (`src/driver/item.rs:65-73`). -/
def UnitName.display (n : UnitName) : String :=
  match n.declName with
  | some d => n.shortPath ++ "::" ++ d
  | none => n.shortPath

/-- `Item<SourceUnit>` (`src/driver/item.rs:76-80`), without the tracing span. -/
structure Item where
  name : UnitName
  unit : SourceUnit

/-- `SourceUnit::is_verification_target` (`src/driver/front.rs:317-322`). -/
def SourceUnit.isTarget : SourceUnit → Bool
  | .proc _ => true
  | .domain _ => false
  | .raw _ => true

/-- `self.items.retain(…)` in `Module::filter` (`src/driver/front.rs:195-203`); `re` is the compiled regular expression. -/
def retainItems (re : String → Bool) (items : List Item) : List Item :=
  items.filter fun i => !i.unit.isTarget || re i.name.display

/-- `Module::filter` (`src/driver/front.rs:195-203`). The compiler of regular expressions is a parameter. -/
def filterItems (compile : String → Option (String → Bool)) (pattern : String) (items : List Item) : Except CaesarError (List Item) :=
  match compile pattern with
  | none => .error .user
  | some re => .ok (retainItems re items)

/-- The source units of a module. (`src/driver/front.rs:96-98`) -/
def units (items : List Item) : List SourceUnit := items.map Item.unit

/-- The procedures among source units (`src/proof_rules/calculus/recursion_checker.rs:106-116`). -/
def procsOf (us : List SourceUnit) : List Proc := us.filterMap fun u => match u with | .proc p => some p | _ => none

/-- What the call graph sees of the procedures (`src/proof_rules/calculus/recursion_checker.rs:99-118`). -/
def unitBodies (us : List SourceUnit) : List ProcBody := (procsOf us).map fun p => ⟨p.name, p.body⟩

/-- `CalculusVisitor` on one source unit (`src/driver/front.rs:255-260`, `src/proof_rules/calculus/calculus_checker.rs:50-143`). Calls outside
of procedures are not checked. -/
def checkUnit (cal : Ident → Option CalculusType) (recursive : List Blame) : SourceUnit → Except CalculusError Unit
  | .proc p => checkProc (cal p.name) p.dir (recursive.any fun b => b.recursive = p.name)
      (match p.body with | some B => B.callees.map cal | none => [])
  | .domain _ => .ok ()
  | .raw _ => .ok ()

/-- `Module::check_calculus_rules` (`src/driver/front.rs:250-263`), with the result `sccs` of the component analysis as a parameter. -/
def checkCalculus (cal : Ident → Option CalculusType) (sccs : List (List Ident)) (us : List SourceUnit) : Except CalculusError Unit :=
  us.forM (checkUnit cal (findRecursive (callGraph (unitBodies us)) sccs))

end Caesar.Driver
