import Verif.Smt.Accessed

/-!
# Lists and arrays in counterexamples

Models `ConcreteArrayValue` (`z3rro/src/array.rs`) and `ConcreteList` (`z3rro/src/list.rs:28-124`), which turn values of the solver's
model into text.
-/

namespace Caesar.Smt

/-- Text. (`z3rro/src/array.rs:21`) -/
abbrev CText := List Char

/-- Values of the solver: numerals, arrays as chains of stores into constant arrays, values of the datatype of lists, and others with
their text. The sort of a list is registered when it is created (`z3rro/src/list.rs:329-341`), so every `mkList` is of a registered sort. -/
inductive ZVal where
  | int (n : ℤ)
  | const (v : ZVal)
  | store (a i v : ZVal)
  | mkList (len elements : ZVal)
  | other (text : CText)

/-- Z3's text of an integer, as read by `z3rro/src/util.rs:160-167`. -/
def zIntText : ℤ → CText
  | .ofNat n => natText n
  | .negSucc n => '(' :: '-' :: ' ' :: (natText (n + 1) ++ [')'])

/-- `Display for BigInt` of the crate `num`, used in `z3rro/src/list.rs:116,120` and `z3rro/src/array.rs:57`. -/
def bigIntText : ℤ → CText
  | .ofNat n => natText n
  | .negSucc n => '-' :: natText (n + 1)

/-- `strip_prefix("(- ")` and `strip_suffix(')')` (`z3rro/src/util.rs:163-164`). -/
def stripNeg : CText → Option CText
  | '(' :: '-' :: ' ' :: cs => if cs.getLast? = some ')' then some cs.dropLast else none
  | _ => none

/-- The parsing in `parse_big_int` (`z3rro/src/util.rs:162-167`). -/
def parseNumeral (text : CText) : Option ℤ :=
  (parseBigInt text).or ((stripNeg text).bind fun t => (parseBigInt t).map (- ·))

/-- `parse_big_int` (`z3rro/src/util.rs:160-168`) after `as_int`, which fails for other sorts. Values of sort `Int` are numerals. -/
def intOf : ZVal → Option ℤ
  | .int n => parseNumeral (zIntText n)
  | _ => none

/-- `ConcreteArrayValue` (`z3rro/src/array.rs:20-23`). `BTreeMap` is a list which is sorted by keys. -/
structure CArray where
  default : CText
  stores : List (ℤ × CText)

/-- `BTreeMap::insert` (`z3rro/src/array.rs:33`). -/
def insertStore (k : ℤ) (t : CText) : List (ℤ × CText) → List (ℤ × CText)
  | [] => [(k, t)]
  | (k', t') :: r => if k < k' then (k, t) :: (k', t') :: r else if k = k' then (k, t) :: r else (k', t') :: insertStore k t r

/-- `stores.get(&index).cloned().unwrap_or_else(default)` (`z3rro/src/list.rs:81-85`). -/
def CArray.get (a : CArray) (k : ℤ) : CText := (a.stores.lookup k).getD a.default

/-- The stores of an array as text (`z3rro/src/array.rs:53-58`). -/
def storesText : List (ℤ × CText) → CText
  | [] => []
  | [(k, t)] => bigIntText k ++ (" -> ".toList ++ t)
  | (k, t) :: r => bigIntText k ++ (" -> ".toList ++ t) ++ (", ".toList ++ storesText r)

/-- `Display for ConcreteArrayValue` (`z3rro/src/array.rs:48-63`). -/
def CArray.text (a : CArray) : CText :=
  "const(".toList ++ a.default ++ [')'] ++ (if a.stores = [] then [] else " [".toList ++ storesText a.stores ++ [']'])

/-- `ConcreteList` (`z3rro/src/list.rs:33-40`). -/
structure CList where
  len : ℤ
  elements : List CText
  default : CText
  oob : List (ℤ × CText)
  truncated : Bool

/-- `LIST_PREVIEW_LIMIT` (`z3rro/src/list.rs:28`). -/
def previewLimit : ℕ := 16

/-- `elements.join(", ")` (`z3rro/src/list.rs:111,113`). -/
def joinText : List CText → CText
  | [] => []
  | [t] => t
  | t :: r => t ++ (", ".toList ++ joinText r)

/-- `Display for ConcreteList` (`z3rro/src/list.rs:107-125`). -/
def CList.text (l : CList) : CText :=
  ['['] ++ (if l.truncated then joinText l.elements ++ ", ...]".toList else joinText l.elements ++ [']']) ++
  (" (len=".toList ++ bigIntText l.len) ++
  (if l.oob = [] then [] else ", oob: default=".toList ++ l.default ++
    (l.oob.map fun e => ", ".toList ++ bigIntText e.1 ++ " -> ".toList ++ e.2).flatten) ++ [')']

/-- The last part of `ConcreteList::from_dynamic` (`z3rro/src/list.rs:72-103`). For lengths that are not a `usize`, the result is the same. -/
def mkCList (len : ℤ) (a : CArray) : CList where
  len := len
  elements := (List.range (min len.toNat previewLimit)).map fun i : ℕ => a.get i
  default := a.default
  oob := a.stores.filter fun e => decide (e.1 < 0 ∨ e.1 ≥ len)
  truncated := decide (len.toNat > previewLimit)

section
variable (raw : ZVal → CText)

/-- Z3's own text of a value, in `format!("{value}")` (`z3rro/src/array.rs:81`); `raw` is that of arrays and lists. -/
def rawText : ZVal → CText
  | .int n => zIntText n
  | .other t => t
  | v => raw v

mutual

/-- `ConcreteArrayValue::from_dynamic` (`z3rro/src/array.rs:26-45`). -/
def arrayOf : ZVal → Option CArray
  | .store a i v =>
    match arrayOf a, intOf i with
    | some base, some index => some ⟨base.default, insertStore index (dynText v) base.stores⟩
    | _, _ => none
  | .const v => some ⟨dynText v, []⟩
  | _ => none
termination_by v => (sizeOf v, 0)

/-- `ConcreteList::from_dynamic` (`z3rro/src/list.rs:43-104`). -/
def listOf : ZVal → Option CList
  | .mkList l e =>
    match intOf l with
    | some len => if len < 0 then none else (arrayOf e).map (mkCList len)
    | none => none
  | _ => none
termination_by v => (sizeOf v, 0)

/-- `dynamic_to_string` (`z3rro/src/array.rs:75-83`). -/
def dynText (v : ZVal) : CText :=
  match listOf v with
  | some l => l.text
  | none => match arrayOf v with
    | some a => a.text
    | none => rawText raw v
termination_by (sizeOf v, 1)

end
end

end Caesar.Smt
