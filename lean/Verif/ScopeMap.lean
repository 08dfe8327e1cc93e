/-!
# Model of `ScopeMap`

Models `src/scope_map.rs`.
-/

namespace Caesar

/-- `ScopeEntry` (`src/scope_map.rs:9-13`). -/
inductive ScopeEntry (V : Type) where
  | value (v : V)
  | deleted

/-- `indexmap::IndexMap` as an association list in insertion order. (`src/scope_map.rs:23`) -/
abbrev IndexMap (K V : Type) := List (K × V)

namespace IndexMap
variable {K V : Type} [DecidableEq K]

/-- `IndexMap::get`. (used in `src/scope_map.rs:131`) -/
def get (m : IndexMap K V) (k : K) : Option V :=
  match m with
  | [] => none
  | (k', v) :: m => if k' = k then some v else IndexMap.get m k

/-- `IndexMap::insert`: replaces the value in place or appends. (used in `src/scope_map.rs:85`) -/
def insert (m : IndexMap K V) (k : K) (v : V) : IndexMap K V :=
  match m with
  | [] => [(k, v)]
  | (k', v') :: m => if k' = k then (k', v) :: m else (k', v') :: IndexMap.insert m k v

theorem get_insert (m : IndexMap K V) (k k' : K) (v : V) :
    IndexMap.get (IndexMap.insert m k v) k' = if k = k' then some v else IndexMap.get m k' := by
  induction m with
  | nil => simp [insert, get]
  | cons p m ih =>
    obtain ⟨a, b⟩ := p
    simp only [insert]
    split
    next h => subst h; simp only [get]; split <;> rfl
    next h =>
      simp only [get, ih]
      split
      next h1 => subst h1; rw [if_neg (fun h2 => h h2.symm)]
      next => rfl

end IndexMap

/-- `ScopeMap` (`src/scope_map.rs:22-25`). The scopes are listed innermost first (the code appends at the end of
a `Vec`). -/
structure ScopeMap (K V : Type) where
  scopes : List (IndexMap K (ScopeEntry V))

namespace ScopeMap
variable {K V : Type} [DecidableEq K]

/-- `ScopeMap::new` (`src/scope_map.rs:33-37`). -/
def new : ScopeMap K V := ⟨[[]]⟩

/-- `ScopeMap::depth` (`src/scope_map.rs:40-42`). -/
def depth (m : ScopeMap K V) : Nat := m.scopes.length

/-- `ScopeMap::push` (`src/scope_map.rs:54-60`). Also returns the depth stored in the `ScopeParent` token. -/
def push (m : ScopeMap K V) : ScopeMap K V × Nat :=
  let m' : ScopeMap K V := ⟨[] :: m.scopes⟩
  (m', m'.depth)

/-- `ScopeMap::unchecked_pop` (`src/scope_map.rs:78-81`); `none` is a failed assertion. -/
def uncheckedPop (m : ScopeMap K V) : Option (ScopeMap K V) :=
  if m.depth > 1 then some ⟨m.scopes.tail⟩ else none

/-- `ScopeMap::pop` (`src/scope_map.rs:68-71`) with the depth of the token. -/
def pop (m : ScopeMap K V) (token : Nat) : Option (ScopeMap K V) :=
  if token = m.depth then m.uncheckedPop else none

/-- `ScopeMap::insert` (`src/scope_map.rs:85-92`), without the returned old value; `none` is the `unwrap` of an
empty vector. -/
def insert (m : ScopeMap K V) (k : K) (v : V) : Option (ScopeMap K V) :=
  match m.scopes with
  | [] => none
  | s :: ss => some ⟨s.insert k (.value v) :: ss⟩

/-- `ScopeMap::remove` (`src/scope_map.rs:99-106`). -/
def remove (m : ScopeMap K V) (k : K) : Option (ScopeMap K V) :=
  match m.scopes with
  | [] => none
  | s :: ss => some ⟨s.insert k .deleted :: ss⟩

/-- The loop of `ScopeMap::get` (`src/scope_map.rs:131-145`). -/
def getIn : List (IndexMap K (ScopeEntry V)) → K → Option V
  | [], _ => none
  | s :: ss, k =>
    match s.get k with
    | some (.value v) => some v
    | some .deleted => none
    | none => getIn ss k

/-- `ScopeMap::get` (`src/scope_map.rs:131-145`). -/
def get (m : ScopeMap K V) (k : K) : Option V := getIn m.scopes k

/-- The mutating operations. (`src/scope_map.rs:54-99`) -/
inductive Op (K V : Type) where
  | push
  | pop (token : Nat)
  | insert (k : K) (v : V)
  | remove (k : K)

/-- One operation on the map. (`src/scope_map.rs:54-99`) -/
def step (m : ScopeMap K V) : Op K V → Option (ScopeMap K V)
  | .push => some m.push.1
  | .pop t => m.pop t
  | .insert k v => m.insert k v
  | .remove k => m.remove k

/-- A history of operations. -/
def run (m : ScopeMap K V) : List (Op K V) → Option (ScopeMap K V)
  | [] => some m
  | o :: os => (m.step o).bind fun m => run m os

end ScopeMap
end Caesar
