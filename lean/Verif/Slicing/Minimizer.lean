/-!
# The partial minimizer

Models `PartialMinimizer` (`src/slicing/util.rs:12-147`) and its use in `slice_sat_binary_search`
(`src/slicing/solver.rs:456-586`). `usize` is `Nat`.
-/

namespace Caesar.Slicing

/-- `PartialMinimizeResult` (`src/slicing/util.rs:14-18`). -/
inductive MinResult where
  | acceptUpwards | rejectDownwards | unknown
  deriving DecidableEq

/-- `PartialMinimizer` (`src/slicing/util.rs:32-37`); the initial range is `lo..=hi`. -/
structure Minimizer where
  lo : Nat
  hi : Nat
  maxReject : Option Nat
  minAccept : Option Nat
  unknowns : List Nat

/-- `PartialMinimizer::new` (`src/slicing/util.rs:41-48`). -/
def Minimizer.new (lo hi : Nat) : Minimizer := ⟨lo, hi, none, none, []⟩

/-- `add_result` (`src/slicing/util.rs:52-77`). `none` is a failed assertion (also the `debug_assert`). -/
def Minimizer.addResult (m : Minimizer) (n : Nat) (r : MinResult) : Option Minimizer :=
  if m.lo ≤ n ∧ n ≤ m.hi then
    match r with
    | .rejectDownwards =>
      let maxReject := match m.maxReject with | some other => max other n | none => n
      match m.minAccept with
      | some a => if maxReject < a then some { m with maxReject := some maxReject } else none
      | none => some { m with maxReject := some maxReject }
    | .acceptUpwards =>
      let minAccept := match m.minAccept with | some other => min other n | none => n
      match m.maxReject with
      | some r => if r < minAccept then some { m with minAccept := some minAccept } else none
      | none => some { m with minAccept := some minAccept }
    | .unknown => if n ∈ m.unknowns then none else some { m with unknowns := m.unknowns ++ [n] }
  else none

/-- `range_exclude_to` (`src/slicing/util.rs:117-123`), on inclusive ranges `(start, end)`. -/
def rangeExcludeTo (r : Nat × Nat) (i : Nat) : Nat × Nat := (max r.1 (i + 1), r.2)

/-- `range_exclude_from` (`src/slicing/util.rs:125-136`). -/
def rangeExcludeFrom (r : Nat × Nat) (i : Nat) : Nat × Nat :=
  if i = 0 then (1, 0) else (r.1, min r.2 (i - 1))

/-- The elements of `start..=end` in order. (`src/slicing/util.rs:33,122`) -/
def rangeIncl (s e : Nat) : List Nat := List.range' s (e + 1 - s)

/-- `iter_range_from_mid` (`src/slicing/util.rs:138-146`). `start..end` excludes `end`. -/
def iterRangeFromMid (r : Nat × Nat) : List Nat :=
  if r.2 - r.1 ≤ 1 then rangeIncl r.1 r.2
  else
    let mid := (r.1 + r.2) / 2
    rangeIncl mid r.2 ++ List.range' r.1 (r.2 - r.1)

/-- The range which is still searched (`src/slicing/util.rs:83-90`). -/
def Minimizer.range (m : Minimizer) : Nat × Nat :=
  let r := (m.lo, m.hi)
  let r := match m.maxReject with | some i => rangeExcludeTo r i | none => r
  match m.minAccept with | some i => rangeExcludeFrom r i | none => r

/-- `next_trial` (`src/slicing/util.rs:81-99`). -/
def Minimizer.nextTrial (m : Minimizer) : Option Nat :=
  let r := m.range
  if (r.1 ≤ m.hi ∧ m.hi ≤ r.2) ∧ m.hi ∉ m.unknowns then some m.hi
  else (iterRangeFromMid r).find? fun i => i ∉ m.unknowns

/-- What one trial with bound `n` yields in `slice_sat_binary_search`: a model with `k` enabled statements, unsat, or unknown
(`src/slicing/solver.rs:512-553`). -/
inductive Answer where
  | accept (k : Nat) | reject | unknown

/-- Recording the answer for a trial with bound `n` (`src/slicing/solver.rs:516-553`). -/
def Minimizer.record (m : Minimizer) (n : Nat) : Answer → Option Minimizer
  | .accept k => m.addResult k .acceptUpwards
  | .reject => m.addResult n .rejectDownwards
  | .unknown => m.addResult n .unknown

/-- The search loop (`src/slicing/solver.rs:495-554`), without the early exit for `SliceMinimality::Any`. The outer `none` means that the fuel is
exhausted, the inner one that an assertion failed. -/
def search (answer : Nat → Answer) : (fuel : Nat) → Minimizer → Option (Option Minimizer)
  | 0, _ => none
  | fuel + 1, m =>
    match m.nextTrial with
    | none => some (some m)
    | some n =>
      match m.record n (answer n) with
      | none => some none
      | some m => search answer fuel m

/-- The number of statements the search settles on (`src/slicing/solver.rs:559-562`). -/
def Minimizer.enabled (m : Minimizer) : Nat := (m.minAccept.or m.maxReject).getD m.hi

end Caesar.Slicing
