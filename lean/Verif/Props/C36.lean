import Verif.ScopeMap

/-!
# C36: scopes restore bindings

Specification: a stack of plain functions from keys to optional values, where `push` copies the top, `pop` drops it,
and `insert`/`remove` update the top. Theorem: for every history, the scope map behaves exactly like it.
-/

namespace Caesar
variable {K V : Type} [DecidableEq K]
set_option linter.unusedSectionVars false

/-- Specification state: the map visible at each level, innermost first (never empty). -/
structure SpecMap (K V : Type) where
  top : K → Option V
  rest : List (K → Option V)

/-- Specification of one operation. -/
def SpecMap.step (s : SpecMap K V) : ScopeMap.Op K V → Option (SpecMap K V)
  | .push => some ⟨s.top, s.top :: s.rest⟩
  | .pop t =>
    match s.rest with
    | [] => none
    | m :: ms => if t = ms.length + 2 then some ⟨m, ms⟩ else none
  | .insert k v => some ⟨fun k' => if k = k' then some v else s.top k', s.rest⟩
  | .remove k => some ⟨fun k' => if k = k' then none else s.top k', s.rest⟩

/-- Specification of a history. -/
def SpecMap.run (s : SpecMap K V) : List (ScopeMap.Op K V) → Option (SpecMap K V)
  | [] => some s
  | o :: os => (s.step o).bind fun s => SpecMap.run s os

/-- The specification state of nested scopes. -/
def visible : List (IndexMap K (ScopeEntry V)) → List (K → Option V)
  | [] => []
  | s :: ss => ScopeMap.getIn (s :: ss) :: visible ss

/-- A scope map implements a specification state. -/
def Implements (m : ScopeMap K V) (s : SpecMap K V) : Prop := visible m.scopes = s.top :: s.rest

theorem visible_length (l : List (IndexMap K (ScopeEntry V))) : (visible l).length = l.length := by
  induction l with
  | nil => rfl
  | cons a l ih => simp [visible, ih]

theorem getIn_insert_value (s : IndexMap K (ScopeEntry V)) (ss) (k : K) (v : V) (k' : K) :
    ScopeMap.getIn (s.insert k (.value v) :: ss) k' = if k = k' then some v else ScopeMap.getIn (s :: ss) k' := by
  simp only [ScopeMap.getIn, IndexMap.get_insert]
  by_cases h : k = k' <;> simp [h]

theorem getIn_insert_deleted (s : IndexMap K (ScopeEntry V)) (ss) (k : K) (k' : K) :
    ScopeMap.getIn (s.insert k .deleted :: ss) k' = if k = k' then none else ScopeMap.getIn (s :: ss) k' := by
  simp only [ScopeMap.getIn, IndexMap.get_insert]
  by_cases h : k = k' <;> simp [h]

theorem step_refines {m : ScopeMap K V} {s : SpecMap K V} (h : Implements m s) (o : ScopeMap.Op K V) :
    match m.step o, s.step o with
    | some m', some s' => Implements m' s'
    | none, none => True
    | _, _ => False := by
  unfold Implements at h
  cases o with
  | push =>
    simp only [ScopeMap.step, ScopeMap.push, SpecMap.step, Implements]
    cases hm : m.scopes with
    | nil => simp [hm, visible] at h
    | cons a l =>
      rw [hm] at h
      have htop : ScopeMap.getIn (a :: l) = s.top := by simp [visible] at h; exact h.1
      simp only [visible]
      congr 1
  | insert k v =>
    cases hm : m.scopes with
    | nil => simp [hm, visible] at h
    | cons a l =>
      rw [hm] at h
      simp only [visible, List.cons.injEq] at h
      simp only [ScopeMap.step, ScopeMap.insert, hm, SpecMap.step, Implements, visible, h.2]
      congr 1
      funext k'
      rw [getIn_insert_value, h.1]
  | remove k =>
    cases hm : m.scopes with
    | nil => simp [hm, visible] at h
    | cons a l =>
      rw [hm] at h
      simp only [visible, List.cons.injEq] at h
      simp only [ScopeMap.step, ScopeMap.remove, hm, SpecMap.step, Implements, visible, h.2]
      congr 1
      funext k'
      rw [getIn_insert_deleted, h.1]
  | pop t =>
    cases hm : m.scopes with
    | nil => simp [hm, visible] at h
    | cons a l =>
      rw [hm] at h
      simp only [visible, List.cons.injEq] at h
      have hl := congrArg List.length h.2
      rw [visible_length] at hl
      simp only [ScopeMap.step, ScopeMap.pop, ScopeMap.uncheckedPop, ScopeMap.depth, hm, SpecMap.step,
        List.length_cons, List.tail_cons]
      cases hr : s.rest with
      | nil =>
        simp only [hr, List.length_nil] at hl
        simp [hl]
      | cons b bs =>
        simp only [hr, List.length_cons] at hl
        dsimp only
        by_cases ht : t = bs.length + 2
        · have ht' : t = l.length + 1 := by omega
          rw [if_pos ht', if_pos ht, if_pos (by omega)]
          show visible l = b :: bs
          rw [h.2, hr]
        · have ht' : ¬ t = l.length + 1 := by omega
          rw [if_neg ht', if_neg ht]
          trivial

/-- Every history on a scope map panics exactly when the specification has no result, and otherwise all lookups
answer as in the specification. -/
theorem C36_refines_spec {m : ScopeMap K V} {s : SpecMap K V} (h : Implements m s) (os : List (ScopeMap.Op K V)) :
    match m.run os, s.run os with
    | some m', some s' => Implements m' s' ∧ ∀ k, m'.get k = s'.top k
    | none, none => True
    | _, _ => False := by
  induction os generalizing m s with
  | nil =>
    refine ⟨h, fun k => ?_⟩
    unfold Implements at h
    cases hm : m.scopes with
    | nil => simp [hm, visible] at h
    | cons a l =>
      rw [hm] at h
      simp only [visible, List.cons.injEq] at h
      show ScopeMap.getIn m.scopes k = _
      rw [hm, h.1]
  | cons o os ih =>
    have hs := step_refines h o
    simp only [ScopeMap.run, SpecMap.run]
    cases h1 : m.step o <;> cases h2 : s.step o <;> rw [h1, h2] at hs
    · trivial
    · exact hs.elim
    · exact hs.elim
    · exact ih hs

/-- The new map implements the specification with nothing bound. -/
theorem C36_new : Implements (ScopeMap.new : ScopeMap K V) ⟨fun _ => none, []⟩ := rfl

/-- Histories in which every pop has its push, with the token of that push. `d` is the depth at the beginning. -/
inductive Balanced : Nat → List (ScopeMap.Op K V) → Prop where
  | nil (d : Nat) : Balanced d []
  | insert {d os} (k : K) (v : V) : Balanced d os → Balanced d (.insert k v :: os)
  | remove {d os} (k : K) : Balanced d os → Balanced d (.remove k :: os)
  | nested {d os os'} : Balanced (d + 1) os → Balanced d os' → Balanced d (.push :: os ++ .pop (d + 1) :: os')

theorem run_append (m : ScopeMap K V) (os os' : List (ScopeMap.Op K V)) :
    m.run (os ++ os') = (m.run os).bind fun m => m.run os' := by
  induction os generalizing m with
  | nil => rfl
  | cons o os ih =>
    simp only [List.cons_append, ScopeMap.run]
    cases m.step o with
    | none => rfl
    | some m' => exact ih m'

theorem pop_cons (a) (l : List (IndexMap K (ScopeEntry V))) (h : l ≠ []) :
    (ScopeMap.mk (a :: l) : ScopeMap K V).pop (l.length + 1) = some ⟨l⟩ := by
  have : 0 < l.length := List.length_pos_iff.2 h
  unfold ScopeMap.pop
  rw [if_pos (by simp [ScopeMap.depth])]
  unfold ScopeMap.uncheckedPop
  rw [if_pos (by simp [ScopeMap.depth]; exact this)]
  rfl

/-- A balanced history does not panic, and changes only the innermost scope. -/
theorem balanced_run {d : Nat} {os : List (ScopeMap.Op K V)} (h : Balanced d os) (a) (l : List _)
    (hd : d = l.length + 1) : ∃ a', (ScopeMap.mk (a :: l) : ScopeMap K V).run os = some ⟨a' :: l⟩ := by
  induction h generalizing a l with
  | nil => exact ⟨a, rfl⟩
  | insert k v _ ih => exact ih _ _ hd
  | remove k _ ih => exact ih _ _ hd
  | nested _ _ ih1 ih2 =>
    obtain ⟨b, hb⟩ := ih1 [] (a :: l) (by simp [hd])
    obtain ⟨c, hc⟩ := ih2 a l hd
    refine ⟨c, ?_⟩
    simp only [List.cons_append, ScopeMap.run, ScopeMap.step, ScopeMap.push, Option.bind]
    rw [run_append, hb]
    have hp := pop_cons b (a :: l) (by simp)
    rw [List.length_cons, ← hd] at hp
    simp only [Option.bind, ScopeMap.run, ScopeMap.step, hp]
    exact hc

/-- Pushing, running any balanced history and popping restores the map (and so all lookups). -/
theorem C36_push_pop_restores (m : ScopeMap K V) (hm : m.scopes ≠ []) (os : List (ScopeMap.Op K V))
    (h : Balanced (m.depth + 1) os) : m.run (.push :: os ++ [.pop (m.depth + 1)]) = some m := by
  obtain ⟨b, hb⟩ := balanced_run h [] m.scopes rfl
  simp only [List.cons_append, ScopeMap.run, ScopeMap.step, ScopeMap.push, Option.bind]
  rw [run_append, hb]
  have hp := pop_cons b m.scopes hm
  simp only [Option.bind, ScopeMap.run, ScopeMap.step, ScopeMap.depth, hp]

/-- Non-vacuity: a nested balanced history with an insertion that shadows and one that deletes. -/
example : Balanced (K := Nat) (V := Nat) 2
    [.insert 1 5, .push, .insert 1 6, .remove 2, .pop 3, .remove 1] :=
  .insert 1 5 (.nested (os := [.insert 1 6, .remove 2]) (.insert _ _ (.remove _ (.nil _))) (.remove _ (.nil _)))

/-- Popping with the token of another scope is detected. -/
theorem C36_wrong_token_panics (m : ScopeMap K V) (t : Nat) (h : t ≠ m.depth) : m.pop t = none := by
  simp [ScopeMap.pop, h]

example : (ScopeMap.new : ScopeMap Nat Nat).pop 7 = none := rfl

end Caesar
