import Verif.Infra.Prover

/-!
# Specification of the prover: live assertions of a history
-/

namespace Caesar.Infra.Prover
variable {F : Type}

set_option linter.unusedSectionVars false

/-- The number of `push` operations. -/
def pushes (os : List (Op F)) : Nat := os.countP fun | .push => true | _ => false
/-- The number of `pop` operations. -/
def pops (os : List (Op F)) : Nat := os.countP fun | .pop => true | _ => false

/-- During `os`, the level current at its beginning stays open: at no point there were more `pop`s than `push`es. -/
def StaysOpen (os : List (Op F)) : Prop := ∀ n, pops (os.take n) ≤ pushes (os.take n)

open Classical in
/-- What the operations of a history contributed (as given by `g`) while the level at which they were executed is still
open at the end of the history. -/
noncomputable def live {β : Type} (g : Op F → List β) : List (Op F) → List β
  | [] => []
  | o :: os => if StaysOpen os then g o ++ live g os else live g os

/-- What an operation asserts. -/
def asserted [Solver F] : Op F → List F
  | .addAssumption f => [f]
  | .addProvable f => [Solver.neg f]
  | _ => []

/-- The proof obligation which an operation adds. -/
def obligation : Op F → List F
  | .addProvable f => [f]
  | _ => []

/-! ## Lemmas -/

attribute [local instance] Classical.propDecidable

/-- The level after `os`, relative to a start at level `h`; `none` if it drops below `0`. -/
def height (h : Nat) : List (Op F) → Option Nat
  | [] => some h
  | .push :: os => height (h + 1) os
  | .pop :: os => match h with
    | 0 => none
    | h + 1 => height h os
  | _ :: os => height h os

theorem height_append (h : Nat) (a b : List (Op F)) : height h (a ++ b) = (height h a).bind fun h => height h b := by
  induction a generalizing h with
  | nil => rfl
  | cons o a ih =>
    cases o <;> try exact ih _
    cases h with
    | zero => rfl
    | succ h => exact ih _

theorem height_isSome_iff (h : Nat) (os : List (Op F)) :
    (height h os).isSome ↔ ∀ n, pops (os.take n) ≤ h + pushes (os.take n) := by
  induction os generalizing h with
  | nil => exact ⟨fun _ n => by simp [pops], fun _ => rfl⟩
  | cons o os ih =>
    have key : ∀ (a b h' : Nat) (hh : (height h (o :: os)) = height h' os),
        (∀ xs : List (Op F), pops (o :: xs) = pops xs + a) → (∀ xs : List (Op F), pushes (o :: xs) = pushes xs + b) →
        h + b = h' + a → ((height h (o :: os)).isSome ↔ ∀ n, pops ((o :: os).take n) ≤ h + pushes ((o :: os).take n)) := by
      intro a b h' hh ha hb hab
      rw [hh, ih]
      constructor
      · intro H n
        cases n with
        | zero => simp [pops]
        | succ n =>
          rw [List.take_succ_cons, ha, hb]
          have := H n
          omega
      · intro H n
        have := H (n + 1)
        rw [List.take_succ_cons, ha, hb] at this
        omega
    cases o with
    | push => exact key 0 1 (h + 1) rfl (fun _ => List.countP_cons_of_neg (by simp)) (fun _ => List.countP_cons_of_pos rfl) rfl
    | pop =>
      cases h with
      | succ h =>
        exact key 1 0 h rfl (fun _ => List.countP_cons_of_pos rfl) (fun _ => List.countP_cons_of_neg (by simp)) rfl
      | zero =>
        refine ⟨fun H => Bool.noConfusion H, fun H => ?_⟩
        have := H 1
        simp [pops, pushes] at this
    | addAssumption f => exact key 0 0 h rfl (fun _ => List.countP_cons_of_neg (by simp)) (fun _ => List.countP_cons_of_neg (by simp)) rfl
    | addProvable f => exact key 0 0 h rfl (fun _ => List.countP_cons_of_neg (by simp)) (fun _ => List.countP_cons_of_neg (by simp)) rfl
    | checkProofAssuming f => exact key 0 0 h rfl (fun _ => List.countP_cons_of_neg (by simp)) (fun _ => List.countP_cons_of_neg (by simp)) rfl
    | checkSat => exact key 0 0 h rfl (fun _ => List.countP_cons_of_neg (by simp)) (fun _ => List.countP_cons_of_neg (by simp)) rfl
    | setTimeout => exact key 0 0 h rfl (fun _ => List.countP_cons_of_neg (by simp)) (fun _ => List.countP_cons_of_neg (by simp)) rfl

theorem staysOpen_iff (os : List (Op F)) : StaysOpen os ↔ (height 0 os).isSome := by
  rw [height_isSome_iff]
  simp only [Nat.zero_add]
  rfl

theorem live_congr {β : Type} (g : Op F → List β) (a b b' : List (Op F)) (h1 : ∀ h, (height h b).isSome = (height h b').isSome)
    (h2 : live g b = live g b') : live g (a ++ b) = live g (a ++ b') := by
  induction a with
  | nil => exact h2
  | cons o a ih =>
    have : StaysOpen (a ++ b) ↔ StaysOpen (a ++ b') := by
      rw [staysOpen_iff, staysOpen_iff, height_append, height_append]
      cases height 0 a with
      | none => exact Iff.rfl
      | some h => exact Eq.to_iff (congrArg (· = true) (h1 h))
    show (if StaysOpen (a ++ b) then g o ++ live g (a ++ b) else live g (a ++ b)) =
      (if StaysOpen (a ++ b') then g o ++ live g (a ++ b') else live g (a ++ b'))
    rw [ih]
    by_cases h : StaysOpen (a ++ b)
    · rw [if_pos h, if_pos (this.1 h)]
    · rw [if_neg h, if_neg fun h' => h (this.2 h')]

theorem live_snoc {β : Type} (g : Op F → List β) (a : List (Op F)) (o : Op F) (ho : ∀ h, (height h [o]).isSome) :
    live g (a ++ [o]) = live g a ++ g o := by
  induction a with
  | nil =>
    show (if StaysOpen [] then g o ++ [] else _) = [] ++ g o
    rw [if_pos ((staysOpen_iff _).2 rfl), List.append_nil, List.nil_append]
  | cons o' a ih =>
    have : StaysOpen (a ++ [o]) ↔ StaysOpen a := by
      rw [staysOpen_iff, staysOpen_iff, height_append]
      cases height 0 a with
      | none => exact Iff.rfl
      | some h => exact ⟨fun _ => rfl, fun _ => ho h⟩
    show (if StaysOpen (a ++ [o]) then g o' ++ live g (a ++ [o]) else live g (a ++ [o])) =
      (if StaysOpen a then g o' ++ live g a else live g a) ++ g o
    rw [ih]
    by_cases h : StaysOpen a
    · rw [if_pos h, if_pos (this.2 h), List.append_assoc]
    · rw [if_neg h, if_neg fun h' => h (this.1 h')]

theorem live_pops {β : Type} (g : Op F → List β) (hg : g .pop = []) (k : Nat) : live g (List.replicate k .pop) = [] := by
  induction k with
  | zero => rfl
  | succ k ih =>
    rw [List.replicate_succ]
    show (if _ then g .pop ++ live g _ else live g _) = []
    rw [ih, hg, List.append_nil, ite_self]

/-- The contribution of the operations at levels which stay open if `k` levels were closed now. -/
noncomputable abbrev liveBelow {β : Type} (g : Op F → List β) (hist : List (Op F)) (k : Nat) : List β :=
  live g (hist ++ List.replicate k .pop)

theorem liveBelow_pop {β : Type} (g : Op F → List β) (hist : List (Op F)) (k : Nat) :
    liveBelow g (hist ++ [.pop]) k = liveBelow g hist (k + 1) := by
  unfold liveBelow
  rw [List.append_assoc, List.replicate_succ]
  rfl

theorem liveBelow_push_succ {β : Type} (g : Op F → List β) (hg : g .pop = []) (hg' : g .push = []) (hist : List (Op F)) (k : Nat) :
    liveBelow g (hist ++ [.push]) (k + 1) = liveBelow g hist k := by
  unfold liveBelow
  rw [List.append_assoc, List.replicate_succ]
  refine live_congr g _ _ _ (fun h => rfl) ?_
  show (if _ then g .push ++ (if _ then g .pop ++ live g _ else live g _) else (if _ then g .pop ++ live g _ else live g _)) = _
  rw [hg, hg']
  simp only [List.nil_append, ite_self]

theorem liveBelow_snoc_succ {β : Type} (g : Op F → List β) (o : Op F) (ho : ∀ h os, height h (o :: os) = height h os)
    (hist : List (Op F)) (k : Nat) : liveBelow g (hist ++ [o]) (k + 1) = liveBelow g hist (k + 1) := by
  unfold liveBelow
  rw [List.append_assoc]
  refine live_congr g _ _ _ (fun h => ?_) ?_
  · show (height h (o :: List.replicate (k + 1) .pop)).isSome = _
    rw [ho]
  · show (if StaysOpen (List.replicate (k + 1) .pop) then _ else live g (List.replicate (k + 1) .pop)) = _
    rw [if_neg]
    rw [staysOpen_iff]
    exact fun h => Bool.noConfusion h

theorem liveBelow_zero {β : Type} (g : Op F → List β) (hist : List (Op F)) : liveBelow g hist 0 = live g hist := by
  unfold liveBelow
  rw [List.replicate_zero, List.append_nil]

theorem liveBelow_snoc {β : Type} (g : Op F → List β) (o : Op F) (ho : ∀ h os, height h (o :: os) = height h os) (hg : g o = [])
    (hist : List (Op F)) (k : Nat) : liveBelow g (hist ++ [o]) k = liveBelow g hist k := by
  cases k with
  | zero =>
    rw [liveBelow_zero, liveBelow_zero, live_snoc _ _ _ fun h => by rw [ho]; rfl]
    rw [hg, List.append_nil]
  | succ k => exact liveBelow_snoc_succ g o ho hist k

theorem liveBelow_push_zero {β : Type} (g : Op F → List β) (hg' : g .push = []) (hist : List (Op F)) :
    liveBelow g (hist ++ [.push]) 0 = liveBelow g hist 0 := by
  rw [liveBelow_zero, liveBelow_zero, live_snoc _ _ _ fun h => rfl, hg', List.append_nil]

/-- The frames of assertions, innermost first. -/
def frames (p : Prover F) : List (List F) :=
  match p.solver with
  | .native frames => frames
  | .emulated _ stack => stack

/-- The emulated solver has the assertions on the stack. -/
def Synced (p : Prover F) : Prop :=
  match p.solver with
  | .native _ => True
  | .emulated solver stack => solver = stack.reverse.flatten

/-- The invariant which relates the state and the history. -/
structure Inv [Solver F] (hist : List (Op F)) (p : Prover F) : Prop where
  synced : p.Synced
  len : p.frames.length = p.level + 1
  height : height 0 hist = some p.level
  asserts : ∀ k ≤ p.level, liveBelow asserted hist k = (p.frames.drop k).reverse.flatten
  minLe : ∀ m, p.minLevelWithProvables = some m → m ≤ p.level
  provables : ∀ k ≤ p.level, (liveBelow obligation hist k ≠ [] ↔ ∃ m, p.minLevelWithProvables = some m ∧ m + k ≤ p.level)

variable [Solver F]

theorem Inv.new (mode : IncrementalMode) : Inv [] (Prover.new (F := F) mode) := by
  cases mode
  · refine ⟨trivial, rfl, rfl, fun k hk => ?_, fun m hm => (by cases hm), fun k hk => ?_⟩
    · obtain rfl := Nat.le_zero.1 hk; rfl
    · obtain rfl := Nat.le_zero.1 hk
      exact ⟨fun h => (h rfl).elim, fun ⟨_, h, _⟩ => by cases h⟩
  · refine ⟨rfl, rfl, rfl, fun k hk => ?_, fun m hm => (by cases hm), fun k hk => ?_⟩
    · obtain rfl := Nat.le_zero.1 hk; rfl
    · obtain rfl := Nat.le_zero.1 hk
      exact ⟨fun h => (h rfl).elim, fun ⟨_, h, _⟩ => by cases h⟩

theorem Inv.getAssertions {hist : List (Op F)} {p : Prover F} (h : Inv hist p) : p.getAssertions = live asserted hist := by
  have h0 := h.asserts 0 (Nat.zero_le _)
  rw [liveBelow_zero, List.drop_zero] at h0
  rw [h0]
  have hs := h.synced
  unfold Prover.getAssertions
  unfold Synced at hs
  unfold frames
  revert hs
  cases p.solver with
  | native fr => exact fun _ => rfl
  | emulated s st => exact fun hs => hs

/-- Operations which keep frames, level and provables. -/
theorem Inv.keep {hist : List (Op F)} {p q : Prover F} {o : Op F} (h : Inv hist p) (ho : ∀ h os, Prover.height h (o :: os) = Prover.height h os)
    (hg : asserted o = []) (hg' : obligation o = []) (h1 : q.solver = p.solver) (h2 : q.level = p.level)
    (h3 : q.minLevelWithProvables = p.minLevelWithProvables) : Inv (hist ++ [o]) q := by
  have hf : q.frames = p.frames := by unfold frames; rw [h1]
  refine ⟨?_, by rw [hf, h2]; exact h.len, ?_, fun k hk => ?_, fun m hm => by rw [h2]; exact h.minLe m (h3 ▸ hm), fun k hk => ?_⟩
  · have := h.synced; unfold Synced at *; rw [h1]; exact this
  · rw [height_append, h.height, h2]
    exact ho _ _
  · rw [h2] at hk
    rw [liveBelow_snoc _ _ ho hg, hf, h.asserts k hk]
  · rw [h2] at hk
    rw [liveBelow_snoc _ _ ho hg', h2, h3, h.provables k hk]

theorem pushTop_cons (f : F) (l : List (List F)) (h : l ≠ []) : ∃ top rest, l = top :: rest ∧ pushTop f l = (top ++ [f]) :: rest := by
  cases l with
  | nil => exact (h rfl).elim
  | cons top rest => exact ⟨top, rest, rfl, rfl⟩

theorem Inv.add {hist : List (Op F)} {p q : Prover F} {o : Op F} (h : Inv hist p) (f : F)
    (ho : ∀ h os, Prover.height h (o :: os) = Prover.height h os) (hg : asserted o = [f]) (h2 : q.level = p.level)
    (h1 : q.solver = (p.addAssumption f).solver)
    (hmin : ∀ m, q.minLevelWithProvables = some m → m ≤ p.level)
    (hprov : ∀ k ≤ p.level, (liveBelow obligation (hist ++ [o]) k ≠ [] ↔ ∃ m, q.minLevelWithProvables = some m ∧ m + k ≤ p.level)) :
    Inv (hist ++ [o]) q := by
  have hf : q.frames = pushTop f p.frames := by
    unfold frames
    rw [h1]
    unfold addAssumption
    cases p.solver <;> rfl
  obtain ⟨top, rest, e1, e2⟩ := pushTop_cons f p.frames (by intro hh; have := h.len; rw [hh] at this; cases this)
  refine ⟨?_, ?_, ?_, fun k hk => ?_, fun m hm => by rw [h2]; exact hmin m hm, fun k hk => ?_⟩
  · have hs := h.synced
    unfold Synced at *
    rw [h1]
    unfold addAssumption
    unfold frames at e1 e2
    revert hs e1 e2
    cases p.solver with
    | native fr => exact fun _ _ _ => trivial
    | emulated s st =>
      intro e1 e2 hs
      show s ++ [f] = (pushTop f st).reverse.flatten
      replace e1 : st = top :: rest := e1
      replace e2 : pushTop f st = (top ++ [f]) :: rest := e2
      replace hs : s = st.reverse.flatten := hs
      rw [e2, hs, e1]
      simp
  · rw [hf, e2, h2, ← h.len, e1]; rfl
  · rw [height_append, h.height, h2]
    exact ho _ _
  · rw [h2] at hk
    cases k with
    | zero =>
      rw [liveBelow_zero, live_snoc _ _ _ (fun h => by rw [ho]; rfl), hg, ← liveBelow_zero, h.asserts 0 hk, hf, e2, e1]
      simp
    | succ k =>
      rw [liveBelow_snoc_succ _ _ ho, h.asserts _ hk, hf, e2, e1]
      rfl
  · rw [h2] at hk ⊢
    exact hprov k hk

theorem Inv.addAssumption {hist : List (Op F)} {p : Prover F} (h : Inv hist p) (f : F) :
    Inv (hist ++ [.addAssumption f]) (p.addAssumption f) := by
  refine h.add f (fun _ _ => rfl) rfl rfl rfl h.minLe fun k hk => ?_
  rw [liveBelow_snoc _ _ (fun _ _ => rfl) rfl]
  exact h.provables k hk

theorem Inv.addProvable {hist : List (Op F)} {p : Prover F} (h : Inv hist p) (f : F) :
    Inv (hist ++ [.addProvable f]) (p.addProvable f) := by
  have hle : p.minLevelWithProvables.getD p.level ≤ p.level := by
    cases hm : p.minLevelWithProvables with
    | none => exact Nat.le_refl _
    | some m => exact h.minLe m hm
  refine h.add (Solver.neg f) (fun _ _ => rfl) rfl rfl rfl (fun m hm => by cases hm; exact hle) fun k hk => ?_
  have hmin : (p.addProvable f).minLevelWithProvables = some (p.minLevelWithProvables.getD p.level) := rfl
  rw [hmin]
  cases k with
  | zero =>
    rw [liveBelow_zero, live_snoc _ _ _ (fun _ => rfl)]
    exact ⟨fun _ => ⟨_, rfl, hle⟩, fun _ => by simp [obligation]⟩
  | succ k =>
    rw [liveBelow_snoc_succ _ _ (fun _ _ => rfl), h.provables _ hk]
    constructor
    · rintro ⟨m, h1, h2⟩
      exact ⟨m, by rw [h1]; rfl, h2⟩
    · rintro ⟨m, h1, h2⟩
      cases hm : p.minLevelWithProvables with
      | none =>
        rw [hm] at h1
        cases h1
        exact absurd h2 (by simp)
      | some m' =>
        rw [hm] at h1
        cases h1
        exact ⟨m', rfl, h2⟩

theorem Inv.push {hist : List (Op F)} {p : Prover F} (h : Inv hist p) : Inv (hist ++ [.push]) p.push := by
  have hf : p.push.frames = [] :: p.frames := by
    unfold frames Prover.push
    cases p.solver <;> rfl
  refine ⟨?_, ?_, ?_, fun k hk => ?_, fun m hm => Nat.le_succ_of_le (h.minLe m hm), fun k hk => ?_⟩
  · have hs := h.synced
    unfold Synced at *
    unfold Prover.push
    revert hs
    cases p.solver with
    | native fr => exact fun _ => trivial
    | emulated s st =>
      intro hs
      show s = ([] :: st).reverse.flatten
      rw [List.reverse_cons, List.flatten_append]
      simpa using hs
  · rw [hf]
    exact congrArg (· + 1) h.len
  · rw [height_append, h.height]; rfl
  · cases k with
    | zero =>
      rw [liveBelow_push_zero _ rfl, h.asserts 0 (Nat.zero_le _), hf]
      simp
    | succ k =>
      rw [liveBelow_push_succ _ rfl rfl, h.asserts k (Nat.le_of_succ_le_succ hk), hf]
      rfl
  · show _ ↔ ∃ m, p.minLevelWithProvables = some m ∧ m + k ≤ p.level + 1
    cases k with
    | zero =>
      rw [liveBelow_push_zero _ rfl, h.provables 0 (Nat.zero_le _)]
      exact ⟨fun ⟨m, h1, h2⟩ => ⟨m, h1, Nat.le_succ_of_le h2⟩, fun ⟨m, h1, _⟩ => ⟨m, h1, h.minLe m h1⟩⟩
    | succ k =>
      rw [liveBelow_push_succ _ rfl rfl, h.provables k (Nat.le_of_succ_le_succ hk)]
      exact ⟨fun ⟨m, h1, h2⟩ => ⟨m, h1, Nat.succ_le_succ h2⟩, fun ⟨m, h1, h2⟩ => ⟨m, h1, Nat.le_of_succ_le_succ h2⟩⟩

theorem pop_spec {p : Prover F} (hs : p.Synced) (hl : p.frames.length = p.level + 1) (h0 : p.level ≠ 0) :
    ∃ q, p.pop = some q ∧ q.Synced ∧ q.frames = p.frames.tail ∧ q.level + 1 = p.level ∧
      (q.minLevelWithProvables = match p.minLevelWithProvables with
        | some m => if m > p.level - 1 then none else some m
        | none => none) ∧
      (q.lastResult = none ∨ (q.lastResult = p.lastResult ∧ p.frames.head? = some [] ∧ q.getAssertions = p.getAssertions)) ∧
      q.timeout = p.timeout := by
  obtain ⟨t, st, s, lv, m, lr, c⟩ := p
  unfold pop
  rw [if_neg h0]
  cases s with
  | native fr => exact ⟨_, rfl, trivial, rfl, Nat.succ_pred_eq_of_ne_zero h0, rfl, Or.inl rfl, rfl⟩
  | emulated s stack =>
    cases stack with
    | nil => cases hl
    | cons top rest =>
      dsimp only
      by_cases he : top.isEmpty
      · rw [if_pos he]
        have he' : top = [] := List.isEmpty_iff.1 he
        refine ⟨_, rfl, ?_, rfl, Nat.succ_pred_eq_of_ne_zero h0, rfl, Or.inr ⟨rfl, ?_, rfl⟩, rfl⟩
        · replace hs : s = (top :: rest).reverse.flatten := hs
          show s = rest.reverse.flatten
          rw [hs, he', List.reverse_cons, List.flatten_append]
          simp
        · show some top = some []
          rw [he']
      · rw [if_neg he]
        exact ⟨_, rfl, rfl, rfl, Nat.succ_pred_eq_of_ne_zero h0, rfl, Or.inl rfl, rfl⟩

theorem Inv.pop {hist : List (Op F)} {p q : Prover F} (h : Inv hist p) (hq : p.pop = some q) : Inv (hist ++ [.pop]) q := by
  have h0 : p.level ≠ 0 := by
    intro h0
    unfold Prover.pop at hq
    rw [if_pos h0] at hq
    cases hq
  obtain ⟨q', e, hs, hf, hl, hm, _, _⟩ := pop_spec h.synced h.len h0
  cases e.symm.trans hq
  refine ⟨hs, ?_, ?_, fun k hk => ?_, fun m hm' => ?_, fun k hk => ?_⟩
  · rw [hf, List.length_tail, h.len, hl]; rfl
  · rw [height_append, h.height, ← hl]; rfl
  · rw [liveBelow_pop, h.asserts (k + 1) (by omega), hf, List.drop_tail]
  · rw [hm] at hm'
    split at hm'
    · split at hm'
      · cases hm'
      · cases hm'; omega
    · cases hm'
  · rw [liveBelow_pop, h.provables (k + 1) (by omega), hm]
    constructor
    · rintro ⟨m, h1, h2⟩
      refine ⟨m, ?_, by omega⟩
      rw [h1]
      exact if_neg (by omega)
    · rintro ⟨m, h1, h2⟩
      split at h1
      · rename_i m' hm'
        split at h1
        · cases h1
        · cases h1
          exact ⟨m, hm', by omega⟩
      · cases h1

theorem callSolver_keep (p : Prover F) (as : List F) :
    (p.callSolver as).2.solver = p.solver ∧ (p.callSolver as).2.level = p.level ∧
      (p.callSolver as).2.minLevelWithProvables = p.minLevelWithProvables := ⟨rfl, rfl, rfl⟩

theorem checkProofAssuming_keep (p : Prover F) (as : List F) :
    (p.checkProofAssuming as).2.solver = p.solver ∧ (p.checkProofAssuming as).2.level = p.level ∧
      (p.checkProofAssuming as).2.minLevelWithProvables = p.minLevelWithProvables := by
  unfold checkProofAssuming
  split
  · exact ⟨rfl, rfl, rfl⟩
  · split
    · exact ⟨rfl, rfl, rfl⟩
    · exact callSolver_keep p _

theorem checkSat_keep (p : Prover F) :
    p.checkSat.2.solver = p.solver ∧ p.checkSat.2.level = p.level ∧
      p.checkSat.2.minLevelWithProvables = p.minLevelWithProvables := by
  unfold checkSat
  split
  · exact ⟨rfl, rfl, rfl⟩
  · exact callSolver_keep p _

theorem Inv.step {hist : List (Op F)} {p q : Prover F} {o : Op F} (h : Inv hist p) (hq : p.step o = some q) : Inv (hist ++ [o]) q := by
  cases o with
  | addAssumption f => cases hq; exact h.addAssumption f
  | addProvable f => cases hq; exact h.addProvable f
  | checkProofAssuming as =>
    cases hq
    obtain ⟨h1, h2, h3⟩ := checkProofAssuming_keep p as
    exact h.keep (fun _ _ => rfl) rfl rfl h1 h2 h3
  | checkSat =>
    cases hq
    obtain ⟨h1, h2, h3⟩ := checkSat_keep p
    exact h.keep (fun _ _ => rfl) rfl rfl h1 h2 h3
  | push => cases hq; exact h.push
  | pop => exact h.pop hq
  | setTimeout d => cases hq; exact h.keep (fun _ _ => rfl) rfl rfl rfl rfl rfl

theorem Inv.run {hist os : List (Op F)} {p q : Prover F} (h : Inv hist p) (hq : p.run os = some q) : Inv (hist ++ os) q := by
  induction os generalizing hist p with
  | nil => cases hq; rw [List.append_nil]; exact h
  | cons o os ih =>
    unfold Prover.run at hq
    cases hs : p.step o with
    | none => rw [hs] at hq; cases hq
    | some p' =>
      rw [hs] at hq
      have := ih (h.step hs) hq
      rwa [List.append_assoc] at this

theorem step_isSome {hist : List (Op F)} {p : Prover F} (h : Inv hist p) (o : Op F) :
    (p.step o).isSome ↔ (Prover.height p.level [o]).isSome := by
  cases o with
  | pop =>
    by_cases h0 : p.level = 0
    · show p.pop.isSome ↔ _
      rw [h0]
      unfold Prover.pop
      rw [if_pos h0]
      exact Iff.rfl
    · obtain ⟨q, e, _⟩ := pop_spec h.synced h.len h0
      show p.pop.isSome ↔ _
      rw [e]
      obtain ⟨n, hn⟩ := Nat.exists_eq_succ_of_ne_zero h0
      rw [hn]
      exact ⟨fun _ => rfl, fun _ => rfl⟩
  | _ => exact ⟨fun _ => rfl, fun _ => rfl⟩

theorem run_isSome {hist os : List (Op F)} {p : Prover F} (h : Inv hist p) :
    (p.run os).isSome ↔ (Prover.height p.level os).isSome := by
  induction os generalizing hist p with
  | nil => exact ⟨fun _ => rfl, fun _ => rfl⟩
  | cons o os ih =>
    unfold Prover.run
    rw [show o :: os = [o] ++ os from rfl, height_append]
    have h1 := step_isSome h o
    cases hs : p.step o with
    | none =>
      rw [hs] at h1
      cases hh : Prover.height p.level [o] with
      | none => exact Iff.rfl
      | some l => rw [hh] at h1; exact absurd (h1.2 rfl) (by simp)
    | some q =>
      have h2 := h.step hs
      have h3 := h2.height
      rw [height_append, h.height] at h3
      replace h3 : Prover.height p.level [o] = some q.level := h3
      rw [h3]
      exact ih h2

end Caesar.Infra.Prover
