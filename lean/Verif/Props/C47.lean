import Verif.Driver.Module

/-!
# C47: the exit verdict is success only if every obligation was proved
-/

namespace Caesar.Driver

/-- A unit was processed without errors and proved, and its proof is sound for the original program. -/
def UnitRun.Proved (u : UnitRun) : Prop :=
  u.limits = .ok () ∧ u.lower = .ok () ∧ u.solve = .ok .proof ∧ u.soundProofs = true

theorem verifyUnit_ok {st st' : LoopState} {u : UnitRun} (h : verifyUnit st u = .ok st') :
    st.numFailures ≤ st'.numFailures ∧ (st.emittedErrors = true → st'.emittedErrors = true) ∧
      ((st'.numFailures = st.numFailures ∧ (st'.emittedErrors = true → st.emittedErrors = true)) →
        (u.Proved ∨ st.emittedErrors = true)) := by
  obtain ⟨l, lo, s, so⟩ := u
  unfold verifyUnit at h
  cases l with
  | error e => cases h
  | ok x =>
    cases lo with
    | error e => cases h
    | ok y =>
      cases s with
      | error e => cases h
      | ok r =>
        cases r with
        | proof =>
          cases so with
          | true =>
            cases h
            exact ⟨Nat.le_refl _, id, fun _ => Or.inl ⟨rfl, rfl, rfl, rfl⟩⟩
          | false =>
            cases h
            exact ⟨Nat.le_refl _, fun _ => rfl, fun h => Or.inr (h.2 rfl)⟩
        | counterexample =>
          cases h
          exact ⟨Nat.le_succ _, id, fun h => absurd h.1 (Nat.succ_ne_self _)⟩
        | unknown r =>
          cases r with
          | interrupted => cases h
          | timeout => cases h
          | other =>
            cases h
            exact ⟨Nat.le_succ _, id, fun h => absurd h.1 (Nat.succ_ne_self _)⟩

theorem verifyUnit_proved {st : LoopState} {u : UnitRun} (h : u.Proved) :
    verifyUnit st u = .ok { st with numProven := st.numProven + 1 } := by
  obtain ⟨l, lo, s, so⟩ := u
  obtain ⟨h1, h2, h3, h4⟩ := h
  replace h1 : l = _ := h1
  replace h2 : lo = _ := h2
  replace h3 : s = _ := h3
  replace h4 : so = _ := h4
  subst h1 h2 h3 h4
  rfl

theorem verifyLoop_iff (us : List UnitRun) (st : LoopState) :
    (∃ st', verifyLoop st us = .ok st' ∧ st'.numFailures = 0 ∧ st'.emittedErrors = false) ↔
      st.numFailures = 0 ∧ st.emittedErrors = false ∧ ∀ u ∈ us, u.Proved := by
  induction us generalizing st with
  | nil =>
    constructor
    · rintro ⟨st', h, h1, h2⟩
      cases h
      exact ⟨h1, h2, fun _ hu => (by cases hu)⟩
    · rintro ⟨h1, h2, _⟩
      exact ⟨st, rfl, h1, h2⟩
  | cons u us ih =>
    have hc : verifyLoop st (u :: us) = (verifyUnit st u).bind fun st => verifyLoop st us := rfl
    rw [hc]
    constructor
    · rintro ⟨st', h, h1, h2⟩
      cases hu : verifyUnit st u with
      | error e => rw [hu] at h; cases h
      | ok st1 =>
        rw [hu] at h
        obtain ⟨h3, h4, h5⟩ := (ih st1).1 ⟨st', h, h1, h2⟩
        obtain ⟨a, b, c⟩ := verifyUnit_ok hu
        have h6 : st.numFailures = 0 := by omega
        have h7 : st.emittedErrors = false := by
          cases he : st.emittedErrors with
          | false => rfl
          | true => rw [b he] at h4; cases h4
        refine ⟨h6, h7, fun v hv => ?_⟩
        rcases List.mem_cons.1 hv with rfl | hv
        · rcases c ⟨by omega, fun h => (by rw [h4] at h; cases h)⟩ with hp | hp
          · exact hp
          · rw [h7] at hp; cases hp
        · exact h5 v hv
    · rintro ⟨h1, h2, h3⟩
      rw [verifyUnit_proved (h3 u List.mem_cons_self)]
      exact (ih _).2 ⟨h1, h2, fun v hv => h3 v (List.mem_cons_of_mem _ hv)⟩

/-- The exit code is success exactly if the front end succeeded without error diagnostics and every unit was proved, soundly
with respect to the original program (or verification was skipped by `--no-verify`). -/
theorem C47_exit_code (front : Except CaesarError Bool) (skip : Bool) (units : List UnitRun) :
    exitCode (verifyFilesMain front skip units) = 0 ↔
      front = .ok false ∧ (skip = true ∨ ∀ u ∈ units, u.Proved) := by
  cases front with
  | error e => cases e <;> exact ⟨fun h => (by cases h), fun h => (by cases h.1)⟩
  | ok emitted =>
    cases skip with
    | true =>
      cases emitted with
      | true => exact ⟨fun h => (by cases h), fun h => (by cases h.1)⟩
      | false => exact ⟨fun _ => ⟨rfl, Or.inl rfl⟩, fun _ => rfl⟩
    | false =>
      have key := verifyLoop_iff units ⟨0, 0, emitted⟩
      have hm : verifyFilesMain (.ok emitted) false units =
          (verifyLoop ⟨0, 0, emitted⟩ units).bind fun st => .ok (st.numFailures == 0, st.emittedErrors) := rfl
      rw [hm]
      constructor
      · intro h
        cases hl : verifyLoop ⟨0, 0, emitted⟩ units with
        | error e => rw [hl] at h; cases e <;> cases h
        | ok st =>
          rw [hl] at h
          replace h : (if st.emittedErrors then 1 else if (st.numFailures == 0) then 0 else 1) = 0 := h
          cases he : st.emittedErrors with
          | true => rw [he] at h; cases h
          | false =>
            rw [he] at h
            have hn : st.numFailures = 0 := by
              by_cases hn : st.numFailures = 0
              · exact hn
              · rw [beq_eq_false_iff_ne.2 hn] at h; cases h
            obtain ⟨_, h2, h3⟩ := key.1 ⟨st, hl, hn, he⟩
            exact ⟨congrArg _ h2, Or.inr h3⟩
      · rintro ⟨h1, h2⟩
        cases h1
        obtain ⟨st, hl, hn, he⟩ := key.2 ⟨rfl, rfl, h2.resolve_left (by simp)⟩
        rw [hl]
        show (if st.emittedErrors then 1 else if (st.numFailures == 0) then 0 else 1) = 0
        rw [he, hn]
        rfl

/-- In particular each counterexample, unknown result, timeout or error in any unit prevents success. -/
theorem C47_failure (front : Except CaesarError Bool) (units : List UnitRun) (u : UnitRun) (hu : u ∈ units)
    (h : u.solve ≠ .ok .proof ∨ u.limits ≠ .ok () ∨ u.lower ≠ .ok () ∨ u.soundProofs = false) :
    exitCode (verifyFilesMain front false units) ≠ 0 := by
  intro h0
  obtain ⟨h1, h2, h3, h4⟩ := ((C47_exit_code front false units).1 h0).2.resolve_left (by simp) u hu
  rcases h with h | h | h | h
  · exact h h3
  · exact h h1
  · exact h h2
  · rw [h4] at h; cases h

/-- Non-vacuity. -/
example : (⟨.ok (), .ok (), .ok .proof, true⟩ : UnitRun).Proved := ⟨rfl, rfl, rfl, rfl⟩
example : exitCode (verifyFilesMain (.ok false) false
    [⟨.ok (), .ok (), .ok .proof, true⟩, ⟨.ok (), .ok (), .ok .counterexample, true⟩]) = 1 := rfl

end Caesar.Driver
