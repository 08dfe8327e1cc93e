import Verif.Infra.ProverSpec

/-!
# C53: the timeout of the prover applies to every later check
-/

namespace Caesar.Infra

/-- The full property: after each history, the current solver object has the configured timeout. -/
def C53_full : Prop :=
  ∀ (F : Type) (_ : Solver F) (mode : IncrementalMode) (hist : List (Prover.Op F)) (p : Prover F),
    (Prover.new mode).run hist = some p → p.solverTimeout = p.timeout

/-- The last timeout set in a history. -/
def lastTimeout {F : Type} (hist : List (Prover.Op F)) : Option Nat :=
  hist.foldl (fun t o => match o with | .setTimeout d => some d | _ => t) none

/-- In native mode the solver always has the timeout set last. -/
theorem C53_native_partial {F : Type} [Solver F] (hist : List (Prover.Op F)) (p : Prover F)
    (h : (Prover.new .native).run hist = some p) : p.timeout = lastTimeout hist ∧ p.solverTimeout = lastTimeout hist := by
  have step : ∀ (p q : Prover F) (o : Prover.Op F) (t : Option Nat), (∃ fr, p.solver = .native fr) → p.timeout = t → p.solverTimeout = t →
      p.step o = some q → (∃ fr, q.solver = .native fr) ∧
      q.timeout = (match o with | .setTimeout d => some d | _ => t) ∧
      q.solverTimeout = (match o with | .setTimeout d => some d | _ => t) := by
    rintro ⟨tm, st, s, lv, m, lr, c⟩ q o t ⟨fr, hfr⟩ h1 h2 hs
    replace hfr : s = .native fr := hfr
    subst hfr
    cases o with
    | addAssumption f => cases hs; exact ⟨⟨_, rfl⟩, h1, h2⟩
    | addProvable f => cases hs; exact ⟨⟨_, rfl⟩, h1, h2⟩
    | checkProofAssuming as =>
      cases hs
      unfold Prover.checkProofAssuming
      split
      · exact ⟨⟨_, rfl⟩, h1, h2⟩
      · split
        · exact ⟨⟨_, rfl⟩, h1, h2⟩
        · exact ⟨⟨_, rfl⟩, h1, h2⟩
    | checkSat =>
      cases hs
      unfold Prover.checkSat
      split
      · exact ⟨⟨_, rfl⟩, h1, h2⟩
      · exact ⟨⟨_, rfl⟩, h1, h2⟩
    | push => cases hs; exact ⟨⟨_, rfl⟩, h1, h2⟩
    | pop =>
      replace hs : Prover.pop _ = some q := hs
      unfold Prover.pop at hs
      split at hs
      · cases hs
      · cases hs; exact ⟨⟨_, rfl⟩, h1, h2⟩
    | setTimeout d => cases hs; exact ⟨⟨_, rfl⟩, rfl, rfl⟩
  have key : ∀ (hist : List (Prover.Op F)) (p q : Prover F) (t : Option Nat), (∃ fr, p.solver = .native fr) →
      p.timeout = t → p.solverTimeout = t → p.run hist = some q →
      q.timeout = hist.foldl (fun t o => match o with | .setTimeout d => some d | _ => t) t ∧
      q.solverTimeout = hist.foldl (fun t o => match o with | .setTimeout d => some d | _ => t) t := by
    intro hist
    induction hist with
    | nil => intro p q t hn h1 h2 hr; cases hr; exact ⟨h1, h2⟩
    | cons o os ih =>
      intro p q t hn h1 h2 hr
      unfold Prover.run at hr
      cases hs : p.step o with
      | none => rw [hs] at hr; cases hr
      | some p' =>
        rw [hs] at hr
        obtain ⟨a, b, c⟩ := step p p' o t hn h1 h2 hs
        exact ih p' q _ a b c hr
  exact key hist _ p none ⟨_, rfl⟩ rfl rfl h

/-- It fails in emulated mode: `pop` creates a new solver without the timeout. -/
theorem C53_not_full : ¬ C53_full := by
  intro h
  have := h Unit ⟨id, fun _ _ _ => .unknown⟩ .emulated [.setTimeout 30, .push, .addAssumption (), .pop] _ rfl
  replace this : (none : Option Nat) = some 30 := this
  cases this

/-- Non-vacuity. -/
example : (let _ : Solver Unit := ⟨id, fun _ _ _ => .unknown⟩
    ∃ p, (Prover.new (F := Unit) .native).run [.setTimeout 30, .push, .addAssumption (), .pop] = some p ∧ p.solverTimeout = some 30) :=
  ⟨_, rfl, rfl⟩

end Caesar.Infra
