import Verif.ProofRules.Calculus
import Mathlib.Order.FixedPoints

/-!
# C33: calculus annotations only admit sound inductions
-/

namespace Caesar

/-- The fixed point which gives a loop (or recursion) its meaning in a calculus: the least one for `wp` and `ert`, the greatest one
for `wlp` (`website/docs/proof-rules/approximations.md:219-244`). -/
noncomputable def CalculusType.meaning (c : CalculusType) {L : Type} [CompleteLattice L] (Φ : L →o L) : L :=
  match c with
  | .wp | .ert => Φ.lfp
  | .wlp => Φ.gfp

/-- The claim of a proof by induction (Park induction): if `I` is inductive, then it bounds the meaning, from below for a `proc`
(`Down`) and from above for a `coproc` (`Up`). -/
def InductionSound (c : CalculusType) (d : Dir) : Prop :=
  ∀ (L : Type) [CompleteLattice L] (Φ : L →o L) (I : L),
    match d with
    | .down => I ≤ Φ I → I ≤ c.meaning Φ
    | .up => Φ I ≤ I → c.meaning Φ ≤ I

/-- Induction is allowed exactly if it is sound. -/
theorem C33_allowed_iff (c : CalculusType) (d : Dir) : c.isInductionAllowed d = true ↔ InductionSound c d := by
  have lfpBad : ¬ ∀ (L : Type) [CompleteLattice L] (Φ : L →o L) (I : L), I ≤ Φ I → I ≤ Φ.lfp := by
    intro h
    have h1 := h Prop OrderHom.id True (fun _ => trivial)
    have h2 : OrderHom.lfp (OrderHom.id : Prop →o Prop) ≤ False := OrderHom.lfp_le (OrderHom.id : Prop →o Prop) (fun h => h)
    exact h2 (h1 trivial)
  have gfpBad : ¬ ∀ (L : Type) [CompleteLattice L] (Φ : L →o L) (I : L), Φ I ≤ I → Φ.gfp ≤ I := by
    intro h
    have h1 := h Prop OrderHom.id False (fun h => h)
    have h2 : True ≤ OrderHom.gfp (OrderHom.id : Prop →o Prop) := OrderHom.le_gfp (OrderHom.id : Prop →o Prop) (fun _ => trivial)
    exact h1 (h2 trivial)
  cases c <;> cases d
  · exact ⟨fun h => (by cases h), fun h => (lfpBad fun L _ Φ I => h L Φ I).elim⟩
  · exact ⟨fun _ L _ Φ I h => OrderHom.lfp_le Φ h, fun _ => rfl⟩
  · exact ⟨fun _ L _ Φ I h => OrderHom.le_gfp Φ h, fun _ => rfl⟩
  · exact ⟨fun h => (by cases h), fun h => (gfpBad fun L _ Φ I => h L Φ I).elim⟩
  · exact ⟨fun h => (by cases h), fun h => (lfpBad fun L _ Φ I => h L Φ I).elim⟩
  · exact ⟨fun _ L _ Φ I h => OrderHom.lfp_le Φ h, fun _ => rfl⟩

/-- The induction rules for loops (with an exactly encoded body) are accepted as a sound proof exactly if induction is sound. -/
theorem C33_loop_rules (c : CalculusType) (d : Dir) :
    (ProcSoundness.new d [inductionApprox (inductionFix (some c) d) .exact]).soundProofs = true ↔ InductionSound c d := by
  rw [← C33_allowed_iff]
  cases c <;> cases d <;> decide

/-- With other approximations in the same procedure, acceptance still implies soundness. -/
theorem C33_loop_rules_context (c : CalculusType) (d : Dir) (inner : ApproxKind) (l : List ApproxKind)
    (hl : inductionApprox (inductionFix (some c) d) inner ∈ l) (h : (ProcSoundness.new d l).soundProofs = true) :
    InductionSound c d := by
  have key : ∀ (l : List ApproxKind) (acc k : ApproxKind), k ∈ l →
      ((l.foldl ApproxKind.and acc).under = true → k.under = true) ∧ ((l.foldl ApproxKind.and acc).over = true → k.over = true) := by
    have mono : ∀ (l : List ApproxKind) (acc : ApproxKind),
        ((l.foldl ApproxKind.and acc).under = true → acc.under = true) ∧
        ((l.foldl ApproxKind.and acc).over = true → acc.over = true) := by
      intro l
      induction l with
      | nil => exact fun acc => ⟨id, id⟩
      | cons k l ih =>
        intro acc
        exact ⟨fun h => (Bool.and_eq_true_iff.1 ((ih _).1 h)).1, fun h => (Bool.and_eq_true_iff.1 ((ih _).2 h)).1⟩
    intro l
    induction l with
    | nil => intro acc k hk; cases hk
    | cons k' l ih =>
      intro acc k hk
      rcases List.mem_cons.1 hk with rfl | hk
      · exact ⟨fun h => (Bool.and_eq_true_iff.1 ((mono l (acc.and k)).1 h)).2,
          fun h => (Bool.and_eq_true_iff.1 ((mono l (acc.and k)).2 h)).2⟩
      · exact ih _ k hk
  rw [← C33_allowed_iff]
  cases d with
  | down =>
    have := (key l _ _ hl).1 h
    cases c with
    | wlp => rfl
    | _ => cases this
  | up =>
    have := (key l _ _ hl).2 h
    cases c with
    | wlp => cases this
    | _ => rfl

/-- Without a calculus annotation, the semantics of a loop with an induction rule is chosen such that induction is sound. -/
theorem C33_default (d : Dir) :
    (∀ c : CalculusType, c.toFix = inductionFix none d → InductionSound c d) ∧
    (ProcSoundness.new d [inductionApprox (inductionFix none d) .exact]).soundProofs = true := by
  refine ⟨fun c h => (C33_allowed_iff c d).1 ?_, by cases d <;> decide⟩
  cases c <;> cases d <;> first | rfl | cases h

/-- Annotated recursive procedures are accepted exactly if induction is sound for their calculus and direction, and no procedure with
another calculus is called. -/
theorem C33_recursion (c : CalculusType) (d : Dir) (recursive : Bool) (callees : List (Option CalculusType)) :
    checkProc (some c) d recursive callees = .ok () ↔
      (recursive = true → InductionSound c d) ∧ ∀ c' : CalculusType, some c' ∈ callees → c' = c := by
  have hc : (callees.forM (checkCall (some c)) = (.ok () : Except CalculusError Unit)) ↔
      ∀ c' : CalculusType, some c' ∈ callees → c' = c := by
    induction callees with
    | nil => exact ⟨fun _ c' h => (by cases h), fun _ => rfl⟩
    | cons a l ih =>
      have hs : List.forM (a :: l) (checkCall (some c)) = (checkCall (some c) a).bind fun _ => l.forM (checkCall (some c)) := rfl
      rw [hs]
      cases a with
      | none =>
        refine ih.trans ⟨fun h c' hc' => h c' ?_, fun h c' hc' => h c' (List.mem_cons_of_mem _ hc')⟩
        rcases List.mem_cons.1 hc' with h | h
        · cases h
        · exact h
      | some a =>
        by_cases ha : c = a
        · subst ha
          have : checkCall (some c) (some c) = .ok () := by simp [checkCall]
          rw [this]
          refine ih.trans ⟨fun h c' hc' => ?_, fun h c' hc' => h c' (List.mem_cons_of_mem _ hc')⟩
          rcases List.mem_cons.1 hc' with h' | h'
          · cases h'; rfl
          · exact h c' h'
        · have : checkCall (some c) (some a) = .error (.callMismatch c a) := by simp [checkCall, ha]
          rw [this]
          exact ⟨fun h => (by cases h), fun h => (ha (h a List.mem_cons_self).symm).elim⟩
  rw [← C33_allowed_iff, ← hc]
  unfold checkProc
  cases hi : c.isInductionAllowed d <;> cases recursive
  · exact ⟨fun h => ⟨fun h => (by cases h), by simpa [bind, Except.bind, hi] using h⟩,
      fun h => (by simpa [bind, Except.bind, hi] using h.2)⟩
  · exact ⟨fun h => (by simp [bind, Except.bind, hi] at h), fun h => (by cases h.1 rfl)⟩
  · exact ⟨fun h => ⟨fun h => (by cases h), by simpa [bind, Except.bind, hi] using h⟩,
      fun h => (by simpa [bind, Except.bind, hi] using h.2)⟩
  · exact ⟨fun h => ⟨fun _ => rfl, by simpa [bind, Except.bind, hi] using h⟩,
      fun h => (by simpa [bind, Except.bind, hi] using h.2)⟩

/-- Non-vacuity. -/
example : checkProc (some .wlp) .down true [none, some .wlp] = .ok () := rfl
example : checkProc (some .wp) .down true [] = .error (.unsoundRecursion .down .wp) := rfl

end Caesar
