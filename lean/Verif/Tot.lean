/-!
# Total correctness for computations with a state which may panic (proof infrastructure)
-/

namespace Caesar

/-- Computations of the model which read and write a state and may panic (`none`). -/
abbrev PM (S α : Type) := StateT S Option α

/-- The computation does not panic and its result satisfies `Q`. -/
def Tot {S α : Type} (m : PM S α) (s : S) (Q : α → S → Prop) : Prop :=
  ∃ a s', m s = some (a, s') ∧ Q a s'

namespace Tot
variable {S α β : Type}

theorem pure {a : α} {s : S} {Q : α → S → Prop} (h : Q a s) : Tot (Pure.pure a : PM S α) s Q :=
  ⟨a, s, rfl, h⟩

theorem bind {m : PM S α} {f : α → PM S β} {s : S} {Q : α → S → Prop} {R : β → S → Prop}
    (h : Tot m s Q) (h' : ∀ a s', Q a s' → Tot (f a) s' R) : Tot (m >>= f) s R := by
  obtain ⟨a, s', h1, h2⟩ := h
  obtain ⟨b, s'', h3, h4⟩ := h' a s' h2
  refine ⟨b, s'', ?_, h4⟩
  show (m s).bind _ = _
  rw [h1]
  exact h3

theorem mono {m : PM S α} {s : S} {Q R : α → S → Prop} (h : Tot m s Q) (h' : ∀ a s', Q a s' → R a s') :
    Tot m s R := by
  obtain ⟨a, s', h1, h2⟩ := h
  exact ⟨a, s', h1, h' a s' h2⟩

theorem elim {m : PM S α} {s : S} {Q : α → S → Prop} (h : Tot m s Q) {a : α} {s' : S} (hm : m s = some (a, s')) :
    Q a s' := by
  obtain ⟨b, s'', h1, h2⟩ := h
  rw [hm] at h1
  cases h1
  exact h2

end Tot

/-- Run a computation for every argument of a call, from left to right. -/
def traverseFin {S : Type} : (n : Nat) → {β : Fin n → Type} → ((i : Fin n) → PM S (β i)) →
    PM S ((i : Fin n) → β i)
  | 0, _, _ => pure fun i => i.elim0
  | n + 1, β, f => do
      let a ← f 0
      let as ← traverseFin n (β := fun i => β i.succ) (fun i => f i.succ)
      return Fin.cases a as

theorem Tot.traverse {S : Type} (R : S → S → Prop) (hrefl : ∀ s, R s s) (htrans : ∀ s s' s'', R s s' → R s' s'' → R s s'')
    {n : Nat} {β : Fin n → Type} (f : (i : Fin n) → PM S (β i)) (Q : (i : Fin n) → β i → S → Prop)
    (hQ : ∀ i b s s', Q i b s → R s s' → Q i b s')
    (s : S) (h : ∀ i s', R s s' → Tot (f i) s' fun b s'' => R s' s'' ∧ Q i b s'') :
    Tot (traverseFin n f) s fun g s' => R s s' ∧ ∀ i, Q i (g i) s' := by
  induction n generalizing s with
  | zero => exact Tot.pure ⟨hrefl s, fun i => i.elim0⟩
  | succ n ih =>
    refine Tot.bind (h 0 s (hrefl s)) fun a s1 h1 => ?_
    refine Tot.bind (ih (fun i => f i.succ) (fun i => Q i.succ) (fun i => hQ i.succ) s1
      fun i s' hs => h i.succ s' (htrans _ _ _ h1.1 hs)) fun as s2 h2 => ?_
    refine Tot.pure ⟨htrans _ _ _ h1.1 h2.1, fun i => ?_⟩
    refine Fin.cases ?_ (fun j => ?_) i
    · exact hQ 0 _ _ _ h1.2 h2.1
    · exact h2.2 j

/-- Run a computation which may panic for every argument of a call, from left to right. -/
def optTraverse : (n : Nat) → {β : Fin n → Type} → ((i : Fin n) → Option (β i)) → Option ((i : Fin n) → β i)
  | 0, _, _ => some fun i => i.elim0
  | n + 1, β, f => do
      let a ← f 0
      let as ← optTraverse n (β := fun i => β i.succ) (fun i => f i.succ)
      return Fin.cases a as

theorem optTraverse_some : {n : Nat} → {β : Fin n → Type} → {f : (i : Fin n) → Option (β i)} →
    {g : (i : Fin n) → β i} → optTraverse n f = some g → ∀ i, f i = some (g i)
  | 0, _, _, _, _ => fun i => i.elim0
  | n + 1, β, f, g, h => by
    unfold optTraverse at h
    cases h0 : f 0 with
    | none => simp [h0] at h
    | some a =>
      cases h1 : optTraverse n (β := fun i => β i.succ) (fun i => f i.succ) with
      | none => simp [h0, h1] at h
      | some as =>
        simp [h0, h1] at h
        subst h
        intro i
        refine Fin.cases h0 (fun j => ?_) i
        exact optTraverse_some h1 j

theorem optTraverse_isSome : {n : Nat} → {β : Fin n → Type} → {f : (i : Fin n) → Option (β i)} →
    (∀ i, ∃ b, f i = some b) → ∃ g, optTraverse n f = some g
  | 0, _, _, _ => ⟨_, rfl⟩
  | n + 1, β, f, h => by
    obtain ⟨a, ha⟩ := h 0
    obtain ⟨as, has⟩ := optTraverse_isSome (n := n) (β := fun i => β i.succ) (f := fun i => f i.succ)
      fun i => h i.succ
    unfold optTraverse
    simp [ha, has]

end Caesar
