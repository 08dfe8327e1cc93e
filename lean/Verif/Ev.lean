import Verif.Tot

/-!
# Recursive functions modelled with fuel (proof infrastructure)

Recursive functions of the code whose recursion is not structural are modelled with a fuel argument which bounds the
recursion depth; `none` means that the fuel did not suffice.
-/

namespace Caesar

/-- With enough fuel the computation returns one and the same result, and it satisfies `Q`. -/
def Ev {α : Type} (f : Nat → Option α) (Q : α → Prop) : Prop :=
  ∃ N a, (∀ n, N ≤ n → f n = some a) ∧ Q a

namespace Ev
variable {α β : Type}

theorem pure {a : α} {Q : α → Prop} (h : Q a) : Ev (fun _ => some a) Q := ⟨0, a, fun _ _ => rfl, h⟩

theorem bind {f : Nat → Option α} {g : α → Nat → Option β} {Q : α → Prop} {R : β → Prop} (h : Ev f Q)
    (h' : ∀ a, Q a → Ev (g a) R) : Ev (fun n => f n >>= fun a => g a n) R := by
  obtain ⟨N, a, h1, h2⟩ := h
  obtain ⟨M, b, h3, h4⟩ := h' a h2
  refine ⟨max N M, b, fun n hn => ?_, h4⟩
  show (f n).bind _ = _
  rw [h1 n (by omega)]
  exact h3 n (by omega)

theorem mono {f : Nat → Option α} {Q R : α → Prop} (h : Ev f Q) (h' : ∀ a, Q a → R a) : Ev f R := by
  obtain ⟨N, a, h1, h2⟩ := h
  exact ⟨N, a, h1, h' a h2⟩

theorem shift {f : Nat → Option α} {Q : α → Prop} (h : Ev (fun n => f (n + 1)) Q) : Ev f Q := by
  obtain ⟨N, a, h1, h2⟩ := h
  refine ⟨N + 1, a, fun n hn => ?_, h2⟩
  obtain ⟨m, rfl⟩ : ∃ m, n = m + 1 := ⟨n - 1, by omega⟩
  exact h1 m (by omega)

theorem congr {f g : Nat → Option α} {Q : α → Prop} (h : Ev f Q) (hfg : ∀ n, g n = f n) : Ev g Q := by
  obtain ⟨N, a, h1, h2⟩ := h
  exact ⟨N, a, fun n hn => (hfg n).trans (h1 n hn), h2⟩

theorem traverse {n : Nat} {β : Fin n → Type} (f : (i : Fin n) → Nat → Option (β i))
    (Q : (i : Fin n) → β i → Prop) (h : ∀ i, Ev (f i) (Q i)) :
    Ev (fun k => optTraverse n fun i => f i k) fun g => ∀ i, Q i (g i) := by
  induction n with
  | zero => exact ⟨0, _, fun _ _ => rfl, fun i => i.elim0⟩
  | succ n ih =>
    obtain ⟨N, a, h1, h2⟩ := h 0
    obtain ⟨M, as, h3, h4⟩ := ih (fun i => f i.succ) (fun i => Q i.succ) fun i => h i.succ
    refine ⟨max N M, fun i => Fin.cases (motive := β) a as i, fun k hk => ?_, fun i => ?_⟩
    · unfold optTraverse
      have h3' := h3 k (by omega)
      dsimp only at h3' ⊢
      rw [h1 k (by omega)]
      simp only [Option.bind_eq_bind, Option.bind_some]
      rw [h3']
      rfl
    · refine Fin.cases h2 (fun j => ?_) i
      exact h4 j

end Ev
end Caesar
