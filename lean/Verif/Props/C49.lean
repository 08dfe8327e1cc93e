import Verif.Front.Casts
import Verif.Witness

/-!
# C49: implicit casts are coherent
-/

open scoped ENNReal NNReal

namespace Caesar

/-- The subtype relation of the type checker: `partial_cmp` answers `Less` or `Equal`. -/
def Ty.Sub (a b : Ty) : Prop := a.partialCmp b = some .lt ∨ a.partialCmp b = some .eq

/-- The numeric value of a value of a numeric type, in the reals with `+∞`. This is the specification of what casts
have to preserve. -/
noncomputable def Ty.num [Doms] : (t : Ty) → t.den → WithTop ℝ
  | .uint => fun (n : ℕ) => ((n : ℝ) : WithTop ℝ)
  | .int => fun (n : ℤ) => ((n : ℝ) : WithTop ℝ)
  | .ureal => fun (r : ℝ≥0) => ((r : ℝ) : WithTop ℝ)
  | .real => fun (r : ℝ) => (r : WithTop ℝ)
  | .eureal => fun (r : ℝ≥0∞) => WithTop.map (fun x : ℝ≥0 => (x : ℝ)) r
  | _ => fun _ => 0

theorem partialCmp_lt {a b : Ty} : a.partialCmp b = some .lt ↔ a.less b = true := by
  unfold Ty.partialCmp
  by_cases h : a = b
  · subst h
    simp only [if_true]
    constructor
    · intro h; cases h
    · intro h; cases a <;> cases h
  · simp only [h, if_false]
    by_cases h1 : a.less b = true
    · simp [h1]
    · simp only [h1]
      by_cases h2 : b.less a = true <;> simp [h2]

theorem partialCmp_eq {a b : Ty} : a.partialCmp b = some .eq ↔ a = b := by
  unfold Ty.partialCmp
  by_cases h : a = b
  · simp [h]
  · simp only [h, if_false, iff_false]
    by_cases h1 : a.less b = true
    · simp [h1]
    · by_cases h2 : b.less a = true <;> simp [h1, h2]

theorem partialCmp_gt {a b : Ty} : a.partialCmp b = some .gt ↔ b.less a = true := by
  unfold Ty.partialCmp
  by_cases h : a = b
  · subst h
    simp only [if_true]
    constructor
    · intro h; cases h
    · intro h; cases a <;> cases h
  · simp only [h, if_false]
    by_cases h1 : a.less b = true
    · simp only [h1, if_true]
      constructor
      · intro h; cases h
      · intro h2; cases a <;> cases b <;> first | (cases h1; done) | (cases h2; done)
    · simp [h1]

theorem sub_iff {a b : Ty} : a.Sub b ↔ a.less b = true ∨ a = b := by
  unfold Ty.Sub
  rw [partialCmp_lt, partialCmp_eq]

/-- The relation is a partial order, and `partial_cmp` answers consistently with it. -/
theorem C49_partial_order :
    (∀ a : Ty, a.Sub a) ∧ (∀ a b : Ty, a.Sub b → b.Sub a → a = b) ∧ (∀ a b c : Ty, a.Sub b → b.Sub c → a.Sub c) ∧
    (∀ a b : Ty, a.partialCmp b = some .gt ↔ b.partialCmp a = some .lt) ∧
    (∀ a b : Ty, a.partialCmp b = none ↔ ¬ a.Sub b ∧ ¬ b.Sub a) := by
  refine ⟨fun a => sub_iff.2 (Or.inr rfl), ?_, ?_, ?_, ?_⟩
  · intro a b h1 h2
    rw [sub_iff] at h1 h2
    rcases h1 with h1 | h1
    · rcases h2 with h2 | h2
      · cases a <;> cases b <;> first | rfl | (cases h1; done) | (cases h2; done)
      · exact h2.symm
    · exact h1
  · intro a b c h1 h2
    rw [sub_iff] at h1 h2 ⊢
    rcases h1 with h1 | rfl
    · rcases h2 with h2 | rfl
      · left
        cases a <;> cases b <;> first | (cases h1; done) | (cases c <;> first | rfl | (cases h2; done))
      · exact Or.inl h1
    · exact h2
  · intro a b
    rw [partialCmp_gt, partialCmp_lt]
  · intro a b
    unfold Ty.Sub
    rw [← (show b.partialCmp a = some .lt ↔ a.partialCmp b = some .gt from by rw [partialCmp_gt, partialCmp_lt]).symm,
      show b.partialCmp a = some .eq ↔ a.partialCmp b = some .eq from by rw [partialCmp_eq, partialCmp_eq, eq_comm]]
    cases h : a.partialCmp b with
    | none => simp
    | some o => cases o <;> simp

/-- Each cast node preserves the numeric value. -/
theorem castOp_num [Doms] {s t : Ty} (c : CastOp s t) (a : s.den) : t.num (c.den a) = s.num a := by
  cases c with
  | uintInt => exact congrArg (fun r : ℝ => (r : WithTop ℝ)) (Int.cast_natCast (R := ℝ) a)
  | uintUReal => exact congrArg (fun r : ℝ => (r : WithTop ℝ)) (NNReal.coe_natCast a)
  | uintReal => rfl
  | uintEUReal =>
    have key : ∀ n : ℕ, WithTop.map (fun x : ℝ≥0 => (x : ℝ)) (n : ℝ≥0∞) = ((n : ℝ) : WithTop ℝ) := fun n => by
      rw [← ENNReal.coe_natCast]
      exact congrArg (fun r : ℝ => (r : WithTop ℝ)) (NNReal.coe_natCast n)
    exact key a
  | intReal => rfl
  | urealReal => rfl
  | urealEUReal => rfl

theorem num_inj [Doms] {t : Ty} (ht : t.isNum = true) {a b : t.den} (h : t.num a = t.num b) : a = b := by
  cases t with
  | uint => exact Nat.cast_injective (R := ℝ) (WithTop.coe_injective h)
  | int => exact Int.cast_injective (α := ℝ) (WithTop.coe_injective h)
  | ureal => exact NNReal.coe_injective (WithTop.coe_injective h)
  | real => exact WithTop.coe_injective h
  | eureal => exact WithTop.map_injective NNReal.coe_injective h
  | _ => cases ht

theorem castOp_isNum {s t : Ty} (c : CastOp s t) : s.isNum = true ∧ t.isNum = true := by
  cases c <;> exact ⟨rfl, rfl⟩

/-- Cast values embed injectively, casts compose, and they preserve the order. -/
theorem C49_casts [Doms] {s t u : Ty} (c : CastOp s t) :
    (∀ a b : s.den, c.den a = c.den b → a = b) ∧
    (∀ (c' : CastOp t u) (c'' : CastOp s u) (a : s.den), c'.den (c.den a) = c''.den a) ∧
    (∀ a b : s.den, s.le a b ↔ t.le (c.den a) (c.den b)) ∧
    (∀ a : s.den, t.num (c.den a) = s.num a) := by
  refine ⟨fun a b h => ?_, fun c' c'' a => ?_, fun a b => ?_, castOp_num c⟩
  · apply num_inj (castOp_isNum c).1
    rw [← castOp_num c, ← castOp_num c, h]
  · apply num_inj (castOp_isNum c').2
    rw [castOp_num, castOp_num, castOp_num]
  · cases c with
    | uintInt => exact (Int.ofNat_le (m := a) (n := b)).symm
    | uintUReal => exact (Nat.cast_le (α := ℝ≥0)).symm
    | uintReal => exact (Nat.cast_le (α := ℝ)).symm
    | uintEUReal => exact (Nat.cast_le (α := ℝ≥0∞)).symm
    | intReal => exact (Int.cast_le (R := ℝ)).symm
    | urealReal => exact (NNReal.coe_le_coe).symm
    | urealEUReal => exact (ENNReal.coe_le_coe).symm

/-- There is a cast for exactly the strict pairs, and composable casts have a direct cast. -/
theorem C49_cast_exists (s t : Ty) :
    (Nonempty (CastOp s t) ↔ s.Sub t ∧ s ≠ t) ∧ (∀ u, Nonempty (CastOp s t) → Nonempty (CastOp t u) → Nonempty (CastOp s u)) := by
  have key : ∀ s t, Nonempty (CastOp s t) ↔ s.less t = true := fun s t =>
    ⟨fun ⟨c⟩ => by cases c <;> rfl, fun h => ⟨castOp s t h⟩⟩
  refine ⟨?_, fun u h1 h2 => ?_⟩
  · rw [key, sub_iff]
    refine ⟨fun h => ⟨Or.inl h, ?_⟩, fun h => h.1.resolve_right h.2⟩
    rintro rfl
    cases s <;> cases h
  · rw [key] at h1 h2 ⊢
    cases s <;> cases t <;> first | (cases h1; done) | (cases u <;> first | rfl | (cases h2; done))

/-- Casting an expression succeeds exactly for a subtype, and the numeric value is unchanged. -/
theorem C49_try_cast [Doms] [Interp] (target : Ty) {s : Ty} (e : Expr s) :
    ((tryCast target e).isSome = true ↔ s.Sub target) ∧
    (∀ e', tryCast target e = some e' → ∀ σ, target.num (e'.eval σ) = s.num (e.eval σ)) ∧
    (∀ h : s = target, tryCast target e = some (h ▸ e)) := by
  refine ⟨?_, ?_, ?_⟩
  · unfold tryCast
    split
    · rename_i h
      have := partialCmp_eq.1 h
      exact ⟨fun _ => sub_iff.2 (Or.inr this.symm), fun _ => rfl⟩
    · rename_i h
      exact ⟨fun _ => sub_iff.2 (Or.inl (partialCmp_gt.1 h)), fun _ => rfl⟩
    · rename_i h1 h2
      refine ⟨fun h => (by cases h), fun h => ?_⟩
      rcases sub_iff.1 h with h | h
      · exact (h2 (partialCmp_gt.2 h)).elim
      · exact (h1 (partialCmp_eq.2 h.symm)).elim
  · intro e' he' σ
    unfold tryCast at he'
    split at he'
    · rename_i h
      have := partialCmp_eq.1 h
      subst this
      cases he'
      rfl
    · cases he'
      exact castOp_num _ _
    · cases he'
  · rintro rfl
    unfold tryCast
    split
    · rfl
    · rename_i h
      have := partialCmp_gt.1 h
      cases s <;> cases this
    · rename_i h1 h2
      exact (h1 (partialCmp_eq.2 rfl)).elim

/-- Unification picks an upper bound of both operand types, the least one, and preserves the values of both operands. It fails
exactly if the operand types are incomparable. -/
theorem C49_try_unify [Doms] [Interp] {s t : Ty} (a : Expr s) (b : Expr t) :
    ((tryUnify a b).isSome = true ↔ s.Sub t ∨ t.Sub s) ∧
    ∀ r, tryUnify a b = some r → s.Sub r.1 ∧ t.Sub r.1 ∧ (∀ v, s.Sub v → t.Sub v → r.1.Sub v) ∧
      ∀ σ, r.1.num (r.2.1.eval σ) = s.num (a.eval σ) ∧ r.1.num (r.2.2.eval σ) = t.num (b.eval σ) := by
  constructor
  · unfold tryUnify
    split
    · rename_i h
      exact ⟨fun _ => Or.inl (Or.inr h), fun _ => rfl⟩
    · rename_i h
      exact ⟨fun _ => Or.inl (Or.inl h), fun _ => rfl⟩
    · rename_i h
      exact ⟨fun _ => Or.inr (Or.inl (partialCmp_lt.2 (partialCmp_gt.1 h))), fun _ => rfl⟩
    · rename_i h
      have := (C49_partial_order.2.2.2.2 s t).1 h
      exact ⟨fun h => (by cases h), fun h => (h.elim this.1 this.2).elim⟩
  · intro r hr
    unfold tryUnify at hr
    split at hr
    · rename_i h
      have := partialCmp_eq.1 h
      subst this
      cases hr
      exact ⟨C49_partial_order.1 _, C49_partial_order.1 _, fun v hv _ => hv, fun σ => ⟨rfl, rfl⟩⟩
    · rename_i h
      cases hr
      exact ⟨Or.inl h, C49_partial_order.1 _, fun v _ hv => hv, fun σ => ⟨castOp_num _ _, rfl⟩⟩
    · rename_i h
      cases hr
      exact ⟨C49_partial_order.1 _, Or.inl (partialCmp_lt.2 (partialCmp_gt.1 h)), fun v hv _ => hv,
        fun σ => ⟨rfl, castOp_num _ _⟩⟩
    · cases hr

/-- Non-vacuity: `1 + x` with `x : EUReal` casts the left operand; `Int` and `EUReal` do not unify. -/
example (x : Ident) : (tryUnify (Expr.uintLit 1) (.var x : Expr .eureal)).isSome = true := rfl
example (x y : Ident) : (tryUnify (.var y : Expr .int) (.var x : Expr .eureal)).isSome = false := rfl

end Caesar
