import Verif.Smt.EURealLemmas

/-!
# C12: the pair encoding of extended reals is faithful
-/

open scoped ENNReal NNReal

namespace Caesar.Smt

open Classical in
/-- Specification: `p` represents the extended real number `x`. -/
def Pair.Repr (p : Pair) (x : ℝ≥0∞) : Prop := 0 ≤ p.num ∧ x = if p.isInf then ⊤ else ENNReal.ofReal p.num

theorem Pair.repr_iff {p : Pair} {x : ℝ≥0∞} : p.Repr x ↔ p.Valid ∧ p.abs = x :=
  and_congr Iff.rfl eq_comm

/-- Comparison of extended reals. -/
def cmpSpec (o : Ordering) (x y : ℝ≥0∞) : Prop :=
  match o with
  | .less => x < y | .lessOrEqual => x ≤ y | .equal => x = y | .greaterOrEqual => x ≥ y | .greater => x > y

open Classical in
/-- All operators except subtraction compute (a representation of) the mathematical result, for all
representations of the operands, and comparisons agree with the mathematical ones. -/
theorem C12_operators_partial {a b : Pair} {x y : ℝ≥0∞} (ha : a.Repr x) (hb : b.Repr y) :
    (a.add b).Repr (x + y) ∧
    (a.mul b).Repr (x * y) ∧
    (Lat.inf a b).Repr (min x y) ∧
    (Lat.sup a b).Repr (max x y) ∧
    (implication a b).Repr (if x ≤ y then ⊤ else y) ∧
    (coimplication a b).Repr (if y ≤ x then 0 else y) ∧
    (compare a b).Repr (if x ≤ y then ⊤ else 0) ∧
    (cocompare a b).Repr (if y ≤ x then 0 else ⊤) ∧
    (negate a).Repr (if x = 0 then ⊤ else 0) ∧
    (conegate a).Repr (if x = ⊤ then 0 else ⊤) ∧
    (∀ c : Prop, (branch c a b).Repr (if c then x else y)) ∧
    (a.smtEq b ↔ x = y) ∧
    (∀ o, PartialOrd.cmp a b o ↔ cmpSpec o x y) := by
  rw [Pair.repr_iff] at ha hb
  obtain ⟨ha, rfl⟩ := ha
  obtain ⟨hb, rfl⟩ := hb
  have hL := linearLat_pair
  simp only [Pair.repr_iff]
  have vb : ∀ (c : Prop) {a b : Pair}, a.Valid → b.Valid → (branch c a b).Valid := fun c => Pair.valid_branch
  exact ⟨⟨add_nonneg ha hb, Pair.abs_add ha hb⟩, ⟨mul_nonneg ha hb, Pair.abs_mul ha hb⟩,
    ⟨vb _ ha hb, Pair.abs_inf' hb⟩, ⟨vb _ ha hb, Pair.abs_sup' ha⟩,
    ⟨vb _ hL.valid_top hb, Pair.abs_implication hb⟩, ⟨vb _ hL.valid_bot hb, Pair.abs_coimplication ha⟩,
    ⟨vb _ hL.valid_top hL.valid_bot, Pair.abs_compare hb⟩, ⟨vb _ hL.valid_bot hL.valid_top, Pair.abs_cocompare ha⟩,
    ⟨vb _ hL.valid_top hL.valid_bot, Pair.abs_negate a⟩, ⟨vb _ hL.valid_bot hL.valid_top, Pair.abs_conegate ha⟩,
    fun c => ⟨vb c ha hb, Pair.abs_branch c a b⟩, Pair.smtEq_iff ha hb,
    fun o => (Pair.cmp_iff ha hb o).trans (by cases o <;> exact Iff.rfl)⟩

open Classical in
/-- Constants and conversions. -/
theorem C12_constants (c : Prop) (r : ℝ≥0) (n : ℕ) :
    Pair.infinity.Repr ⊤ ∧ Pair.zero.Repr 0 ∧ (Pair.fromUReal r).Repr r ∧ (Pair.fromUInt n).Repr n ∧
    (Pair.iverson c).Repr (if c then 1 else 0) ∧ (boolEmbed c : Pair).Repr (if c then ⊤ else 0) ∧
    (Lat.bot : Pair).Repr 0 ∧ (Lat.top : Pair).Repr ⊤ := by
  simp only [Pair.repr_iff]
  have hL := linearLat_pair
  have h1 : (Pair.fromUReal 1).Valid := zero_le_one (α := ℝ)
  have h0 : (Pair.fromUReal 0).Valid := le_refl (0 : ℝ)
  refine ⟨⟨hL.valid_top, Pair.abs_top⟩, ⟨h0, Pair.abs_zero⟩, ⟨r.2, ?_⟩, ⟨?_, ?_⟩,
    ⟨Pair.valid_branch h1 h0, Pair.abs_iverson c⟩, ⟨Pair.valid_branch hL.valid_top hL.valid_bot, Pair.abs_embed c⟩,
    ⟨hL.valid_bot, Pair.abs_bot⟩, ⟨hL.valid_top, Pair.abs_top⟩⟩
  · rw [Pair.abs_fin (show ¬ (Pair.fromUReal r).isInf from id)]; exact ENNReal.ofReal_coe_nnreal
  · show (0 : ℝ) ≤ ((n : ℤ) : ℝ)
    exact_mod_cast Nat.zero_le n
  · rw [Pair.abs_fin (show ¬ (Pair.fromUInt n).isInf from id)]
    show ENNReal.ofReal ((n : ℤ) : ℝ) = n
    rw [Int.cast_natCast]
    exact ENNReal.ofReal_natCast n

/-- The values of variables: every pair which satisfies the invariant represents a number, and every number
is represented by exactly one pair which satisfies the invariant and is either infinite or finite with that value. -/
theorem C12_representation :
    (∀ p : Pair, Invariant.inv p → ∃ x, p.Repr x) ∧ (∀ x, ∃ p : Pair, Invariant.inv p ∧ p.Repr x) ∧
    (∀ (p q : Pair) x, Invariant.inv p → Invariant.inv q → p.Repr x → q.Repr x → p = q) := by
  refine ⟨fun p hp => ⟨_, hp.1, rfl⟩, fun x => ?_, fun p q x hp hq h1 h2 => ?_⟩
  · cases x with
    | top => exact ⟨Pair.infinity, ⟨zero_le_one (α := ℝ), fun _ => rfl⟩, (C12_constants True 0 0).1⟩
    | coe r => exact ⟨Pair.fromUReal r, ⟨r.2, fun h => h.elim⟩, (C12_constants True r 0).2.2.1⟩
  · rw [Pair.repr_iff] at h1 h2
    have h3 := (Pair.smtEq_iff h1.1 h2.1).2 (h1.2.trans h2.2.symm)
    obtain ⟨pi, pn⟩ := p
    obtain ⟨qi, qn⟩ := q
    have h4 : pi = qi := h3.1
    subst h4
    by_cases h : pi
    · exact congrArg _ ((hp.2 h).trans (hq.2 h).symm)
    · exact congrArg _ (h3.2 (Or.inl h))

/-- Subtraction is right if the subtrahend is finite. -/
theorem C12_sub_partial {a b : Pair} {x y : ℝ≥0∞} (ha : a.Repr x) (hb : b.Repr y) (hy : y ≠ ⊤) :
    (a.sub b).Repr (x - y) := by
  rw [Pair.repr_iff] at *
  obtain ⟨ha, rfl⟩ := ha
  obtain ⟨hb, rfl⟩ := hb
  exact ⟨realMonus_nonneg _ _, Pair.abs_sub hb fun h => hy (Pair.abs_inf h)⟩

/-- The full property for subtraction. -/
def C12_sub_full : Prop := ∀ (a b : Pair) (x y : ℝ≥0∞), a.Repr x → b.Repr y → (a.sub b).Repr (x - y)

/-- It fails: `5 - ∞` is represented as `4`, although it is `0`. -/
theorem C12_sub_not_full : ¬ C12_sub_full := by
  intro h
  have h1 := h (Pair.fromUReal 5) Pair.infinity _ _ ⟨by norm_num [Pair.fromUReal], rfl⟩ (C12_constants True 0 0).1
  rw [Pair.repr_iff, ENNReal.sub_top] at h1
  have h2 := h1.2
  rw [Pair.abs_fin (show ¬ ((Pair.fromUReal 5).sub Pair.infinity).isInf from fun h => h.1)] at h2
  have h3 : ((Pair.fromUReal 5).sub Pair.infinity).num = 4 := by
    show realMonus 5 1 = 4
    unfold realMonus smtIte
    rw [if_pos (by norm_num)]
    norm_num
  rw [h3, ENNReal.ofReal_eq_zero] at h2
  norm_num at h2

/-- It also fails for two infinite operands: `(∞ + 5) - ∞` is represented as `5`. -/
theorem C12_sub_not_full_infinite :
    ((Pair.infinity.add (Pair.fromUReal 5)).sub Pair.infinity).Repr 5 ∧
      (Pair.infinity.add (Pair.fromUReal 5)).Repr ⊤ := by
  rw [Pair.repr_iff, Pair.repr_iff]
  have h3 : ((Pair.infinity.add (Pair.fromUReal 5)).sub Pair.infinity).num = 5 := by
    show realMonus (1 + 5) 1 = 5
    unfold realMonus smtIte
    rw [if_pos (by norm_num)]
    norm_num
  refine ⟨⟨?_, ?_⟩, ⟨?_, Pair.abs_inf (Or.inl trivial)⟩⟩
  · show 0 ≤ ((Pair.infinity.add (Pair.fromUReal 5)).sub Pair.infinity).num
    rw [h3]; norm_num
  · rw [Pair.abs_fin (show ¬ ((Pair.infinity.add (Pair.fromUReal 5)).sub Pair.infinity).isInf from fun h => h.2 trivial), h3]
    norm_num
  · show (0 : ℝ) ≤ 1 + 5
    norm_num

/-- Non-vacuity: finite and infinite operands have representations. -/
example : (Pair.fromUReal 5).Repr (ENNReal.ofReal 5) ∧ Pair.infinity.Repr ⊤ :=
  ⟨⟨by norm_num [Pair.fromUReal], by simp [Pair.fromUReal]⟩, (C12_constants True 0 0).1⟩

end Caesar.Smt
