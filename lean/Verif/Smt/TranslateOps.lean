import Verif.Smt.Translate
import Verif.Props.C12
import Verif.Props.C13
import Verif.Props.C14

/-!
# The operators of the SMT translation compute representations
-/

open scoped ENNReal NNReal

namespace Caesar.Smt
set_option linter.unusedSectionVars false

variable [Doms]

/-- Specification: an SMT value represents a value of HeyLo. Lists are not covered. -/
def Rep : (t : Ty) → SVal t → t.den → Prop
  | .bool => fun (p q : Prop) => (p ↔ q)
  | .uint => fun (z : ℤ) (n : ℕ) => z = n
  | .int => fun (z n : ℤ) => z = n
  | .ureal => fun (r : ℝ) (x : ℝ≥0) => r = x
  | .real => fun (r x : ℝ) => r = x
  | .eureal => fun (p : Pair) (x : ℝ≥0∞) => p.Repr x
  | .list _ => fun _ _ => False
  | .dom _ => fun a b => a = b

/-- Specification: an argument or result of an SMT function represents a value of HeyLo; `Rep`, except that extended reals
are values of the datatype. -/
def DRep : (t : Ty) → DVal t → t.den → Prop
  | .bool => fun (p q : Prop) => (p ↔ q)
  | .uint => fun (z : ℤ) (n : ℕ) => z = n
  | .int => fun (z n : ℤ) => z = n
  | .ureal => fun (r : ℝ) (x : ℝ≥0) => r = x
  | .real => fun (r x : ℝ) => r = x
  | .eureal => fun (d : Data) (x : ℝ≥0∞) => match d with
      | .inf => x = ⊤
      | .real r => 0 ≤ r ∧ x = ENNReal.ofReal r
  | .list _ => fun _ _ => False
  | .dom _ => fun a b => a = b

/-- Specification: the SMT model interprets the function symbols and the division by zero as the semantics does. -/
structure Faithful [Interp] [SmtInterp] : Prop where
  func {t : Ty} (ht : ∀ s, t ≠ .list s) (f : Func t) (as : (i : Fin f.args.length) → DVal (f.args.get i)) (xs : (i : Fin f.args.length) → (f.args.get i).den) :
    (∀ i, DRep _ (as i) (xs i)) → DRep t (SmtInterp.func f as) (Interp.func f xs)
  divU (x : ℝ≥0) : SmtInterp.div0 (x : ℝ) = (Interp.divU0 x : ℝ≥0)
  divR (x : ℝ) : SmtInterp.div0 x = Interp.divR0 x
  modN (n : ℕ) : SmtInterp.mod0 (n : ℤ) = (Interp.modN0 n : ℕ)
  modZ (n : ℤ) : SmtInterp.mod0 n = Interp.modZ0 n

theorem smtIte_pos {α : Type} {c : Prop} (h : c) (a b : α) : smtIte c a b = a := if_pos h
theorem smtIte_neg {α : Type} {c : Prop} (h : ¬ c) (a b : α) : smtIte c a b = b := if_neg h

theorem sBranch_pos {t : Ty} {c : Prop} (h : c) (a b : SVal t) : sBranch t c a b = a := by
  cases t <;> first | exact smtIte_pos h _ _ | exact Pair.branch_pos _ _ h

theorem sBranch_neg {t : Ty} {c : Prop} (h : ¬ c) (a b : SVal t) : sBranch t c a b = b := by
  cases t <;> first | exact smtIte_neg h _ _ | exact Pair.branch_neg _ _ h

theorem smtMin_pos {α : Type} [PartialOrd α] [Branch α] (hb : ∀ c (a b : α), c → branch c a b = a) {a b : α}
    (h : PartialOrd.cmp a b .lessOrEqual) : smtMin a b = a := hb _ _ _ h
theorem smtMin_neg {α : Type} [PartialOrd α] [Branch α] (hb : ∀ c (a b : α), ¬ c → branch c a b = b) {a b : α}
    (h : ¬ PartialOrd.cmp a b .lessOrEqual) : smtMin a b = b := hb _ _ _ h

theorem smtMin_int (a b : ℤ) : smtMin a b = min a b := by
  by_cases h : a ≤ b
  · rw [min_eq_left h]; exact smtIte_pos h _ _
  · rw [min_eq_right (le_of_not_ge h)]; exact smtIte_neg h _ _
theorem smtMax_int (a b : ℤ) : smtMax a b = max a b := by
  by_cases h : b ≤ a
  · rw [max_eq_left h]; exact smtIte_pos h _ _
  · rw [max_eq_right (le_of_not_ge h)]; exact smtIte_neg h _ _
theorem smtMin_real (a b : ℝ) : smtMin a b = min a b := by
  by_cases h : a ≤ b
  · rw [min_eq_left h]; exact smtIte_pos h _ _
  · rw [min_eq_right (le_of_not_ge h)]; exact smtIte_neg h _ _
theorem smtMax_real (a b : ℝ) : smtMax a b = max a b := by
  by_cases h : b ≤ a
  · rw [max_eq_left h]; exact smtIte_pos h _ _
  · rw [max_eq_right (le_of_not_ge h)]; exact smtIte_neg h _ _

/-! The infimum and supremum of the semantics on the linearly ordered types. -/

theorem den_inf_nat (a b : ℕ) : Ty.inf .uint a b = min a b := by
  by_cases h : a ≤ b
  · rw [min_eq_left h]; exact if_pos h
  · rw [min_eq_right (le_of_not_ge h)]; exact if_neg h
theorem den_inf_int (a b : ℤ) : Ty.inf .int a b = min a b := by
  by_cases h : a ≤ b
  · rw [min_eq_left h]; exact if_pos h
  · rw [min_eq_right (le_of_not_ge h)]; exact if_neg h
theorem den_inf_ureal (a b : ℝ≥0) : Ty.inf .ureal a b = min a b := by
  by_cases h : a ≤ b
  · rw [min_eq_left h]; exact if_pos h
  · rw [min_eq_right (le_of_not_ge h)]; exact if_neg h
theorem den_inf_real (a b : ℝ) : Ty.inf .real a b = min a b := by
  by_cases h : a ≤ b
  · rw [min_eq_left h]; exact if_pos h
  · rw [min_eq_right (le_of_not_ge h)]; exact if_neg h
theorem den_inf_eureal (a b : ℝ≥0∞) : Ty.inf .eureal a b = min a b := by
  by_cases h : a ≤ b
  · rw [min_eq_left h]; exact if_pos h
  · rw [min_eq_right (le_of_not_ge h)]; exact if_neg h
theorem den_sup_nat (a b : ℕ) : Ty.sup .uint a b = max a b := by
  by_cases h : a ≤ b
  · rw [max_eq_right h]; exact if_pos h
  · rw [max_eq_left (le_of_not_ge h)]; exact if_neg h
theorem den_sup_int (a b : ℤ) : Ty.sup .int a b = max a b := by
  by_cases h : a ≤ b
  · rw [max_eq_right h]; exact if_pos h
  · rw [max_eq_left (le_of_not_ge h)]; exact if_neg h
theorem den_sup_ureal (a b : ℝ≥0) : Ty.sup .ureal a b = max a b := by
  by_cases h : a ≤ b
  · rw [max_eq_right h]; exact if_pos h
  · rw [max_eq_left (le_of_not_ge h)]; exact if_neg h
theorem den_sup_real (a b : ℝ) : Ty.sup .real a b = max a b := by
  by_cases h : a ≤ b
  · rw [max_eq_right h]; exact if_pos h
  · rw [max_eq_left (le_of_not_ge h)]; exact if_neg h
theorem den_sup_eureal (a b : ℝ≥0∞) : Ty.sup .eureal a b = max a b := by
  by_cases h : a ≤ b
  · rw [max_eq_right h]; exact if_pos h
  · rw [max_eq_left (le_of_not_ge h)]; exact if_neg h

theorem repr_ite {p : Pair} {c : Prop} {i j : Decidable c} {x y : ℝ≥0∞} (h : p.Repr (@ite _ c i x y)) : p.Repr (@ite _ c j x y) := by
  rwa [Subsingleton.elim i j] at h

theorem inf_bool {a b p q : Prop} (ha : a ↔ p) (hb : b ↔ q) : (a ∧ b) ↔ (show Prop from Ty.inf .bool p q) := by
  rw [ha, hb]
  by_cases h : p → q
  · rw [show Ty.inf .bool p q = p from if_pos h]; exact ⟨fun h => h.1, fun hp => ⟨hp, h hp⟩⟩
  · rw [show Ty.inf .bool p q = q from if_neg h]; exact ⟨fun h => h.2, fun hq => (h fun _ => hq).elim⟩
theorem sup_bool {a b p q : Prop} (ha : a ↔ p) (hb : b ↔ q) : (a ∨ b) ↔ (show Prop from Ty.sup .bool p q) := by
  rw [ha, hb]
  by_cases h : p → q
  · rw [show Ty.sup .bool p q = q from if_pos h]; exact ⟨fun h' => h'.elim h id, Or.inr⟩
  · rw [show Ty.sup .bool p q = p from if_neg h]; exact ⟨fun h' => h'.elim id fun hq => (h fun _ => hq).elim, Or.inl⟩
theorem impl_bool {a b p q : Prop} (ha : a ↔ p) (hb : b ↔ q) : (a → b) ↔ (show Prop from Ty.impl .bool p q) := by
  rw [ha, hb]
  by_cases h : p → q
  · rw [show Ty.impl .bool p q = True from if_pos h]; exact ⟨fun _ => trivial, fun _ => h⟩
  · rw [show Ty.impl .bool p q = q from if_neg h]; exact ⟨fun h' => (h h').elim, fun hq => (h fun _ => hq).elim⟩
theorem not_bool {a p : Prop} (ha : a ↔ p) : (¬ a) ↔ (show Prop from Ty.not .bool p) := by
  rw [ha]
  by_cases h : p
  · rw [show Ty.not .bool p = False from if_neg fun e : p = False => e ▸ h]; exact ⟨fun h' => h' h, False.elim⟩
  · rw [show Ty.not .bool p = True from if_pos (show p = False from propext ⟨h, False.elim⟩)]; exact ⟨fun _ => trivial, fun _ => h⟩
theorem non_bool {a p : Prop} (ha : a ↔ p) : (¬ a) ↔ (show Prop from Ty.non .bool p) := by
  rw [ha]
  by_cases h : p
  · rw [show Ty.non .bool p = False from if_pos (show p = True from propext ⟨fun _ => trivial, fun _ => h⟩)]
    exact ⟨fun h' => h' h, False.elim⟩
  · rw [show Ty.non .bool p = True from if_neg fun e : p = True => h (e ▸ trivial)]; exact ⟨fun _ => trivial, fun _ => h⟩
theorem inf_uint (m n : ℕ) : smtMin (m : ℤ) n = ((show ℕ from Ty.inf .uint m n) : ℤ) := by
  rw [smtMin_int, den_inf_nat, ← Nat.cast_min]
theorem sup_uint (m n : ℕ) : smtMax (m : ℤ) n = ((show ℕ from Ty.sup .uint m n) : ℤ) := by
  rw [smtMax_int, den_sup_nat, ← Nat.cast_max]
theorem inf_ureal (x y : ℝ≥0) : smtMin (x : ℝ) y = ((show ℝ≥0 from Ty.inf .ureal x y) : ℝ) := by
  rw [smtMin_real, den_inf_ureal, ← NNReal.coe_min]
theorem sup_ureal (x y : ℝ≥0) : smtMax (x : ℝ) y = ((show ℝ≥0 from Ty.sup .ureal x y) : ℝ) := by
  rw [smtMax_real, den_sup_ureal, ← NNReal.coe_max]
theorem inf_eureal {a b : Pair} {x y : ℝ≥0∞} (ha : a.Repr x) (hb : b.Repr y) : (Lat.inf a b).Repr (Ty.inf .eureal x y) := by
  rw [den_inf_eureal]
  exact (C12_operators_partial ha hb).2.2.1
theorem sup_eureal {a b : Pair} {x y : ℝ≥0∞} (ha : a.Repr x) (hb : b.Repr y) : (Lat.sup a b).Repr (Ty.sup .eureal x y) := by
  rw [den_sup_eureal]
  exact (C12_operators_partial ha hb).2.2.2.1

theorem intMonus_nat (m n : ℕ) : intMonus m n = ((m - n : ℕ) : ℤ) := by
  unfold intMonus smtIte
  split <;> omega

theorem realMonus_nnreal (x y : ℝ≥0) : realMonus x y = ((x - y : ℝ≥0) : ℝ) := by
  unfold realMonus smtIte
  rw [NNReal.coe_sub_def]
  split
  next h => rw [max_eq_left (by linarith)]
  next h => rw [max_eq_right (by linarith)]

section
variable [Interp] [SmtInterp] (F : Faithful)
include F

/-- Specification of the restriction on subtractions: the subtrahend of a subtraction on `EUReal` is finite. -/
def SubOk : {t : Ty} → BinOp t → t.den → Prop
  | .eureal, .sub _ => fun (y : ℝ≥0∞) => y ≠ ⊤
  | _, _ => fun _ => True

theorem realDiv_ureal (x y : ℝ≥0) : realDiv x y = ((show ℝ≥0 from Ty.div .ureal x y) : ℝ) := by
  by_cases hy : y = 0
  · rw [show realDiv x y = _ from if_pos (by rw [hy]; rfl), F.divU]
    exact congrArg NNReal.toReal (if_pos hy).symm
  · rw [show realDiv x y = _ from if_neg fun h => hy (NNReal.coe_eq_zero.1 h)]
    exact (NNReal.coe_div _ _).symm.trans (congrArg NNReal.toReal (if_neg hy).symm)

theorem realDiv_real (x y : ℝ) : realDiv x y = (Ty.div .real x y : ℝ) := by
  by_cases hy : y = 0
  · exact (if_pos hy).trans ((F.divR _).trans (if_pos hy).symm)
  · exact (if_neg hy).trans (if_neg hy).symm

theorem intMod_uint (m n : ℕ) : intMod m n = ((show ℕ from Ty.mod .uint m n) : ℤ) := by
  by_cases hn : n = 0
  · rw [show intMod m n = _ from if_pos (by rw [hn]; rfl), F.modN]
    exact congrArg Nat.cast (if_pos hn).symm
  · rw [show intMod m n = _ from if_neg fun h => hn (Int.natCast_eq_zero.1 h)]
    exact (Int.natCast_mod _ _).symm.trans (congrArg Nat.cast (if_neg hn).symm)

theorem intMod_int (m n : ℤ) : intMod m n = (Ty.mod .int m n : ℤ) := by
  by_cases hn : n = 0
  · exact (if_pos hn).trans ((F.modZ _).trans (if_pos hn).symm)
  · exact (if_neg hn).trans (if_neg hn).symm

omit F in
theorem pairSub_rep {a b : Pair} {x y : ℝ≥0∞} (ha : a.Repr x) (hb : b.Repr y) (hs : y ≠ ⊤) : (a.sub b).Repr (x - y) := by
  obtain ⟨ha, hx⟩ := Pair.repr_iff.1 ha
  obtain ⟨hb, hy⟩ := Pair.repr_iff.1 hb
  refine Pair.repr_iff.2 ⟨realMonus_nonneg _ _, ?_⟩
  rw [Pair.abs_sub hb fun h => hs (hy ▸ Pair.abs_inf h), hx, hy]

theorem sBin_rep {t : Ty} (op : BinOp t) {f : SVal t → SVal t → SVal t} (hf : sBin op = some f) {a b : SVal t} {x y : t.den}
    (ha : Rep t a x) (hb : Rep t b y) (hs : SubOk op y) : Rep t (f a b) (op.den x y) := by
  cases op with
  | add h =>
    cases t <;> cases hf <;> try cases h
    · obtain rfl : a = _ := ha; obtain rfl : b = _ := hb; exact (Nat.cast_add _ _).symm
    · obtain rfl : a = _ := ha; obtain rfl : b = _ := hb; rfl
    · obtain rfl : a = _ := ha; obtain rfl : b = _ := hb; exact (NNReal.coe_add _ _).symm
    · obtain rfl : a = _ := ha; obtain rfl : b = _ := hb; rfl
    · exact (C12_operators_partial ha hb).1
  | sub h =>
    cases t <;> cases hf <;> try cases h
    · obtain rfl : a = _ := ha; obtain rfl : b = _ := hb; exact intMonus_nat _ _
    · obtain rfl : a = _ := ha; obtain rfl : b = _ := hb; rfl
    · obtain rfl : a = _ := ha; obtain rfl : b = _ := hb; exact realMonus_nnreal _ _
    · obtain rfl : a = _ := ha; obtain rfl : b = _ := hb; rfl
    · exact pairSub_rep ha hb hs
  | mul h =>
    cases t <;> cases hf <;> try cases h
    · obtain rfl : a = _ := ha; obtain rfl : b = _ := hb; exact (Nat.cast_mul _ _).symm
    · obtain rfl : a = _ := ha; obtain rfl : b = _ := hb; rfl
    · obtain rfl : a = _ := ha; obtain rfl : b = _ := hb; exact (NNReal.coe_mul _ _).symm
    · obtain rfl : a = _ := ha; obtain rfl : b = _ := hb; rfl
    · exact (C12_operators_partial ha hb).2.1
  | div h =>
    cases t <;> cases hf <;> try cases h
    · obtain rfl : a = _ := ha; obtain rfl : b = _ := hb; exact realDiv_ureal F _ _
    · obtain rfl : a = _ := ha; obtain rfl : b = _ := hb; exact realDiv_real F _ _
  | mod h =>
    cases t <;> cases hf <;> try cases h
    · obtain rfl : a = _ := ha; obtain rfl : b = _ := hb; exact intMod_uint F _ _
    · obtain rfl : a = _ := ha; obtain rfl : b = _ := hb; exact intMod_int F _ _
  | and => cases hf; exact and_congr ha hb
  | or => cases hf; exact or_congr ha hb
  | inf h =>
    cases t <;> cases hf <;> try cases h
    · exact (show (a ↔ x) → (b ↔ y) → _ from fun ha hb => (inf_bool ha hb)) ha hb
    · obtain rfl : a = _ := ha; obtain rfl : b = _ := hb; exact inf_uint _ _
    · obtain rfl : a = _ := ha; obtain rfl : b = _ := hb; exact (smtMin_int _ _).trans (den_inf_int _ _).symm
    · obtain rfl : a = _ := ha; obtain rfl : b = _ := hb; exact inf_ureal _ _
    · obtain rfl : a = _ := ha; obtain rfl : b = _ := hb; exact (smtMin_real _ _).trans (den_inf_real _ _).symm
    · exact inf_eureal ha hb
  | sup h =>
    cases t <;> cases hf <;> try cases h
    · exact (show (a ↔ x) → (b ↔ y) → _ from fun ha hb => (sup_bool ha hb)) ha hb
    · obtain rfl : a = _ := ha; obtain rfl : b = _ := hb; exact sup_uint _ _
    · obtain rfl : a = _ := ha; obtain rfl : b = _ := hb; exact (smtMax_int _ _).trans (den_sup_int _ _).symm
    · obtain rfl : a = _ := ha; obtain rfl : b = _ := hb; exact sup_ureal _ _
    · obtain rfl : a = _ := ha; obtain rfl : b = _ := hb; exact (smtMax_real _ _).trans (den_sup_real _ _).symm
    · exact sup_eureal ha hb
  | impl h =>
    cases t <;> cases hf <;> try cases h
    · exact (show (a ↔ x) → (b ↔ y) → _ from fun ha hb => (impl_bool ha hb)) ha hb
    · exact repr_ite (C12_operators_partial ha hb).2.2.2.2.1
  | coimpl h =>
    cases t <;> cases hf <;> try cases h
    exact repr_ite (C12_operators_partial ha hb).2.2.2.2.2.1
  | compare h =>
    cases t <;> cases hf <;> try cases h
    exact repr_ite (C12_operators_partial ha hb).2.2.2.2.2.2.1
  | cocompare h =>
    cases t <;> cases hf <;> try cases h
    exact repr_ite (C12_operators_partial ha hb).2.2.2.2.2.2.2.1

omit F in
theorem sEq_rep {t : Ty} {f : SVal t → SVal t → Prop} (hf : sEq t = some f) {a b : SVal t} {x y : t.den}
    (ha : Rep t a x) (hb : Rep t b y) : f a b ↔ x = y := by
  cases t <;> cases hf
  · have ha : a ↔ x := ha
    have hb : b ↔ y := hb
    obtain rfl : a = x := propext ha
    obtain rfl : b = y := propext hb
    exact Iff.rfl
  · obtain rfl : a = _ := ha; obtain rfl : b = _ := hb; exact Nat.cast_inj (R := ℤ)
  · obtain rfl : a = _ := ha; obtain rfl : b = _ := hb; exact Iff.rfl
  · obtain rfl : a = _ := ha; obtain rfl : b = _ := hb; exact NNReal.coe_inj
  · obtain rfl : a = _ := ha; obtain rfl : b = _ := hb; exact Iff.rfl
  · exact (C12_operators_partial ha hb).2.2.2.2.2.2.2.2.2.2.2.1
  · obtain rfl : a = _ := ha; obtain rfl : b = _ := hb; exact Iff.rfl

/-- Specification of a comparison in the order of a type. -/
def cmpDen (o : Ordering) (t : Ty) (x y : t.den) : Prop :=
  match o with
  | .less => t.le x y ∧ x ≠ y
  | .lessOrEqual => t.le x y
  | .equal => x = y
  | .greaterOrEqual => t.le y x
  | .greater => t.le y x ∧ x ≠ y

omit F in
theorem sCmp_rep {o : Ordering} {t : Ty} {f : SVal t → SVal t → Prop} (hf : sCmp o t = some f) {a b : SVal t} {x y : t.den}
    (ha : Rep t a x) (hb : Rep t b y) : f a b ↔ cmpDen o t x y := by
  cases t <;> cases hf
  · obtain rfl : a = _ := ha; obtain rfl : b = _ := hb
    cases o
    · exact (Nat.cast_lt (α := ℤ)).trans (lt_iff_le_and_ne (α := ℕ))
    · exact Nat.cast_le (α := ℤ)
    · exact Nat.cast_inj (R := ℤ)
    · exact Nat.cast_le (α := ℤ)
    · exact (Nat.cast_lt (α := ℤ)).trans ((lt_iff_le_and_ne (α := ℕ)).trans (and_congr Iff.rfl ne_comm))
  · obtain rfl : a = _ := ha; obtain rfl : b = _ := hb
    cases o
    · exact lt_iff_le_and_ne (α := ℤ)
    · exact Iff.rfl
    · exact Iff.rfl
    · exact Iff.rfl
    · exact (lt_iff_le_and_ne (α := ℤ)).trans (and_congr Iff.rfl ne_comm)
  · obtain rfl : a = _ := ha; obtain rfl : b = _ := hb
    cases o
    · exact NNReal.coe_lt_coe.trans (lt_iff_le_and_ne (α := ℝ≥0))
    · exact NNReal.coe_le_coe
    · exact NNReal.coe_inj
    · exact NNReal.coe_le_coe
    · exact NNReal.coe_lt_coe.trans ((lt_iff_le_and_ne (α := ℝ≥0)).trans (and_congr Iff.rfl ne_comm))
  · obtain rfl : a = _ := ha; obtain rfl : b = _ := hb
    cases o
    · exact lt_iff_le_and_ne (α := ℝ)
    · exact Iff.rfl
    · exact Iff.rfl
    · exact Iff.rfl
    · exact (lt_iff_le_and_ne (α := ℝ)).trans (and_congr Iff.rfl ne_comm)
  · refine ((C12_operators_partial ha hb).2.2.2.2.2.2.2.2.2.2.2.2 o).trans ?_
    cases o
    · exact lt_iff_le_and_ne (α := ℝ≥0∞)
    · exact Iff.rfl
    · exact Iff.rfl
    · exact Iff.rfl
    · exact (lt_iff_le_and_ne (α := ℝ≥0∞)).trans (and_congr Iff.rfl ne_comm)

omit F in
theorem sRel_rep {t : Ty} (op : RelOp t) {f : SVal t → SVal t → Prop} (hf : sRel op = some f) {a b : SVal t} {x y : t.den}
    (ha : Rep t a x) (hb : Rep t b y) : f a b ↔ op.den x y := by
  cases op with
  | eq => exact sEq_rep hf ha hb
  | ne =>
    obtain ⟨g, hg, rfl⟩ := Option.map_eq_some_iff.1 hf
    exact not_congr (sEq_rep hg ha hb)
  | lt h => exact sCmp_rep hf ha hb
  | le h => exact sCmp_rep hf ha hb
  | ge h => exact sCmp_rep hf ha hb
  | gt h => exact sCmp_rep hf ha hb

omit F in
theorem sUn_rep {t : Ty} (op : UnOp t) {f : SVal t → SVal t} (hf : sUn op = some f) {a : SVal t} {x : t.den}
    (ha : Rep t a x) : Rep t (f a) (op.den x) := by
  cases op with
  | not h =>
    cases t <;> cases hf <;> try cases h
    · exact (show (a ↔ x) → _ from fun ha => (not_bool ha)) ha
    · exact repr_ite (C12_operators_partial ha ha).2.2.2.2.2.2.2.2.1
  | non h =>
    cases t <;> cases hf <;> try cases h
    · exact (show (a ↔ x) → _ from fun ha => (non_bool ha)) ha
    · exact repr_ite (C12_operators_partial ha ha).2.2.2.2.2.2.2.2.2.1
  | parens => cases hf; exact ha

omit F in
theorem cast_nat_ureal (n : ℕ) : (((n : ℤ)) : ℝ) = ((n : ℝ≥0) : ℝ) := by simp

omit F in
theorem cast_nnrat (q : ℚ≥0) : ((q : ℚ) : ℝ) = ((q : ℝ≥0) : ℝ) := by
  rfl

omit F in
theorem sCast_rep {s t : Ty} (c : CastOp s t) {a : SVal s} {x : s.den} (ha : Rep s a x) : Rep t (sCast c a) (c.den x) := by
  cases c with
  | uintInt => exact ha
  | uintUReal => obtain rfl : a = _ := ha; exact cast_nat_ureal x
  | uintReal => obtain rfl : a = _ := ha; exact Int.cast_natCast (R := ℝ) x
  | uintEUReal => obtain rfl : a = _ := ha; exact (C12_constants True 0 x).2.2.2.1
  | intReal => obtain rfl : a = _ := ha; rfl
  | urealReal => exact ha
  | urealEUReal => obtain rfl : a = _ := ha; exact (C12_constants True x 0).2.2.1

omit F in
theorem sLit_rep {t : Ty} (l : Lit t) {v : SVal t} (h : sLit l = some v) : Rep t v l.den := by
  cases l with
  | bool b => cases h; exact Iff.rfl
  | uint n => cases h; rfl
  | ufrac q => cases h; exact cast_nnrat q
  | rfrac q => cases h
  | efrac q =>
    cases h
    have := (C12_constants True (q : ℝ≥0) 0).2.2.1
    show (Pair.fromUReal ((q : ℚ) : ℝ)).Repr ((q : ℝ≥0) : ℝ≥0∞)
    rw [cast_nnrat]
    exact this
  | infty => cases h; exact (C12_constants True 0 0).1

omit F in
theorem drep_iff {d : Data} {x : ℝ≥0∞} : DRep .eureal d x ↔ d.Valid ∧ d.abs = x := by
  cases d with
  | inf => exact ⟨fun h => ⟨trivial, h.symm⟩, fun h => h.2.symm⟩
  | real r => exact ⟨fun h => ⟨h.1, h.2.symm⟩, fun h => ⟨h.1, h.2.symm⟩⟩

omit F in
theorem toDyn_rep {t : Ty} {a : SVal t} {x : t.den} (h : Rep t a x) : DRep t (toDyn t a) x := by
  cases t
  case eureal =>
    obtain ⟨h1, h2⟩ := Pair.repr_iff.1 h
    exact drep_iff.2 ⟨valid_pairToData h1, (abs_pairToData _).trans h2⟩
  all_goals exact h

omit F in
theorem ofDyn_rep {t : Ty} {a : DVal t} {x : t.den} (h : DRep t a x) : Rep t (ofDyn t a) x := by
  cases t
  case eureal =>
    obtain ⟨h1, h2⟩ := drep_iff.1 h
    exact Pair.repr_iff.2 ⟨valid_dataToPair h1, (abs_dataToPair _).trans h2⟩
  all_goals exact h

theorem sCall_rep {t : Ty} (ht : ∀ s, t ≠ .list s) (f : Func t) (as : (i : Fin f.args.length) → SVal (f.args.get i)) (xs : (i : Fin f.args.length) → (f.args.get i).den)
    (h : ∀ i, Rep _ (as i) (xs i)) : Rep t (sCall f as) (Interp.func f xs) :=
  ofDyn_rep (F.func ht f _ xs fun i => toDyn_rep (h i))

end

/-! ## Variables -/

/-- Each SMT value which satisfies the invariant represents a value. -/
theorem inv_rep {t : Ty} (ht : ∀ s, t ≠ .list s) {v : SVal t} (h : inv t v) : ∃ x, Rep t v x := by
  cases t with
  | bool => exact ⟨v, Iff.rfl⟩
  | uint => exact ⟨Int.toNat v, (Int.toNat_of_nonneg h).symm⟩
  | int => exact ⟨v, rfl⟩
  | ureal => exact ⟨(⟨v, h⟩ : ℝ≥0), rfl⟩
  | real => exact ⟨v, rfl⟩
  | eureal => exact ⟨Pair.abs v, Pair.repr_iff.2 ⟨h.1, rfl⟩⟩
  | list s => exact (ht s rfl).elim
  | dom n => exact ⟨v, rfl⟩

/-- Each value is represented by an SMT value which satisfies the invariant. -/
theorem rep_inv {t : Ty} (ht : ∀ s, t ≠ .list s) (x : t.den) : ∃ v : SVal t, inv t v ∧ Rep t v x := by
  cases t with
  | bool => exact ⟨x, trivial, Iff.rfl⟩
  | uint => exact ⟨((show ℕ from x) : ℤ), Int.natCast_nonneg _, rfl⟩
  | int => exact ⟨x, trivial, rfl⟩
  | ureal => exact ⟨((show ℝ≥0 from x) : ℝ), NNReal.coe_nonneg _, rfl⟩
  | real => exact ⟨x, trivial, rfl⟩
  | eureal =>
    obtain ⟨p, hp, hx⟩ := C14_pair.onto x
    exact ⟨p, hp, Pair.repr_iff.2 ⟨hp.1, hx⟩⟩
  | list s => exact (ht s rfl).elim
  | dom n => exact ⟨x, trivial, rfl⟩

/-- Each type has an SMT value which satisfies the invariant. -/
theorem inv_exists (t : Ty) : ∃ v : SVal t, inv t v := by
  by_cases h : ∃ s, t = .list s
  · obtain ⟨s, rfl⟩ := h
    exact ⟨(), trivial⟩
  · obtain ⟨v, h, _⟩ := rep_inv (fun s hs => h ⟨s, hs⟩) t.default
    exact ⟨v, h⟩

end Caesar.Smt
