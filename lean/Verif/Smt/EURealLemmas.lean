import Verif.Props.C11
import Mathlib.Data.ENNReal.Operations
import Mathlib.Data.ENNReal.Inv
import Mathlib.Data.ENNReal.Real

/-!
# Values represented by the SMT encodings of `EUReal`
-/

open scoped ENNReal NNReal

namespace Caesar.Smt
set_option linter.unusedSectionVars false

open Classical in
/-- Specification: the extended real number which a pair represents. -/
noncomputable def Pair.abs (p : Pair) : ℝ≥0∞ := if p.isInf then ⊤ else ENNReal.ofReal p.num

/-- Specification: the extended real number which a value of the datatype represents. -/
noncomputable def Data.abs : Data → ℝ≥0∞
  | .inf => ⊤
  | .real r => ENNReal.ofReal r

theorem realMonus_nonneg (a b : ℝ) : 0 ≤ realMonus a b := by
  unfold realMonus smtIte
  split <;> linarith

theorem ofReal_realMonus {a b : ℝ} (hb : 0 ≤ b) :
    ENNReal.ofReal (realMonus a b) = ENNReal.ofReal a - ENNReal.ofReal b := by
  rw [← ENNReal.ofReal_sub _ hb]
  unfold realMonus smtIte
  split
  · rfl
  · rw [ENNReal.ofReal_zero, ENNReal.ofReal_of_nonpos (by linarith)]

namespace Pair

theorem abs_inf {p : Pair} (h : p.isInf) : p.abs = ⊤ := if_pos h
theorem abs_fin {p : Pair} (h : ¬ p.isInf) : p.abs = ENNReal.ofReal p.num := if_neg h
theorem abs_ne_top {p : Pair} (h : ¬ p.isInf) : p.abs ≠ ⊤ := by rw [abs_fin h]; exact ENNReal.ofReal_ne_top

theorem abs_eq_top {p : Pair} : p.abs = ⊤ ↔ p.isInf :=
  ⟨fun h => by_contra fun h' => abs_ne_top h' h, abs_inf⟩

theorem abs_add {a b : Pair} (ha : a.Valid) (hb : b.Valid) : (a.add b).abs = a.abs + b.abs := by
  by_cases h1 : a.isInf
  · rw [abs_inf h1, abs_inf (Or.inl h1 : (a.add b).isInf), top_add]
  · by_cases h2 : b.isInf
    · rw [abs_inf h2, abs_inf (Or.inr h2 : (a.add b).isInf), add_top]
    · rw [abs_fin h1, abs_fin h2, abs_fin (show ¬ (a.add b).isInf from fun h => h.elim h1 h2)]
      exact ENNReal.ofReal_add ha hb

theorem abs_sub {a b : Pair} (hb : b.Valid) (h : ¬ b.isInf) : (a.sub b).abs = a.abs - b.abs := by
  by_cases h1 : a.isInf
  · rw [abs_inf h1, abs_inf (⟨h1, h⟩ : (a.sub b).isInf), ENNReal.top_sub (abs_ne_top h)]
  · rw [abs_fin h1, abs_fin h, abs_fin (show ¬ (a.sub b).isInf from fun h => h1 h.1)]
    exact ofReal_realMonus hb

theorem abs_mul {a b : Pair} (ha : a.Valid) (hb : b.Valid) : (a.mul b).abs = a.abs * b.abs := by
  have key : ∀ {x : Pair}, x.Valid → (x.isInf ∨ ¬ x.num = 0 ↔ x.abs ≠ 0) := by
    intro x hx
    by_cases h : x.isInf
    · simp [abs_inf h, h]
    · rw [abs_fin h, Ne, ENNReal.ofReal_eq_zero]
      have : 0 ≤ x.num := hx
      constructor
      · rintro (h' | h')
        · exact absurd h' h
        · exact fun h'' => h' (_root_.le_antisymm h'' this)
      · exact fun h' => Or.inr fun e => h' (by rw [e])
  by_cases h1 : a.isInf
  · rw [abs_inf h1]
    by_cases h2 : b.abs = 0
    · have h3 : ¬ (b.isInf ∨ ¬ b.num = 0) := fun h => (key hb).1 h h2
      have h4 : ¬ (a.mul b).isInf := by
        rintro (⟨_, h⟩ | ⟨h, _⟩)
        · exact h3 h
        · exact h3 (Or.inl h)
      rw [abs_fin h4, h2, mul_zero]
      have : b.num = 0 := by
        by_contra h
        exact h3 (Or.inr h)
      show ENNReal.ofReal (a.num * b.num) = 0
      rw [this, mul_zero, ENNReal.ofReal_zero]
    · rw [ENNReal.top_mul h2]
      exact abs_inf (Or.inl ⟨h1, (key hb).2 h2⟩)
  · by_cases h5 : b.isInf
    · rw [abs_inf h5]
      by_cases h2 : a.abs = 0
      · have h3 : ¬ (a.isInf ∨ ¬ a.num = 0) := fun h => (key ha).1 h h2
        have h4 : ¬ (a.mul b).isInf := by
          rintro (⟨h, _⟩ | ⟨_, h⟩)
          · exact h3 (Or.inl h)
          · exact h3 h
        rw [abs_fin h4, h2, zero_mul]
        have : a.num = 0 := by
          by_contra h
          exact h3 (Or.inr h)
        show ENNReal.ofReal (a.num * b.num) = 0
        rw [this, zero_mul, ENNReal.ofReal_zero]
      · rw [ENNReal.mul_top h2]
        exact abs_inf (Or.inr ⟨h5, (key ha).2 h2⟩)
    · rw [abs_fin h1, abs_fin h5, abs_fin (show ¬ (a.mul b).isInf from fun h => h.elim (h1 ·.1) (h5 ·.1))]
      exact ENNReal.ofReal_mul ha

theorem le_iff {a b : Pair} (hb : b.Valid) : smtLe a b ↔ a.abs ≤ b.abs := by
  rw [smtLe_iff]
  by_cases h2 : b.isInf
  · simp [abs_inf h2, h2]
  · by_cases h1 : a.isInf
    · simp only [h1, h2, not_true, false_and, or_false, false_iff]
      rw [abs_inf h1, top_le_iff]
      exact abs_ne_top h2
    · simp only [h1, h2, not_false_eq_true, true_and, false_or]
      rw [abs_fin h1, abs_fin h2]
      exact (ENNReal.ofReal_le_ofReal_iff hb).symm

theorem smtEq_iff {a b : Pair} (ha : a.Valid) (hb : b.Valid) : a.smtEq b ↔ a.abs = b.abs := by
  have : a.smtEq b ↔ smtLe a b ∧ smtLe b a := linearLat_pair.equal ha hb
  rw [this, le_iff hb, le_iff ha, le_antisymm_iff]

theorem cmp_iff {a b : Pair} (ha : a.Valid) (hb : b.Valid) (o : Ordering) : PartialOrd.cmp a b o ↔ match o with
    | .less => a.abs < b.abs | .lessOrEqual => a.abs ≤ b.abs | .equal => a.abs = b.abs
    | .greaterOrEqual => a.abs ≥ b.abs | .greater => a.abs > b.abs := by
  cases o with
  | less => exact (not_congr (le_iff ha)).trans not_le
  | lessOrEqual => exact le_iff hb
  | equal => exact smtEq_iff ha hb
  | greaterOrEqual => exact le_iff ha
  | greater => exact (not_congr (le_iff hb)).trans not_le

open Classical in
theorem abs_branch (c : Prop) (a b : Pair) : (branch c a b).abs = if c then a.abs else b.abs := by
  by_cases h : c
  · rw [branch_pos a b h, if_pos h]
  · rw [branch_neg a b h, if_neg h]

theorem valid_branch {c : Prop} {a b : Pair} (ha : a.Valid) (hb : b.Valid) : (branch c a b).Valid := by
  by_cases h : c
  · rw [branch_pos a b h]; exact ha
  · rw [branch_neg a b h]; exact hb

theorem abs_bot : (Lat.bot : Pair).abs = 0 := (abs_fin id).trans ENNReal.ofReal_zero
theorem abs_top : (Lat.top : Pair).abs = ⊤ := abs_inf trivial

theorem abs_inf' {a b : Pair} (hb : b.Valid) : (Lat.inf a b).abs = min a.abs b.abs := by
  show (branch _ a b).abs = _
  rw [abs_branch]
  have : PartialOrd.cmp a b .lessOrEqual ↔ a.abs ≤ b.abs := le_iff hb
  split
  next h => exact (min_eq_left (this.1 h)).symm
  next h => exact (min_eq_right (le_of_lt (not_le.1 fun h' => h (this.2 h')))).symm

theorem abs_sup' {a b : Pair} (ha : a.Valid) : (Lat.sup a b).abs = max a.abs b.abs := by
  show (branch _ a b).abs = _
  rw [abs_branch]
  have : PartialOrd.cmp a b .greaterOrEqual ↔ b.abs ≤ a.abs := le_iff ha
  split
  next h => exact (max_eq_left (this.1 h)).symm
  next h => exact (max_eq_right (le_of_lt (not_le.1 fun h' => h (this.2 h')))).symm

open Classical in
theorem abs_implication {a b : Pair} (hb : b.Valid) :
    (implication a b).abs = if a.abs ≤ b.abs then ⊤ else b.abs := by
  show (branch _ _ b).abs = _
  rw [abs_branch, abs_top]
  simp only [le_iff hb]

open Classical in
theorem abs_coimplication {a b : Pair} (ha : a.Valid) :
    (coimplication a b).abs = if b.abs ≤ a.abs then 0 else b.abs := by
  show (branch (PartialOrd.cmp a b .greaterOrEqual) Lat.bot b).abs = _
  rw [abs_branch, abs_bot]
  have : PartialOrd.cmp a b .greaterOrEqual ↔ b.abs ≤ a.abs := le_iff ha
  simp only [this]

open Classical in
theorem abs_compare {a b : Pair} (hb : b.Valid) :
    (compare a b).abs = if a.abs ≤ b.abs then ⊤ else 0 := by
  show (branch _ _ Lat.bot : Pair).abs = _
  rw [abs_branch, abs_top, abs_bot]
  simp only [le_iff hb]

open Classical in
theorem abs_cocompare {a b : Pair} (ha : a.Valid) :
    (cocompare a b).abs = if b.abs ≤ a.abs then 0 else ⊤ := by
  show (branch (PartialOrd.cmp a b .greaterOrEqual) Lat.bot Lat.top : Pair).abs = _
  rw [abs_branch, abs_bot, abs_top]
  have : PartialOrd.cmp a b .greaterOrEqual ↔ b.abs ≤ a.abs := le_iff ha
  simp only [this]

open Classical in
theorem abs_negate (a : Pair) : (negate a).abs = if a.abs = 0 then ⊤ else 0 := by
  show (branch (smtLe a Lat.bot) Lat.top Lat.bot : Pair).abs = _
  rw [abs_branch, abs_top, abs_bot]
  have : smtLe a Lat.bot ↔ a.abs = 0 := by
    rw [le_iff linearLat_pair.valid_bot, abs_bot, nonpos_iff_eq_zero]
  simp only [this]

open Classical in
theorem abs_conegate {a : Pair} (ha : a.Valid) : (conegate a).abs = if a.abs = ⊤ then 0 else ⊤ := by
  show (branch (PartialOrd.cmp a (Lat.top : Pair) .greaterOrEqual) Lat.bot Lat.top : Pair).abs = _
  rw [abs_branch, abs_bot, abs_top]
  have : PartialOrd.cmp a (Lat.top : Pair) .greaterOrEqual ↔ a.abs = ⊤ := by
    show smtLe Lat.top a ↔ _
    rw [le_iff ha, abs_top, top_le_iff]
  simp only [this]

open Classical in
theorem abs_embed (c : Prop) : (boolEmbed c : Pair).abs = if c then ⊤ else 0 := by
  show (branch c _ _ : Pair).abs = _
  rw [abs_branch, abs_bot, abs_top]

theorem abs_zero : zero.abs = 0 := abs_bot

open Classical in
theorem abs_iverson (c : Prop) : (iverson c).abs = if c then 1 else 0 := by
  show (branch c _ _ : Pair).abs = _
  rw [abs_branch, abs_zero]
  have : (fromUReal 1).abs = 1 := (abs_fin id).trans ENNReal.ofReal_one
  rw [this]

end Pair

namespace Data
variable [Data.Junk]

theorem abs_real (r : ℝ) : (Data.real r).abs = ENNReal.ofReal r := rfl

theorem le_iff {a b : Data} (hb : b.Valid) : smtLe a b ↔ a.abs ≤ b.abs := by
  rw [smtLe_iff]
  cases b with
  | inf => simp [abs]
  | real s =>
    cases a with
    | inf => simp [abs]
    | real r => simpa [abs] using (ENNReal.ofReal_le_ofReal_iff hb).symm

theorem eq_iff {a b : Data} (ha : a.Valid) (hb : b.Valid) : a = b ↔ a.abs = b.abs := by
  constructor
  · exact congrArg _
  · intro h
    exact Data.le_antisymm ((le_iff hb).2 h.le) ((le_iff ha).2 h.ge)

theorem cmp_iff {a b : Data} (ha : a.Valid) (hb : b.Valid) (o : Ordering) : PartialOrd.cmp a b o ↔ match o with
    | .less => a.abs < b.abs | .lessOrEqual => a.abs ≤ b.abs | .equal => a.abs = b.abs
    | .greaterOrEqual => a.abs ≥ b.abs | .greater => a.abs > b.abs := by
  cases o with
  | less => exact (linearLat_data.less ha hb).trans ((not_congr (le_iff ha)).trans not_le)
  | lessOrEqual => exact le_iff hb
  | equal => exact eq_iff ha hb
  | greaterOrEqual => exact (ge_iff a b).trans (le_iff ha)
  | greater => exact (not_congr (le_iff hb)).trans not_le

theorem abs_add {a b : Data} (ha : a.Valid) (hb : b.Valid) : (a.add b).abs = a.abs + b.abs := by
  cases a with
  | inf =>
    rw [show add .inf b = .inf from Data.branch_pos _ _ (Or.inl trivial)]
    exact (top_add _).symm
  | real r =>
    cases b with
    | inf =>
      rw [show add (.real r) .inf = .inf from Data.branch_pos _ _ (Or.inr trivial)]
      exact (add_top _).symm
    | real s =>
      rw [show add (.real r) (.real s) = .real (r + s) from Data.branch_neg _ _ (fun h => h.elim id id)]
      exact ENNReal.ofReal_add ha hb

theorem abs_sub {a b : Data} (hb : b.Valid) : (a.sub b).abs = a.abs - b.abs := by
  cases b with
  | inf =>
    rw [show sub a .inf = zero from Data.branch_pos _ _ trivial]
    show ENNReal.ofReal 0 = a.abs - ⊤
    simp
  | real s =>
    cases a with
    | inf =>
      rw [show sub .inf (.real s) = .inf from (Data.branch_neg _ _ id).trans (Data.branch_pos _ _ trivial)]
      show ⊤ = ⊤ - ENNReal.ofReal s
      exact (ENNReal.top_sub ENNReal.ofReal_ne_top).symm
    | real r =>
      rw [show sub (.real r) (.real s) = .real (realMonus r s) from
        (Data.branch_neg _ _ id).trans (Data.branch_neg _ _ id)]
      exact ofReal_realMonus hb

theorem abs_mul {a b : Data} (ha : a.Valid) (hb : b.Valid) : (a.mul b).abs = a.abs * b.abs := by
  have hz : ∀ {x : Data}, x.Valid → (x = zero ↔ x.abs = 0) := by
    intro x hx
    rw [eq_iff hx (show zero.Valid from le_refl (0:ℝ))]
    rw [show zero.abs = 0 from ENNReal.ofReal_zero]
  cases a with
  | inf =>
    rw [show mul .inf b = branch ((Data.inf.isInfinity ∧ b = zero) ∨ (b.isInfinity ∧ Data.inf = zero)) zero infinity from
      Data.branch_neg _ _ (fun h => h.1)]
    by_cases h : b = zero
    · rw [Data.branch_pos _ _ (Or.inl ⟨trivial, h⟩), (hz hb).1 h, mul_zero]
      exact ENNReal.ofReal_zero
    · rw [Data.branch_neg _ _ (by rintro (⟨_, h'⟩ | ⟨_, h'⟩); exacts [h h', by cases h'])]
      exact (ENNReal.top_mul fun h' => h ((hz hb).2 h')).symm
  | real r =>
    cases b with
    | inf =>
      rw [show mul (.real r) .inf = branch (((Data.real r).isInfinity ∧ Data.inf = zero) ∨ (Data.inf.isInfinity ∧ Data.real r = zero)) zero infinity from
        Data.branch_neg _ _ (fun h => h.2)]
      by_cases h : Data.real r = zero
      · rw [Data.branch_pos _ _ (Or.inr ⟨trivial, h⟩), (hz ha).1 h, zero_mul]
        exact ENNReal.ofReal_zero
      · rw [Data.branch_neg _ _ (by rintro (⟨h', _⟩ | ⟨_, h'⟩); exacts [h', h h'])]
        exact (ENNReal.mul_top fun h' => h ((hz ha).2 h')).symm
    | real s =>
      rw [show mul (.real r) (.real s) = .real (r * s) from Data.branch_pos _ _ ⟨trivial, trivial⟩]
      exact ENNReal.ofReal_mul ha

theorem abs_inf' {a b : Data} (hb : b.Valid) : (Lat.inf a b).abs = min a.abs b.abs := by
  show (smtMin a b).abs = _
  rcases smtMin_cases (α := Data) Data.branch_pos Data.branch_neg a b with h | h
  · rw [h.2, min_eq_left ((le_iff hb).1 h.1)]
  · rw [h.2, min_eq_right (le_of_lt (not_le.1 fun h' => h.1 ((le_iff hb).2 h')))]

theorem abs_sup' {a b : Data} (ha : a.Valid) : (Lat.sup a b).abs = max a.abs b.abs := by
  show (smtMax a b).abs = _
  rcases smtMax_cases (α := Data) Data.branch_pos Data.branch_neg a b with h | h
  · rw [h.2, max_eq_left ((le_iff ha).1 ((ge_iff a b).1 h.1))]
  · rw [h.2, max_eq_right (le_of_lt (not_le.1 fun h' => h.1 ((ge_iff a b).2 ((le_iff ha).2 h'))))]

theorem valid_add {a b : Data} (ha : a.Valid) (hb : b.Valid) : (a.add b).Valid := by
  show (smtIte _ infinity (fromUReal _)).Valid
  unfold smtIte
  cases a <;> cases b <;> simp [isInfinity, infinity, fromUReal, getUReal, Valid] at *
  linarith

theorem valid_sub {a b : Data} : (a.sub b).Valid := by
  show (smtIte _ zero (smtIte _ infinity (fromUReal _))).Valid
  unfold smtIte
  cases a <;> cases b <;> simp [isInfinity, infinity, zero, fromUReal, getUReal, Valid] at *
  exact realMonus_nonneg _ _

theorem valid_mul {a b : Data} (ha : a.Valid) (hb : b.Valid) : (a.mul b).Valid := by
  by_cases h : a.isReal ∧ b.isReal
  · rw [show a.mul b = _ from Data.branch_pos _ _ h]
    cases a with
    | inf => exact h.1.elim
    | real r =>
      cases b with
      | inf => exact h.2.elim
      | real s => exact mul_nonneg (α := ℝ) ha hb
  · rw [show a.mul b = _ from Data.branch_neg _ _ h]
    by_cases h' : (a.isInfinity ∧ b = zero) ∨ (b.isInfinity ∧ a = zero)
    · rw [Data.branch_pos _ _ h']; exact le_refl (0 : ℝ)
    · rw [Data.branch_neg _ _ h']; trivial

end Data

end Caesar.Smt
