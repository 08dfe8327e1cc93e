import Verif.Smt.EUReal
import Mathlib.Tactic.NormNum

/-!
# C11: lattice operators of the SMT layer satisfy their defining laws
-/

namespace Caesar.Smt
set_option linter.unusedSectionVars false

/-- Specification: the order `smtLe` is a bounded linear preorder on the valid values (two values which are below each
other are equal for the encoding), all comparisons are the ones of this order, `branch` chooses, `inf`/`sup` are
greatest lower and least upper bounds. -/
structure LinearLat (α : Type) [Lat α] (valid : α → Prop) : Prop where
  refl : ∀ {a : α}, valid a → smtLe a a
  trans : ∀ {a b c : α}, valid a → valid b → valid c → smtLe a b → smtLe b c → smtLe a c
  total : ∀ {a b : α}, valid a → valid b → smtLe a b ∨ smtLe b a
  less : ∀ {a b : α}, valid a → valid b → (PartialOrd.cmp a b .less ↔ ¬ smtLe b a)
  equal : ∀ {a b : α}, valid a → valid b → (PartialOrd.cmp a b .equal ↔ smtLe a b ∧ smtLe b a)
  greaterOrEqual : ∀ {a b : α}, valid a → valid b → (PartialOrd.cmp a b .greaterOrEqual ↔ smtLe b a)
  greater : ∀ {a b : α}, valid a → valid b → (PartialOrd.cmp a b .greater ↔ ¬ smtLe a b)
  branch_pos : ∀ {c : Prop} (a b : α), c → branch c a b = a
  branch_neg : ∀ {c : Prop} (a b : α), ¬ c → branch c a b = b
  valid_bot : valid (Lat.bot : α)
  valid_top : valid (Lat.top : α)
  valid_inf : ∀ {a b : α}, valid a → valid b → valid (Lat.inf a b)
  valid_sup : ∀ {a b : α}, valid a → valid b → valid (Lat.sup a b)
  bot_le : ∀ {a : α}, valid a → smtLe Lat.bot a
  le_top : ∀ {a : α}, valid a → smtLe a Lat.top
  le_inf : ∀ {a b c : α}, valid a → valid b → valid c → (smtLe c (Lat.inf a b) ↔ smtLe c a ∧ smtLe c b)
  sup_le : ∀ {a b c : α}, valid a → valid b → valid c → (smtLe (Lat.sup a b) c ↔ smtLe a c ∧ smtLe b c)

/-- Equality in the encoding: below each other. -/
def Equiv {α : Type} [Lat α] (a b : α) : Prop := smtLe a b ∧ smtLe b a

/-! ## The instances -/

theorem linearLat_bool : LinearLat Prop (fun _ => True) where
  refl _ h := h
  trans _ _ _ h1 h2 h := h2 (h1 h)
  total {a b} _ _ := by unfold smtLe PartialOrd.cmp; simp only [Lat.toPartialOrd]; tauto
  less {a b} _ _ := by show (¬ a ∧ b) ↔ ¬ (b → a); tauto
  equal {a b} _ _ := by show (a = b) ↔ ((a → b) ∧ (b → a)); rw [eq_iff_iff]; tauto
  greaterOrEqual _ _ := Iff.rfl
  greater {a b} _ _ := by show (a ∧ ¬ b) ↔ ¬ (a → b); tauto
  branch_pos a b h := if_pos h
  branch_neg a b h := if_neg h
  valid_bot := trivial
  valid_top := trivial
  valid_inf _ _ := trivial
  valid_sup _ _ := trivial
  bot_le _ h := h.elim
  le_top _ _ := trivial
  le_inf {a b c} _ _ _ := by show (c → a ∧ b) ↔ ((c → a) ∧ (c → b)); tauto
  sup_le {a b c} _ _ _ := by show (a ∨ b → c) ↔ ((a → c) ∧ (b → c)); tauto

/-- Pairs are valid if their number is nonnegative. -/
def Pair.Valid (p : Pair) : Prop := 0 ≤ p.num

theorem Pair.smtLe_iff (a b : Pair) : smtLe a b ↔ b.isInf ∨ (¬ a.isInf ∧ a.num ≤ b.num) := Iff.rfl

theorem Pair.branch_pos {c : Prop} (a b : Pair) (h : c) : branch c a b = a := by
  show Pair.mk (smtIte c a.isInf b.isInf) (smtIte c a.num b.num) = a
  unfold smtIte
  rw [if_pos h, if_pos h]

theorem Pair.branch_neg {c : Prop} (a b : Pair) (h : ¬ c) : branch c a b = b := by
  show Pair.mk (smtIte c a.isInf b.isInf) (smtIte c a.num b.num) = b
  unfold smtIte
  rw [if_neg h, if_neg h]

theorem Pair.le_total (a b : Pair) : smtLe a b ∨ smtLe b a := by
  rw [smtLe_iff, smtLe_iff]
  rcases _root_.le_total a.num b.num <;> tauto

theorem Pair.le_trans {a b c : Pair} (h1 : smtLe a b) (h2 : smtLe b c) : smtLe a c := by
  rw [smtLe_iff] at *
  rcases h2 with h2 | ⟨h2, h3⟩
  · exact Or.inl h2
  · rcases h1 with h1 | ⟨h1, h4⟩
    · exact absurd h1 h2
    · exact Or.inr ⟨h1, h4.trans h3⟩

/-- `smtMin` is the minimum whenever the order is total. -/
theorem smtMin_cases {α : Type} [Lat α] (hp : ∀ {c : Prop} (a b : α), c → branch c a b = a)
    (hn : ∀ {c : Prop} (a b : α), ¬ c → branch c a b = b) (a b : α) :
    (smtLe a b ∧ smtMin a b = a) ∨ (¬ smtLe a b ∧ smtMin a b = b) := by
  by_cases h : smtLe a b
  · exact Or.inl ⟨h, hp a b h⟩
  · exact Or.inr ⟨h, hn a b h⟩

theorem smtMax_cases {α : Type} [Lat α] (hp : ∀ {c : Prop} (a b : α), c → branch c a b = a)
    (hn : ∀ {c : Prop} (a b : α), ¬ c → branch c a b = b) (a b : α) :
    (PartialOrd.cmp a b .greaterOrEqual ∧ smtMax a b = a) ∨
      (¬ PartialOrd.cmp a b .greaterOrEqual ∧ smtMax a b = b) := by
  by_cases h : PartialOrd.cmp a b .greaterOrEqual
  · exact Or.inl ⟨h, hp a b h⟩
  · exact Or.inr ⟨h, hn a b h⟩

theorem linearLat_pair : LinearLat Pair Pair.Valid where
  refl {a} _ := by rw [Pair.smtLe_iff]; by_cases a.isInf <;> simp_all
  trans _ _ _ h1 h2 := Pair.le_trans h1 h2
  total {a b} _ _ := Pair.le_total a b
  less _ _ := Iff.rfl
  equal {a b} _ _ := by
    show (a.isInf = b.isInf ∧ (¬ a.isInf ∨ ¬ b.isInf → a.num = b.num)) ↔
      (b.isInf ∨ (¬ a.isInf ∧ a.num ≤ b.num)) ∧ (a.isInf ∨ (¬ b.isInf ∧ b.num ≤ a.num))
    rw [eq_iff_iff, le_antisymm_iff]
    tauto
  greaterOrEqual _ _ := Iff.rfl
  greater _ _ := Iff.rfl
  branch_pos a b h := Pair.branch_pos a b h
  branch_neg a b h := Pair.branch_neg a b h
  valid_bot := le_refl (0 : ℝ)
  valid_top := zero_le_one
  valid_inf {a b} ha hb := by
    show (smtMin a b).Valid
    rcases smtMin_cases (α := Pair) Pair.branch_pos Pair.branch_neg a b with h | h
    · rw [h.2]; exact ha
    · rw [h.2]; exact hb
  valid_sup {a b} ha hb := by
    show (smtMax a b).Valid
    rcases smtMax_cases (α := Pair) Pair.branch_pos Pair.branch_neg a b with h | h
    · rw [h.2]; exact ha
    · rw [h.2]; exact hb
  bot_le {a} ha := by
    show a.isInf ∨ (¬ False ∧ 0 ≤ a.num)
    exact Or.inr ⟨id, ha⟩
  le_top _ := Or.inl trivial
  le_inf {a b c} _ _ _ := by
    show smtLe c (smtMin a b) ↔ _
    rcases smtMin_cases (α := Pair) Pair.branch_pos Pair.branch_neg a b with h | h
    · rw [h.2]; exact ⟨fun h' => ⟨h', Pair.le_trans h' h.1⟩, And.left⟩
    · rw [h.2]; exact ⟨fun h' => ⟨Pair.le_trans h' ((Pair.le_total a b).resolve_left h.1), h'⟩, And.right⟩
  sup_le {a b c} _ _ _ := by
    show smtLe (smtMax a b) c ↔ _
    rcases smtMax_cases (α := Pair) Pair.branch_pos Pair.branch_neg a b with h | h
    · rw [h.2]; exact ⟨fun h' => ⟨h', Pair.le_trans h.1 h'⟩, And.left⟩
    · rw [h.2]; exact ⟨fun h' => ⟨Pair.le_trans ((Pair.le_total b a).resolve_left h.1) h', h'⟩, And.right⟩

/-- Datatype values are valid if they are infinite or nonnegative. -/
def Data.Valid : Data → Prop
  | .inf => True
  | .real r => 0 ≤ r

section
variable [Data.Junk]

theorem Data.smtLe_iff (a b : Data) : smtLe a b ↔ b = .inf ∨ ∃ r s, a = .real r ∧ b = .real s ∧ r ≤ s := by
  show (b.isInfinity ∨ (a.isReal ∧ a.getUReal ≤ b.getUReal)) ↔ _
  cases a <;> cases b <;> simp [Data.isInfinity, Data.isReal, Data.getUReal]

theorem Data.le_total (a b : Data) : smtLe a b ∨ smtLe b a := by
  rw [smtLe_iff, smtLe_iff]
  cases a <;> cases b <;> simp [_root_.le_total]

theorem Data.le_trans {a b c : Data} (h1 : smtLe a b) (h2 : smtLe b c) : smtLe a c := by
  rw [smtLe_iff] at *
  cases a <;> cases b <;> cases c <;> simp_all
  exact h1.trans h2

theorem Data.le_antisymm {a b : Data} (h1 : smtLe a b) (h2 : smtLe b a) : a = b := by
  rw [smtLe_iff] at *
  cases a <;> cases b <;> simp_all
  exact _root_.le_antisymm h1 h2

theorem Data.branch_pos {c : Prop} (a b : Data) (h : c) : branch c a b = a := if_pos h
theorem Data.branch_neg {c : Prop} (a b : Data) (h : ¬ c) : branch c a b = b := if_neg h

theorem Data.ge_iff (a b : Data) : PartialOrd.cmp a b .greaterOrEqual ↔ smtLe b a := by
  show (¬ smtLe a b ∨ a = b) ↔ _
  constructor
  · rintro (h | rfl)
    · exact (le_total a b).resolve_left h
    · exact (le_total a a).elim id id
  · intro h
    by_cases h' : smtLe a b
    · exact Or.inr (le_antisymm h' h)
    · exact Or.inl h'

theorem linearLat_data : LinearLat Data Data.Valid where
  refl {a} _ := (Data.le_total a a).elim id id
  trans _ _ _ h1 h2 := Data.le_trans h1 h2
  total {a b} _ _ := Data.le_total a b
  less {a b} _ _ := by
    show (smtLe a b ∧ ¬ a = b) ↔ _
    exact ⟨fun h h' => h.2 (Data.le_antisymm h.1 h'),
      fun h => ⟨(Data.le_total a b).resolve_right h, fun e => h (e ▸ (Data.le_total a a).elim id id)⟩⟩
  equal {a b} _ _ := by
    show (a = b) ↔ _
    exact ⟨fun e => e ▸ ⟨(Data.le_total a a).elim id id, (Data.le_total a a).elim id id⟩,
      fun h => Data.le_antisymm h.1 h.2⟩
  greaterOrEqual {a b} _ _ := Data.ge_iff a b
  greater _ _ := Iff.rfl
  branch_pos a b h := if_pos h
  branch_neg a b h := if_neg h
  valid_bot := le_refl (0 : ℝ)
  valid_top := trivial
  valid_inf {a b} ha hb := by
    show (smtMin a b).Valid
    rcases smtMin_cases (α := Data) Data.branch_pos Data.branch_neg a b with h | h
    · rw [h.2]; exact ha
    · rw [h.2]; exact hb
  valid_sup {a b} ha hb := by
    show (smtMax a b).Valid
    rcases smtMax_cases (α := Data) Data.branch_pos Data.branch_neg a b with h | h
    · rw [h.2]; exact ha
    · rw [h.2]; exact hb
  bot_le {a} ha := by
    rw [Data.smtLe_iff]
    cases a with
    | inf => exact Or.inl rfl
    | real r => exact Or.inr ⟨0, r, rfl, rfl, ha⟩
  le_top {a} _ := (Data.smtLe_iff _ _).2 (Or.inl rfl)
  le_inf {a b c} _ _ _ := by
    show smtLe c (smtMin a b) ↔ _
    rcases smtMin_cases (α := Data) Data.branch_pos Data.branch_neg a b with h | h
    · rw [h.2]; exact ⟨fun h' => ⟨h', Data.le_trans h' h.1⟩, And.left⟩
    · rw [h.2]; exact ⟨fun h' => ⟨Data.le_trans h' ((Data.le_total a b).resolve_left h.1), h'⟩, And.right⟩
  sup_le {a b c} _ _ _ := by
    show smtLe (smtMax a b) c ↔ _
    rcases smtMax_cases (α := Data) Data.branch_pos Data.branch_neg a b with h | h
    · rw [h.2]; exact ⟨fun h' => ⟨h', Data.le_trans ((Data.ge_iff a b).1 h.1) h'⟩, And.left⟩
    · rw [h.2]
      have h1 : smtLe a b := (Data.le_total a b).resolve_right fun h' => h.1 ((Data.ge_iff a b).2 h')
      exact ⟨fun h' => ⟨Data.le_trans h1 h', h'⟩, And.right⟩

end

theorem linearLat_opp {α : Type} [Lat α] {valid : α → Prop} (h : LinearLat α valid) :
    LinearLat (Opp α) (fun a => valid a.val) where
  refl ha := (h.greaterOrEqual ha ha).2 (h.refl ha)
  trans ha hb hc h1 h2 := (h.greaterOrEqual ha hc).2
    (h.trans hc hb ha ((h.greaterOrEqual hb hc).1 h2) ((h.greaterOrEqual ha hb).1 h1))
  total ha hb := (h.total hb ha).imp (h.greaterOrEqual ha hb).2 (h.greaterOrEqual hb ha).2
  less ha hb := (h.greater ha hb).trans (not_congr (h.greaterOrEqual hb ha).symm)
  equal ha hb := (h.equal ha hb).trans
    (and_comm.trans (and_congr (h.greaterOrEqual ha hb).symm (h.greaterOrEqual hb ha).symm))
  greaterOrEqual ha hb := (h.greaterOrEqual hb ha).symm
  greater ha hb := (h.less ha hb).trans (not_congr (h.greaterOrEqual ha hb).symm)
  branch_pos a b hc := congrArg Opp.mk (h.branch_pos a.val b.val hc)
  branch_neg a b hc := congrArg Opp.mk (h.branch_neg a.val b.val hc)
  valid_bot := h.valid_top
  valid_top := h.valid_bot
  valid_inf := h.valid_sup
  valid_sup := h.valid_inf
  bot_le ha := (h.greaterOrEqual h.valid_top ha).2 (h.le_top ha)
  le_top ha := (h.greaterOrEqual ha h.valid_bot).2 (h.bot_le ha)
  le_inf ha hb hc := (h.greaterOrEqual hc (h.valid_sup ha hb)).trans ((h.sup_le ha hb hc).trans
    (and_congr (h.greaterOrEqual hc ha).symm (h.greaterOrEqual hc hb).symm))
  sup_le ha hb hc := (h.greaterOrEqual (h.valid_inf ha hb) hc).trans ((h.le_inf ha hb hc).trans
    (and_congr (h.greaterOrEqual ha hc).symm (h.greaterOrEqual hb hc).symm))

/-! ## The laws -/

section
variable {α : Type} [Lat α] {valid : α → Prop} (h : LinearLat α valid)
include h

theorem implication_cases {a b : α} : (smtLe a b ∧ implication a b = Lat.top) ∨ (¬ smtLe a b ∧ implication a b = b) := by
  by_cases hab : smtLe a b
  · exact Or.inl ⟨hab, h.branch_pos _ _ hab⟩
  · exact Or.inr ⟨hab, h.branch_neg _ _ hab⟩

theorem valid_implication {a b : α} (hb : valid b) : valid (implication a b) := by
  rcases implication_cases h (a := a) (b := b) with h' | h'
  · rw [h'.2]; exact h.valid_top
  · rw [h'.2]; exact hb

theorem valid_coimplication {a b : α} (hb : valid b) : valid (coimplication a b) :=
  valid_implication (linearLat_opp h) (a := ⟨a⟩) (b := ⟨b⟩) hb

theorem inf_le_iff' {a b c : α} (ha : valid a) (hb : valid b) (hc : valid c) :
    smtLe (Lat.inf a b) c ↔ smtLe a c ∨ smtLe b c := by
  have hi := h.valid_inf ha hb
  have hle := (h.le_inf ha hb hi).1 (h.refl hi)
  constructor
  · intro h'
    rcases h.total ha hb with hab | hba
    · exact Or.inl (h.trans ha hi hc ((h.le_inf ha hb ha).2 ⟨h.refl ha, hab⟩) h')
    · exact Or.inr (h.trans hb hi hc ((h.le_inf ha hb hb).2 ⟨hba, h.refl hb⟩) h')
  · rintro (h' | h')
    · exact h.trans hi ha hc hle.1 h'
    · exact h.trans hi hb hc hle.2 h'

/-- The implication is the residual of the infimum: `c ≤ (a → b)` iff `c ⊓ a ≤ b`. -/
theorem C11_implication_residual {a b c : α} (ha : valid a) (hb : valid b) (hc : valid c) :
    smtLe c (implication a b) ↔ smtLe (Lat.inf c a) b := by
  rw [inf_le_iff' h hc ha hb]
  rcases implication_cases h (a := a) (b := b) with h' | h'
  · rw [h'.2]; exact iff_of_true (h.le_top hc) (Or.inr h'.1)
  · rw [h'.2]; exact ⟨Or.inl, fun h'' => h''.resolve_right h'.1⟩

/-- The co-implication is the residual of the supremum: `(a ← b) ≤ c` iff `b ≤ c ⊔ a`. -/
theorem C11_coimplication_residual {a b c : α} (ha : valid a) (hb : valid b) (hc : valid c) :
    smtLe (coimplication a b) c ↔ smtLe b (Lat.sup c a) := by
  have h1 := C11_implication_residual (linearLat_opp h) (a := ⟨a⟩) (b := ⟨b⟩) (c := ⟨c⟩) ha hb hc
  exact (h.greaterOrEqual hc (valid_coimplication h hb)).symm.trans
    (h1.trans (h.greaterOrEqual (h.valid_sup hc ha) hb))

/-- `compare` is the two-valued version of the implication. -/
theorem C11_compare {a b : α} :
    (smtLe a b → compare a b = Lat.top) ∧ (¬ smtLe a b → compare a b = Lat.bot) :=
  ⟨h.branch_pos _ _, h.branch_neg _ _⟩

/-- `cocompare` is the two-valued version of the co-implication. -/
theorem C11_cocompare {a b : α} (ha : valid a) (hb : valid b) :
    (smtLe b a → cocompare a b = Lat.bot) ∧ (¬ smtLe b a → cocompare a b = Lat.top) := by
  have h1 := C11_compare (linearLat_opp h) (a := ⟨a⟩) (b := ⟨b⟩)
  refine ⟨fun hle => congrArg Opp.val (h1.1 ((h.greaterOrEqual ha hb).2 hle)), fun hle => congrArg Opp.val (h1.2 ?_)⟩
  exact fun h' => hle ((h.greaterOrEqual ha hb).1 h')

/-- The comparison is the greatest two-valued element below the implication. -/
theorem C11_compare_implication {a b : α} (ha : valid a) (hb : valid b) :
    smtLe (compare a b) (implication a b) ∧
      (smtLe Lat.top (implication a b) → smtLe Lat.top (compare a b)) := by
  have hv := valid_implication h (a := a) hb
  by_cases hab : smtLe a b
  · rw [(C11_compare h).1 hab]
    rcases implication_cases h (a := a) (b := b) with h' | h'
    · rw [h'.2]; exact ⟨h.refl h.valid_top, id⟩
    · exact absurd hab h'.1
  · rw [(C11_compare h).2 hab]
    refine ⟨h.bot_le hv, fun h' => ?_⟩
    rcases implication_cases h (a := a) (b := b) with h2 | h2
    · exact absurd h2.1 hab
    · rw [h2.2] at h'
      exact absurd (h.trans ha h.valid_top hb (h.le_top ha) h') hab

omit h in
/-- Negation is implication with bottom. -/
theorem C11_negate (a : α) : negate a = implication a (Lat.bot : α) := rfl

omit h in
/-- Co-negation is co-implication with top. -/
theorem C11_conegate (a : α) : conegate a = coimplication a (Lat.top : α) := rfl

/-- Values of the negation: top on bottom, bottom elsewhere. -/
theorem C11_negate_values {a : α} :
    (smtLe a Lat.bot → negate a = Lat.top) ∧ (¬ smtLe a Lat.bot → negate a = Lat.bot) :=
  ⟨h.branch_pos _ _, h.branch_neg _ _⟩

/-- Values of the co-negation: bottom on top, top elsewhere. -/
theorem C11_conegate_values {a : α} (ha : valid a) :
    (smtLe Lat.top a → conegate a = Lat.bot) ∧ (¬ smtLe Lat.top a → conegate a = Lat.top) := by
  have h1 := C11_negate_values (linearLat_opp h) (a := ⟨a⟩)
  exact ⟨fun hle => congrArg Opp.val (h1.1 ((h.greaterOrEqual ha h.valid_top).2 hle)),
    fun hle => congrArg Opp.val (h1.2 fun h' => hle ((h.greaterOrEqual ha h.valid_top).1 h'))⟩

/-- Every operator is the dual of its co-version: in the lattice with the reversed order the implication is the
co-implication and vice versa, and so on. -/
theorem C11_duality (a b : α) (hb : valid b) :
    (implication (⟨a⟩ : Opp α) ⟨b⟩).val = coimplication a b ∧
    Equiv ((coimplication (⟨a⟩ : Opp α) ⟨b⟩).val) (implication a b) ∧
    (compare (⟨a⟩ : Opp α) ⟨b⟩).val = cocompare a b ∧
    Equiv ((cocompare (⟨a⟩ : Opp α) ⟨b⟩).val) (compare a b) ∧
    (negate (⟨a⟩ : Opp α)).val = conegate a ∧
    Equiv ((conegate (⟨a⟩ : Opp α)).val) (negate a) := by
  have equiv_of_eq : ∀ {x y : α}, valid y → x = y → Equiv x y := fun hy e => e ▸ ⟨h.refl (e ▸ hy), h.refl (e ▸ hy)⟩
  have hv : valid (compare a b) := by
    by_cases hab : smtLe a b
    · rw [(C11_compare h).1 hab]; exact h.valid_top
    · rw [(C11_compare h).2 hab]; exact h.valid_bot
  exact ⟨rfl, equiv_of_eq (valid_implication h hb) rfl, rfl, equiv_of_eq hv rfl, rfl,
    equiv_of_eq (valid_implication h h.valid_bot) rfl⟩

end

/-! ## Non-vacuity: the laws apply to every lattice type of the SMT layer -/

example : LinearLat Prop (fun _ => True) := linearLat_bool
example : LinearLat Pair Pair.Valid := linearLat_pair
example [Data.Junk] : LinearLat Data Data.Valid := linearLat_data
example : LinearLat (Opp Pair) (fun a => Pair.Valid a.val) := linearLat_opp linearLat_pair
example : implication (Pair.fromUReal 5) (Pair.fromUReal 3) = Pair.fromUReal 3 :=
  linearLat_pair.branch_neg _ _ (by rw [Pair.smtLe_iff]; norm_num [Pair.fromUReal])

end Caesar.Smt
