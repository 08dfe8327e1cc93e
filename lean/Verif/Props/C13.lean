import Verif.Smt.EURealLemmas

/-!
# C13: the two encodings of extended reals are equivalent
-/

open scoped ENNReal NNReal

namespace Caesar.Smt

variable [Data.Junk]
set_option linter.unusedSectionVars false

theorem abs_pairToData (p : Pair) : (pairToData p).abs = p.abs := by
  by_cases h : p.isInf
  · rw [Pair.abs_inf h, show pairToData p = _ from Data.branch_pos _ _ h]; rfl
  · rw [Pair.abs_fin h, show pairToData p = _ from Data.branch_neg _ _ h]; rfl

theorem abs_dataToPair (d : Data) : (dataToPair d).abs = d.abs := by
  cases d with
  | inf => rw [show dataToPair .inf = _ from Pair.branch_pos _ _ trivial]; exact Pair.abs_inf trivial
  | real r => rw [show dataToPair (.real r) = _ from Pair.branch_neg _ _ id]; exact Pair.abs_fin id

theorem valid_pairToData {p : Pair} (hp : p.Valid) : (pairToData p).Valid := by
  by_cases h : p.isInf
  · rw [show pairToData p = _ from Data.branch_pos _ _ h]; trivial
  · rw [show pairToData p = _ from Data.branch_neg _ _ h]; exact hp

theorem valid_dataToPair {d : Data} (hd : d.Valid) : (dataToPair d).Valid := by
  cases d with
  | inf => rw [show dataToPair .inf = _ from Pair.branch_pos _ _ trivial]; exact zero_le_one (α := ℝ)
  | real r => rw [show dataToPair (.real r) = _ from Pair.branch_neg _ _ id]; exact hd

/-- The conversions are mutually inverse up to equality of the encodings, for all terms whose number is nonnegative
(which all variables and all operations guarantee). -/
theorem C13_inverse :
    (∀ p : Pair, 0 ≤ p.num → p.smtEq (dataToPair (pairToData p))) ∧
    (∀ d : Data, d.smtEq (pairToData (dataToPair d))) := by
  refine ⟨fun p hp => ?_, fun d => ?_⟩
  · rw [Pair.smtEq_iff hp (valid_dataToPair (valid_pairToData hp)), abs_dataToPair, abs_pairToData]
  · show d = _
    cases d with
    | inf =>
      rw [show dataToPair .inf = _ from Pair.branch_pos _ _ trivial]
      exact (Data.branch_pos _ _ trivial).symm
    | real r =>
      rw [show dataToPair (.real r) = _ from Pair.branch_neg _ _ id]
      exact (Data.branch_neg _ _ id).symm

/-- A binary operator commutes with both conversions. -/
def Commutes (opP : Pair → Pair → Pair) (opD : Data → Data → Data) (a b : Pair) : Prop :=
  (opP a b).smtEq (dataToPair (opD (pairToData a) (pairToData b))) ∧
  (opD (pairToData a) (pairToData b)).smtEq (pairToData (opP a b))

theorem commutes_of_abs {opP : Pair → Pair → Pair} {opD : Data → Data → Data} {a b : Pair}
    (h1 : (opP a b).Valid) (h2 : (opD (pairToData a) (pairToData b)).Valid)
    (h : (opP a b).abs = (opD (pairToData a) (pairToData b)).abs) : Commutes opP opD a b := by
  refine ⟨?_, ?_⟩
  · rw [Pair.smtEq_iff h1 (valid_dataToPair h2), abs_dataToPair, h]
  · show _ = _
    rw [Data.eq_iff h2 (valid_pairToData h1), abs_pairToData, h]

/-- All operators except subtraction commute with the conversions, and the comparisons agree. -/
theorem C13_operators_partial (a b : Pair) (ha : 0 ≤ a.num) (hb : 0 ≤ b.num) :
    Commutes Pair.add Data.add a b ∧ Commutes Pair.mul Data.mul a b ∧
    Commutes Lat.inf Lat.inf a b ∧ Commutes Lat.sup Lat.sup a b ∧
    Commutes implication implication a b ∧ Commutes coimplication coimplication a b ∧
    Commutes compare compare a b ∧ Commutes cocompare cocompare a b ∧
    Commutes (fun a _ => negate a) (fun a _ => negate a) a b ∧
    Commutes (fun a _ => conegate a) (fun a _ => conegate a) a b ∧
    (∀ o, PartialOrd.cmp a b o ↔ PartialOrd.cmp (pairToData a) (pairToData b) o) := by
  have ha' := valid_pairToData ha
  have hb' := valid_pairToData hb
  have ea := abs_pairToData a
  have eb := abs_pairToData b
  have hP := linearLat_pair
  have hD := linearLat_data
  have hcmp : ∀ o, PartialOrd.cmp a b o ↔ PartialOrd.cmp (pairToData a) (pairToData b) o := by
    intro o
    rw [Pair.cmp_iff ha hb, Data.cmp_iff ha' hb', ea, eb]
  have eT : (Lat.top : Data).abs = ⊤ := rfl
  have eB : (Lat.bot : Data).abs = 0 := ENNReal.ofReal_zero
  have hbr : ∀ {c c' : Prop} {x y : Pair} {x' y' : Data}, (c ↔ c') → x.Valid → y.Valid → x'.Valid → y'.Valid →
      x.abs = x'.abs → y.abs = y'.abs → (branch c x y).Valid ∧ (branch c' x' y').Valid ∧
      (branch c x y).abs = (branch c' x' y').abs := by
    intro c c' x y x' y' hc hx hy hx' hy' e1 e2
    by_cases h : c
    · rw [Pair.branch_pos _ _ h, Data.branch_pos _ _ (hc.1 h)]; exact ⟨hx, hx', e1⟩
    · rw [Pair.branch_neg _ _ h, Data.branch_neg _ _ fun h' => h (hc.2 h')]; exact ⟨hy, hy', e2⟩
  have comm : ∀ {opP : Pair → Pair → Pair} {opD : Data → Data → Data}, ((opP a b).Valid ∧ (opD (pairToData a) (pairToData b)).Valid ∧
      (opP a b).abs = (opD (pairToData a) (pairToData b)).abs) → Commutes opP opD a b :=
    fun h => commutes_of_abs h.1 h.2.1 h.2.2
  have hneg : smtLe a Lat.bot ↔ smtLe (pairToData a) Lat.bot := by
    rw [Pair.le_iff hP.valid_bot, Data.le_iff hD.valid_bot, ea, eB, Pair.abs_bot]
  have hcon : PartialOrd.cmp a (Lat.top : Pair) .greaterOrEqual ↔ PartialOrd.cmp (pairToData a) (Lat.top : Data) .greaterOrEqual := by
    rw [Pair.cmp_iff ha hP.valid_top, Data.cmp_iff ha' hD.valid_top, ea, eT, Pair.abs_top]
  exact ⟨comm ⟨add_nonneg ha hb, Data.valid_add ha' hb', by rw [Pair.abs_add ha hb, Data.abs_add ha' hb', ea, eb]⟩,
    comm ⟨mul_nonneg ha hb, Data.valid_mul ha' hb', by rw [Pair.abs_mul ha hb, Data.abs_mul ha' hb', ea, eb]⟩,
    comm (hbr (hcmp .lessOrEqual) ha hb ha' hb' ea.symm eb.symm),
    comm (hbr (hcmp .greaterOrEqual) ha hb ha' hb' ea.symm eb.symm),
    comm (hbr (hcmp .lessOrEqual) hP.valid_top hb hD.valid_top hb' Pair.abs_top eb.symm),
    comm (hbr (hcmp .greaterOrEqual) hP.valid_bot hb hD.valid_bot hb' (Pair.abs_bot.trans eB.symm) eb.symm),
    comm (hbr (hcmp .lessOrEqual) hP.valid_top hP.valid_bot hD.valid_top hD.valid_bot Pair.abs_top (Pair.abs_bot.trans eB.symm)),
    comm (hbr (hcmp .greaterOrEqual) hP.valid_bot hP.valid_top hD.valid_bot hD.valid_top (Pair.abs_bot.trans eB.symm) Pair.abs_top),
    comm (hbr hneg hP.valid_top hP.valid_bot hD.valid_top hD.valid_bot Pair.abs_top (Pair.abs_bot.trans eB.symm)),
    comm (hbr hcon hP.valid_bot hP.valid_top hD.valid_bot hD.valid_top (Pair.abs_bot.trans eB.symm) Pair.abs_top),
    hcmp⟩

/-- Subtraction commutes with the conversions if the subtrahend is finite. -/
theorem C13_sub_partial (a b : Pair) (hb : 0 ≤ b.num) (hfin : ¬ b.isInf) :
    Commutes Pair.sub Data.sub a b :=
  commutes_of_abs (realMonus_nonneg _ _) Data.valid_sub (by
    rw [Pair.abs_sub hb hfin, Data.abs_sub (valid_pairToData hb), abs_pairToData, abs_pairToData])

/-- The full property for subtraction. -/
def C13_sub_full : Prop := ∀ a b : Pair, Invariant.inv a → Invariant.inv b → Commutes Pair.sub Data.sub a b

/-- It fails: `5 - ∞` is `4` in one encoding and `0` in the other one, although both operands satisfy the invariants of
variables. -/
theorem C13_sub_not_full : ¬ C13_sub_full := by
  intro h
  have h1 := (h (Pair.fromUReal 5) Pair.infinity ⟨by norm_num [Pair.fromUReal], fun h => h.elim⟩
    ⟨zero_le_one (α := ℝ), fun _ => rfl⟩).2
  have h2 : Data.sub (pairToData (Pair.fromUReal 5)) (pairToData Pair.infinity) = Data.real 0 := by
    rw [show pairToData Pair.infinity = _ from Data.branch_pos _ _ trivial]
    exact Data.branch_pos _ _ trivial
  have h3 : pairToData ((Pair.fromUReal 5).sub Pair.infinity) = Data.real 4 := by
    rw [show pairToData ((Pair.fromUReal 5).sub Pair.infinity) = _ from Data.branch_neg _ _ (fun h => h.1)]
    show Data.real (realMonus 5 1) = _
    unfold realMonus smtIte
    rw [if_pos (by norm_num)]
    norm_num
  rw [h2, h3] at h1
  have h4 : (0 : ℝ) = 4 := by injection h1
  norm_num at h4

/-- Non-vacuity. -/
example : 0 ≤ (Pair.fromUReal 5).num ∧ 0 ≤ Pair.infinity.num ∧ Invariant.inv Pair.infinity :=
  ⟨by norm_num [Pair.fromUReal], zero_le_one (α := ℝ), zero_le_one (α := ℝ), fun _ => rfl⟩

end Caesar.Smt
