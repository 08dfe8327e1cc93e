import Verif.Opt.ConstFold
import Verif.Witness
import Mathlib.Data.ENNReal.Real

/-!
# C45: constant folding preserves values
-/

open scoped ENNReal NNReal

set_option linter.unusedSectionVars false

namespace Caesar

open Smt (Concrete)

/-- The full property: constant folding does not panic, and the value is unchanged in all states. -/
def C45_full : Prop := ∀ (_ : Doms) (_ : Interp) (t : Ty) (e : Expr t),
  ∃ e', e.constFold = some e' ∧ ∀ σ : Env, e'.eval σ = e.eval σ

/-- `0 - x` is folded to `x`. -/
theorem C45_not_full : ¬ C45_full := by
  intro h
  let _ := unitDoms
  let _ := unitInterp
  obtain ⟨e', he, hv⟩ := h unitDoms unitInterp .uint (.bin (.sub rfl) (.lit (.uint 0)) (.var ⟨"x", 0⟩))
  have : e' = .var ⟨"x", 0⟩ := (Option.some.inj he).symm
  subst this
  have := hv (zeroEnv.upd ⟨⟨"x", 0⟩, .uint⟩ (1 : ℕ))
  have h1 : (zeroEnv.upd ⟨⟨"x", 0⟩, .uint⟩ (1 : ℕ)) ⟨⟨"x", 0⟩, .uint⟩ = (1 : ℕ) := Env.upd_same _ _ _
  have h2 : (1 : ℕ) = 0 - 1 := h1.symm.trans (this.trans (congrArg (fun n : ℕ => 0 - n) h1))
  omega

/-- `0 ⊔ x` on `Int` is folded to `x`. -/
theorem C45_not_full_sup : ∃ e : Expr .int, ∃ e', e.constFold = some e' ∧ ¬ ∀ (_ : Doms) (_ : Interp) (σ : Env), e'.eval σ = e.eval σ := by
  refine ⟨.bin (.sup rfl) (.cast .uintInt (.lit (.uint 0))) (.var ⟨"x", 0⟩), .var ⟨"x", 0⟩, rfl, fun h => ?_⟩
  let _ := unitDoms
  let _ := unitInterp
  have := h unitDoms unitInterp (zeroEnv.upd ⟨⟨"x", 0⟩, .int⟩ (-1 : ℤ))
  have h1 : (zeroEnv.upd ⟨⟨"x", 0⟩, .int⟩ (-1 : ℤ)) ⟨⟨"x", 0⟩, .int⟩ = (-1 : ℤ) := Env.upd_same _ _ _
  have h2 : Ty.sup .int ((0 : ℕ) : ℤ) (-1 : ℤ) = (0 : ℤ) := if_neg (by show ¬ (((0 : ℕ) : ℤ) ≤ -1); omega)
  have h3 : (-1 : ℤ) = 0 := h1.symm.trans (this.trans ((congrArg (fun n : ℤ => Ty.sup .int ((0 : ℕ) : ℤ) n) h1).trans h2))
  omega

/-- `0 ⊓ x` on `Int` panics. -/
theorem C45_not_full_inf : ∃ e : Expr .int, e.constFold = none :=
  ⟨.bin (.inf rfl) (.cast .uintInt (.lit (.uint 0))) (.var ⟨"x", 0⟩), rfl⟩

section
variable [Doms] [Interp]

/-- The expression has the value zero in all states. -/
def Expr.ConstZero {t : Ty} (e : Expr t) : Prop := ∀ σ : Env, e.eval σ = t.default

/-- The excluded expressions: differences and quotients whose left operand is constantly zero (unless the right one is constantly zero,
respectively never zero), and `⊓`, `⊔` on signed types with an operand which is constantly zero. -/
def Expr.FoldSafe : {t : Ty} → Expr t → Prop
  | _, .var _ => True
  | _, .lit _ => True
  | _, .call _ args => ∀ i, (args i).FoldSafe
  | _, .ite c a b => c.FoldSafe ∧ a.FoldSafe ∧ b.FoldSafe
  | _, .bin (.sub _) a b => a.FoldSafe ∧ b.FoldSafe ∧ (a.ConstZero → b.ConstZero)
  | t, .bin (.div _) a b => a.FoldSafe ∧ b.FoldSafe ∧ (a.ConstZero → ∀ σ : Env, b.eval σ ≠ t.default)
  | t, .bin (.inf _) a b => a.FoldSafe ∧ b.FoldSafe ∧ (t = .int ∨ t = .real → ¬ a.ConstZero ∧ ¬ b.ConstZero)
  | t, .bin (.sup _) a b => a.FoldSafe ∧ b.FoldSafe ∧ (t = .int ∨ t = .real → ¬ a.ConstZero ∧ ¬ b.ConstZero)
  | _, .bin _ a b => a.FoldSafe ∧ b.FoldSafe
  | _, .rel _ a b => a.FoldSafe ∧ b.FoldSafe
  | _, .un _ a => a.FoldSafe
  | _, .embed a => a.FoldSafe
  | _, .iverson a => a.FoldSafe
  | _, .cast _ a => a.FoldSafe
  | _, .quant _ _ _ a => a.FoldSafe
  | _, .subst _ e a => e.FoldSafe ∧ a.FoldSafe

/-- A value of a numeric type is the given concrete number. -/
def IsNum : (t : Ty) → t.den → Concrete → Prop
  | .uint, v, .real q => (fun n : ℕ => (n : ℝ) = (q : ℝ)) v
  | .int, v, .real q => (fun n : ℤ => (n : ℝ) = (q : ℝ)) v
  | .ureal, v, .real q => (fun n : ℝ≥0 => (n : ℝ) = (q : ℝ)) v
  | .real, v, .real q => (fun n : ℝ => n = (q : ℝ)) v
  | .eureal, v, .real q => (fun n : ℝ≥0∞ => 0 ≤ q ∧ n = ENNReal.ofReal q) v
  | .eureal, v, .infinity => (fun n : ℝ≥0∞ => n = ⊤) v
  | _, _, _ => False

theorem isNum_unique {t : Ty} {v w : t.den} {c : Concrete} (h : IsNum t v c) (h' : IsNum t w c) : v = w := by
  cases c with
  | real q =>
    cases t with
    | uint => exact Nat.cast_injective (R := ℝ) (h.trans h'.symm)
    | int => exact Int.cast_injective (α := ℝ) (h.trans h'.symm)
    | ureal => exact NNReal.coe_injective (h.trans h'.symm)
    | real => exact h.trans h'.symm
    | eureal => exact h.2.trans h'.2.symm
    | _ => exact h.elim
  | infinity =>
    cases t with
    | eureal => exact h.trans h'.symm
    | _ => exact h.elim

theorem isNum_cast {s t : Ty} (c : CastOp s t) {v : s.den} {x : Concrete} (h : IsNum s v x) : IsNum t (c.den v) x := by
  cases x with
  | infinity => cases c <;> exact h.elim
  | real q =>
    have nn : ∀ r : ℝ, 0 ≤ r → r = (q : ℝ) → 0 ≤ q := fun r hr he => by
      have : (0 : ℝ) ≤ (q : ℝ) := he ▸ hr
      exact_mod_cast this
    cases c with
    | uintInt =>
      have key : ∀ n : ℕ, (n : ℝ) = (q : ℝ) → (((n : ℤ) : ℝ) : ℝ) = (q : ℝ) := fun n h => by rw [← h]; norm_cast
      exact key v h
    | uintUReal =>
      have key : ∀ n : ℕ, (n : ℝ) = (q : ℝ) → (((n : ℝ≥0) : ℝ) : ℝ) = (q : ℝ) := fun n h => by rw [← h]; norm_cast
      exact key v h
    | uintReal => exact h
    | uintEUReal =>
      have key : ∀ n : ℕ, (n : ℝ) = (q : ℝ) → 0 ≤ q ∧ ((n : ℝ≥0∞) : ℝ≥0∞) = ENNReal.ofReal q := fun n h =>
        ⟨nn _ (Nat.cast_nonneg n) h, by rw [← h, ENNReal.ofReal_natCast]⟩
      exact key v h
    | intReal => exact h
    | urealReal => exact h
    | urealEUReal =>
      have key : ∀ r : ℝ≥0, (r : ℝ) = (q : ℝ) → 0 ≤ q ∧ ((r : ℝ≥0∞) : ℝ≥0∞) = ENNReal.ofReal q := fun r h =>
        ⟨nn _ r.2 h, by rw [← h, ENNReal.ofReal_coe_nnreal]⟩
      exact key v h

/-- The number denoted by a literal kind. -/
def LitKind.number : LitKind → Option Concrete
  | .uint n => some (.real n)
  | .frac q => some (.real q)
  | .infinity => some .infinity
  | .bool _ => none

theorem constNumber_eq {t : Ty} (e : Expr t) : e.constNumber = e.derefLit.bind LitKind.number := by
  unfold Expr.constNumber
  cases e.derefLit with
  | none => rfl
  | some k => cases k <;> rfl

theorem lit_number {t : Ty} (l : Lit t) {c : Concrete} (h : l.kind.number = some c) : IsNum t l.den c := by
  cases l with
  | bool b => cases h
  | uint n =>
    cases h
    show ((n : ℕ) : ℝ) = (((n : ℕ) : ℚ) : ℝ)
    norm_cast
  | ufrac q =>
    cases h
    show (((q : ℝ≥0) : ℝ≥0) : ℝ) = (((q : ℚ)) : ℝ)
    norm_cast
  | rfrac q =>
    cases h
    show ((q : ℝ≥0) : ℝ) = (((q : ℚ)) : ℝ)
    norm_cast
  | efrac q =>
    cases h
    refine ⟨q.2, ?_⟩
    show (((q : ℝ≥0) : ℝ≥0∞)) = ENNReal.ofReal (((q : ℚ)) : ℝ)
    rw [← ENNReal.ofReal_coe_nnreal]
    norm_cast
  | infty => cases h; rfl

theorem derefLit_number {t : Ty} (e : Expr t) {k : LitKind} (h : e.derefLit = some k) {c : Concrete} (hc : k.number = some c) (σ : Env) :
    IsNum t (e.eval σ) c := by
  induction e with
  | lit l =>
    cases h
    exact lit_number l hc
  | cast c a ih => exact isNum_cast c (ih h)
  | _ => cases h

theorem constNumber_spec {t : Ty} {e : Expr t} {c : Concrete} (h : e.constNumber = some c) (σ : Env) : IsNum t (e.eval σ) c := by
  rw [constNumber_eq] at h
  cases hd : e.derefLit with
  | none => rw [hd] at h; cases h
  | some k =>
    rw [hd] at h
    exact derefLit_number e hd h σ

theorem isZeroLit_number {t : Ty} {e : Expr t} (h : e.isZeroLit = true) : e.constNumber = some (.real 0) := by
  unfold Expr.isZeroLit at h
  unfold Expr.constNumber
  revert h
  cases hd : e.derefLit with
  | none => intro h; cases h
  | some k =>
    cases k with
    | uint n =>
      intro h
      have : n = 0 := by simpa using h
      subst this
      simp
    | frac q =>
      intro h
      have : q = 0 := by simpa using h
      subst this
      simp
    | bool b => intro h; cases h
    | infinity => intro h; cases h

theorem isOneLit_number {t : Ty} {e : Expr t} (h : e.isOneLit = true) : e.constNumber = some (.real 1) := by
  unfold Expr.isOneLit at h
  unfold Expr.constNumber
  revert h
  cases hd : e.derefLit with
  | none => intro h; cases h
  | some k =>
    cases k with
    | uint n =>
      intro h
      have : n = 1 := by simpa using h
      subst this
      simp
    | frac q =>
      intro h
      have : q = 1 := by simpa using h
      subst this
      simp
    | bool b => intro h; cases h
    | infinity => intro h; cases h

theorem isNum_default {t : Ty} (h : t.isNum = true) : IsNum t t.default (.real 0) := by
  cases t with
  | uint => show ((0 : ℕ) : ℝ) = ((0 : ℚ) : ℝ); norm_cast
  | int => show ((0 : ℤ) : ℝ) = ((0 : ℚ) : ℝ); norm_cast
  | ureal => show ((0 : ℝ≥0) : ℝ) = ((0 : ℚ) : ℝ); norm_cast
  | real => show (0 : ℝ) = ((0 : ℚ) : ℝ); norm_cast
  | eureal => exact ⟨le_refl _, show (0 : ℝ≥0∞) = ENNReal.ofReal ((0 : ℚ) : ℝ) by simp⟩
  | _ => cases h

theorem isZeroLit_eval {t : Ty} (ht : t.isNum = true) {e : Expr t} (h : e.isZeroLit = true) : e.ConstZero := fun σ =>
  isNum_unique (constNumber_spec (isZeroLit_number h) σ) (isNum_default ht)

/-- The value one of a numeric type. -/
theorem isOneLit_mul {t : Ty} {e : Expr t} (h : e.isOneLit = true) (ht : t.isNum = true) (σ : Env) (v : t.den) :
    t.mul (e.eval σ) v = v ∧ t.mul v (e.eval σ) = v := by
  have := constNumber_spec (isOneLit_number h) σ
  revert this
  generalize e.eval σ = w
  cases t with
  | uint =>
    intro hw
    have key : ∀ w v : ℕ, (w : ℝ) = ((1 : ℚ) : ℝ) → (w * v : ℕ) = v ∧ (v * w : ℕ) = v := fun w v h => by
      have : w = 1 := by exact_mod_cast h
      subst this
      simp
    exact key w v hw
  | int =>
    intro hw
    have key : ∀ w v : ℤ, (w : ℝ) = ((1 : ℚ) : ℝ) → (w * v : ℤ) = v ∧ (v * w : ℤ) = v := fun w v h => by
      have : w = 1 := by exact_mod_cast h
      subst this
      simp
    exact key w v hw
  | ureal =>
    intro hw
    have key : ∀ w v : ℝ≥0, (w : ℝ) = ((1 : ℚ) : ℝ) → (w * v : ℝ≥0) = v ∧ (v * w : ℝ≥0) = v := fun w v h => by
      have : w = 1 := NNReal.coe_injective (h.trans (by norm_num))
      subst this
      simp
    exact key w v hw
  | real =>
    intro hw
    have key : ∀ w v : ℝ, w = ((1 : ℚ) : ℝ) → (w * v : ℝ) = v ∧ (v * w : ℝ) = v := fun w v h => by
      have : w = 1 := by exact_mod_cast h
      subst this
      simp
    exact key w v hw
  | eureal =>
    intro hw
    have key : ∀ w v : ℝ≥0∞, w = ENNReal.ofReal ((1 : ℚ) : ℝ) → (w * v : ℝ≥0∞) = v ∧ (v * w : ℝ≥0∞) = v := fun w v h => by
      have : w = 1 := by simpa using h
      subst this
      simp
    exact key w v hw.2
  | _ => cases ht

theorem mul_default {t : Ty} (ht : t.isNum = true) (v : t.den) : t.mul t.default v = t.default ∧ t.mul v t.default = t.default := by
  cases t with
  | uint => exact ⟨Nat.zero_mul v, Nat.mul_zero v⟩
  | int => exact ⟨Int.zero_mul v, Int.mul_zero v⟩
  | ureal => exact ⟨zero_mul (M₀ := ℝ≥0) v, mul_zero (M₀ := ℝ≥0) v⟩
  | real => exact ⟨zero_mul (M₀ := ℝ) v, mul_zero (M₀ := ℝ) v⟩
  | eureal => exact ⟨zero_mul (M₀ := ℝ≥0∞) v, mul_zero (M₀ := ℝ≥0∞) v⟩
  | _ => cases ht

theorem add_default {t : Ty} (ht : t.isNum = true) (v : t.den) : t.add t.default v = v ∧ t.add v t.default = v := by
  cases t with
  | uint => exact ⟨Nat.zero_add v, Nat.add_zero v⟩
  | int => exact ⟨Int.zero_add v, Int.add_zero v⟩
  | ureal => exact ⟨zero_add (M := ℝ≥0) v, add_zero (M := ℝ≥0) v⟩
  | real => exact ⟨zero_add (M := ℝ) v, add_zero (M := ℝ) v⟩
  | eureal => exact ⟨zero_add (M := ℝ≥0∞) v, add_zero (M := ℝ≥0∞) v⟩
  | _ => cases ht

theorem sub_default {t : Ty} (ht : t.isNum = true) (v : t.den) : t.sub v t.default = v := by
  cases t with
  | uint => exact Nat.sub_zero v
  | int => exact Int.sub_zero v
  | ureal => exact tsub_zero (α := ℝ≥0) v
  | real => exact sub_zero (G := ℝ) v
  | eureal => exact tsub_zero (α := ℝ≥0∞) v
  | _ => cases ht

theorem div_one' {t : Ty} (ht : t.isFrac = true) {e : Expr t} (h : e.isOneLit = true) (σ : Env) (v : t.den) : t.div v (e.eval σ) = v := by
  have := constNumber_spec (isOneLit_number h) σ
  revert this
  generalize e.eval σ = w
  cases t with
  | ureal =>
    intro hw
    have key : ∀ w v : ℝ≥0, (w : ℝ) = ((1 : ℚ) : ℝ) → Ty.div .ureal v w = v := fun w v h => by
      have : w = 1 := NNReal.coe_injective (h.trans (by norm_num))
      subst this
      exact (if_neg one_ne_zero).trans (div_one v)
    exact key w v hw
  | real =>
    intro hw
    have key : ∀ w v : ℝ, w = ((1 : ℚ) : ℝ) → Ty.div .real v w = v := fun w v h => by
      have : w = 1 := by exact_mod_cast h
      subst this
      exact (if_neg one_ne_zero).trans (div_one v)
    exact key w v hw
  | _ => cases ht

theorem zero_div' {t : Ty} (ht : t.isFrac = true) (v : t.den) (hv : v ≠ t.default) : t.div t.default v = t.default := by
  cases t with
  | ureal => exact (if_neg hv).trans (zero_div (G₀ := ℝ≥0) v)
  | real => exact (if_neg hv).trans (zero_div (G₀ := ℝ) v)
  | _ => cases ht

theorem zeroLit?_spec {t : Ty} (ht : t.isNum = true) : ∃ e, zeroLit? t = some e ∧ e.ConstZero := by
  cases t with
  | uint => exact ⟨_, rfl, isZeroLit_eval rfl rfl⟩
  | int => exact ⟨_, rfl, isZeroLit_eval rfl rfl⟩
  | ureal => exact ⟨_, rfl, isZeroLit_eval rfl rfl⟩
  | real => exact ⟨_, rfl, isZeroLit_eval rfl (by simp [Expr.isZeroLit, Expr.derefLit, Lit.kind])⟩
  | eureal => exact ⟨_, rfl, isZeroLit_eval rfl rfl⟩
  | _ => cases ht

theorem isNum_of_isFrac {t : Ty} (h : t.isFrac = true) : t.isNum = true := by cases t <;> first | rfl | cases h

/-- A bottom literal has the least value of its type, for the types which have one. -/
theorem isBotLit_default {t : Ty} {e : Expr t} (h : e.isBotLit = true) : e.ConstZero := by
  intro σ
  have lit : ∀ {t : Ty} (l : Lit t), l.isBot = true → l.den = t.default := by
    intro t l hl
    cases l with
    | bool b =>
      have : b = false := by simpa [Lit.isBot] using hl
      subst this
      exact eq_false Bool.false_ne_true
    | uint n => exact (by simpa [Lit.isBot] using hl : n = 0)
    | ufrac q =>
      have : q = 0 := by simpa [Lit.isBot] using hl
      subst this
      exact NNRat.cast_zero (α := ℝ≥0)
    | rfrac q =>
      have : q = 0 := by simpa [Lit.isBot] using hl
      subst this
      show (((0 : ℚ≥0) : ℝ≥0) : ℝ) = 0
      simp
    | efrac q =>
      have : q = 0 := by simpa [Lit.isBot] using hl
      subst this
      show (((0 : ℚ≥0) : ℝ≥0) : ℝ≥0∞) = 0
      simp
    | infty => cases hl
  cases e with
  | lit l => exact lit l h
  | cast c a =>
    cases a with
    | lit l =>
      have h1 := lit l h
      show c.den l.den = _
      rw [h1]
      cases c with
      | uintInt => exact Nat.cast_zero (R := ℤ)
      | uintUReal => exact Nat.cast_zero (R := ℝ≥0)
      | uintReal => exact Nat.cast_zero (R := ℝ)
      | uintEUReal => exact Nat.cast_zero (R := ℝ≥0∞)
      | intReal => exact Int.cast_zero (R := ℝ)
      | urealReal => exact NNReal.coe_zero
      | urealEUReal => exact ENNReal.coe_zero
    | _ => cases h
  | _ => cases h

theorem isTopLit_lat {t : Ty} {e : Expr t} (h : e.isTopLit = true) : t.isLat = true := by
  cases e with
  | lit l => cases l <;> first | rfl | cases h
  | _ => cases h

theorem default_le {t : Ty} (ht : t.isOrd = true) (h1 : t ≠ .int) (h2 : t ≠ .real) (v : t.den) : t.le t.default v := by
  cases t with
  | bool => exact False.elim
  | uint => exact Nat.zero_le v
  | int => exact absurd rfl h1
  | ureal => exact zero_le (α := ℝ≥0) (a := v)
  | real => exact absurd rfl h2
  | eureal => exact zero_le (α := ℝ≥0∞) (a := v)
  | _ => cases ht

theorem botLit?_spec {t : Ty} (ht : t.isOrd = true) (h1 : t ≠ .int) (h2 : t ≠ .real) : ∃ e, botLit? t = some e ∧ e.ConstZero := by
  cases t with
  | bool => exact ⟨_, rfl, isBotLit_default rfl⟩
  | uint => exact ⟨_, rfl, isBotLit_default rfl⟩
  | int => exact absurd rfl h1
  | ureal => exact ⟨_, rfl, isBotLit_default rfl⟩
  | real => exact absurd rfl h2
  | eureal => exact ⟨_, rfl, isBotLit_default rfl⟩
  | _ => cases ht

theorem topLit?_spec {t : Ty} (ht : t.isLat = true) : ∃ e, topLit? t = some e ∧ ∀ σ : Env, e.eval σ = t.top := by
  cases t with
  | bool => exact ⟨_, rfl, fun σ => Expr.eval_isTopLit rfl _ rfl σ⟩
  | eureal => exact ⟨_, rfl, fun σ => Expr.eval_isTopLit rfl _ rfl σ⟩
  | _ => cases ht

theorem inf_of_le {t : Ty} {a b : t.den} (h : t.le a b) : t.inf a b = a := if_pos h
theorem inf_of_ge {t : Ty} (a b : t.den) (h : t.le b a) : t.inf a b = b := by
  by_cases h' : t.le a b
  · exact (if_pos h').trans (Ty.le_antisymm h' h)
  · exact if_neg h'
theorem sup_of_le {t : Ty} {a b : t.den} (h : t.le a b) : t.sup a b = b := if_pos h
theorem sup_of_ge {t : Ty} (a b : t.den) (h : t.le b a) : t.sup a b = a := by
  by_cases h' : t.le a b
  · exact (if_pos h').trans (Ty.le_antisymm h h')
  · exact if_neg h'

/-- The first part of the folding of a node. -/
theorem foldIdentities_spec {t : Ty} (e : Expr t)
    (hsub : ∀ h a b, e = .bin (.sub h) a b → a.ConstZero → b.ConstZero)
    (hdiv : ∀ h a b, e = .bin (.div h) a b → a.ConstZero → ∀ σ : Env, b.eval σ ≠ t.default)
    (hinf : ∀ h a b, e = .bin (.inf h) a b → t = .int ∨ t = .real → ¬ a.ConstZero ∧ ¬ b.ConstZero)
    (hsup : ∀ h a b, e = .bin (.sup h) a b → t = .int ∨ t = .real → ¬ a.ConstZero ∧ ¬ b.ConstZero) :
    ∃ e', e.foldIdentities = some e' ∧ ∀ σ : Env, e'.eval σ = e.eval σ := by
  cases e with
  | bin op a b =>
    cases op with
    | add h =>
      rw [Expr.foldIdentities]
      split
      · rename_i hz
        refine ⟨_, rfl, fun σ => ?_⟩
        have := isZeroLit_eval h hz σ
        rw [Expr.eval_bin, this]
        exact (add_default h _).1.symm
      · split
        · rename_i hz
          refine ⟨_, rfl, fun σ => ?_⟩
          rw [Expr.eval_bin, isZeroLit_eval h hz σ]
          exact (add_default h _).2.symm
        · exact ⟨_, rfl, fun _ => rfl⟩
    | sub h =>
      rw [Expr.foldIdentities]
      split
      · rename_i hz
        refine ⟨_, rfl, fun σ => ?_⟩
        have h0 := isZeroLit_eval h hz
        rw [Expr.eval_bin, h0 σ, hsub h a b rfl h0 σ]
        exact (sub_default h _).symm
      · split
        · rename_i hz
          refine ⟨_, rfl, fun σ => ?_⟩
          rw [Expr.eval_bin, isZeroLit_eval h hz σ]
          exact (sub_default h _).symm
        · exact ⟨_, rfl, fun _ => rfl⟩
    | mul h =>
      rw [Expr.foldIdentities]
      split
      · rename_i hz
        obtain ⟨e', he, hv⟩ := zeroLit?_spec h
        refine ⟨e', he, fun σ => ?_⟩
        rw [hv σ, Expr.eval_bin]
        rcases Bool.or_eq_true_iff.1 hz with hz | hz
        · rw [isZeroLit_eval h hz σ]
          exact (mul_default h _).1.symm
        · rw [isZeroLit_eval h hz σ]
          exact (mul_default h _).2.symm
      · split
        · rename_i hz
          exact ⟨_, rfl, fun σ => (isOneLit_mul hz h σ _).1.symm⟩
        · split
          · rename_i hz
            exact ⟨_, rfl, fun σ => (isOneLit_mul hz h σ _).2.symm⟩
          · exact ⟨_, rfl, fun _ => rfl⟩
    | div h =>
      rw [Expr.foldIdentities]
      split
      · rename_i hz
        obtain ⟨e', he, hv⟩ := zeroLit?_spec (isNum_of_isFrac h)
        refine ⟨e', he, fun σ => ?_⟩
        have h0 := isZeroLit_eval (isNum_of_isFrac h) hz
        rw [hv σ, Expr.eval_bin, h0 σ]
        exact (zero_div' h _ (hdiv h a b rfl h0 σ)).symm
      · split
        · rename_i hz
          exact ⟨_, rfl, fun σ => (div_one' h hz σ _).symm⟩
        · exact ⟨_, rfl, fun _ => rfl⟩
    | mod h => exact ⟨_, rfl, fun _ => rfl⟩
    | and =>
      rw [Expr.foldIdentities]
      split
      · rename_i hz
        obtain ⟨e', he, hv⟩ := botLit?_spec (t := .bool) rfl (by simp) (by simp)
        refine ⟨e', he, fun σ => ?_⟩
        rw [hv σ, Expr.eval_bin]
        symm
        rcases Bool.or_eq_true_iff.1 hz with hz | hz
        · rw [isBotLit_default hz σ]
          exact eq_false fun h => h.1
        · rw [isBotLit_default hz σ]
          exact eq_false fun h => h.2
      · split
        · rename_i hz
          refine ⟨_, rfl, fun σ => ?_⟩
          rw [Expr.eval_bin, Expr.eval_isTopLit rfl a hz σ]
          exact propext ⟨fun h => ⟨trivial, h⟩, fun h => h.2⟩
        · split
          · rename_i hz
            refine ⟨_, rfl, fun σ => ?_⟩
            rw [Expr.eval_bin, Expr.eval_isTopLit rfl b hz σ]
            exact propext ⟨fun h => ⟨h, trivial⟩, fun h => h.1⟩
          · exact ⟨_, rfl, fun _ => rfl⟩
    | or =>
      rw [Expr.foldIdentities]
      split
      · rename_i hz
        obtain ⟨e', he, hv⟩ := topLit?_spec (t := .bool) rfl
        refine ⟨e', he, fun σ => ?_⟩
        rw [hv σ, Expr.eval_bin]
        symm
        rcases Bool.or_eq_true_iff.1 hz with hz | hz
        · rw [Expr.eval_isTopLit rfl a hz σ]
          exact eq_true (Or.inl trivial)
        · rw [Expr.eval_isTopLit rfl b hz σ]
          exact eq_true (Or.inr trivial)
      · split
        · rename_i hz
          refine ⟨_, rfl, fun σ => ?_⟩
          rw [Expr.eval_bin, isBotLit_default hz σ]
          exact propext ⟨fun h => Or.inr h, fun h => h.resolve_left id⟩
        · split
          · rename_i hz
            refine ⟨_, rfl, fun σ => ?_⟩
            rw [Expr.eval_bin, isBotLit_default hz σ]
            exact propext ⟨fun h => Or.inl h, fun h => h.resolve_right id⟩
          · exact ⟨_, rfl, fun _ => rfl⟩
    | inf h =>
      rw [Expr.foldIdentities]
      split
      · rename_i hz
        have hn : t ≠ .int ∧ t ≠ .real := by
          by_contra hc
          have : t = .int ∨ t = .real := by
            by_cases h1 : t = .int
            · exact Or.inl h1
            · by_cases h2 : t = .real
              · exact Or.inr h2
              · exact absurd ⟨h1, h2⟩ hc
          have := hinf h a b rfl this
          rcases Bool.or_eq_true_iff.1 hz with hz | hz
          · exact this.1 (isBotLit_default hz)
          · exact this.2 (isBotLit_default hz)
        obtain ⟨e', he, hv⟩ := botLit?_spec h hn.1 hn.2
        refine ⟨e', he, fun σ => ?_⟩
        rw [hv σ, Expr.eval_bin]
        symm
        rcases Bool.or_eq_true_iff.1 hz with hz | hz
        · rw [isBotLit_default hz σ]
          exact inf_of_le (default_le h hn.1 hn.2 _)
        · rw [isBotLit_default hz σ]
          exact inf_of_ge _ _ (default_le h hn.1 hn.2 _)
      · split
        · rename_i hz
          refine ⟨_, rfl, fun σ => ?_⟩
          rw [Expr.eval_bin, Expr.eval_isTopLit (isTopLit_lat hz) a hz σ]
          exact (inf_of_ge _ _ (Ty.le_top (isTopLit_lat hz) _)).symm
        · split
          · rename_i hz
            refine ⟨_, rfl, fun σ => ?_⟩
            rw [Expr.eval_bin, Expr.eval_isTopLit (isTopLit_lat hz) b hz σ]
            exact (inf_of_le (Ty.le_top (isTopLit_lat hz) _)).symm
          · exact ⟨_, rfl, fun _ => rfl⟩
    | sup h =>
      rw [Expr.foldIdentities]
      have hn : ∀ x : Expr t, x.isBotLit = true → (x = a ∨ x = b) → t ≠ .int ∧ t ≠ .real := by
        intro x hx hab
        by_contra hc
        have : t = .int ∨ t = .real := by
          by_cases h1 : t = .int
          · exact Or.inl h1
          · by_cases h2 : t = .real
            · exact Or.inr h2
            · exact absurd ⟨h1, h2⟩ hc
        have := hsup h a b rfl this
        rcases hab with rfl | rfl
        · exact this.1 (isBotLit_default hx)
        · exact this.2 (isBotLit_default hx)
      split
      · rename_i hz
        have hl : t.isLat = true := by
          rcases Bool.or_eq_true_iff.1 hz with hz | hz
          · exact isTopLit_lat hz
          · exact isTopLit_lat hz
        obtain ⟨e', he, hv⟩ := topLit?_spec hl
        refine ⟨e', he, fun σ => ?_⟩
        rw [hv σ, Expr.eval_bin]
        symm
        rcases Bool.or_eq_true_iff.1 hz with hz | hz
        · rw [Expr.eval_isTopLit hl a hz σ]
          exact sup_of_ge _ _ (Ty.le_top hl _)
        · rw [Expr.eval_isTopLit hl b hz σ]
          exact sup_of_le (Ty.le_top hl _)
      · split
        · rename_i hz
          obtain ⟨h1, h2⟩ := hn a hz (Or.inl rfl)
          refine ⟨_, rfl, fun σ => ?_⟩
          rw [Expr.eval_bin, isBotLit_default hz σ]
          exact (sup_of_le (default_le h h1 h2 _)).symm
        · split
          · rename_i hz
            obtain ⟨h1, h2⟩ := hn b hz (Or.inr rfl)
            refine ⟨_, rfl, fun σ => ?_⟩
            rw [Expr.eval_bin, isBotLit_default hz σ]
            exact (sup_of_ge _ _ (default_le h h1 h2 _)).symm
          · exact ⟨_, rfl, fun _ => rfl⟩
    | _ => exact ⟨_, rfl, fun _ => rfl⟩
  | un op a =>
    cases op with
    | not h =>
      rw [Expr.foldIdentities]
      split
      · rename_i hz
        obtain ⟨e', he, hv⟩ := topLit?_spec h
        refine ⟨e', he, fun σ => ?_⟩
        rw [hv σ, Expr.eval_un]
        have hn := constNumber_spec (isZeroLit_number hz) σ
        have : a.eval σ = t.bot := by
          cases t with
          | bool => exact hn.elim
          | eureal => exact isZeroLit_eval rfl hz σ
          | _ => cases h
        rw [this]
        exact (if_pos rfl).symm
      · exact ⟨_, rfl, fun _ => rfl⟩
    | non h =>
      rw [Expr.foldIdentities]
      split
      · rename_i hz
        obtain ⟨e', he, hv⟩ := botLit?_spec (Ty.isOrd_of_isLat h) (by rintro rfl; cases h) (by rintro rfl; cases h)
        refine ⟨e', he, fun σ => ?_⟩
        rw [hv σ, Expr.eval_un, Expr.eval_isTopLit h a hz σ]
        have : t.default = t.bot := by
          cases t <;> rfl
        rw [this]
        exact (if_pos rfl).symm
      · exact ⟨_, rfl, fun _ => rfl⟩
    | parens => exact ⟨_, rfl, fun _ => rfl⟩
  | embed a =>
    rw [Expr.foldIdentities]
    split
    · rename_i hz
      obtain ⟨e', he, hv⟩ := zeroLit?_spec (t := .eureal) rfl
      refine ⟨e', he, fun σ => ?_⟩
      rw [hv σ, Expr.eval_embed, isBotLit_default hz σ]
      exact (if_neg id).symm
    · split
      · rename_i hz
        obtain ⟨e', he, hv⟩ := topLit?_spec (t := .eureal) rfl
        refine ⟨e', he, fun σ => ?_⟩
        rw [hv σ, Expr.eval_embed, Expr.eval_isTopLit rfl a hz σ]
        exact (if_pos trivial).symm
      · exact ⟨_, rfl, fun _ => rfl⟩
  | iverson a =>
    rw [Expr.foldIdentities]
    split
    · rename_i hz
      exact (constNumber_spec (isZeroLit_number hz) (fun v => v.ty.default)).elim
    · split
      · rename_i hz
        exact (constNumber_spec (isOneLit_number hz) (fun v => v.ty.default)).elim
      · exact ⟨_, rfl, fun _ => rfl⟩
  | _ => exact ⟨_, rfl, fun _ => rfl⟩

/-! ### Folding of constants -/

theorem uint_op (op : BinOp .uint) (v w : ℕ) (x y c : Concrete) (hv : IsNum .uint v x) (hw : IsNum .uint w y)
    (h : op.concrete x y = some c) : IsNum .uint (op.den v w) c := by
  cases x with
  | infinity => exact hv.elim
  | real p =>
  cases y with
  | infinity => exact hw.elim
  | real q =>
  have hp : (p : ℝ) = (v : ℝ) := Eq.symm hv
  have hq : (q : ℝ) = (w : ℝ) := Eq.symm hw
  have hp' : p = (v : ℚ) := by exact_mod_cast hp
  have hq' : q = (w : ℚ) := by exact_mod_cast hq
  subst hp' hq'
  cases op with
  | add h' =>
    cases h
    show ((v + w : ℕ) : ℝ) = (((v : ℚ) + (w : ℚ) : ℚ) : ℝ)
    push_cast
    rfl
  | sub h' =>
    simp only [BinOp.concrete, Concrete.sub] at h
    split at h
    · rename_i hle
      cases h
      have hle : w ≤ v := by exact_mod_cast hle
      show ((v - w : ℕ) : ℝ) = (((v : ℚ) - (w : ℚ) : ℚ) : ℝ)
      push_cast [hle]
      rfl
    · rename_i hle
      cases h
      have hle : ¬ w ≤ v := by exact_mod_cast hle
      show ((v - w : ℕ) : ℝ) = ((0 : ℚ) : ℝ)
      rw [Nat.sub_eq_zero_of_le (Nat.le_of_lt (Nat.lt_of_not_le hle))]
      norm_num
  | mul h' =>
    simp only [BinOp.concrete, Concrete.mul, Option.some.injEq] at h
    subst h
    have : (if (v : ℚ) = 0 then Concrete.real 0 else if (w : ℚ) = 0 then Concrete.real 0 else Concrete.real ((v : ℚ) * w)) = .real ((v : ℚ) * w) := by
      by_cases h1 : (v : ℚ) = 0
      · simp [h1]
      · by_cases h2 : (w : ℚ) = 0
        · simp [h2]
        · simp [h1, h2]
    rw [this]
    show ((v * w : ℕ) : ℝ) = (((v : ℚ) * (w : ℚ) : ℚ) : ℝ)
    push_cast
    rfl
  | inf h' =>
    simp only [BinOp.concrete, Option.some.injEq] at h
    subst h
    by_cases hle : v ≤ w
    · have h1 : Concrete.le (.real (v : ℚ)) (.real (w : ℚ)) = true := by simpa [Concrete.le] using hle
      rw [if_pos h1]
      have : Ty.inf .uint v w = v := if_pos hle
      show IsNum .uint (Ty.inf .uint v w) _
      rw [this]
      exact hv
    · have h1 : ¬ Concrete.le (.real (v : ℚ)) (.real (w : ℚ)) = true := by simpa [Concrete.le] using hle
      rw [if_neg h1]
      have : Ty.inf .uint v w = w := if_neg hle
      show IsNum .uint (Ty.inf .uint v w) _
      rw [this]
      exact hw
  | sup h' =>
    simp only [BinOp.concrete, Option.some.injEq] at h
    subst h
    by_cases hle : w ≤ v
    · have h1 : Concrete.le (.real (w : ℚ)) (.real (v : ℚ)) = true := by simpa [Concrete.le] using hle
      rw [if_pos h1]
      have : Ty.sup .uint v w = v := sup_of_ge (t := .uint) v w hle
      show IsNum .uint (Ty.sup .uint v w) _
      rw [this]
      exact hv
    · have h1 : ¬ Concrete.le (.real (w : ℚ)) (.real (v : ℚ)) = true := by simpa [Concrete.le] using hle
      rw [if_neg h1]
      have : Ty.sup .uint v w = w := sup_of_le (t := .uint) (Nat.le_of_lt (Nat.lt_of_not_le hle))
      show IsNum .uint (Ty.sup .uint v w) _
      rw [this]
      exact hw
  | _ => cases h

theorem ureal_op (op : BinOp .ureal) (v w : ℝ≥0) (x y c : Concrete) (hv : IsNum .ureal v x) (hw : IsNum .ureal w y)
    (h : op.concrete x y = some c) : IsNum .ureal (op.den v w) c := by
  cases x with
  | infinity => exact hv.elim
  | real p =>
  cases y with
  | infinity => exact hw.elim
  | real q =>
  have hp : (v : ℝ) = (p : ℝ) := hv
  have hq : (w : ℝ) = (q : ℝ) := hw
  have hle : v ≤ w ↔ p ≤ q := by rw [← NNReal.coe_le_coe, hp, hq]; exact Rat.cast_le
  have hge : w ≤ v ↔ q ≤ p := by rw [← NNReal.coe_le_coe, hp, hq]; exact Rat.cast_le
  cases op with
  | add h' =>
    cases h
    show ((v + w : ℝ≥0) : ℝ) = ((p + q : ℚ) : ℝ)
    push_cast
    rw [hp, hq]
  | sub h' =>
    simp only [BinOp.concrete, Concrete.sub] at h
    split at h
    · rename_i hl
      cases h
      show ((v - w : ℝ≥0) : ℝ) = ((p - q : ℚ) : ℝ)
      rw [NNReal.coe_sub (hge.2 hl)]
      push_cast
      rw [hp, hq]
    · rename_i hl
      cases h
      have : v - w = 0 := tsub_eq_zero_of_le (hle.2 (le_of_lt (not_le.1 hl)))
      show ((v - w : ℝ≥0) : ℝ) = ((0 : ℚ) : ℝ)
      rw [this]
      norm_num
  | mul h' =>
    simp only [BinOp.concrete, Concrete.mul, Option.some.injEq] at h
    subst h
    have : (if p = 0 then Concrete.real 0 else if q = 0 then Concrete.real 0 else Concrete.real (p * q)) = .real (p * q) := by
      by_cases h1 : p = 0
      · simp [h1]
      · by_cases h2 : q = 0
        · simp [h2]
        · simp [h1, h2]
    rw [this]
    show ((v * w : ℝ≥0) : ℝ) = ((p * q : ℚ) : ℝ)
    push_cast
    rw [hp, hq]
  | inf h' =>
    simp only [BinOp.concrete, Option.some.injEq] at h
    subst h
    by_cases hl : v ≤ w
    · rw [if_pos (by simpa [Concrete.le] using hle.1 hl)]
      have : Ty.inf .ureal v w = v := if_pos hl
      show IsNum .ureal (Ty.inf .ureal v w) _
      rw [this]
      exact hv
    · rw [if_neg (by simpa [Concrete.le] using fun h => hl (hle.2 h))]
      have : Ty.inf .ureal v w = w := if_neg hl
      show IsNum .ureal (Ty.inf .ureal v w) _
      rw [this]
      exact hw
  | sup h' =>
    simp only [BinOp.concrete, Option.some.injEq] at h
    subst h
    by_cases hl : w ≤ v
    · rw [if_pos (by simpa [Concrete.le] using hge.1 hl)]
      have : Ty.sup .ureal v w = v := sup_of_ge (t := .ureal) v w hl
      show IsNum .ureal (Ty.sup .ureal v w) _
      rw [this]
      exact hv
    · rw [if_neg (by simpa [Concrete.le] using fun h => hl (hge.2 h))]
      have : Ty.sup .ureal v w = w := sup_of_le (t := .ureal) (le_of_lt (not_le.1 hl))
      show IsNum .ureal (Ty.sup .ureal v w) _
      rw [this]
      exact hw
  | _ => cases h

theorem eureal_le (v w : ℝ≥0∞) (x y : Concrete) (hv : IsNum .eureal v x) (hw : IsNum .eureal w y) : v ≤ w ↔ x.le y = true := by
  cases x with
  | real p =>
    cases y with
    | real q =>
      have h1 : v = ENNReal.ofReal p := hv.2
      have h2 : w = ENNReal.ofReal q := hw.2
      rw [h1, h2, ENNReal.ofReal_le_ofReal_iff (by exact_mod_cast hw.1)]
      simp [Concrete.le]
    | infinity =>
      have h2 : w = ⊤ := hw
      rw [h2]
      simp [Concrete.le]
  | infinity =>
    have h1 : v = ⊤ := hv
    cases y with
    | real q =>
      have h2 : w = ENNReal.ofReal q := hw.2
      rw [h1, h2]
      simp [Concrete.le]
    | infinity =>
      have h2 : w = ⊤ := hw
      rw [h1, h2]
      simp [Concrete.le]

theorem eureal_op (op : BinOp .eureal) (v w : ℝ≥0∞) (x y c : Concrete) (hv : IsNum .eureal v x) (hw : IsNum .eureal w y)
    (h : op.concrete x y = some c) : IsNum .eureal (op.den v w) c := by
  have hle := eureal_le v w x y hv hw
  have hge := eureal_le w v y x hw hv
  cases op with
  | add h' =>
    cases h
    cases x with
    | infinity =>
      have h1 : v = ⊤ := hv
      show (v + w : ℝ≥0∞) = ⊤
      rw [h1]; exact top_add w
    | real p =>
    cases y with
    | infinity =>
      have h1 : w = ⊤ := hw
      show (v + w : ℝ≥0∞) = ⊤
      rw [h1]; exact add_top v
    | real q =>
      refine ⟨add_nonneg hv.1 hw.1, ?_⟩
      have h1 : v = ENNReal.ofReal p := hv.2
      have h2 : w = ENNReal.ofReal q := hw.2
      show (v + w : ℝ≥0∞) = ENNReal.ofReal ((p + q : ℚ) : ℝ)
      rw [h1, h2, Rat.cast_add, ENNReal.ofReal_add (by exact_mod_cast hv.1) (by exact_mod_cast hw.1)]
  | sub h' =>
    cases x with
    | infinity =>
      have h1 : v = ⊤ := hv
      cases y with
      | infinity => cases h
      | real q =>
        cases h
        have h2 : w = ENNReal.ofReal q := hw.2
        show (v - w : ℝ≥0∞) = ⊤
        rw [h1, h2]
        exact ENNReal.top_sub ENNReal.ofReal_ne_top
    | real p =>
    cases y with
    | infinity => cases h
    | real q =>
      have h1 : v = ENNReal.ofReal p := hv.2
      have h2 : w = ENNReal.ofReal q := hw.2
      simp only [BinOp.concrete, Concrete.sub] at h
      split at h
      · rename_i hl
        cases h
        refine ⟨sub_nonneg.2 hl, ?_⟩
        show (v - w : ℝ≥0∞) = ENNReal.ofReal ((p - q : ℚ) : ℝ)
        rw [h1, h2, Rat.cast_sub, ENNReal.ofReal_sub _ (by exact_mod_cast hw.1)]
      · rename_i hl
        cases h
        refine ⟨le_refl _, ?_⟩
        have h3 : v ≤ w := hle.2 (by simpa [Concrete.le] using le_of_lt (not_le.1 hl))
        show (v - w : ℝ≥0∞) = ENNReal.ofReal ((0 : ℚ) : ℝ)
        rw [tsub_eq_zero_of_le h3]
        simp
  | mul h' =>
    simp only [BinOp.concrete, Option.some.injEq] at h
    subst h
    have pos : ∀ q : ℚ, 0 ≤ q → q ≠ 0 → ENNReal.ofReal (q : ℝ) ≠ 0 := fun q h1 h2 => by
      have : (0 : ℝ) < (q : ℝ) := by exact_mod_cast lt_of_le_of_ne h1 (Ne.symm h2)
      simpa using this
    cases x with
    | real p =>
      have h1 : v = ENNReal.ofReal p := hv.2
      show IsNum .eureal (v * w : ℝ≥0∞) _
      by_cases hp : p = 0
      · subst hp
        have : v * w = 0 := by rw [h1]; simp
        simp only [Concrete.mul, if_true]
        exact ⟨le_refl _, this.trans (by simp)⟩
      · cases y with
        | real q =>
          have h2 : w = ENNReal.ofReal q := hw.2
          by_cases hq : q = 0
          · subst hq
            have : v * w = 0 := by rw [h2]; simp
            simp only [Concrete.mul, if_true, if_neg hp]
            exact ⟨le_refl _, this.trans (by simp)⟩
          · simp only [Concrete.mul, if_neg hp, if_neg hq]
            refine ⟨mul_nonneg hv.1 hw.1, ?_⟩
            show (v * w : ℝ≥0∞) = ENNReal.ofReal ((p * q : ℚ) : ℝ)
            rw [h1, h2, Rat.cast_mul, ENNReal.ofReal_mul (by exact_mod_cast hv.1)]
        | infinity =>
          have h2 : w = ⊤ := hw
          simp only [Concrete.mul, if_neg hp]
          show (v * w : ℝ≥0∞) = ⊤
          rw [h2, ENNReal.mul_top (by rw [h1]; exact pos p hv.1 hp)]
    | infinity =>
      have h1 : v = ⊤ := hv
      show IsNum .eureal (v * w : ℝ≥0∞) _
      cases y with
      | real q =>
        have h2 : w = ENNReal.ofReal q := hw.2
        by_cases hq : q = 0
        · subst hq
          have : v * w = 0 := by rw [h2]; simp
          simp only [Concrete.mul, if_true]
          exact ⟨le_refl _, this.trans (by simp)⟩
        · simp only [Concrete.mul, if_neg hq]
          show (v * w : ℝ≥0∞) = ⊤
          rw [h1, ENNReal.top_mul (by rw [h2]; exact pos q hw.1 hq)]
      | infinity =>
        have h2 : w = ⊤ := hw
        show (v * w : ℝ≥0∞) = ⊤
        rw [h1, h2]
        exact ENNReal.top_mul_top
  | inf h' =>
    simp only [BinOp.concrete, Option.some.injEq] at h
    subst h
    by_cases hl : v ≤ w
    · rw [if_pos (hle.1 hl)]
      have : Ty.inf .eureal v w = v := if_pos hl
      show IsNum .eureal (Ty.inf .eureal v w) _
      rw [this]
      exact hv
    · rw [if_neg (fun h => hl (hle.2 h))]
      have : Ty.inf .eureal v w = w := if_neg hl
      show IsNum .eureal (Ty.inf .eureal v w) _
      rw [this]
      exact hw
  | sup h' =>
    simp only [BinOp.concrete, Option.some.injEq] at h
    subst h
    by_cases hl : w ≤ v
    · rw [if_pos (hge.1 hl)]
      have : Ty.sup .eureal v w = v := sup_of_ge (t := .eureal) v w hl
      show IsNum .eureal (Ty.sup .eureal v w) _
      rw [this]
      exact hv
    · rw [if_neg (fun h => hl (hge.2 h))]
      have : Ty.sup .eureal v w = w := sup_of_le (t := .eureal) (le_of_lt (not_le.1 hl))
      show IsNum .eureal (Ty.sup .eureal v w) _
      rw [this]
      exact hw
  | _ => cases h

theorem unsigned_op {t : Ty} (ht : t.isUnsigned = true) (op : BinOp t) {v w : t.den} {x y c : Concrete} (hv : IsNum t v x) (hw : IsNum t w y)
    (h : op.concrete x y = some c) : IsNum t (op.den v w) c := by
  cases t with
  | uint => exact uint_op op v w x y c hv hw h
  | ureal => exact ureal_op op v w x y c hv hw h
  | eureal => exact eureal_op op v w x y c hv hw h
  | _ => cases ht

theorem resultLit_spec {t : Ty} (ht : t.isUnsigned = true) {c : Concrete} {v : t.den} (h : IsNum t v c) :
    ∃ e, resultLit t c = some (some e) ∧ ∀ σ : Env, e.eval σ = v := by
  cases c with
  | infinity =>
    cases t with
    | eureal => exact ⟨_, rfl, fun _ => Eq.symm h⟩
    | _ => exact h.elim
  | real q =>
    have nn : ∀ r : ℝ, 0 ≤ r → r = (q : ℝ) → 0 ≤ q := fun r hr he => by
      have : (0 : ℝ) ≤ (q : ℝ) := he ▸ hr
      exact_mod_cast this
    cases t with
    | uint =>
      refine ⟨_, rfl, fun _ => ?_⟩
      have key : ∀ n : ℕ, (n : ℝ) = (q : ℝ) → q.floor.toNat = n := fun n h => by
        have : q = (n : ℚ) := by exact_mod_cast h.symm
        subst this
        have h1 : ((n : ℚ)).floor = (n : ℤ) := Rat.floor_intCast n
        rw [h1]
        rfl
      exact key v h
    | ureal =>
      refine ⟨_, rfl, fun _ => ?_⟩
      have key : ∀ r : ℝ≥0, (r : ℝ) = (q : ℝ) → ((q.toNNRat : ℝ≥0) : ℝ≥0) = r := fun r h => by
        have h0 := nn _ r.2 h
        apply NNReal.coe_injective
        rw [h]
        have : ((q.toNNRat : ℚ≥0) : ℚ) = q := Rat.coe_toNNRat q h0
        calc (((q.toNNRat : ℝ≥0)) : ℝ) = (((q.toNNRat : ℚ≥0) : ℚ) : ℝ) := by norm_cast
          _ = (q : ℝ) := by rw [this]
      exact key v h
    | eureal =>
      refine ⟨_, rfl, fun _ => ?_⟩
      have key : ∀ r : ℝ≥0∞, (0 ≤ q ∧ r = ENNReal.ofReal q) → ((q.toNNRat : ℝ≥0) : ℝ≥0∞) = r := fun r h => by
        rw [h.2, ← ENNReal.ofReal_coe_nnreal]
        congr 1
        have : ((q.toNNRat : ℚ≥0) : ℚ) = q := Rat.coe_toNNRat q h.1
        calc (((q.toNNRat : ℝ≥0)) : ℝ) = (((q.toNNRat : ℚ≥0) : ℚ) : ℝ) := by norm_cast
          _ = (q : ℝ) := by rw [this]
      exact key v h
    | _ => cases ht

theorem constBinop_spec {t : Ty} (op : BinOp t) (a b : Expr t) :
    ∃ r, constBinop op a b = some r ∧ ∀ e, r = some e → ∀ σ : Env, e.eval σ = (Expr.bin op a b).eval σ := by
  unfold constBinop
  cases ha : a.constNumber with
  | none => exact ⟨_, rfl, fun e h => by cases h⟩
  | some x =>
  cases hb : b.constNumber with
  | none => exact ⟨_, rfl, fun e h => by cases h⟩
  | some y =>
  simp only []
  split
  · rename_i ht
    cases hc : op.concrete x y with
    | none => exact ⟨_, rfl, fun e h => by cases h⟩
    | some c =>
      have h1 : ∀ σ : Env, IsNum t (op.den (a.eval σ) (b.eval σ)) c := fun σ =>
        unsigned_op ht op (constNumber_spec ha σ) (constNumber_spec hb σ) hc
      obtain ⟨e, he, hv⟩ := resultLit_spec ht (h1 fun v => v.ty.default)
      refine ⟨some e, he, fun e' he' σ => ?_⟩
      cases he'
      rw [hv σ]
      exact isNum_unique (h1 _) (h1 σ)
  · exact ⟨_, rfl, fun e h => by cases h⟩

theorem derefLit_bool {t : Ty} (e : Expr t) {b : Bool} (h : e.derefLit = some (.bool b)) : t = .bool := by
  induction e with
  | lit l => cases l <;> first | rfl | cases h
  | cast c a ih =>
    have := ih h
    subst this
    cases c
  | _ => cases h

theorem derefLit_eval {t : Ty} {a b : Expr t} {k : LitKind} (ha : a.derefLit = some k) (hb : b.derefLit = some k) (σ : Env) : a.eval σ = b.eval σ := by
  cases hk : k.number with
  | some c => exact isNum_unique (derefLit_number a ha hk σ) (derefLit_number b hb hk σ)
  | none =>
    cases k with
    | bool v =>
      have key : ∀ {t : Ty} (e : Expr t), e.derefLit = some (.bool v) → HEq (e.eval σ) (v = true) := by
        intro t e he
        cases e with
        | lit l =>
          cases l with
          | bool b => cases he; exact HEq.rfl
          | _ => cases he
        | cast c a =>
          have := derefLit_bool a he
          subst this
          cases c
        | _ => cases he
      exact eq_of_heq ((key a ha).trans (key b hb).symm)
    | _ => cases hk

open Classical in
theorem foldConsts_spec {t : Ty} (e : Expr t) : ∃ e', e.foldConsts = some e' ∧ ∀ σ : Env, e'.eval σ = e.eval σ := by
  cases e with
  | bin op a b =>
    obtain ⟨r, hr, hv⟩ := constBinop_spec op a b
    refine ⟨r.getD (.bin op a b), ?_, fun σ => ?_⟩
    · rw [Expr.foldConsts, hr]
      rfl
    · cases r with
      | none => rfl
      | some e => exact hv e rfl σ
  | ite c a b =>
    rw [Expr.foldConsts]
    cases ha : a.derefLit with
    | none => exact ⟨_, rfl, fun _ => rfl⟩
    | some k =>
    cases hb : b.derefLit with
    | none => exact ⟨_, rfl, fun _ => rfl⟩
    | some l =>
      simp only []
      split
      · rename_i hkl
        subst hkl
        refine ⟨_, rfl, fun σ => ?_⟩
        rw [Expr.eval_ite]
        rcases Classical.em (id (α := Prop) (c.eval σ)) with hc | hc
        · exact (if_pos hc).symm
        · exact (derefLit_eval ha hb σ).trans (if_neg hc).symm
      · exact ⟨_, rfl, fun _ => rfl⟩
  | _ => exact ⟨_, rfl, fun _ => rfl⟩

/-- Constant folding never panics and never changes a value, except for the expressions excluded by `FoldSafe`. What is missing is the values of the
excluded expressions, for which the property fails. -/
theorem C45_constFold_partial {t : Ty} (e : Expr t) (hs : e.FoldSafe) : ∃ e', e.constFold = some e' ∧ ∀ σ : Env, e'.eval σ = e.eval σ := by
  have node : ∀ {t : Ty} (e : Expr t),
      (∀ h a b, e = .bin (.sub h) a b → a.ConstZero → b.ConstZero) →
      (∀ h a b, e = .bin (.div h) a b → a.ConstZero → ∀ σ : Env, b.eval σ ≠ t.default) →
      (∀ h a b, e = .bin (.inf h) a b → t = .int ∨ t = .real → ¬ a.ConstZero ∧ ¬ b.ConstZero) →
      (∀ h a b, e = .bin (.sup h) a b → t = .int ∨ t = .real → ¬ a.ConstZero ∧ ¬ b.ConstZero) →
      ∃ e', e.foldNode = some e' ∧ ∀ σ : Env, e'.eval σ = e.eval σ := by
    intro t e h1 h2 h3 h4
    obtain ⟨e', he, hv⟩ := foldIdentities_spec e h1 h2 h3 h4
    obtain ⟨e'', he', hv'⟩ := foldConsts_spec e'
    exact ⟨e'', by rw [Expr.foldNode, he]; exact he', fun σ => (hv' σ).trans (hv σ)⟩
  have zero : ∀ {t : Ty} {a a' : Expr t}, (∀ σ : Env, a'.eval σ = a.eval σ) → (a'.ConstZero ↔ a.ConstZero) := fun h =>
    ⟨fun h' σ => (h σ).symm.trans (h' σ), fun h' σ => (h σ).trans (h' σ)⟩
  induction e with
  | var x => exact ⟨_, rfl, fun _ => rfl⟩
  | lit l => exact ⟨_, rfl, fun _ => rfl⟩
  | call f args ih =>
    choose g hg hv using fun i => ih i (hs i)
    obtain ⟨g', hg'⟩ := optTraverse_isSome (f := fun i => (args i).constFold) fun i => ⟨g i, hg i⟩
    have : g' = g := funext fun i => Option.some.inj ((optTraverse_some hg' i).symm.trans (hg i))
    subst this
    obtain ⟨e', he, hv'⟩ := node (.call f g') (fun _ _ _ h => by cases h) (fun _ _ _ h => by cases h) (fun _ _ _ h => by cases h) (fun _ _ _ h => by cases h)
    refine ⟨e', by rw [Expr.constFold, hg']; exact he, fun σ => (hv' σ).trans ?_⟩
    rw [Expr.eval_call, Expr.eval_call]
    exact congrArg _ (funext fun i => hv i σ)
  | ite c a b ihc iha ihb =>
    obtain ⟨c', hc, hcv⟩ := ihc hs.1
    obtain ⟨a', ha, hav⟩ := iha hs.2.1
    obtain ⟨b', hb, hbv⟩ := ihb hs.2.2
    obtain ⟨e', he, hv⟩ := node (.ite c' a' b') (fun _ _ _ h => by cases h) (fun _ _ _ h => by cases h) (fun _ _ _ h => by cases h) (fun _ _ _ h => by cases h)
    refine ⟨e', by rw [Expr.constFold, hc, ha, hb]; exact he, fun σ => (hv σ).trans ?_⟩
    rw [Expr.eval_ite, Expr.eval_ite, hcv, hav, hbv]
  | @bin t op a b iha ihb =>
    have hab : a.FoldSafe ∧ b.FoldSafe := by
      cases op <;> first | exact ⟨hs.1, hs.2⟩ | exact ⟨hs.1, hs.2.1⟩
    obtain ⟨a', ha, hav⟩ := iha hab.1
    obtain ⟨b', hb, hbv⟩ := ihb hab.2
    obtain ⟨e', he, hv⟩ := node (.bin op a' b') (fun _ _ _ h => by
        cases h
        rw [zero hav, zero hbv]
        exact hs.2.2) (fun _ _ _ h => by
        cases h
        rw [zero hav]
        intro h0 σ
        rw [hbv σ]
        exact hs.2.2 h0 σ) (fun _ _ _ h => by
        cases h
        rw [zero hav, zero hbv]
        exact hs.2.2) (fun _ _ _ h => by
        cases h
        rw [zero hav, zero hbv]
        exact hs.2.2)
    refine ⟨e', by rw [Expr.constFold, ha, hb]; exact he, fun σ => (hv σ).trans ?_⟩
    rw [Expr.eval_bin, Expr.eval_bin, hav, hbv]
  | rel op a b iha ihb =>
    obtain ⟨a', ha, hav⟩ := iha hs.1
    obtain ⟨b', hb, hbv⟩ := ihb hs.2
    obtain ⟨e', he, hv⟩ := node (.rel op a' b') (fun _ _ _ h => by cases h) (fun _ _ _ h => by cases h) (fun _ _ _ h => by cases h) (fun _ _ _ h => by cases h)
    refine ⟨e', by rw [Expr.constFold, ha, hb]; exact he, fun σ => (hv σ).trans ?_⟩
    rw [Expr.eval_rel, Expr.eval_rel, hav, hbv]
  | un op a iha =>
    obtain ⟨a', ha, hav⟩ := iha hs
    obtain ⟨e', he, hv⟩ := node (.un op a') (fun _ _ _ h => by cases h) (fun _ _ _ h => by cases h) (fun _ _ _ h => by cases h) (fun _ _ _ h => by cases h)
    refine ⟨e', by rw [Expr.constFold, ha]; exact he, fun σ => (hv σ).trans ?_⟩
    rw [Expr.eval_un, Expr.eval_un, hav]
  | embed a iha =>
    obtain ⟨a', ha, hav⟩ := iha hs
    obtain ⟨e', he, hv⟩ := node (.embed a') (fun _ _ _ h => by cases h) (fun _ _ _ h => by cases h) (fun _ _ _ h => by cases h) (fun _ _ _ h => by cases h)
    refine ⟨e', by rw [Expr.constFold, ha]; exact he, fun σ => (hv σ).trans ?_⟩
    rw [Expr.eval_embed, Expr.eval_embed, hav]
  | iverson a iha =>
    obtain ⟨a', ha, hav⟩ := iha hs
    obtain ⟨e', he, hv⟩ := node (.iverson a') (fun _ _ _ h => by cases h) (fun _ _ _ h => by cases h) (fun _ _ _ h => by cases h) (fun _ _ _ h => by cases h)
    refine ⟨e', by rw [Expr.constFold, ha]; exact he, fun σ => (hv σ).trans ?_⟩
    rw [Expr.eval_iverson, Expr.eval_iverson, hav]
  | cast c a iha =>
    obtain ⟨a', ha, hav⟩ := iha hs
    obtain ⟨e', he, hv⟩ := node (.cast c a') (fun _ _ _ h => by cases h) (fun _ _ _ h => by cases h) (fun _ _ _ h => by cases h) (fun _ _ _ h => by cases h)
    refine ⟨e', by rw [Expr.constFold, ha]; exact he, fun σ => (hv σ).trans ?_⟩
    rw [Expr.eval_cast, Expr.eval_cast, hav]
  | quant op h vs a iha =>
    obtain ⟨a', ha, hav⟩ := iha hs
    obtain ⟨e', he, hv⟩ := node (.quant op h vs a') (fun _ _ _ h => by cases h) (fun _ _ _ h => by cases h) (fun _ _ _ h => by cases h) (fun _ _ _ h => by cases h)
    refine ⟨e', by rw [Expr.constFold, ha]; exact he, fun σ => (hv σ).trans ?_⟩
    rw [Expr.eval_quant, Expr.eval_quant, show a'.eval = a.eval from funext hav]
  | subst x r a ihr iha =>
    obtain ⟨r', hr, hrv⟩ := ihr hs.1
    obtain ⟨a', ha, hav⟩ := iha hs.2
    obtain ⟨e', he, hv⟩ := node (.subst x r' a') (fun _ _ _ h => by cases h) (fun _ _ _ h => by cases h) (fun _ _ _ h => by cases h) (fun _ _ _ h => by cases h)
    refine ⟨e', by rw [Expr.constFold, hr, ha]; exact he, fun σ => (hv σ).trans ?_⟩
    rw [Expr.eval_subst, Expr.eval_subst, hrv, hav]

end

/-- Non-vacuity: `(1 + 2) * x` is folded to `3 * x`. -/
example : Expr.constFold (.bin (.mul rfl) (.bin (.add rfl) (.lit (.uint 1)) (.lit (.uint 2))) (.var ⟨"x", 0⟩) : Expr .uint)
    = some (.bin (.mul rfl) (.lit (.uint 3)) (.var ⟨"x", 0⟩)) := by
  have h1 : ((1 : ℚ) + 2).floor = 3 := by
    rw [show ((1 : ℚ) + 2) = ((3 : ℤ) : ℚ) by norm_num]
    exact Rat.floor_intCast 3
  simp [Expr.constFold, Expr.foldNode, Expr.foldIdentities, Expr.foldConsts, constBinop, Expr.constNumber, Expr.isZeroLit, Expr.isOneLit,
    Expr.derefLit, Lit.kind, Ty.isUnsigned, BinOp.concrete, Concrete.add, resultLit, h1]

/-- Its hypothesis is met, as is the one of `y - 0`. -/
example [Doms] [Interp] : (.bin (.mul rfl) (.bin (.add rfl) (.lit (.uint 1)) (.lit (.uint 2))) (.var ⟨"x", 0⟩) : Expr .uint).FoldSafe :=
  ⟨⟨trivial, trivial⟩, trivial⟩

example [Doms] [Interp] : (.bin (.sub rfl) (.var ⟨"y", 0⟩) (.lit (.uint 0)) : Expr .uint).FoldSafe :=
  ⟨trivial, trivial, fun _ _ => rfl⟩

end Caesar
