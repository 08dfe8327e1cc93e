import Verif.Semantics

/-!
# Laws of the value lattices (helper lemmas)
-/

open scoped ENNReal NNReal

namespace Caesar

/-! ## Wrappers with concrete types -/

section
variable [Doms] [Interp]

/-- Value of an expression of type `EUReal`, as an element of `ℝ≥0∞`. -/
noncomputable def Expr.ev (e : Expr .eureal) (σ : Env) : ℝ≥0∞ := e.eval σ

/-- Truth value of a Boolean expression. -/
def Expr.tv (e : Expr .bool) (σ : Env) : Prop := e.eval σ

end

namespace Ty
variable [Doms]
set_option linter.unusedSectionVars false

theorem le_refl (t : Ty) (a : t.den) : t.le a a := by
  cases t
  case bool => exact fun h => h
  case uint => exact Nat.le_refl _
  case int => exact Int.le_refl _
  case ureal => exact _root_.le_refl (α := ℝ≥0) _
  case real => exact _root_.le_refl (α := ℝ) _
  case eureal => exact _root_.le_refl (α := ℝ≥0∞) _
  case list => exact rfl
  case dom => exact rfl

theorem le_trans {t : Ty} {a b c : t.den} (h1 : t.le a b) (h2 : t.le b c) : t.le a c := by
  cases t
  case bool => exact fun h => h2 (h1 h)
  case uint => exact Nat.le_trans h1 h2
  case int => exact Int.le_trans h1 h2
  case ureal => exact _root_.le_trans (α := ℝ≥0) h1 h2
  case real => exact _root_.le_trans (α := ℝ) h1 h2
  case eureal => exact _root_.le_trans (α := ℝ≥0∞) h1 h2
  case list => exact Eq.trans h1 h2
  case dom => exact Eq.trans h1 h2

theorem le_antisymm {t : Ty} {a b : t.den} (h1 : t.le a b) (h2 : t.le b a) : a = b := by
  cases t
  case bool => exact propext ⟨h1, h2⟩
  case uint => exact Nat.le_antisymm h1 h2
  case int => exact Int.le_antisymm h1 h2
  case ureal => exact _root_.le_antisymm (α := ℝ≥0) h1 h2
  case real => exact _root_.le_antisymm (α := ℝ) h1 h2
  case eureal => exact _root_.le_antisymm (α := ℝ≥0∞) h1 h2
  case list => exact h1
  case dom => exact h1

theorem le_total {t : Ty} (h : t.isOrd = true) (a b : t.den) : t.le a b ∨ t.le b a := by
  cases t
  case bool =>
    rcases Classical.em (holds a) with ha | ha
    · exact Or.inr fun _ => ha
    · exact Or.inl fun h => absurd h ha
  case uint => exact Nat.le_total _ _
  case int => exact Int.le_total _ _
  case ureal => exact _root_.le_total (α := ℝ≥0) _ _
  case real => exact _root_.le_total (α := ℝ) _ _
  case eureal => exact _root_.le_total (α := ℝ≥0∞) _ _
  case list => simp [isOrd, isNum] at h
  case dom => simp [isOrd, isNum] at h

omit [Doms] in
theorem isOrd_of_isLat {t : Ty} (h : t.isLat = true) : t.isOrd = true := by
  cases t <;> simp_all [isLat, isOrd, isNum]

omit [Doms] in
theorem isOrd_of_isNum {t : Ty} (h : t.isNum = true) : t.isOrd = true := by
  cases t <;> simp_all [isOrd, isNum]

theorem le_top {t : Ty} (h : t.isLat = true) (a : t.den) : t.le a t.top := by
  cases t <;> simp [isLat] at h
  case bool => exact fun _ => trivial
  case eureal => exact _root_.le_top (α := ℝ≥0∞)

theorem bot_le {t : Ty} (h : t.isLat = true) (a : t.den) : t.le t.bot a := by
  cases t <;> simp [isLat] at h
  case bool => exact fun h => h.elim
  case eureal => exact _root_.bot_le (α := ℝ≥0∞)

theorem top_ne_bot {t : Ty} (h : t.isLat = true) : t.top ≠ t.bot := by
  cases t <;> simp [isLat] at h
  case bool => exact true_ne_false
  case eureal => exact ENNReal.top_ne_zero

theorem bot_ne_top {t : Ty} (h : t.isLat = true) : t.bot ≠ t.top := (top_ne_bot h).symm

theorem top_le_iff {t : Ty} (h : t.isLat = true) {a : t.den} : t.le t.top a ↔ a = t.top :=
  ⟨fun h' => le_antisymm (le_top h a) h', fun h' => h' ▸ le_refl _ _⟩

theorem le_bot_iff {t : Ty} (h : t.isLat = true) {a : t.den} : t.le a t.bot ↔ a = t.bot :=
  ⟨fun h' => le_antisymm h' (bot_le h a), fun h' => h' ▸ le_refl _ _⟩

theorem le_inf_iff {t : Ty} (h : t.isOrd = true) {a b c : t.den} :
    t.le c (t.inf a b) ↔ t.le c a ∧ t.le c b := by
  unfold inf
  split
  next h1 => exact ⟨fun h => ⟨h, le_trans h h1⟩, fun h => h.1⟩
  next h1 =>
    have h2 := (le_total h a b).resolve_left h1
    exact ⟨fun h => ⟨le_trans h h2, h⟩, fun h => h.2⟩

theorem sup_le_iff {t : Ty} (h : t.isOrd = true) {a b c : t.den} :
    t.le (t.sup a b) c ↔ t.le a c ∧ t.le b c := by
  unfold sup
  split
  next h1 => exact ⟨fun h => ⟨le_trans h1 h, h⟩, fun h => h.2⟩
  next h1 =>
    have h2 := (le_total h a b).resolve_left h1
    exact ⟨fun h => ⟨h, le_trans h2 h⟩, fun h => h.1⟩

theorem inf_le_iff {t : Ty} (h : t.isOrd = true) {a b c : t.den} :
    t.le (t.inf a b) c ↔ t.le a c ∨ t.le b c := by
  unfold inf
  split
  next h1 => exact ⟨Or.inl, fun h => h.elim id (le_trans h1)⟩
  next h1 =>
    have h2 := (le_total h a b).resolve_left h1
    exact ⟨Or.inr, fun h => h.elim (le_trans h2) id⟩

theorem le_sup_iff {t : Ty} (h : t.isOrd = true) {a b c : t.den} :
    t.le c (t.sup a b) ↔ t.le c a ∨ t.le c b := by
  unfold sup
  split
  next h1 => exact ⟨Or.inr, fun h => h.elim (fun h => le_trans h h1) id⟩
  next h1 =>
    have h2 := (le_total h a b).resolve_left h1
    exact ⟨Or.inl, fun h => h.elim id (fun h => le_trans h h2)⟩

theorem le_impl_iff {t : Ty} (h : t.isLat = true) {a b c : t.den} :
    t.le c (t.impl a b) ↔ t.le a b ∨ t.le c b := by
  unfold impl
  split
  next h1 => simp [h1, le_top h]
  next h1 => simp [h1]

theorem coimpl_le_iff {t : Ty} (h : t.isLat = true) {a b c : t.den} :
    t.le (t.coimpl a b) c ↔ t.le b a ∨ t.le b c := by
  unfold coimpl
  split
  next h1 => simp [h1, bot_le h]
  next h1 => simp [h1]

theorem impl_eq_top {t : Ty} (h : t.isLat = true) {a b : t.den} :
    t.impl a b = t.top ↔ t.le a b := by
  rw [← top_le_iff h, le_impl_iff h, top_le_iff h]
  exact ⟨fun h' => h'.elim id (fun h' => h' ▸ le_top h a), Or.inl⟩

theorem coimpl_eq_bot {t : Ty} (h : t.isLat = true) {a b : t.den} :
    t.coimpl a b = t.bot ↔ t.le b a := by
  rw [← le_bot_iff h, coimpl_le_iff h, le_bot_iff h]
  exact ⟨fun h' => h'.elim id (fun h' => h' ▸ bot_le h a), Or.inl⟩

theorem compare_eq_top {t : Ty} (h : t.isLat = true) {a b : t.den} :
    t.compare a b = t.top ↔ t.le a b := by
  unfold compare; split <;> simp_all [bot_ne_top h]

theorem cocompare_eq_bot {t : Ty} (h : t.isLat = true) {a b : t.den} :
    t.cocompare a b = t.bot ↔ t.le b a := by
  unfold cocompare; split <;> simp_all [top_ne_bot h]

theorem not_eq_top {t : Ty} (h : t.isLat = true) {a : t.den} : t.not a = t.top ↔ a = t.bot := by
  unfold not; split <;> simp_all [bot_ne_top h]

theorem non_eq_bot {t : Ty} (h : t.isLat = true) {a : t.den} : t.non a = t.bot ↔ a = t.top := by
  unfold non; split <;> simp_all [top_ne_bot h]

theorem inf_eq_top {t : Ty} (h : t.isLat = true) {a b : t.den} :
    t.inf a b = t.top ↔ a = t.top ∧ b = t.top := by
  rw [← top_le_iff h, le_inf_iff (isOrd_of_isLat h), top_le_iff h, top_le_iff h]

theorem sup_eq_top {t : Ty} (h : t.isLat = true) {a b : t.den} :
    t.sup a b = t.top ↔ a = t.top ∨ b = t.top := by
  rw [← top_le_iff h, le_sup_iff (isOrd_of_isLat h), top_le_iff h, top_le_iff h]

theorem inf_eq_bot {t : Ty} (h : t.isLat = true) {a b : t.den} :
    t.inf a b = t.bot ↔ a = t.bot ∨ b = t.bot := by
  rw [← le_bot_iff h, inf_le_iff (isOrd_of_isLat h), le_bot_iff h, le_bot_iff h]

theorem sup_eq_bot {t : Ty} (h : t.isLat = true) {a b : t.den} :
    t.sup a b = t.bot ↔ a = t.bot ∧ b = t.bot := by
  rw [← le_bot_iff h, sup_le_iff (isOrd_of_isLat h), le_bot_iff h, le_bot_iff h]

/-! ### Concrete forms -/

theorem inf_eureal (a b : ℝ≥0∞) : Ty.inf .eureal a b = (min a b : ℝ≥0∞) := by
  by_cases h : a ≤ b
  · exact (if_pos h).trans (min_eq_left h).symm
  · exact (if_neg h).trans (min_eq_right (_root_.le_of_not_ge h)).symm

theorem sup_eureal (a b : ℝ≥0∞) : Ty.sup .eureal a b = (max a b : ℝ≥0∞) := by
  by_cases h : a ≤ b
  · exact (if_pos h).trans (max_eq_right h).symm
  · exact (if_neg h).trans (max_eq_left (_root_.le_of_not_ge h)).symm

end Ty

section
variable [Doms] [Interp]
set_option linter.unusedSectionVars false

/-- The value of an `if` does not depend on the decision procedure. -/
theorem ite_inst {α : Sort _} {p : Prop} {i j : Decidable p} {a b : α} :
    @ite α p i a b = @ite α p j a b := by
  rw [Subsingleton.elim i j]

/-! ## Concrete evaluation rules for `EUReal` and `Bool` -/
namespace Expr

section
variable (σ : Env) (a b : Expr .eureal) (c d : Expr .bool)

theorem ev_inf (h) : (Expr.bin (.inf h) a b).ev σ = min (a.ev σ) (b.ev σ) := Ty.inf_eureal _ _
theorem ev_sup (h) : (Expr.bin (.sup h) a b).ev σ = max (a.ev σ) (b.ev σ) := Ty.sup_eureal _ _
theorem ev_add (h) : (Expr.bin (.add h) a b).ev σ = a.ev σ + b.ev σ := rfl
theorem ev_sub (h) : (Expr.bin (.sub h) a b).ev σ = a.ev σ - b.ev σ := rfl
theorem ev_mul (h) : (Expr.bin (.mul h) a b).ev σ = a.ev σ * b.ev σ := rfl
open Classical in
theorem ev_impl (h) : (Expr.bin (.impl h) a b).ev σ = if a.ev σ ≤ b.ev σ then ⊤ else b.ev σ := ite_inst
open Classical in
theorem ev_coimpl (h) : (Expr.bin (.coimpl h) a b).ev σ = if b.ev σ ≤ a.ev σ then 0 else b.ev σ := ite_inst
open Classical in
theorem ev_compare (h) : (Expr.bin (.compare h) a b).ev σ = if a.ev σ ≤ b.ev σ then ⊤ else 0 := ite_inst
open Classical in
theorem ev_cocompare (h) : (Expr.bin (.cocompare h) a b).ev σ = if b.ev σ ≤ a.ev σ then 0 else ⊤ := ite_inst
open Classical in
theorem ev_not (h) : (Expr.un (.not h) a).ev σ = if a.ev σ = 0 then ⊤ else 0 := ite_inst
open Classical in
theorem ev_non (h) : (Expr.un (.non h) a).ev σ = if a.ev σ = ⊤ then 0 else ⊤ := ite_inst
theorem ev_parens : (Expr.un .parens a).ev σ = a.ev σ := rfl
open Classical in
theorem ev_embed : (Expr.embed c).ev σ = if c.tv σ then ⊤ else 0 := rfl
open Classical in
theorem ev_iverson : (Expr.iverson c).ev σ = if c.tv σ then 1 else 0 := rfl
open Classical in
theorem ev_ite : (Expr.ite c a b).ev σ = if c.tv σ then a.ev σ else b.ev σ := rfl
theorem ev_infty : (Expr.lit .infty).ev σ = ⊤ := rfl
theorem ev_efrac (q : ℚ≥0) : (Expr.lit (.efrac q)).ev σ = ((q : ℝ≥0) : ℝ≥0∞) := rfl
theorem ev_cast_ureal (u : Expr .ureal) :
    (Expr.cast .urealEUReal u).ev σ = ENNReal.ofNNReal (u.eval σ) := rfl
theorem ev_cast_uint (u : Expr .uint) :
    (Expr.cast .uintEUReal u).ev σ = Nat.cast (R := ℝ≥0∞) (u.eval σ) := rfl
theorem ev_subst (x : Var) (e : Expr x.ty) :
    (Expr.subst x e a).ev σ = a.ev (σ.upd x (e.eval σ)) := rfl

theorem tv_and : (Expr.bin .and c d).tv σ = (c.tv σ ∧ d.tv σ) := rfl
theorem tv_or : (Expr.bin .or c d).tv σ = (c.tv σ ∨ d.tv σ) := rfl
theorem tv_lit (v : Bool) : (Expr.lit (.bool v)).tv σ = (v = true) := rfl
theorem tv_not (h) : (Expr.un (.not h) c).tv σ ↔ ¬ c.tv σ := by
  show Ty.not .bool (c.eval σ) ↔ _
  by_cases hc : c.tv σ
  · have : ¬ (c.eval σ = Ty.bot .bool) := fun he => _root_.cast he hc
    exact (iff_of_eq (if_neg this)).trans (iff_of_false id (fun hn => hn hc))
  · have : c.eval σ = Ty.bot .bool := eq_false hc
    exact (iff_of_eq (if_pos this)).trans (iff_of_true trivial hc)
theorem tv_impl (h) : (Expr.bin (.impl h) c d).tv σ ↔ (c.tv σ → d.tv σ) := by
  by_cases hc : c.tv σ → d.tv σ
  · exact (iff_of_eq (if_pos hc)).trans (iff_of_true trivial hc)
  · exact (iff_of_eq (if_neg hc)).trans (iff_of_false (fun hd => hc fun _ => hd) hc)
theorem tv_eq_rel {t : Ty} (x y : Expr t) : (Expr.rel .eq x y).tv σ = (x.eval σ = y.eval σ) := rfl
theorem tv_le_rel {t : Ty} (h) (x y : Expr t) :
    (Expr.rel (.le h) x y).tv σ = t.le (x.eval σ) (y.eval σ) := rfl
open Classical in
theorem tv_ite (e : Expr .bool) : (Expr.ite e c d).tv σ ↔ if e.tv σ then c.tv σ else d.tv σ := by
  by_cases he : e.tv σ
  · rw [if_pos he]; exact iff_of_eq (if_pos he)
  · rw [if_neg he]; exact iff_of_eq (if_neg he)

end

theorem tv_eq (e : Expr .bool) (σ : Env) : e.tv σ = e.eval σ := rfl
theorem ev_eq (e : Expr .eureal) (σ : Env) : e.ev σ = e.eval σ := rfl

theorem eval_topLit {t : Ty} (h : t.isLat = true) (σ : Env) : (topLit t h).eval σ = t.top := by
  cases t <;> simp [Ty.isLat] at h
  case bool => exact eq_true (rfl : true = true)
  case eureal => rfl

theorem eval_botLit {t : Ty} (h : t.isLat = true) (σ : Env) : (botLit t h).eval σ = t.bot := by
  cases t <;> simp [Ty.isLat] at h
  case bool => exact eq_false (Bool.false_ne_true)
  case eureal => exact Nat.cast_zero (R := ℝ≥0∞)

theorem _root_.Caesar.Lit.den_isTop {t : Ty} (h : t.isLat = true) (l : Lit t) (hl : l.isTop = true) :
    l.den = t.top := by
  cases l with
  | bool b => exact eq_true hl
  | infty => rfl
  | _ => exact absurd hl Bool.false_ne_true

theorem _root_.Caesar.Lit.den_isBot {t : Ty} (h : t.isLat = true) (l : Lit t) (hl : l.isBot = true) :
    l.den = t.bot := by
  cases l with
  | bool b =>
    have : b = false := by simpa [Lit.isBot] using hl
    subst this
    exact eq_false Bool.false_ne_true
  | infty => exact absurd hl Bool.false_ne_true
  | efrac q =>
    have : q = 0 := by simpa [Lit.isBot] using hl
    subst this
    show (((0 : ℚ≥0) : ℝ≥0) : ℝ≥0∞) = 0
    rw [NNRat.cast_zero, ENNReal.coe_zero]
  | _ => exact absurd h Bool.false_ne_true

theorem eval_isTopLit {t : Ty} (h : t.isLat = true) (e : Expr t) (he : e.isTopLit = true) (σ : Env) :
    e.eval σ = t.top := by
  cases e with
  | lit l => exact Lit.den_isTop h l he
  | _ => exact absurd he Bool.false_ne_true

theorem eval_isBotLit {t : Ty} (h : t.isLat = true) (e : Expr t) (he : e.isBotLit = true) (σ : Env) :
    e.eval σ = t.bot := by
  cases e with
  | lit l => exact Lit.den_isBot h l he
  | cast c a =>
    cases a with
    | lit l =>
      cases c with
      | uintEUReal =>
        cases l with
        | uint n =>
          have : n = 0 := by simpa [isBotLit, Lit.isBot] using he
          subst this
          exact Nat.cast_zero (R := ℝ≥0∞)
      | urealEUReal =>
        cases l with
        | ufrac q =>
          have : q = 0 := by simpa [isBotLit, Lit.isBot] using he
          subst this
          show (((0 : ℚ≥0) : ℝ≥0) : ℝ≥0∞) = 0
          rw [NNRat.cast_zero, ENNReal.coe_zero]
      | _ => exact absurd h Bool.false_ne_true
    | _ => exact absurd he Bool.false_ne_true
  | _ => exact absurd he Bool.false_ne_true

end Expr
end

end Caesar
