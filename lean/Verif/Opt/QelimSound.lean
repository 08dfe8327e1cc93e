import Verif.Opt.Qelim
import Verif.Lattice
import Mathlib.Topology.Algebra.InfiniteSum.ENNReal

/-!
# Quantifier elimination: infima and suprema over extensions of a state (helper lemmas)
-/

open scoped ENNReal NNReal

namespace Caesar
set_option linter.unusedSectionVars false

section
variable [Doms] [Interp]

/-- Infimum (`Down`) or supremum (`Up`). -/
noncomputable def Dir.extr (d : Dir) (t : Ty) {ι : Type} (f : ι → t.den) : t.den :=
  match d with
  | .down => t.iInf f
  | .up => t.iSup f

namespace Ty

theorem le_iInf_iff {t : Ty} (h : t.isLat = true) {ι : Type} {f : ι → t.den} {c : t.den} : t.le c (t.iInf f) ↔ ∀ i, t.le c (f i) := by
  cases t with
  | bool => exact ⟨fun h i hc => h hc i, fun h hc i => h i hc⟩
  | eureal => exact _root_.le_iInf_iff (α := ℝ≥0∞)
  | _ => cases h

theorem iSup_le_iff {t : Ty} (h : t.isLat = true) {ι : Type} {f : ι → t.den} {c : t.den} : t.le (t.iSup f) c ↔ ∀ i, t.le (f i) c := by
  cases t with
  | bool => exact ⟨fun h i hc => h ⟨i, hc⟩, fun h ⟨i, hi⟩ => h i hi⟩
  | eureal => exact _root_.iSup_le_iff (α := ℝ≥0∞)
  | _ => cases h

theorem eq_of_le_iff {t : Ty} {x y : t.den} (h : ∀ c, t.le c x ↔ t.le c y) : x = y :=
  le_antisymm ((h x).1 (le_refl _ _)) ((h y).2 (le_refl _ _))

theorem eq_of_ge_iff {t : Ty} {x y : t.den} (h : ∀ c, t.le x c ↔ t.le y c) : x = y :=
  le_antisymm ((h y).2 (le_refl _ _)) ((h x).1 (le_refl _ _))

theorem le_compare_iff {t : Ty} (h : t.isLat = true) {a b c : t.den} : t.le c (t.compare a b) ↔ t.le a b ∨ c = t.bot := by
  unfold compare
  split
  next h1 => simp [h1, le_top h]
  next h1 => simp [h1, le_bot_iff h]

theorem cocompare_le_iff {t : Ty} (h : t.isLat = true) {a b c : t.den} : t.le (t.cocompare a b) c ↔ t.le b a ∨ c = t.top := by
  unfold cocompare
  split
  next h1 => simp [h1, bot_le h]
  next h1 => simp [h1, top_le_iff h]

theorem le_not_iff {t : Ty} (h : t.isLat = true) {a c : t.den} : t.le c (t.not a) ↔ t.le a t.bot ∨ c = t.bot := by
  rw [le_bot_iff h]
  unfold not
  split
  next h1 => simp [h1, le_top h]
  next h1 => simp [h1, le_bot_iff h]

theorem non_le_iff {t : Ty} (h : t.isLat = true) {a c : t.den} : t.le (t.non a) c ↔ t.le t.top a ∨ c = t.top := by
  rw [top_le_iff h]
  unfold non
  split
  next h1 => simp [h1, bot_le h]
  next h1 => simp [h1, top_le_iff h]

end Ty

open Ty in
theorem extr_range {d : Dir} {t : Ty} {ι κ : Type} {f : ι → t.den} {g : κ → t.den} (h1 : ∀ i, ∃ j, f i = g j) (h2 : ∀ j, ∃ i, g j = f i) :
    d.extr t f = d.extr t g := by
  by_cases ht : t.isLat = true
  · cases d with
    | down =>
      refine eq_of_le_iff fun c => ?_
      show t.le c (t.iInf f) ↔ t.le c (t.iInf g)
      rw [le_iInf_iff ht, le_iInf_iff ht]
      constructor
      · intro h j
        obtain ⟨i, hi⟩ := h2 j
        rw [hi]
        exact h i
      · intro h i
        obtain ⟨j, hj⟩ := h1 i
        rw [hj]
        exact h j
    | up =>
      refine eq_of_ge_iff fun c => ?_
      show t.le (t.iSup f) c ↔ t.le (t.iSup g) c
      rw [iSup_le_iff ht, iSup_le_iff ht]
      constructor
      · intro h j
        obtain ⟨i, hi⟩ := h2 j
        rw [hi]
        exact h i
      · intro h i
        obtain ⟨j, hj⟩ := h1 i
        rw [hj]
        exact h j
  · cases t <;> first | (exact absurd rfl ht) | (cases d <;> rfl)

open Ty in
theorem extr_sigma {d : Dir} {t : Ty} (ht : t.isLat = true) {ι : Type} {κ : ι → Type} (f : (i : ι) → κ i → t.den) :
    d.extr t (fun i => d.extr t (f i)) = d.extr t (fun p : Sigma κ => f p.1 p.2) := by
  cases d with
  | down =>
    refine eq_of_le_iff fun c => ?_
    show t.le c (t.iInf fun i => t.iInf (f i)) ↔ t.le c (t.iInf fun p : Sigma κ => f p.1 p.2)
    simp only [le_iInf_iff ht]
    exact ⟨fun h p => h p.1 p.2, fun h i j => h ⟨i, j⟩⟩
  | up =>
    refine eq_of_ge_iff fun c => ?_
    show t.le (t.iSup fun i => t.iSup (f i)) c ↔ t.le (t.iSup fun p : Sigma κ => f p.1 p.2) c
    simp only [iSup_le_iff ht]
    exact ⟨fun h p => h p.1 p.2, fun h i j => h ⟨i, j⟩⟩

theorem extr_prod {d : Dir} {t : Ty} (ht : t.isLat = true) {ι κ : Type} (f : ι → κ → t.den) :
    d.extr t (fun i => d.extr t (f i)) = d.extr t (fun p : ι × κ => f p.1 p.2) :=
  (extr_sigma ht f).trans (extr_range (fun p => ⟨(p.1, p.2), rfl⟩) (fun p => ⟨⟨p.1, p.2⟩, rfl⟩))

theorem extr_unit {d : Dir} {t : Ty} (ht : t.isLat = true) {ι : Type} [Nonempty ι] (x : t.den) : d.extr t (fun _ : ι => x) = x := by
  cases d with
  | down =>
    refine Ty.eq_of_le_iff fun c => ?_
    show t.le c (t.iInf _) ↔ _
    rw [Ty.le_iInf_iff ht]
    exact ⟨fun h => h (Classical.arbitrary ι), fun h _ => h⟩
  | up =>
    refine Ty.eq_of_ge_iff fun c => ?_
    show t.le (t.iSup _) c ↔ _
    rw [Ty.iSup_le_iff ht]
    exact ⟨fun h => h (Classical.arbitrary ι), fun h _ => h⟩

/-- A binary operation which commutes with limits in both arguments. -/
theorem two_step {d d1 d2 : Dir} {t : Ty} (ht : t.isLat = true) (op : t.den → t.den → t.den) {ι κ : Type} (f : ι → t.den) (g : κ → t.den)
    (h1 : ∀ y, op (d1.extr t f) y = d.extr t (fun i => op (f i) y)) (h2 : ∀ x, op x (d2.extr t g) = d.extr t (fun j => op x (g j))) :
    op (d1.extr t f) (d2.extr t g) = d.extr t (fun p : ι × κ => op (f p.1) (g p.2)) := by
  rw [h1, ← extr_prod ht fun i j => op (f i) (g j)]
  congr 1
  funext i
  exact h2 _

/-! ### The operators commute with the limits -/

section ops
variable {t : Ty} (ht : t.isLat = true) {ι : Type} [Nonempty ι] (f : ι → t.den) (y : t.den)
include ht

open Ty

theorem extr_inf_left (d : Dir) : t.inf (d.extr t f) y = d.extr t (fun i => t.inf (f i) y) := by
  cases d with
  | down =>
    refine eq_of_le_iff fun c => ?_
    show t.le c (t.inf (t.iInf f) y) ↔ t.le c (t.iInf _)
    simp only [le_iInf_iff ht, le_inf_iff (isOrd_of_isLat ht)]
    exact ⟨fun h i => ⟨h.1 i, h.2⟩, fun h => ⟨fun i => (h i).1, (h (Classical.arbitrary ι)).2⟩⟩
  | up =>
    refine eq_of_ge_iff fun c => ?_
    show t.le (t.inf (t.iSup f) y) c ↔ t.le (t.iSup _) c
    simp only [iSup_le_iff ht, inf_le_iff (isOrd_of_isLat ht)]
    exact forall_or_right.symm

theorem extr_sup_left (d : Dir) : t.sup (d.extr t f) y = d.extr t (fun i => t.sup (f i) y) := by
  cases d with
  | down =>
    refine eq_of_le_iff fun c => ?_
    show t.le c (t.sup (t.iInf f) y) ↔ t.le c (t.iInf _)
    simp only [le_iInf_iff ht, le_sup_iff (isOrd_of_isLat ht)]
    exact forall_or_right.symm
  | up =>
    refine eq_of_ge_iff fun c => ?_
    show t.le (t.sup (t.iSup f) y) c ↔ t.le (t.iSup _) c
    simp only [iSup_le_iff ht, sup_le_iff (isOrd_of_isLat ht)]
    exact ⟨fun h i => ⟨h.1 i, h.2⟩, fun h => ⟨fun i => (h i).1, (h (Classical.arbitrary ι)).2⟩⟩

theorem inf_comm' (a b : t.den) : t.inf a b = t.inf b a :=
  eq_of_le_iff fun c => by rw [le_inf_iff (isOrd_of_isLat ht), le_inf_iff (isOrd_of_isLat ht), and_comm]

theorem sup_comm' (a b : t.den) : t.sup a b = t.sup b a :=
  eq_of_ge_iff fun c => by rw [sup_le_iff (isOrd_of_isLat ht), sup_le_iff (isOrd_of_isLat ht), and_comm]

theorem extr_inf_right (d : Dir) : t.inf y (d.extr t f) = d.extr t (fun i => t.inf y (f i)) := by
  rw [inf_comm' ht, extr_inf_left ht]
  congr 1
  funext i
  exact inf_comm' ht _ _

theorem extr_sup_right (d : Dir) : t.sup y (d.extr t f) = d.extr t (fun i => t.sup y (f i)) := by
  rw [sup_comm' ht, extr_sup_left ht]
  congr 1
  funext i
  exact sup_comm' ht _ _

theorem extr_impl_left : t.impl (Dir.up.extr t f) y = Dir.down.extr t (fun i => t.impl (f i) y) := by
  refine eq_of_le_iff fun c => ?_
  show t.le c (t.impl (t.iSup f) y) ↔ t.le c (t.iInf _)
  simp only [le_iInf_iff ht, le_impl_iff ht, iSup_le_iff ht]
  exact forall_or_right.symm

theorem extr_impl_right : t.impl y (Dir.down.extr t f) = Dir.down.extr t (fun i => t.impl y (f i)) := by
  refine eq_of_le_iff fun c => ?_
  show t.le c (t.impl y (t.iInf f)) ↔ t.le c (t.iInf _)
  simp only [le_iInf_iff ht, le_impl_iff ht]
  refine ⟨fun h i => h.imp (fun h => h i) (fun h => h i), fun h => ?_⟩
  rcases le_total (isOrd_of_isLat ht) y c with hyc | hyc
  · left
    intro i
    exact (h i).elim id (fun h => le_trans hyc h)
  · right
    intro i
    exact (h i).elim (fun h => le_trans hyc h) id

theorem extr_coimpl_left : t.coimpl (Dir.down.extr t f) y = Dir.up.extr t (fun i => t.coimpl (f i) y) := by
  refine eq_of_ge_iff fun c => ?_
  show t.le (t.coimpl (t.iInf f) y) c ↔ t.le (t.iSup _) c
  simp only [le_iInf_iff ht, coimpl_le_iff ht, iSup_le_iff ht]
  exact forall_or_right.symm

theorem extr_coimpl_right : t.coimpl y (Dir.up.extr t f) = Dir.up.extr t (fun i => t.coimpl y (f i)) := by
  refine eq_of_ge_iff fun c => ?_
  show t.le (t.coimpl y (t.iSup f)) c ↔ t.le (t.iSup _) c
  simp only [iSup_le_iff ht, coimpl_le_iff ht]
  refine ⟨fun h i => h.imp (fun h => h i) (fun h => h i), fun h => ?_⟩
  rcases le_total (isOrd_of_isLat ht) y c with hyc | hyc
  · right
    intro i
    exact (h i).elim (fun h => le_trans h hyc) id
  · left
    intro i
    exact (h i).elim id (fun h => le_trans h hyc)

theorem extr_compare_left : t.compare (Dir.up.extr t f) y = Dir.down.extr t (fun i => t.compare (f i) y) := by
  refine eq_of_le_iff fun c => ?_
  show t.le c (t.compare (t.iSup f) y) ↔ t.le c (t.iInf _)
  simp only [le_iInf_iff ht, le_compare_iff ht, iSup_le_iff ht]
  exact forall_or_right.symm

theorem extr_compare_right : t.compare y (Dir.down.extr t f) = Dir.down.extr t (fun i => t.compare y (f i)) := by
  refine eq_of_le_iff fun c => ?_
  show t.le c (t.compare y (t.iInf f)) ↔ t.le c (t.iInf _)
  simp only [le_iInf_iff ht, le_compare_iff ht]
  exact forall_or_right.symm

theorem extr_cocompare_left : t.cocompare (Dir.down.extr t f) y = Dir.up.extr t (fun i => t.cocompare (f i) y) := by
  refine eq_of_ge_iff fun c => ?_
  show t.le (t.cocompare (t.iInf f) y) c ↔ t.le (t.iSup _) c
  simp only [le_iInf_iff ht, cocompare_le_iff ht, iSup_le_iff ht]
  exact forall_or_right.symm

theorem extr_cocompare_right : t.cocompare y (Dir.up.extr t f) = Dir.up.extr t (fun i => t.cocompare y (f i)) := by
  refine eq_of_ge_iff fun c => ?_
  show t.le (t.cocompare y (t.iSup f)) c ↔ t.le (t.iSup _) c
  simp only [cocompare_le_iff ht, iSup_le_iff ht]
  exact forall_or_right.symm

theorem extr_not : t.not (Dir.up.extr t f) = Dir.down.extr t (fun i => t.not (f i)) := by
  refine eq_of_le_iff fun c => ?_
  show t.le c (t.not (t.iSup f)) ↔ t.le c (t.iInf _)
  simp only [le_iInf_iff ht, le_not_iff ht, iSup_le_iff ht]
  exact forall_or_right.symm

theorem extr_non : t.non (Dir.down.extr t f) = Dir.up.extr t (fun i => t.non (f i)) := by
  refine eq_of_ge_iff fun c => ?_
  show t.le (t.non (t.iInf f)) c ↔ t.le (t.iSup _) c
  simp only [le_iInf_iff ht, non_le_iff ht, iSup_le_iff ht]
  exact forall_or_right.symm

end ops

theorem and_eq_inf (p q : Ty.bool.den) : BinOp.and.den p q = Ty.inf .bool p q :=
  Ty.eq_of_le_iff fun c => by
    rw [Ty.le_inf_iff rfl]
    exact ⟨fun h => ⟨fun hc => (h hc).1, fun hc => (h hc).2⟩, fun h hc => ⟨h.1 hc, h.2 hc⟩⟩

theorem or_eq_sup (p q : Ty.bool.den) : BinOp.or.den p q = Ty.sup .bool p q :=
  Ty.eq_of_ge_iff fun c => by
    rw [Ty.sup_le_iff rfl]
    exact ⟨fun h => ⟨fun hc => h (Or.inl hc), fun hc => h (Or.inr hc)⟩, fun h hc => hc.elim h.1 h.2⟩

theorem extr_add_left (d : Dir) {ι : Type} [Nonempty ι] (f : ι → ℝ≥0∞) (y : ℝ≥0∞) :
    Ty.add .eureal (d.extr .eureal f) y = d.extr .eureal (fun i => (f i + y : ℝ≥0∞)) := by
  cases d with
  | down => exact ENNReal.iInf_add (ι := ι) (f := f) (a := y)
  | up => exact ENNReal.iSup_add (ι := ι) (f := f) (a := y)

theorem extr_add_right (d : Dir) {ι : Type} [Nonempty ι] (f : ι → ℝ≥0∞) (y : ℝ≥0∞) :
    Ty.add .eureal y (d.extr .eureal f) = d.extr .eureal (fun i => (y + f i : ℝ≥0∞)) := by
  cases d with
  | down => exact ENNReal.add_iInf (ι := ι) (f := f) (a := y)
  | up => exact ENNReal.add_iSup (ι := ι) (f := f) (a := y)

theorem extr_mul_right (d : Dir) {ι : Type} [Nonempty ι] (f : ι → ℝ≥0∞) (y : ℝ≥0∞) (hy : y ≠ ⊤) :
    Ty.mul .eureal y (d.extr .eureal f) = d.extr .eureal (fun i => (y * f i : ℝ≥0∞)) := by
  cases d with
  | down => exact ENNReal.mul_iInf fun h => absurd h hy
  | up => exact ENNReal.mul_iSup y f

theorem extr_mul_left (d : Dir) {ι : Type} [Nonempty ι] (f : ι → ℝ≥0∞) (y : ℝ≥0∞) (hy : y ≠ ⊤) :
    Ty.mul .eureal (d.extr .eureal f) y = d.extr .eureal (fun i => (f i * y : ℝ≥0∞)) := by
  cases d with
  | down => exact ENNReal.iInf_mul fun h => absurd h hy
  | up => exact ENNReal.iSup_mul f y

/-- The value is not `∞`. -/
def FinVal : (t : Ty) → t.den → Prop
  | .eureal, v => (fun x : ℝ≥0∞ => x ≠ ⊤) v
  | _, _ => True

theorem finVal_trivial {t : Ty} (h : t ≠ .eureal) (v : t.den) : FinVal t v := by
  cases t <;> trivial

/-- `is_finite` is right. -/
theorem isFinite_finVal {t : Ty} (e : Expr t) (h : e.isFinite = true) (σ : Env) : FinVal t (e.eval σ) := by
  by_cases ht : t = .eureal
  swap
  · exact finVal_trivial ht _
  induction e with
  | bin op a b iha ihb =>
    subst ht
    cases op with
    | add h' =>
      rw [Expr.isFinite] at h
      have h : a.isFinite = true ∧ b.isFinite = true := by simpa [Ty.isFinTy] using h
      exact ENNReal.add_ne_top.2 ⟨iha h.1 rfl, ihb h.2 rfl⟩
    | mul h' =>
      rw [Expr.isFinite] at h
      have h : a.isFinite = true ∧ b.isFinite = true := by simpa [Ty.isFinTy] using h
      exact ENNReal.mul_ne_top (iha h.1 rfl) (ihb h.2 rfl)
    | sup h' =>
      rw [Expr.isFinite] at h
      have h : a.isFinite = true ∧ b.isFinite = true := by simpa [Ty.isFinTy] using h
      show (Expr.bin (.sup h') a b).ev σ ≠ ⊤
      rw [Expr.ev_sup]
      exact ne_of_lt (max_lt (lt_top_iff_ne_top.2 (iha h.1 rfl)) (lt_top_iff_ne_top.2 (ihb h.2 rfl)))
    | inf h' =>
      rw [Expr.isFinite] at h
      have h : a.isFinite = true ∨ b.isFinite = true := by simpa [Ty.isFinTy] using h
      show (Expr.bin (.inf h') a b).ev σ ≠ ⊤
      rw [Expr.ev_inf]
      rcases h with h | h
      · exact ne_of_lt (lt_of_le_of_lt (min_le_left _ _) (lt_top_iff_ne_top.2 (iha h rfl)))
      · exact ne_of_lt (lt_of_le_of_lt (min_le_right _ _) (lt_top_iff_ne_top.2 (ihb h rfl)))
    | sub h' =>
      rw [Expr.isFinite] at h
      have h : a.isFinite = true := by simpa [Ty.isFinTy] using h
      exact ENNReal.sub_ne_top (iha h rfl)
    | _ => cases h
  | un op a iha =>
    subst ht
    cases op with
    | parens =>
      rw [Expr.isFinite] at h
      have h : a.isFinite = true := by simpa [Ty.isFinTy] using h
      exact iha h rfl
    | _ => cases h
  | iverson a iha =>
    show (Expr.iverson a).ev σ ≠ ⊤
    rw [Expr.ev_iverson]
    split <;> simp
  | cast c a iha =>
    subst ht
    cases c with
    | uintEUReal => exact ENNReal.natCast_ne_top _
    | urealEUReal => exact ENNReal.coe_ne_top
  | lit l =>
    subst ht
    cases l with
    | efrac q => exact ENNReal.coe_ne_top
    | infty => cases h
  | rel _ _ _ => cases ht
  | embed _ => cases h
  | _ => subst ht; cases h

theorem isFinite_ne_top (e : Expr .eureal) (h : e.isFinite = true) (σ : Env) : e.ev σ ≠ ⊤ := isFinite_finVal e h σ

theorem extr_congr_set {d : Dir} {t : Ty} {S S' : Var → Prop} (h : ∀ v, S v ↔ S' v) (σ : Env) (f : Env → t.den) :
    d.extr t (fun τ : {τ : Env // ∀ v, ¬ S v → τ v = σ v} => f τ.1) = d.extr t (fun τ : {τ : Env // ∀ v, ¬ S' v → τ v = σ v} => f τ.1) := by
  have : S = S' := funext fun v => propext (h v)
  subst this
  rfl

/-! ### Extensions of a state -/

/-- The states which agree with `σ` except on the variables `W`. -/
abbrev Ext (W : Var → Prop) (σ : Env) : Type := {τ : Env // ∀ v, ¬ W v → τ v = σ v}

instance (W : Var → Prop) (σ : Env) : Nonempty (Ext W σ) := ⟨⟨σ, fun _ _ => rfl⟩⟩

/-- Variables which are not free do not matter. -/
theorem extr_irrel {d : Dir} {t : Ty} (e : Expr t) (S S' : Var → Prop) (hS : ∀ v, S' v → S v) (h : ∀ v, S v → e.Free v → S' v) (σ : Env) :
    d.extr t (fun τ : Ext S σ => e.eval τ.1) = d.extr t (fun τ : Ext S' σ => e.eval τ.1) := by
  classical
  refine extr_range (fun τ => ⟨⟨fun v => if S' v then τ.1 v else σ v, fun v hv => if_neg hv⟩, ?_⟩)
    (fun τ => ⟨⟨τ.1, fun v hv => τ.2 v fun h' => hv (hS v h')⟩, rfl⟩)
  refine e.eval_congr fun v hv => ?_
  by_cases h1 : S' v
  · exact (if_pos h1).symm
  · exact (τ.2 v fun hs => h1 (h v hs hv)).trans (if_neg h1).symm

/-- Quantifying over variables is the limit over the extensions of the state. -/
theorem quantVars_extr {op : QOp} {d : Dir} (hop : op.isDir d = true) {t : Ty} (ht : t.isLat = true) (vs : List Var) (f : Env → t.den) (σ : Env) :
    quantVars op t vs f σ = d.extr t (fun τ : Ext (· ∈ vs) σ => f τ.1) := by
  induction vs generalizing σ with
  | nil =>
    have : ∀ τ : Ext (· ∈ ([] : List Var)) σ, τ.1 = σ := fun τ => funext fun v => τ.2 v (by simp)
    simp only [this]
    exact (extr_unit ht _).symm
  | cons v vs ih =>
    have hd : ∀ {ι : Type} (g : ι → t.den), op.den t g = d.extr t g := by
      intro ι g
      cases d <;> cases op <;> first | rfl | cases hop
    unfold quantVars
    rw [hd]
    simp only [ih]
    rw [extr_sigma ht fun (a : v.ty.den) (τ : Ext (· ∈ vs) (σ.upd v a)) => f τ.1]
    refine extr_range (fun p => ⟨⟨p.2.1, fun w hw => ?_⟩, rfl⟩) (fun τ => ⟨⟨τ.1 v, ⟨τ.1, fun w hw => ?_⟩⟩, rfl⟩)
    · simp only [List.mem_cons, not_or] at hw
      rw [p.2.2 w hw.2, Env.upd_ne _ hw.1]
    · by_cases hwv : w = v
      · subst hwv
        simp
      · rw [Env.upd_ne _ hwv]
        exact τ.2 w (by simp [hwv, hw])

/-- Limits over extensions of extensions. -/
theorem extr_union {d : Dir} {t : Ty} (ht : t.isLat = true) (S W : Var → Prop) (f : Env → t.den) (σ : Env) :
    d.extr t (fun τ : Ext S σ => d.extr t (fun ρ : Ext W τ.1 => f ρ.1)) = d.extr t (fun τ : Ext (fun v => S v ∨ W v) σ => f τ.1) := by
  classical
  rw [extr_sigma ht fun (τ : Ext S σ) (ρ : Ext W τ.1) => f ρ.1]
  refine extr_range (fun p => ⟨⟨p.2.1, fun w hw => ?_⟩, rfl⟩)
    (fun τ => ⟨⟨⟨fun v => if S v then τ.1 v else σ v, fun v hv => if_neg hv⟩, ⟨τ.1, fun w hw => ?_⟩⟩, rfl⟩)
  · rw [p.2.2 w fun h => hw (Or.inr h), p.1.2 w fun h => hw (Or.inl h)]
  · show τ.1 w = if S w then τ.1 w else σ w
    by_cases hs : S w
    · rw [if_pos hs]
    · rw [if_neg hs]
      exact τ.2 w fun h => h.elim hs hw

/-- Two expressions whose quantified variables are separate: limits over both. -/
theorem extr_pair {d : Dir} {t u v : Ty} (a : Expr t) (b : Expr u) (op : t.den → u.den → v.den) (A B : Var → Prop)
    (hA : ∀ v, A v → ¬ b.Free v) (hB : ∀ v, B v → ¬ a.Free v) (σ : Env) :
    d.extr v (fun p : Ext A σ × Ext B σ => op (a.eval p.1.1) (b.eval p.2.1)) =
      d.extr v (fun τ : Ext (fun v => A v ∨ B v) σ => op (a.eval τ.1) (b.eval τ.1)) := by
  classical
  refine extr_range (fun p => ⟨⟨fun v => if A v then p.1.1 v else p.2.1 v, fun w hw => ?_⟩, ?_⟩)
    (fun τ => ⟨⟨⟨fun v => if A v then τ.1 v else σ v, fun v hv => if_neg hv⟩, ⟨fun v => if B v then τ.1 v else σ v, fun v hv => if_neg hv⟩⟩, ?_⟩)
  · show (if A w then p.1.1 w else p.2.1 w) = σ w
    rw [if_neg fun h => hw (Or.inl h)]
    exact p.2.2 w fun h => hw (Or.inr h)
  · congr 1
    · refine a.eval_congr fun w hw => ?_
      by_cases h : A w
      · exact (if_pos h).symm
      · exact ((p.1.2 w h).trans (p.2.2 w fun hb => hB w hb hw).symm).trans (if_neg h).symm
    · refine b.eval_congr fun w hw => ?_
      exact (if_neg fun h => hA w h hw).symm
  · congr 1
    · refine a.eval_congr fun w hw => ?_
      by_cases h : A w
      · exact (if_pos h).symm
      · exact (τ.2 w fun hh => hh.elim h fun hb => hB w hb hw).trans (if_neg h).symm
    · refine b.eval_congr fun w hw => ?_
      by_cases h : B w
      · exact (if_pos h).symm
      · exact (τ.2 w fun hh => hh.elim (fun ha => hA w ha hw) h).trans (if_neg h).symm

/-- One substitution of `elim_quant`. -/
theorem elim_step {d : Dir} {t : Ty} (e : Expr t) (S : Var → Prop) (x : Var) (w : Ident) (hx : S x) (hS : ¬ S ⟨w, x.ty⟩) (hF : ¬ e.Free ⟨w, x.ty⟩)
    (σ : Env) :
    d.extr t (fun τ : Ext S σ => e.eval τ.1) =
      d.extr t (fun τ : Ext (fun v => S v ∨ v = ⟨w, x.ty⟩) σ => (Expr.subst x (.var w) e).eval τ.1) := by
  have hne : (⟨w, x.ty⟩ : Var) ≠ x := fun h => hS (h ▸ hx)
  refine extr_range (fun τ => ⟨⟨τ.1.upd ⟨w, x.ty⟩ (τ.1 x), fun v hv => ?_⟩, ?_⟩)
    (fun τ => ⟨⟨(τ.1.upd x (τ.1 ⟨w, x.ty⟩)).upd ⟨w, x.ty⟩ (σ ⟨w, x.ty⟩), fun v hv => ?_⟩, ?_⟩)
  · rw [Env.upd_ne _ fun h => hv (Or.inr h)]
    exact τ.2 v fun h => hv (Or.inl h)
  · show e.eval τ.1 = e.eval ((τ.1.upd ⟨w, x.ty⟩ (τ.1 x)).upd x ((τ.1.upd ⟨w, x.ty⟩ (τ.1 x)) ⟨w, x.ty⟩))
    rw [Env.upd_same]
    refine e.eval_congr fun v hv => ?_
    by_cases h1 : v = x
    · subst h1
      rw [Env.upd_same]
    · have h2 : v ≠ ⟨w, x.ty⟩ := by rintro rfl; exact hF hv
      rw [Env.upd_ne _ h1, Env.upd_ne _ h2]
  · by_cases h2 : v = ⟨w, x.ty⟩
    · subst h2
      rw [Env.upd_same]
    · rw [Env.upd_ne _ h2, Env.upd_ne _ fun h => hv (by rw [h]; exact hx)]
      exact τ.2 v fun h => h.elim hv h2
  · rw [Expr.eval_subst, Expr.eval_var]
    refine e.eval_congr fun v hv => ?_
    have h2 : v ≠ ⟨w, x.ty⟩ := by rintro rfl; exact hF hv
    exact (Env.upd_ne _ h2 _).symm

theorem elimVars_spec {d : Dir} (span : Nat) (xs : List Var) {t : Ty} (e : Expr t) (c : TyCtx) (hx : ∀ x ∈ xs, x.id ∈ c.decls)
    (he : ∀ v, e.Occurs v → v.id ∈ c.decls) :
    Tot (elimVars span xs e) c fun e' c' => Grows c c' ∧ (∀ v, e'.Occurs v → v.id ∈ c'.decls) ∧ ∃ V : Var → Prop,
      (∀ v, V v → v.id ∉ c.decls ∧ v.id ∈ c'.decls) ∧ (∀ v, e'.Free v → (e.Free v ∧ v ∉ xs) ∨ V v) ∧
      ∀ S : Var → Prop, (∀ x ∈ xs, S x) → (∀ v, S v → v.id ∈ c.decls) → ∀ σ : Env,
        d.extr t (fun τ : Ext S σ => e.eval τ.1) = d.extr t (fun τ : Ext (fun v => S v ∨ V v) σ => e'.eval τ.1) := by
  induction xs generalizing e c with
  | nil =>
    refine Tot.pure ⟨Grows.refl c, he, fun _ => False, fun v h => h.elim, fun v h => Or.inl ⟨h, by simp⟩, fun S _ _ σ => ?_⟩
    exact extr_congr_set (fun v => by simp) σ e.eval
  | cons x xs ih =>
    obtain ⟨w, c1, h1, h2, h3⟩ := c.cloneVar_some x span (hx x (by simp))
    refine Tot.bind (Q := fun v c' => v = ⟨w, x.ty⟩ ∧ c' = c1) ⟨_, _, h1, rfl, rfl⟩ ?_
    rintro v c' ⟨rfl, rfl⟩
    have hg : Grows c c' := fun y hy => by rw [h3]; exact List.mem_cons_of_mem _ hy
    refine Tot.mono (ih (.subst x (.var w) e) c' (fun y hy => hg (hx y (by simp [hy]))) ?_) ?_
    · rintro v (hv | hv | hv)
      · have : v = ⟨w, x.ty⟩ := hv
        rw [this, h3]
        simp
      · exact hg (he v hv)
      · subst hv
        exact hg (hx v (by simp))
    · rintro e' c'' ⟨hg', ho, V, hV, hF, hE⟩
      refine ⟨hg.trans hg', ho, fun v => v = ⟨w, x.ty⟩ ∨ V v, ?_, ?_, fun S hS hSd σ => ?_⟩
      · rintro v (rfl | hv)
        · exact ⟨h2, hg' (by rw [h3]; simp)⟩
        · exact ⟨fun h => (hV v hv).1 (hg h), (hV v hv).2⟩
      · intro v hv
        rcases hF v hv with ⟨hv, hn⟩ | hv
        · rcases hv with hv | ⟨hv, hvx⟩
          · exact Or.inr (Or.inl hv)
          · exact Or.inl ⟨hv, by simp [hvx, hn]⟩
        · exact Or.inr (Or.inr hv)
      · rw [elim_step e S x w (hS x (by simp)) (fun h => h2 (hSd _ h)) (fun h => h2 (he _ h.occurs)) σ,
          hE (fun v => S v ∨ v = ⟨w, x.ty⟩) (fun y hy => Or.inl (hS y (by simp [hy])))
            (fun v hv => hv.elim (fun h => hg (hSd v h)) (fun h => by rw [h, h3]; simp)) σ]
        exact extr_congr_set (fun v => or_assoc) σ e'.eval

end
end Caesar
