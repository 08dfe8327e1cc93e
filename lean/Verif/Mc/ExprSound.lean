import Verif.Mc.Translate
import Verif.FreeVars

/-!
# Translated expressions have the same value
-/

open scoped ENNReal NNReal Classical

namespace Caesar.Mc
set_option linter.unusedSectionVars false

/-- The JANI value of a HeyVL value; `∞` has none. -/
noncomputable def toJ [Doms] : (t : Ty) → t.den → JVal
  | .bool => fun (p : Prop) => .bool p
  | .uint => fun (n : ℕ) => .num n
  | .int => fun (n : ℤ) => .num n
  | .ureal => fun (r : ℝ≥0) => .num r
  | .real => fun (r : ℝ) => .num r
  | .eureal => fun (r : ℝ≥0∞) => .num r.toReal
  | .list _ => fun _ => .bool False
  | .dom _ => fun _ => .bool False

/-- Values which JANI has: everything but `∞`. -/
def Fin' [Doms] : (t : Ty) → t.den → Prop
  | .eureal => fun (r : ℝ≥0∞) => r ≠ ⊤
  | _ => fun _ => True

/-- The types of translated expressions. -/
def isJ : Ty → Prop
  | .list _ => False
  | .dom _ => False
  | _ => True

/-- Operators on which JANI agrees: the type checker only accepts `inf` and `sup` on numbers
(`src/front/tycheck.rs:720-728`); `%` on `Int` is left out. -/
def BinOp.JaniOk : {t : Ty} → BinOp t → Prop
  | t, .inf _ => t ≠ .bool
  | t, .sup _ => t ≠ .bool
  | t, .mod _ => t = .uint
  | _, _ => True

/-- The type checker only accepts the order on numbers (`src/front/tycheck.rs:710-719`). -/
def RelOp.JaniOk : {t : Ty} → RelOp t → Prop
  | _, .eq => True
  | _, .ne => True
  | t, _ => t ≠ .bool

/-- What the type checker guarantees for calls: the symbol is that of a declared function. Its types have to be supported, otherwise it is
not exported (`C86_types`). -/
def FnOk [Fns] {t : Ty} (f : Func t) : Prop :=
  ∃ d, findFn f.name = some d ∧ (⟨d.out, d.func⟩ : (t : Ty) × Func t) = ⟨t, f⟩ ∧ isJaniTy t = true ∧ ∀ i, isJaniTy (f.args.get i) = true

variable [Fns]

/-- Operators as above, calls of declared functions, and variables in `V`. -/
def ExprOk (V : Var → Prop) : {t : Ty} → Expr t → Prop
  | t, .var x => V ⟨x, t⟩
  | _, .lit _ => True
  | _, .call f args => FnOk f ∧ ∀ i, ExprOk V (args i)
  | _, .ite c a b => ExprOk V c ∧ ExprOk V a ∧ ExprOk V b
  | _, .bin op a b => BinOp.JaniOk op ∧ ExprOk V a ∧ ExprOk V b
  | _, .rel op a b => RelOp.JaniOk op ∧ ExprOk V a ∧ ExprOk V b
  | _, .un _ a => ExprOk V a
  | _, .embed a => ExprOk V a
  | _, .iverson a => ExprOk V a
  | _, .cast _ a => ExprOk V a
  | _, .quant _ _ _ a => ExprOk V a
  | _, .subst _ e a => ExprOk V e ∧ ExprOk V a

section
variable [Doms] [Interp] [JOps]

/-- Division and modulo by zero, which both languages leave open, are resolved in the same way. -/
structure SameDiv : Prop where
  divU : ∀ a : ℝ≥0, ((Interp.divU0 a : ℝ≥0) : ℝ) = JOps.div0 (a : ℝ)
  divR : ∀ a : ℝ, Interp.divR0 a = JOps.div0 a
  modN : ∀ a : ℕ, JOps.mod a 0 = (Interp.modN0 a : ℕ)

/-- In addition, the functions with a body have the same meaning. -/
structure SameOps : Prop extends SameDiv where
  func : ∀ d ∈ Fns.decls, d.body.isSome = true → isJaniTy d.out = true → (∀ i, isJaniTy (d.func.args.get i) = true) →
    ∀ vals, JOps.func d.func.name.name (List.ofFn fun i => toJ _ (vals i)) = toJ d.out (Interp.func d.func vals)

/-- The JANI state gives the variables in `V` the values they have in the HeyVL state. -/
def Rep (V : Var → Prop) (σ : Env) (s : JState) : Prop := ∀ v, V v → s v.id.name = toJ v.ty (σ v)

omit [Fns] [Interp] [JOps] in
theorem toJ_inj {t : Ty} (ht : isJ t) {x y : t.den} (hx : Fin' t x) (hy : Fin' t y) : toJ t x = toJ t y ↔ x = y := by
  refine ⟨fun h => ?_, fun h => by rw [h]⟩
  cases t with
  | bool => exact JVal.bool.inj h
  | uint => exact Nat.cast_injective (R := ℝ) (JVal.num.inj h)
  | int => exact Int.cast_injective (α := ℝ) (JVal.num.inj h)
  | ureal => exact NNReal.coe_injective (JVal.num.inj h)
  | real => exact JVal.num.inj h
  | eureal => exact (ENNReal.toReal_eq_toReal_iff' hx hy).1 (JVal.num.inj h)
  | list _ => exact ht.elim
  | dom _ => exact ht.elim

theorem toJ_le {t : Ty} (ht : t.isNum = true) {x y : t.den} (hx : Fin' t x) (hy : Fin' t y) :
    (toJ t x).real ≤ (toJ t y).real ↔ t.le x y := by
  cases t with
  | uint => exact Nat.cast_le (α := ℝ)
  | int => exact Int.cast_le (R := ℝ)
  | ureal => exact NNReal.coe_le_coe
  | real => exact Iff.rfl
  | eureal => exact ENNReal.toReal_le_toReal hx hy
  | bool => cases ht
  | list _ => cases ht
  | dom _ => cases ht

theorem toJ_num {t : Ty} (ht : t.isNum = true) (x : t.den) : toJ t x = .num (toJ t x).real := by
  cases t with
  | uint => rfl
  | int => rfl
  | ureal => rfl
  | real => rfl
  | eureal => rfl
  | bool => cases ht
  | list _ => cases ht
  | dom _ => cases ht

theorem real_inj {t : Ty} (ht : t.isNum = true) (ht' : isJ t) {x y : t.den} (hx : Fin' t x) (hy : Fin' t y) :
    (toJ t x).real = (toJ t y).real ↔ x = y := by
  rw [← toJ_inj ht' hx hy]
  refine ⟨fun h => ?_, fun h => by rw [h]⟩
  rw [toJ_num ht x, toJ_num ht y, h]

theorem isJ_of_isNum {t : Ty} (ht : t.isNum = true) : isJ t := by
  cases t <;> first | cases ht; done | trivial

theorem num_of_ord {t : Ty} (h : t.isOrd = true) (hb : t ≠ .bool) : t.isNum = true := by
  cases t <;> first | rfl | exact absurd rfl hb | cases h

theorem rel_eval {t : Ty} (op : RelOp t) (hok : RelOp.JaniOk op) (ht : isJ t) {x y : t.den} (hx : Fin' t x) (hy : Fin' t y) :
    (translateRel op).den (toJ t x) (toJ t y) = toJ .bool (op.den x y) := by
  have key : ∀ {p q : Prop}, (p ↔ q) → JVal.bool p = toJ .bool q := fun h => by rw [propext h]; rfl
  cases op with
  | eq => exact key (toJ_inj ht hx hy)
  | ne => exact key (not_congr (toJ_inj ht hx hy))
  | lt h =>
    have hn := num_of_ord h hok
    exact key (lt_iff_le_and_ne.trans (and_congr (toJ_le hn hx hy) (not_congr (real_inj hn ht hx hy))))
  | le h =>
    have hn := num_of_ord h hok
    exact key (toJ_le hn hx hy)
  | ge h =>
    have hn := num_of_ord h hok
    exact key (toJ_le hn hy hx)
  | gt h =>
    have hn := num_of_ord h hok
    refine key (lt_iff_le_and_ne.trans (and_congr (toJ_le hn hy hx) ?_))
    exact not_congr (eq_comm.trans (real_inj hn ht hx hy))

theorem sub_eval {t : Ty} {a b j : JExpr} {s : JState} (h : translateSub t a b = some j)
    {x y : t.den} (ha : a.eval s = toJ t x) (hb : b.eval s = toJ t y) (hx : Fin' t x) (hy : Fin' t y) :
    j.eval s = toJ t (t.sub x y) ∧ Fin' t (t.sub x y) := by
  have hmon : ∀ {c : Prop} {inst : Decidable c} {u v : JVal} {w : JVal}, (c → u = w) → (¬ c → v = w) →
      (@ite _ c inst u v) = w := by
    intro c inst u v w h1 h2
    by_cases hc : c
    · rw [if_pos hc, h1 hc]
    · rw [if_neg hc, h2 hc]
  cases t with
  | uint =>
    cases h
    revert x y
    intro (x : ℕ) (y : ℕ) ha hb hx hy
    refine ⟨hmon (fun hc => ?_) (fun hc => ?_), trivial⟩
    · have hc : (b.eval s).real ≤ (a.eval s).real := hc
      show JVal.num ((a.eval s).real - (b.eval s).real) = JVal.num ((x - y : ℕ) : ℝ)
      rw [ha, hb] at hc ⊢
      have hc : ((y : ℕ) : ℝ) ≤ ((x : ℕ) : ℝ) := hc
      rw [Nat.cast_sub (Nat.cast_le.1 hc)]
      rfl
    · have hc : ¬ (b.eval s).real ≤ (a.eval s).real := hc
      show JVal.num ((0 : ℕ) : ℝ) = JVal.num ((x - y : ℕ) : ℝ)
      rw [ha, hb] at hc
      have hc : ¬ ((y : ℕ) : ℝ) ≤ ((x : ℕ) : ℝ) := hc
      rw [Nat.sub_eq_zero_of_le (Nat.le_of_lt (Nat.cast_lt.1 (not_le.1 hc)))]
  | ureal =>
    cases h
    revert x y
    intro (x : ℝ≥0) (y : ℝ≥0) ha hb hx hy
    refine ⟨hmon (fun hc => ?_) (fun hc => ?_), trivial⟩
    · have hc : (b.eval s).real ≤ (a.eval s).real := hc
      show JVal.num ((a.eval s).real - (b.eval s).real) = JVal.num ((x - y : ℝ≥0) : ℝ)
      rw [ha, hb] at hc ⊢
      have hc : ((y : ℝ≥0) : ℝ) ≤ ((x : ℝ≥0) : ℝ) := hc
      rw [NNReal.coe_sub (NNReal.coe_le_coe.1 hc)]
      rfl
    · have hc : ¬ (b.eval s).real ≤ (a.eval s).real := hc
      show JVal.num ((0 : ℕ) : ℝ) = JVal.num ((x - y : ℝ≥0) : ℝ)
      rw [ha, hb] at hc
      have hc : ¬ ((y : ℝ≥0) : ℝ) ≤ ((x : ℝ≥0) : ℝ) := hc
      have hc := NNReal.coe_lt_coe.1 (not_le.1 hc)
      rw [tsub_eq_zero_of_le hc.le]
      simp
  | eureal =>
    cases h
    revert x y
    intro (x : ℝ≥0∞) (y : ℝ≥0∞) ha hb hx hy
    change x ≠ ⊤ at hx
    change y ≠ ⊤ at hy
    refine ⟨hmon (fun hc => ?_) (fun hc => ?_), (ne_top_of_le_ne_top hx tsub_le_self : ((x - y : ℝ≥0∞) ≠ ⊤))⟩
    · have hc : (b.eval s).real ≤ (a.eval s).real := hc
      show JVal.num ((a.eval s).real - (b.eval s).real) = JVal.num ((x - y : ℝ≥0∞)).toReal
      rw [ha, hb] at hc ⊢
      have hc : (y : ℝ≥0∞).toReal ≤ (x : ℝ≥0∞).toReal := hc
      rw [ENNReal.toReal_sub_of_le ((ENNReal.toReal_le_toReal hy hx).1 hc) hx]
      rfl
    · have hc : ¬ (b.eval s).real ≤ (a.eval s).real := hc
      show JVal.num ((0 : ℕ) : ℝ) = JVal.num ((x - y : ℝ≥0∞)).toReal
      rw [ha, hb] at hc
      have hc : ¬ (y : ℝ≥0∞).toReal ≤ (x : ℝ≥0∞).toReal := hc
      have hc := (ENNReal.toReal_lt_toReal hx hy).1 (not_le.1 hc)
      rw [tsub_eq_zero_of_le hc.le]
      simp
  | int =>
    cases h
    revert x y
    intro (x : ℤ) (y : ℤ) ha hb hx hy
    refine ⟨?_, trivial⟩
    show JVal.num ((a.eval s).real - (b.eval s).real) = JVal.num ((x - y : ℤ) : ℝ)
    rw [ha, hb, Int.cast_sub]
    rfl
  | real =>
    cases h
    revert x y
    intro (x : ℝ) (y : ℝ) ha hb hx hy
    refine ⟨?_, trivial⟩
    show JVal.num ((a.eval s).real - (b.eval s).real) = JVal.num ((x - y : ℝ) : ℝ)
    rw [ha, hb]
    rfl
  | bool => cases h
  | list _ => cases h
  | dom _ => cases h

theorem minmax_eval {t : Ty} (hn : t.isNum = true) {x y : t.den} (hx : Fin' t x) (hy : Fin' t y) :
    (JVal.num (min (toJ t x).real (toJ t y).real) = toJ t (t.inf x y) ∧ Fin' t (t.inf x y)) ∧
    (JVal.num (max (toJ t x).real (toJ t y).real) = toJ t (t.sup x y) ∧ Fin' t (t.sup x y)) := by
  by_cases h : t.le x y
  · have hr := (toJ_le hn hx hy).2 h
    have h1 : t.inf x y = x := if_pos h
    have h2 : t.sup x y = y := if_pos h
    rw [h1, h2, min_eq_left hr, max_eq_right hr, ← toJ_num hn, ← toJ_num hn]
    exact ⟨⟨rfl, hx⟩, rfl, hy⟩
  · have hr := (not_le.1 (fun hr => h ((toJ_le hn hx hy).1 hr))).le
    have h1 : t.inf x y = y := if_neg h
    have h2 : t.sup x y = x := if_neg h
    rw [h1, h2, min_eq_right hr, max_eq_left hr, ← toJ_num hn, ← toJ_num hn]
    exact ⟨⟨rfl, hy⟩, rfl, hx⟩

theorem bin_eval (hd : SameDiv) {t : Ty} (op : BinOp t) (hok : BinOp.JaniOk op) {a b j : JExpr} {s : JState}
    (h : translateBin op a b = some j) {x y : t.den} (ha : a.eval s = toJ t x) (hb : b.eval s = toJ t y) (hx : Fin' t x)
    (hy : Fin' t y) : j.eval s = toJ t (op.den x y) ∧ Fin' t (op.den x y) := by
  cases op with
  | sub _ => exact sub_eval h ha hb hx hy
  | add hn =>
    cases h
    show JVal.num ((a.eval s).real + (b.eval s).real) = toJ t (t.add x y) ∧ _
    rw [ha, hb]
    cases t with
    | uint => exact ⟨congrArg JVal.num (Nat.cast_add (R := ℝ) x y).symm, trivial⟩
    | int => exact ⟨congrArg JVal.num (Int.cast_add (R := ℝ) x y).symm, trivial⟩
    | ureal => exact ⟨congrArg JVal.num (NNReal.coe_add x y).symm, trivial⟩
    | real => exact ⟨rfl, trivial⟩
    | eureal => exact ⟨congrArg JVal.num (ENNReal.toReal_add hx hy).symm, ENNReal.add_ne_top.2 ⟨hx, hy⟩⟩
    | bool => cases hn
    | list _ => cases hn
    | dom _ => cases hn
  | mul hn =>
    cases h
    show JVal.num ((a.eval s).real * (b.eval s).real) = toJ t (t.mul x y) ∧ _
    rw [ha, hb]
    cases t with
    | uint => exact ⟨congrArg JVal.num (Nat.cast_mul (α := ℝ) x y).symm, trivial⟩
    | int => exact ⟨congrArg JVal.num (Int.cast_mul (α := ℝ) x y).symm, trivial⟩
    | ureal => exact ⟨congrArg JVal.num (NNReal.coe_mul x y).symm, trivial⟩
    | real => exact ⟨rfl, trivial⟩
    | eureal => exact ⟨congrArg JVal.num (ENNReal.toReal_mul (a := x) (b := y)).symm, ENNReal.mul_ne_top hx hy⟩
    | bool => cases hn
    | list _ => cases hn
    | dom _ => cases hn
  | div hn =>
    cases h
    cases t with
    | ureal =>
      revert x y
      intro (x : ℝ≥0) (y : ℝ≥0) ha hb hx hy
      refine ⟨?_, trivial⟩
      show JVal.num (if (b.eval s).real = 0 then JOps.div0 (a.eval s).real else (a.eval s).real / (b.eval s).real)
        = JVal.num (((if (y : ℝ≥0) = 0 then Interp.divU0 x else (x / y : ℝ≥0)) : ℝ≥0) : ℝ)
      rw [ha, hb]
      by_cases h0 : (y : ℝ≥0) = 0
      · have h0' : (toJ .ureal y).real = 0 := NNReal.coe_eq_zero.2 h0
        rw [if_pos h0, if_pos h0', hd.divU]
        rfl
      · have h0' : ¬ (toJ .ureal y).real = 0 := fun hh => h0 (NNReal.coe_eq_zero.1 hh)
        rw [if_neg h0, if_neg h0', NNReal.coe_div]
        rfl
    | real =>
      revert x y
      intro (x : ℝ) (y : ℝ) ha hb hx hy
      refine ⟨?_, trivial⟩
      show JVal.num (if (b.eval s).real = 0 then JOps.div0 (a.eval s).real else (a.eval s).real / (b.eval s).real)
        = JVal.num (if (y : ℝ) = 0 then Interp.divR0 x else (x / y : ℝ))
      rw [ha, hb]
      by_cases h0 : (y : ℝ) = 0
      · have h0' : (toJ .real y).real = 0 := h0
        rw [if_pos h0, if_pos h0', hd.divR]
        rfl
      · have h0' : ¬ (toJ .real y).real = 0 := h0
        rw [if_neg h0, if_neg h0']
        rfl
    | bool => cases hn
    | uint => cases hn
    | int => cases hn
    | eureal => cases hn
    | list _ => cases hn
    | dom _ => cases hn
  | mod hn =>
    cases h
    have ht : t = .uint := hok
    subst ht
    revert x y
    intro (x : ℕ) (y : ℕ) ha hb hx hy
    refine ⟨?_, trivial⟩
    show JVal.num (JOps.mod (a.eval s).real (b.eval s).real)
      = JVal.num (((if (y : ℕ) = 0 then Interp.modN0 x else (x % y : ℕ)) : ℕ) : ℝ)
    rw [ha, hb]
    by_cases h0 : (y : ℕ) = 0
    · rw [if_pos h0, ← hd.modN]
      have : (toJ .uint y).real = 0 := Nat.cast_eq_zero.2 h0
      rw [this]
      rfl
    · rw [if_neg h0, ← JOps.mod_nat x y h0]
      rfl
  | and =>
    cases h
    refine ⟨?_, trivial⟩
    show JVal.bool ((a.eval s).holds ∧ (b.eval s).holds) = _
    rw [ha, hb]
    rfl
  | or =>
    cases h
    refine ⟨?_, trivial⟩
    show JVal.bool ((a.eval s).holds ∨ (b.eval s).holds) = _
    rw [ha, hb]
    rfl
  | inf hn =>
    cases h
    show JVal.num (min (a.eval s).real (b.eval s).real) = toJ t (t.inf x y) ∧ _
    rw [ha, hb]
    exact (minmax_eval (num_of_ord hn hok) hx hy).1
  | sup hn =>
    cases h
    show JVal.num (max (a.eval s).real (b.eval s).real) = toJ t (t.sup x y) ∧ _
    rw [ha, hb]
    exact (minmax_eval (num_of_ord hn hok) hx hy).2
  | impl _ => cases h
  | coimpl _ => cases h
  | compare _ => cases h
  | cocompare _ => cases h

omit [Fns] [Doms] [Interp] [JOps] in
theorem u64_some {n : ℕ} {j : JExpr} (h : u64 n = some j) : j = .num n := by
  unfold u64 at h
  split at h
  · exact (Option.some.inj h).symm
  · cases h

theorem frac_eval {q : ℚ≥0} {j : JExpr} (h : fracExpr q = some j) (s : JState) : j.eval s = .num ((q : ℝ≥0) : ℝ) := by
  unfold fracExpr at h
  cases h1 : u64 q.num with
  | none => rw [h1] at h; cases h
  | some a =>
    cases h2 : u64 q.den with
    | none => rw [h1, h2] at h; cases h
    | some b =>
      rw [h1, h2] at h
      cases h
      rw [u64_some h1, u64_some h2]
      have hq : (q.den : ℝ) ≠ 0 := Nat.cast_ne_zero.2 q.den_ne_zero
      show JVal.num (if ((q.den : ℕ) : ℝ) = 0 then _ else ((q.num : ℕ) : ℝ) / ((q.den : ℕ) : ℝ)) = _
      rw [if_neg hq]
      congr 1
      have : ((q : ℝ≥0) : ℝ) = ((q : ℚ≥0) : ℝ) := rfl
      rw [this, NNRat.cast_def]

theorem lit_eval {t : Ty} (l : Lit t) {j : JExpr} (h : translateLit l = some j) (s : JState) :
    isJ t ∧ j.eval s = toJ t l.den ∧ Fin' t l.den := by
  cases l with
  | bool b => cases h; exact ⟨trivial, rfl, trivial⟩
  | uint n =>
    have := u64_some h
    subst this
    exact ⟨trivial, rfl, trivial⟩
  | ufrac q => exact ⟨trivial, frac_eval h s, trivial⟩
  | rfrac q => exact ⟨trivial, frac_eval h s, trivial⟩
  | efrac q =>
    refine ⟨trivial, ?_, (ENNReal.coe_ne_top : ((q : ℝ≥0) : ℝ≥0∞) ≠ ⊤)⟩
    rw [frac_eval h s]
    exact congrArg JVal.num (ENNReal.coe_toReal (q : ℝ≥0)).symm
  | infty => cases h

omit [Fns] [Doms] [Interp] [JOps] in
theorem collectArgs_some {n : ℕ} {g : Fin n → Option JExpr} {gs : Fin n → JExpr} (h : collectArgs g = some gs) (i : Fin n) :
    g i = some (gs i) := by
  unfold collectArgs at h
  split at h
  next hs => cases h; exact (Option.some_get _).symm
  next => cases h

omit [Fns] [Doms] [Interp] [JOps] in
theorem isJ_of_janiTy {t : Ty} (h : isJaniTy t = true) : isJ t := by
  cases t <;> trivial

omit [Fns] [Interp] [JOps] in
theorem fin_of_janiTy {t : Ty} (h : isJaniTy t = true) (x : t.den) : Fin' t x := by
  cases t <;> trivial

theorem call_eval (hd : SameOps) {t : Ty} {f : Func t} (hb : hasBody f.name = true) (hok : FnOk f) {gs : Fin f.args.length → JExpr}
    {s : JState} {vals : (i : Fin f.args.length) → (f.args.get i).den} (hi : ∀ i, (gs i).eval s = toJ _ (vals i)) :
    isJ t ∧ (JExpr.call f.name.name gs).eval s = toJ t (Interp.func f vals) ∧ Fin' t (Interp.func f vals) := by
  obtain ⟨d, hf, he, ht, hts⟩ := hok
  rw [hasBody, hf] at hb
  have hm := List.mem_of_find?_eq_some hf
  cases he
  refine ⟨isJ_of_janiTy ht, ?_, fin_of_janiTy ht _⟩
  show JOps.func _ (List.ofFn fun i => (gs i).eval s) = _
  rw [← hd.func d hm hb ht hts]
  congr 2
  exact funext hi

/-- A translated expression has the value of the original. -/
theorem translate_eval (hd : SameOps) {V : Var → Prop} (hV : ∀ v, V v → isJaniTy v.ty = true) {σ : Env} {s : JState}
    (hr : Rep V σ s) : {t : Ty} → (e : Expr t) → {j : JExpr} → translate e = some j → ExprOk V e →
    isJ t ∧ j.eval s = toJ t (e.eval σ) ∧ Fin' t (e.eval σ)
  | t, .var x, j, h, hok => by
    cases h
    have ht := hV _ hok
    refine ⟨?_, hr _ hok, ?_⟩
    · cases t <;> first | trivial | cases ht
    · cases t <;> first | trivial | cases ht
  | _, .lit l, j, h, _ => lit_eval l h s
  | _, .call f args, j, h, hok => by
    rw [translate] at h
    split at h
    next hb =>
      obtain ⟨gs, h1, h2⟩ := Option.map_eq_some_iff.1 h
      subst h2
      exact call_eval hd hb hok.1 fun i => (translate_eval hd hV hr (args i) (collectArgs_some h1 i) (hok.2 i)).2.1
    next => cases h
  | t, .ite c a b, j, h, hok => by
    rw [translate] at h
    cases h1 : translate c with
    | none => rw [h1] at h; cases h
    | some c' =>
      cases h2 : translate a with
      | none => rw [h1, h2] at h; cases h
      | some a' =>
        cases h3 : translate b with
        | none => rw [h1, h2, h3] at h; cases h
        | some b' =>
          rw [h1, h2, h3] at h
          cases h
          have i1 := translate_eval hd hV hr c h1 hok.1
          have i2 := translate_eval hd hV hr a h2 hok.2.1
          have i3 := translate_eval hd hV hr b h3 hok.2.2
          have hc : (c'.eval s).holds ↔ holds (c.eval σ) := by rw [i1.2.1]; exact Iff.rfl
          refine ⟨i2.1, ?_, ?_⟩
          · show (if (c'.eval s).holds then a'.eval s else b'.eval s) = _
            rw [Expr.eval_ite]
            by_cases hh : holds (c.eval σ)
            · rw [if_pos hh, if_pos (hc.2 hh), i2.2.1]
            · rw [if_neg hh, if_neg (fun h => hh (hc.1 h)), i3.2.1]
          · rw [Expr.eval_ite]
            by_cases hh : holds (c.eval σ)
            · rw [if_pos hh]; exact i2.2.2
            · rw [if_neg hh]; exact i3.2.2
  | t, .bin op a b, j, h, hok => by
    rw [translate] at h
    cases h2 : translate a with
    | none => rw [h2] at h; cases h
    | some a' =>
      cases h3 : translate b with
      | none => rw [h2, h3] at h; cases h
      | some b' =>
        rw [h2, h3] at h
        have i2 := translate_eval hd hV hr a h2 hok.2.1
        have i3 := translate_eval hd hV hr b h3 hok.2.2
        exact ⟨i2.1, bin_eval hd.toSameDiv op hok.1 h i2.2.1 i3.2.1 i2.2.2 i3.2.2⟩
  | _, .rel op a b, j, h, hok => by
    rw [translate] at h
    cases h2 : translate a with
    | none => rw [h2] at h; cases h
    | some a' =>
      cases h3 : translate b with
      | none => rw [h2, h3] at h; cases h
      | some b' =>
        rw [h2, h3] at h
        cases h
        have i2 := translate_eval hd hV hr a h2 hok.2.1
        have i3 := translate_eval hd hV hr b h3 hok.2.2
        refine ⟨trivial, ?_, trivial⟩
        show (translateRel op).den (a'.eval s) (b'.eval s) = _
        rw [i2.2.1, i3.2.1]
        exact rel_eval op hok.1 i2.1 i2.2.2 i3.2.2
  | t, .un (.not ht) a, j, h, hok => by
    cases h2 : translate a with
    | none =>
      rw [translate, h2] at h
      split at h <;> cases h
    | some a' =>
      have i2 := translate_eval hd hV hr a h2 hok
      rw [translate, h2] at h
      split at h
      next hb =>
        subst hb
        cases h
        refine ⟨trivial, ?_, trivial⟩
        show JVal.bool (¬ (a'.eval s).holds) = _
        rw [i2.2.1]
        exact congrArg JVal.bool (propext (Expr.tv_not σ a ht)).symm
      next => cases h
  | _, .un (.non _) _, _, h, _ => nomatch h
  | t, .un .parens a, j, h, hok => translate_eval hd hV hr a h hok
  | _, .embed _, _, h, _ => nomatch h
  | _, .iverson a, j, h, hok => by
    rw [translate] at h
    cases h2 : translate a with
    | none => rw [h2] at h; cases h
    | some a' =>
      rw [h2] at h
      cases h
      have i2 := translate_eval hd hV hr a h2 hok
      have hc : (a'.eval s).holds ↔ holds (a.eval σ) := by rw [i2.2.1]; exact Iff.rfl
      refine ⟨trivial, ?_, ?_⟩
      · show (if (a'.eval s).holds then JVal.num ((1 : ℕ) : ℝ) else JVal.num ((0 : ℕ) : ℝ)) = _
        rw [Expr.eval_iverson]
        by_cases hh : holds (a.eval σ)
        · rw [if_pos hh, if_pos (hc.2 hh)]; simp [toJ]
        · rw [if_neg hh, if_neg (fun h => hh (hc.1 h))]; simp [toJ]
      · rw [Expr.eval_iverson]
        by_cases hh : holds (a.eval σ)
        · rw [if_pos hh]; exact ENNReal.one_ne_top
        · rw [if_neg hh]; exact ENNReal.zero_ne_top
  | t, .cast c a, j, h, hok => by
    rw [translate] at h
    have i2 := translate_eval hd hV hr a h hok
    have h2 := i2.2.1
    rw [Expr.eval_cast]
    cases c with
    | uintInt => exact ⟨trivial, h2.trans (congrArg JVal.num (Int.cast_natCast (R := ℝ) _).symm), trivial⟩
    | uintUReal => exact ⟨trivial, h2.trans (congrArg JVal.num (NNReal.coe_natCast _).symm), trivial⟩
    | uintReal => exact ⟨trivial, h2, trivial⟩
    | uintEUReal => exact ⟨trivial, h2.trans (congrArg JVal.num (ENNReal.toReal_natCast _).symm), ENNReal.natCast_ne_top _⟩
    | intReal => exact ⟨trivial, h2, trivial⟩
    | urealReal => exact ⟨trivial, h2, trivial⟩
    | urealEUReal => exact ⟨trivial, h2.trans (congrArg JVal.num (ENNReal.coe_toReal _).symm), ENNReal.coe_ne_top⟩
  | _, .quant _ _ _ _, _, h, _ => nomatch h
  | _, .subst _ _ _, _, h, _ => nomatch h

end

end Caesar.Mc
