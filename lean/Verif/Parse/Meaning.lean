import Verif.Parse.Reassoc
import Verif.Front.TyAgain
import Mathlib.Data.EReal.Inv

/-!
# Reassociation does not change the meaning

If two trees are the same up to the bracketing of associative operators, and the type checker accepts both, then they have the same type and the same value
in all states. The casts in both trees can be in different places.
-/

open scoped ENNReal NNReal

namespace Caesar
namespace Parse

open Front

variable [Doms] [Interp]

/-- Two annotated trees with the same type and the same value in all states. -/
def SameVal (a a' : RExpr) : Prop :=
  a.ty = a'.ty ∧ ∀ Γ t (E E' : Expr t), Reads Γ a t E → Reads Γ a' t E' → ∀ σ, E.eval σ = E'.eval σ

theorem SameVal.cast {a a' : RExpr} (h : SameVal a a') (t : RTy) : SameVal (.cast (some t) a) (.cast (some t) a') := by
  refine ⟨rfl, ?_⟩
  intro Γ t E E' hE hE' σ
  cases hE with
  | @cast _ s _ A c hA =>
  cases hE' with
  | @cast _ s' _ A' c' hA' =>
  have hs : s = s' := by
    have := hA.ty.symm.trans (h.1.trans hA'.ty)
    injection this with this
    injection this
  subst hs
  have hc : c = c' := by cases c <;> cases c' <;> rfl
  subst hc
  simp only [Expr.eval_cast, h.2 Γ _ _ _ hA hA' σ]

theorem SameVal.tryCast {a a' b b' : RExpr} {T : RTy} (h : SameVal a a') (hc : Front.tryCast T a = some b) (hc' : Front.tryCast T a' = some b') : SameVal b b' := by
  obtain ⟨s, hs, hcase⟩ := tryCast_some hc
  obtain ⟨s', hs', hcase'⟩ := tryCast_some hc'
  have : s = s' := by
    have := hs.symm.trans (h.1.trans hs')
    injection this
  subst this
  rcases hcase with ⟨h1, rfl⟩ | ⟨h1, rfl⟩ <;> rcases hcase' with ⟨h2, rfl⟩ | ⟨h2, rfl⟩
  · exact h
  · rw [h1] at h2; cases h2
  · rw [h1] at h2; cases h2
  · exact h.cast T

omit [Doms] [Interp] in
theorem tryCast_isSome {a a' : RExpr} {T : RTy} (h : a.ty = a'.ty) : (Front.tryCast T a).isSome = (Front.tryCast T a').isSome := by
  unfold Front.tryCast
  rw [h]
  cases a'.ty with
  | none => rfl
  | some s =>
    simp only [Option.bind_eq_bind, Option.bind_some]
    split <;> rfl

theorem SameVal.tryUnify {a a' b b' a1 b1 a1' b1' : RExpr} {u u' : RTy} (ha : SameVal a a') (hb : SameVal b b')
    (h : Front.tryUnify a b = some (u, a1, b1)) (h' : Front.tryUnify a' b' = some (u', a1', b1')) : u = u' ∧ SameVal a1 a1' ∧ SameVal b1 b1' := by
  obtain ⟨s, t, hs, ht, hcase⟩ := tryUnify_some h
  obtain ⟨s', t', hs', ht', hcase'⟩ := tryUnify_some h'
  have : s = s' := by
    have := hs.symm.trans (ha.1.trans hs')
    injection this
  subst this
  have : t = t' := by
    have := ht.symm.trans (hb.1.trans ht')
    injection this
  subst this
  rcases hcase with ⟨h1, rfl, rfl, rfl⟩ | ⟨h1, rfl, rfl, rfl⟩ | ⟨h1, rfl, rfl, rfl⟩ <;>
    rcases hcase' with ⟨h2, rfl, rfl, rfl⟩ | ⟨h2, rfl, rfl, rfl⟩ | ⟨h2, rfl, rfl, rfl⟩ <;> try (rw [h1] at h2; cases h2)
  · exact ⟨rfl, ha, hb⟩
  · exact ⟨rfl, ha.cast _, hb⟩
  · exact ⟨rfl, ha, hb.cast _⟩

theorem SameVal.checkDiv {a a' b b' a1 b1 a1' b1' : RExpr} {u u' : RTy} (ha : SameVal a a') (hb : SameVal b b')
    (h : Front.checkDiv a b = some (u, a1, b1)) (h' : Front.checkDiv a' b' = some (u', a1', b1')) : u = u' ∧ SameVal a1 a1' ∧ SameVal b1 b1' := by
  have hsa : ∀ T, (Front.tryCast T a).isSome = (Front.tryCast T a').isSome := fun T => tryCast_isSome ha.1
  have hsb : ∀ T, (Front.tryCast T b).isSome = (Front.tryCast T b').isSome := fun T => tryCast_isSome hb.1
  have get : ∀ {x x' : RExpr}, SameVal x x' → ∀ T, SameVal ((Front.tryCast T x).getD x) ((Front.tryCast T x').getD x') := by
    intro x x' hx T
    have := tryCast_isSome (T := T) hx.1
    cases h1 : Front.tryCast T x with
    | none =>
      cases h2 : Front.tryCast T x' with
      | none => exact hx
      | some y' => rw [h1, h2] at this; cases this
    | some y =>
      cases h2 : Front.tryCast T x' with
      | none => rw [h1, h2] at this; cases this
      | some y' => exact hx.tryCast h1 h2
  unfold Front.checkDiv at h h'
  simp only [hsa, hsb] at h
  simp only at h'
  split at h
  · next hc =>
    simp only [hc, if_true] at h'
    cases h
    cases h'
    exact ⟨rfl, get ha _, get hb _⟩
  · next hc =>
    simp only [hc] at h'
    simp only [Option.bind_eq_bind, Option.bind_eq_some_iff, Option.pure_def, Option.some.injEq, Prod.mk.injEq, Bool.false_eq_true, if_false] at h h'
    obtain ⟨x, hx, y, hy, rfl, rfl, rfl⟩ := h
    obtain ⟨x', hx', y', hy', rfl, rfl, rfl⟩ := h'
    exact ⟨rfl, (get ha _).tryCast hx hx', (get hb _).tryCast hy hy'⟩

theorem SameVal.checkBin {op : RBin} {a a' b b' a1 b1 a1' b1' : RExpr} {u u' : RTy} (ha : SameVal a a') (hb : SameVal b b')
    (h : Front.checkBin op a b = some (u, a1, b1)) (h' : Front.checkBin op a' b' = some (u', a1', b1')) : u = u' ∧ SameVal a1 a1' ∧ SameVal b1 b1' := by
  cases op with
  | div => exact ha.checkDiv hb h h'
  | add | sub | mul | inf | sup | mod | impl | coimpl | compare | cocompare =>
    simp only [Front.checkBin, Option.bind_eq_bind, Option.bind_eq_some_iff] at h h'
    obtain ⟨_, _, _, _, h⟩ := h
    obtain ⟨_, _, _, _, h'⟩ := h'
    exact ha.tryUnify hb h h'
  | and | or =>
    simp only [Front.checkBin, Option.bind_eq_bind, Option.bind_eq_some_iff, Option.pure_def, Option.some.injEq, Prod.mk.injEq] at h h'
    obtain ⟨_, _, _, _, rfl, rfl, rfl⟩ := h
    obtain ⟨_, _, _, _, rfl, rfl, rfl⟩ := h'
    exact ⟨rfl, ha, hb⟩
  | eq | ne =>
    simp only [Front.checkBin, Option.bind_eq_bind, Option.bind_eq_some_iff, Option.pure_def, Option.some.injEq, Prod.mk.injEq, Prod.exists] at h h'
    obtain ⟨_, _, _, h, rfl, rfl, rfl⟩ := h
    obtain ⟨_, _, _, h', rfl, rfl, rfl⟩ := h'
    exact ⟨rfl, (ha.tryUnify hb h h').2⟩
  | lt | le | ge | gt =>
    simp only [Front.checkBin, Option.bind_eq_bind, Option.bind_eq_some_iff, Option.pure_def, Option.some.injEq, Prod.mk.injEq, Prod.exists] at h h'
    obtain ⟨_, _, _, _, _, _, _, h, rfl, rfl, rfl⟩ := h
    obtain ⟨_, _, _, _, _, _, _, h', rfl, rfl, rfl⟩ := h'
    exact ⟨rfl, (ha.tryUnify hb h h').2⟩

theorem SameVal.checkUn {op : RUn} {a a' a1 a1' : RExpr} {u u' : RTy} (ha : SameVal a a')
    (h : Front.checkUn op a = some (u, a1)) (h' : Front.checkUn op a' = some (u', a1')) : u = u' ∧ SameVal a1 a1' := by
  cases op with
  | not | non =>
    simp only [Front.checkUn, Option.bind_eq_bind, Option.bind_eq_some_iff, Option.pure_def, Option.some.injEq, Prod.mk.injEq] at h h'
    obtain ⟨_, _, t, ht, rfl, rfl⟩ := h
    obtain ⟨_, _, t', ht', rfl, rfl⟩ := h'
    rw [ha.1, ht'] at ht
    cases ht
    exact ⟨rfl, ha⟩
  | parens =>
    simp only [Front.checkUn, Option.bind_eq_bind, Option.bind_eq_some_iff, Option.pure_def, Option.some.injEq, Prod.mk.injEq] at h h'
    obtain ⟨t, ht, rfl, rfl⟩ := h
    obtain ⟨t', ht', rfl, rfl⟩ := h'
    rw [ha.1, ht'] at ht
    cases ht
    exact ⟨rfl, ha⟩
  | embed | iverson =>
    simp only [Front.checkUn, Option.bind_eq_bind, Option.bind_eq_some_iff, Option.pure_def, Option.some.injEq, Prod.mk.injEq] at h h'
    obtain ⟨t, ht, rfl, rfl⟩ := h
    obtain ⟨t', ht', rfl, rfl⟩ := h'
    exact ⟨rfl, ha.tryCast ht ht'⟩

theorem sameVal_checkArgs : ∀ {ps : List RParam} {as as' bs bs' : List RExpr}, List.Forall₂ SameVal as as' → checkArgs ps as = some bs →
    checkArgs ps as' = some bs' → List.Forall₂ SameVal bs bs'
  | [], as, as', bs, bs', h, h1, h2 => by
    simp only [checkArgs, Option.some.injEq] at h1 h2
    rwa [← h1, ← h2]
  | (t, l) :: ps, [], as', bs, bs', h, h1, h2 => by
    cases h
    simp only [checkArgs, Option.some.injEq] at h1 h2
    rw [← h1, ← h2]
    exact .nil
  | (t, l) :: ps, a :: as, as', bs, bs', h, h1, h2 => by
    cases h with
    | cons ha has =>
      simp only [checkArgs] at h1 h2
      split at h1
      · cases h1
      split at h2
      · cases h2
      simp only [Option.bind_eq_bind, Option.bind_eq_some_iff, Option.pure_def, Option.some.injEq] at h1 h2
      obtain ⟨b, hb, bs, hbs, rfl⟩ := h1
      obtain ⟨b', hb', bs', hbs', rfl⟩ := h2
      exact .cons (ha.tryCast hb hb') (sameVal_checkArgs has hbs hbs')

theorem sameVal_checkCall {ps : List RParam} {as as' bs bs' : List RExpr} (h : List.Forall₂ SameVal as as') (h1 : checkCall ps as = some bs)
    (h2 : checkCall ps as' = some bs') : List.Forall₂ SameVal bs bs' := by
  unfold checkCall at h1 h2
  split at h1
  · cases h1
  split at h2
  · cases h2
  exact sameVal_checkArgs h h1 h2

theorem sameVal_checkListOp {k : ListOp} {as as' bs bs' : List RExpr} {u u' : RTy} (h : List.Forall₂ SameVal as as') (h1 : checkListOp k as = some (bs, u))
    (h2 : checkListOp k as' = some (bs', u')) : u = u' ∧ List.Forall₂ SameVal bs bs' := by
  unfold checkListOp at h1 h2
  split at h1
  · cases h with
    | cons hl h => cases h with
      | cons hi h => cases h
                     simp only [hl.1] at h1
                     split at h1
                     · next t ht =>
                       simp only [ht] at h2
                       simp only [Option.bind_eq_bind, Option.bind_eq_some_iff, Option.pure_def, Option.some.injEq, Prod.mk.injEq] at h1 h2
                       obtain ⟨i, hi1, rfl, rfl⟩ := h1
                       obtain ⟨i', hi2, rfl, rfl⟩ := h2
                       exact ⟨rfl, .cons hl (.cons (hi.tryCast hi1 hi2) .nil)⟩
                     · cases h1
  · cases h with
    | cons hl h => cases h with
      | cons hi h => cases h with
        | cons hv h => cases h
                       simp only [hl.1] at h1
                       split at h1
                       · next t ht =>
                         simp only [ht] at h2
                         simp only [Option.bind_eq_bind, Option.bind_eq_some_iff, Option.pure_def, Option.some.injEq, Prod.mk.injEq] at h1 h2
                         obtain ⟨i, hi1, v, hv1, rfl, rfl⟩ := h1
                         obtain ⟨i', hi2, v', hv2, rfl, rfl⟩ := h2
                         exact ⟨rfl, .cons hl (.cons (hi.tryCast hi1 hi2) (.cons (hv.tryCast hv1 hv2) .nil))⟩
                       · cases h1
  · cases h with
    | cons hl h => cases h
                   simp only [Option.some.injEq, Prod.mk.injEq] at h1 h2
                   obtain ⟨rfl, rfl⟩ := h1
                   obtain ⟨rfl, rfl⟩ := h2
                   exact ⟨rfl, .cons hl .nil⟩
  · cases h1

/-! ## Nodes -/

theorem reads_ty_eq {Γ Γ' : Ctx} {a a' : RExpr} {s s' : Ty} {A : Expr s} {A' : Expr s'} (h : SameVal a a') (hA : Reads Γ a s A) (hA' : Reads Γ' a' s' A') :
    s = s' := by
  have := hA.ty.symm.trans (h.1.trans hA'.ty)
  injection this with this
  injection this

theorem SameVal.ite {c c' a a' b b' : RExpr} (t : RTy) (hc : SameVal c c') (ha : SameVal a a') (hb : SameVal b b') :
    SameVal (.ite (some t) c a b) (.ite (some t) c' a' b') := by
  refine ⟨rfl, ?_⟩
  intro Γ t E E' hE hE' σ
  cases hE with
  | ite h1 h2 h3 =>
  cases hE' with
  | ite h1' h2' h3' =>
  have e1 := hc.2 Γ _ _ _ h1 h1' σ
  have e2 := ha.2 Γ _ _ _ h2 h2' σ
  have e3 := hb.2 Γ _ _ _ h3 h3' σ
  simp only [Expr.eval_ite]
  rw [e1, e2, e3]

theorem SameVal.bin {a a' b b' : RExpr} (t : RTy) (op : RBin) (ha : SameVal a a') (hb : SameVal b b') :
    SameVal (.bin (some t) op a b) (.bin (some t) op a' b') := by
  refine ⟨rfl, ?_⟩
  intro Γ t E E' hE hE' σ
  cases hE with
  | bin ho h1 h2 =>
    cases hE' with
    | bin ho' h1' h2' =>
      rw [ho] at ho'
      cases ho'
      simp only [Expr.eval_bin, ha.2 Γ _ _ _ h1 h1' σ, hb.2 Γ _ _ _ h2 h2' σ]
    | rel ho' h1' h2' => exact (bin_not_rel ho ho').elim
  | rel ho h1 h2 =>
    cases hE' with
    | bin ho' h1' h2' => exact (bin_not_rel ho' ho).elim
    | rel ho' h1' h2' =>
      cases reads_ty_eq ha h1 h1'
      rw [ho] at ho'
      cases ho'
      simp only [Expr.eval_rel]
      rw [ha.2 Γ _ _ _ h1 h1' σ, hb.2 Γ _ _ _ h2 h2' σ]

theorem SameVal.un {a a' : RExpr} (t : RTy) (op : RUn) (ha : SameVal a a') : SameVal (.un (some t) op a) (.un (some t) op a') := by
  refine ⟨rfl, ?_⟩
  intro Γ t E E' hE hE' σ
  cases hE with
  | un ho h1 =>
    cases hE' with
    | un ho' h1' =>
      rw [ho] at ho'
      cases ho'
      simp only [Expr.eval_un, ha.2 Γ _ _ _ h1 h1' σ]
    | embed h => simp [unOp] at ho
    | iverson h => simp [unOp] at ho
  | embed h1 =>
    cases hE' with
    | un ho' h1' => simp [unOp] at ho'
    | embed h1' =>
      simp only [Expr.eval_embed]
      rw [ha.2 Γ _ _ _ h1 h1' σ]
  | iverson h1 =>
    cases hE' with
    | un ho' h1' => simp [unOp] at ho'
    | iverson h1' =>
      simp only [Expr.eval_iverson]
      rw [ha.2 Γ _ _ _ h1 h1' σ]

theorem SameVal.quant {a a' : RExpr} (t : RTy) (op : QOp) (vs : List QVar) (trs trs' : List (List RExpr)) (ha : SameVal a a') :
    SameVal (.quant (some t) op vs trs a) (.quant (some t) op vs trs' a') := by
  refine ⟨rfl, ?_⟩
  intro Γ t E E' hE hE' σ
  cases hE with
  | quant _ _ _ _ _ h1 =>
  cases hE' with
  | quant _ _ _ _ _ h1' =>
  simp only [Expr.eval_quant, funext (ha.2 Γ _ _ _ h1 h1')]

theorem SameVal.subst {v v' a a' : RExpr} (t : RTy) (x : Ident) (hv : SameVal v v') (ha : SameVal a a') :
    SameVal (.subst (some t) x v a) (.subst (some t) x v' a') := by
  refine ⟨rfl, ?_⟩
  intro Γ t E E' hE hE' σ
  cases hE with
  | @subst _ _ _ _ k X V A hx hi h1 h2 =>
  cases hE' with
  | @subst _ _ _ _ k' X' V' A' hx' hi' h1' h2' =>
  obtain ⟨xi, xt⟩ := X
  obtain ⟨xi', xt'⟩ := X'
  simp only at hi hi' hx hx'
  subst hi
  subst hi'
  rw [hx] at hx'
  cases hx'
  simp only [Expr.eval_subst, hv.2 Γ _ _ _ h1 h1', ha.2 Γ _ _ _ h2 h2']

theorem SameVal.call {as as' : List RExpr} (t : RTy) (f : Ident) (h : List.Forall₂ SameVal as as') :
    SameVal (.call (some t) f as) (.call (some t) f as') := by
  refine ⟨rfl, ?_⟩
  intro Γ t E E' hE hE' σ
  cases hE with
  | @call _ _ ins _ hf hl es ha =>
  cases hE' with
  | @call _ _ ins' _ hf' hl' es' ha' =>
  have get : ∀ (i : Nat) (hi : i < as.length) (hi' : i < as'.length), SameVal (as.get ⟨i, hi⟩) (as'.get ⟨i, hi'⟩) := by
    intro i hi hi'
    exact h.get hi hi'
  have hins : ins = ins' := by
    apply List.ext_get
    · rw [← hl, ← hl', h.length_eq]
    · intro n h1 h2
      exact reads_ty_eq (get n (by omega) (by omega)) (ha ⟨n, h1⟩) (ha' ⟨n, h2⟩)
  subst hins
  simp only [Expr.eval_call]
  congr 1
  funext i
  exact (get i (by omega) (by omega)).2 Γ _ _ _ (ha i) (ha' i) σ

/-! ## Chains -/

/-- All numbers and truth values as extended reals. -/
noncomputable def emb : (t : Ty) → t.den → EReal
  | .bool => fun p => by classical exact if holds p then 1 else 0
  | .uint => fun (n : ℕ) => ((n : ℝ) : EReal)
  | .int => fun (n : ℤ) => ((n : ℝ) : EReal)
  | .ureal => fun (r : ℝ≥0) => ((r : ℝ) : EReal)
  | .real => fun (r : ℝ) => (r : EReal)
  | .eureal => fun (r : ℝ≥0∞) => (r : EReal)
  | .list _ => fun _ => 0
  | .dom _ => fun _ => 0

/-- The types of the terms of chains. -/
def chainTy (t : Ty) : Bool := t.isNum || isBool t

omit [Interp] in
theorem emb_inj {t : Ty} (ht : chainTy t = true) {x y : t.den} (h : emb t x = emb t y) : x = y := by
  cases t with
  | bool =>
    classical
    simp only [emb] at h
    apply propext
    show holds x ↔ holds y
    by_cases hx : holds x <;> by_cases hy : holds y <;> simp_all
  | uint => exact Nat.cast_injective (R := ℝ) (EReal.coe_injective h)
  | int => exact Int.cast_injective (α := ℝ) (EReal.coe_injective h)
  | ureal => exact NNReal.coe_injective (EReal.coe_injective h)
  | real => exact EReal.coe_injective h
  | eureal => exact EReal.coe_ennreal_injective h
  | list t => cases ht
  | dom n => cases ht

omit [Interp] in
theorem emb_cast {s t : Ty} (c : CastOp s t) (x : s.den) : emb t (c.den x) = emb s x := by
  cases c with
  | uintInt => simp only [emb, CastOp.den]; norm_cast
  | uintUReal => simp only [emb, CastOp.den]; norm_cast
  | uintReal => rfl
  | uintEUReal => simp only [emb, CastOp.den]; norm_cast
  | intReal => rfl
  | urealReal => rfl
  | urealEUReal => rfl

/-- The operators on extended reals. -/
noncomputable def opV : RBin → EReal → EReal → EReal
  | .add => (· + ·)
  | .mul => (· * ·)
  | .inf | .and => min
  | .sup | .or => max
  | _ => fun _ _ => 0

omit [Doms] [Interp] in
theorem opV_assoc (o : RBin) (a b c : EReal) : opV o (opV o a b) c = opV o a (opV o b c) := by
  cases o <;> simp only [opV]
  · exact add_assoc a b c
  · exact mul_assoc a b c
  · exact min_assoc a b c
  · exact max_assoc a b c
  · exact min_assoc a b c
  · exact max_assoc a b c

omit [Interp] in
theorem emb_le {t : Ty} (ht : t.isNum = true) (x y : t.den) : t.le x y ↔ emb t x ≤ emb t y := by
  cases t with
  | bool | list _ | dom _ => cases ht
  | uint => simp only [Ty.le, emb, EReal.coe_le_coe_iff]; exact Nat.cast_le.symm
  | int => simp only [Ty.le, emb, EReal.coe_le_coe_iff]; exact Int.cast_le.symm
  | ureal => simp only [Ty.le, emb, EReal.coe_le_coe_iff]; exact NNReal.coe_le_coe.symm
  | real => exact EReal.coe_le_coe_iff.symm
  | eureal => exact EReal.coe_ennreal_le_coe_ennreal_iff.symm

omit [Interp] in
theorem emb_add {t : Ty} (ht : t.isNum = true) (x y : t.den) : emb t (t.add x y) = emb t x + emb t y := by
  cases t with
  | bool | list _ | dom _ => cases ht
  | uint =>
    have h : ∀ a b : ℕ, (((a + b : ℕ) : ℝ) : EReal) = ((a : ℝ) : EReal) + ((b : ℝ) : EReal) := fun a b => by rw [Nat.cast_add, EReal.coe_add]
    exact h x y
  | int =>
    have h : ∀ a b : ℤ, (((a + b : ℤ) : ℝ) : EReal) = ((a : ℝ) : EReal) + ((b : ℝ) : EReal) := fun a b => by rw [Int.cast_add, EReal.coe_add]
    exact h x y
  | ureal =>
    have h : ∀ a b : ℝ≥0, (((a + b : ℝ≥0) : ℝ) : EReal) = ((a : ℝ) : EReal) + ((b : ℝ) : EReal) := fun a b => by rw [NNReal.coe_add, EReal.coe_add]
    exact h x y
  | real => exact EReal.coe_add x y
  | eureal => exact EReal.coe_ennreal_add x y

omit [Interp] in
theorem emb_mul {t : Ty} (ht : t.isNum = true) (x y : t.den) : emb t (t.mul x y) = emb t x * emb t y := by
  cases t with
  | bool | list _ | dom _ => cases ht
  | uint =>
    have h : ∀ a b : ℕ, (((a * b : ℕ) : ℝ) : EReal) = ((a : ℝ) : EReal) * ((b : ℝ) : EReal) := fun a b => by rw [Nat.cast_mul, EReal.coe_mul]
    exact h x y
  | int =>
    have h : ∀ a b : ℤ, (((a * b : ℤ) : ℝ) : EReal) = ((a : ℝ) : EReal) * ((b : ℝ) : EReal) := fun a b => by rw [Int.cast_mul, EReal.coe_mul]
    exact h x y
  | ureal =>
    have h : ∀ a b : ℝ≥0, (((a * b : ℝ≥0) : ℝ) : EReal) = ((a : ℝ) : EReal) * ((b : ℝ) : EReal) := fun a b => by rw [NNReal.coe_mul, EReal.coe_mul]
    exact h x y
  | real => exact EReal.coe_mul x y
  | eureal => exact EReal.coe_ennreal_mul x y

theorem emb_op {o : RBin} (ho : isAssoc o = true) {t : Ty} {op : BinOp t} (h : binOp o t = some op) (x y : t.den) :
    emb t (op.den x y) = opV o (emb t x) (emb t y) := by
  have inf : ∀ {t : Ty}, t.isNum = true → ∀ x y : t.den, emb t (t.inf x y) = min (emb t x) (emb t y) := by
    intro t hn x y
    classical
    unfold Ty.inf
    by_cases hl : t.le x y
    · rw [if_pos hl, min_eq_left ((emb_le hn x y).1 hl)]
    · rw [if_neg hl, min_eq_right (le_of_not_ge fun hh => hl ((emb_le hn x y).2 hh))]
  have sup : ∀ {t : Ty}, t.isNum = true → ∀ x y : t.den, emb t (t.sup x y) = max (emb t x) (emb t y) := by
    intro t hn x y
    classical
    unfold Ty.sup
    by_cases hl : t.le x y
    · rw [if_pos hl, max_eq_right ((emb_le hn x y).1 hl)]
    · rw [if_neg hl, max_eq_left (le_of_not_ge fun hh => hl ((emb_le hn x y).2 hh))]
  cases o <;> try cases ho
  · simp only [binOp, Option.dite_none_right_eq_some] at h
    obtain ⟨hn, h⟩ := h
    cases h
    exact emb_add hn x y
  · simp only [binOp, Option.dite_none_right_eq_some] at h
    obtain ⟨hn, h⟩ := h
    cases h
    exact emb_mul hn x y
  · cases t <;> simp [binOp] at h
    subst h
    classical
    simp only [BinOp.den, emb, opV, holds]
    by_cases hx : holds x <;> by_cases hy : holds y <;> simp_all [holds]
  · cases t <;> simp [binOp] at h
    subst h
    classical
    simp only [BinOp.den, emb, opV, holds]
    by_cases hx : holds x <;> by_cases hy : holds y <;> simp_all [holds]
  · simp only [binOp, Option.dite_none_right_eq_some] at h
    obtain ⟨hn, h⟩ := h
    cases h
    exact inf hn x y
  · simp only [binOp, Option.dite_none_right_eq_some] at h
    obtain ⟨hn, h⟩ := h
    cases h
    exact sup hn x y

/-- The value of a chain from the values of the terms. -/
noncomputable def foldV (o : RBin) : List EReal → EReal
  | [] => 0
  | [x] => x
  | x :: y :: xs => opV o x (foldV o (y :: xs))

omit [Doms] [Interp] in
theorem foldV_append (o : RBin) : ∀ (l r : List EReal), l ≠ [] → r ≠ [] → foldV o (l ++ r) = opV o (foldV o l) (foldV o r)
  | [], _, h, _ => (h rfl).elim
  | [_], _ :: _, _, _ => rfl
  | [_], [], _, h => (h rfl).elim
  | x :: y :: xs, r, _, hr => by
    have := foldV_append o (y :: xs) r (by simp) hr
    simp only [List.cons_append] at this ⊢
    rw [foldV, foldV, this, opV_assoc]

/-- `e` is the checked tree of a chain of `o` with the checked terms `ts`. -/
structure ChainVal (o : RBin) (ts : List RExpr) (e : RExpr) : Prop where
  ne : ts ≠ []
  ty : ∃ t, e.ty = some (.val t) ∧ chainTy t = true ∧ (∃ x ∈ ts, x.ty = some (.val t)) ∧
    ∀ x ∈ ts, ∃ s, x.ty = some (.val s) ∧ (s = t ∨ s.less t = true)
  val : ∀ Γ t (E : Expr t), Reads Γ e t E → ∃ Es : List ((t : Ty) × Expr t), List.Forall₂ (fun x A => Reads Γ x A.1 A.2) ts Es ∧
    ∀ σ, emb t (E.eval σ) = foldV o (Es.map fun A => emb A.1 (A.2.eval σ))

omit [Doms] [Interp] in
theorem checkL_append {pre : Bool} {l r l' r' : List RExpr} {Γ Γ₁ Γ₂ : Ctx} (h : checkL pre l Γ = some (l', Γ₁)) (h' : checkL pre r Γ₁ = some (r', Γ₂)) :
    checkL pre (l ++ r) Γ = some (l' ++ r', Γ₂) := by
  induction l generalizing Γ l' with
  | nil =>
    simp only [checkL, Option.some.injEq, Prod.mk.injEq] at h
    obtain ⟨rfl, rfl⟩ := h
    exact h'
  | cons x xs ih =>
    simp only [checkL, Option.bind_eq_bind, Option.bind_eq_some_iff, Prod.exists, Option.pure_def, Option.some.injEq, Prod.mk.injEq] at h
    obtain ⟨x', Γ', hx, xs', Γ'', hxs, rfl, rfl⟩ := h
    simp [checkL, hx, ih hxs]

omit [Doms] [Interp] in
theorem less_trans {s t u : Ty} (h : s.less t = true) (h' : t.less u = true) : s.less u = true := by
  cases s <;> cases t <;> simp [Ty.less] at h <;> cases u <;> simp [Ty.less] at h' ⊢

omit [Doms] [Interp] in
theorem less_irrefl {s t : Ty} (h : s.less t = true) (h' : t.less s = true) : False := by
  cases s <;> cases t <;> simp [Ty.less] at h h'

/-- Bringing the operands of a chain to one type. -/
theorem unify_chain {o : RBin} {a b a2 b2 : RExpr} {u : RTy} {l r : List RExpr} (ha : ChainVal o l a) (hb : ChainVal o r b)
    (h : Front.tryUnify a b = some (u, a2, b2)) :
    (∃ t, u = .val t ∧ chainTy t = true ∧ (∃ x ∈ l ++ r, x.ty = some (.val t)) ∧ ∀ x ∈ l ++ r, ∃ s, x.ty = some (.val s) ∧ (s = t ∨ s.less t = true)) ∧
    (∀ Γ t (E : Expr t), Reads Γ a2 t E → ∃ s, ∃ A : Expr s, Reads Γ a s A ∧ ∀ σ, emb t (E.eval σ) = emb s (A.eval σ)) ∧
    (∀ Γ t (E : Expr t), Reads Γ b2 t E → ∃ s, ∃ A : Expr s, Reads Γ b s A ∧ ∀ σ, emb t (E.eval σ) = emb s (A.eval σ)) := by
  obtain ⟨s, hs, hsc, ⟨x, hx, hxt⟩, hall⟩ := ha.ty
  obtain ⟨t, ht, htc, ⟨y, hy, hyt⟩, hall'⟩ := hb.ty
  obtain ⟨s', t', hs', ht', hcase⟩ := tryUnify_some h
  rw [hs] at hs'
  rw [ht] at ht'
  cases hs'
  cases ht'
  have castR : ∀ (a : RExpr) (T : RTy), ∀ Γ t (E : Expr t), Reads Γ (.cast (some T) a) t E →
      ∃ s, ∃ A : Expr s, Reads Γ a s A ∧ ∀ σ, emb t (E.eval σ) = emb s (A.eval σ) := by
    intro a T Γ t E hE
    cases hE with
    | cast c hA => exact ⟨_, _, hA, fun σ => by rw [Expr.eval_cast, emb_cast]⟩
  have self : ∀ (a : RExpr), ∀ Γ t (E : Expr t), Reads Γ a t E → ∃ s, ∃ A : Expr s, Reads Γ a s A ∧ ∀ σ, emb t (E.eval σ) = emb s (A.eval σ) :=
    fun a Γ t E hE => ⟨t, E, hE, fun _ => rfl⟩
  rcases hcase with ⟨h1, rfl, rfl, rfl⟩ | ⟨h1, rfl, rfl, rfl⟩ | ⟨h1, rfl, rfl, rfl⟩
  · have hst : s = t := partialCmp_eq.1 h1
    subst hst
    refine ⟨⟨s, rfl, hsc, ⟨x, List.mem_append_left _ hx, hxt⟩, ?_⟩, self _, self _⟩
    intro z hz
    rcases List.mem_append.1 hz with hz | hz
    · exact hall z hz
    · exact hall' z hz
  · have hst : s.less t = true := partialCmp_lt.1 h1
    refine ⟨⟨t, rfl, htc, ⟨y, List.mem_append_right _ hy, hyt⟩, ?_⟩, castR _ _, self _⟩
    intro z hz
    rcases List.mem_append.1 hz with hz | hz
    · obtain ⟨w, hw, hw'⟩ := hall z hz
      refine ⟨w, hw, .inr ?_⟩
      rcases hw' with rfl | hw'
      · exact hst
      · exact less_trans hw' hst
    · exact hall' z hz
  · have hst : t.less s = true := partialCmp_gt.1 h1
    refine ⟨⟨s, rfl, hsc, ⟨x, List.mem_append_left _ hx, hxt⟩, ?_⟩, self _, castR _ _⟩
    intro z hz
    rcases List.mem_append.1 hz with hz | hz
    · exact hall z hz
    · obtain ⟨w, hw, hw'⟩ := hall' z hz
      refine ⟨w, hw, .inr ?_⟩
      rcases hw' with rfl | hw'
      · exact hst
      · exact less_trans hw' hst

omit [Doms] [Interp] in
theorem opTy_some {p : Ty → Bool} {a : RExpr} {u : Unit} (h : opTy p a = some u) : ∃ t, a.ty = some (.val t) ∧ p t = true := by
  unfold opTy at h
  split at h
  · next t ht =>
    split at h
    · next hp => exact ⟨t, ht, hp⟩
    · cases h
  · cases h

omit [Doms] [Interp] in
theorem relOp_assoc {o : RBin} (ho : isAssoc o = true) (t : Ty) : relOp o t = none := by
  cases o <;> first | rfl | cases ho

theorem ChainVal.bin {o : RBin} (ho : isAssoc o = true) {a b a2 b2 : RExpr} {t : Ty} {l r : List RExpr} (ha : ChainVal o l a) (hb : ChainVal o r b)
    (hta : chainTy t = true) (hmem : ∃ x ∈ l ++ r, x.ty = some (.val t)) (hall : ∀ x ∈ l ++ r, ∃ s, x.ty = some (.val s) ∧ (s = t ∨ s.less t = true))
    (ha2 : ∀ Γ t (E : Expr t), Reads Γ a2 t E → ∃ s, ∃ A : Expr s, Reads Γ a s A ∧ ∀ σ, emb t (E.eval σ) = emb s (A.eval σ))
    (hb2 : ∀ Γ t (E : Expr t), Reads Γ b2 t E → ∃ s, ∃ A : Expr s, Reads Γ b s A ∧ ∀ σ, emb t (E.eval σ) = emb s (A.eval σ)) :
    ChainVal o (l ++ r) (.bin (some (.val t)) o a2 b2) := by
  refine ⟨by simp [ha.ne], ⟨t, rfl, hta, hmem, hall⟩, ?_⟩
  intro Γ t' E hE
  cases hE with
  | rel hop _ _ => rw [relOp_assoc ho] at hop; cases hop
  | @bin _ _ _ _ op A B hop h1 h2 =>
    obtain ⟨s, A', hA, hAe⟩ := ha2 Γ _ _ h1
    obtain ⟨u, B', hB, hBe⟩ := hb2 Γ _ _ h2
    obtain ⟨As, hAs, hAv⟩ := ha.val Γ _ _ hA
    obtain ⟨Bs, hBs, hBv⟩ := hb.val Γ _ _ hB
    refine ⟨As ++ Bs, List.rel_append hAs hBs, ?_⟩
    intro σ
    rw [Expr.eval_bin, emb_op ho hop, hAe, hBe, hAv, hBv, List.map_append, foldV_append]
    · intro h
      have h0 : As = [] := List.map_eq_nil_iff.1 h
      have := hAs.length_eq
      rw [h0] at this
      exact ha.ne (List.length_eq_zero_iff.1 this)
    · intro h
      have h0 : Bs = [] := List.map_eq_nil_iff.1 h
      have := hBs.length_eq
      rw [h0] at this
      exact hb.ne (List.length_eq_zero_iff.1 this)

/-- Checking a chain checks the terms one after the other. -/
theorem check_chain {o : RBin} (ho : isAssoc o = true) (pre : Bool) : ∀ (e : RExpr), Bare e → ∀ {Γ Γ₁ : Ctx} {e1 : RExpr} {t : Ty},
    check pre false e Γ = some (e1, Γ₁) → e1.ty = some (.val t) → chainTy t = true →
    ∃ ts, checkL pre (terms o e) Γ = some (ts, Γ₁) ∧ ChainVal o ts e1
  | .bin tt o' a b, hbare, Γ, Γ₁, e1, t, h, ht, htc => by
    by_cases hoo : o' = o
    · subst hoo
      obtain ⟨rfl, hba, hbb⟩ := hbare
      simp only [check, Option.bind_eq_bind, Option.bind_eq_some_iff, Prod.exists, Option.pure_def, Option.some.injEq, Prod.mk.injEq] at h
      obtain ⟨a1, Γa, ha, b1, Γb, hb, u, a2, b2, hbin, e2, hfin, rfl, rfl⟩ := h
      have hfin' := finish_some hfin
      subst hfin'
      simp only [RExpr.setTy] at ht ⊢
      cases ht
      -- the types of the operands
      have hops : ∃ s s', a1.ty = some (.val s) ∧ b1.ty = some (.val s') ∧ chainTy s = true ∧ chainTy s' = true := by
        cases o' <;> try cases ho
        all_goals
          simp only [Front.checkBin, Option.bind_eq_bind, Option.bind_eq_some_iff] at hbin
          obtain ⟨_, h1, _, h2, -⟩ := hbin
          obtain ⟨s, hs, hsn⟩ := opTy_some h1
          obtain ⟨s', hs', hsn'⟩ := opTy_some h2
          exact ⟨s, s', hs, hs', by simp [chainTy, hsn], by simp [chainTy, hsn']⟩
      obtain ⟨s, s', hs, hs', hsc, hsc'⟩ := hops
      obtain ⟨l, hl, hlv⟩ := check_chain ho pre a hba ha hs hsc
      obtain ⟨r, hr, hrv⟩ := check_chain ho pre b hbb hb hs' hsc'
      refine ⟨l ++ r, by simp only [terms, if_true]; exact checkL_append hl hr, ?_⟩
      have self : ∀ (a : RExpr), ∀ Γ t (E : Expr t), Reads Γ a t E → ∃ s, ∃ A : Expr s, Reads Γ a s A ∧ ∀ σ, emb t (E.eval σ) = emb s (A.eval σ) :=
        fun a Γ t E hE => ⟨t, E, hE, fun _ => rfl⟩
      cases o' with
      | sub | div | mod | eq | ne | lt | le | ge | gt | impl | coimpl | compare | cocompare => cases ho
      | add | mul | inf | sup =>
        simp only [Front.checkBin, Option.bind_eq_bind, Option.bind_eq_some_iff] at hbin
        obtain ⟨_, h1, _, h2, hu⟩ := hbin
        obtain ⟨⟨_, he, h3, h4, h5⟩, h6, h7⟩ := unify_chain hlv hrv hu
        cases he
        exact hlv.bin rfl hrv h3 h4 h5 h6 h7
      | and | or =>
        simp only [Front.checkBin, Option.bind_eq_bind, Option.bind_eq_some_iff, Option.pure_def, Option.some.injEq, Prod.mk.injEq] at hbin
        obtain ⟨_, h1, _, h2, hu, rfl, rfl⟩ := hbin
        cases hu
        obtain ⟨x, hx, hxb⟩ := opTy_some h1
        obtain ⟨y, hy, hyb⟩ := opTy_some h2
        have hx' : x = .bool := by cases x <;> first | rfl | cases hxb
        have hy' : y = .bool := by cases y <;> first | rfl | cases hyb
        subst hx'
        subst hy'
        obtain ⟨p, hp, hpc, ⟨z, hz, hzt⟩, hpall⟩ := hlv.ty
        obtain ⟨q, hq, hqc, -, hqall⟩ := hrv.ty
        rw [hx] at hp
        rw [hy] at hq
        cases hp
        cases hq
        refine hlv.bin rfl hrv htc ⟨z, List.mem_append_left _ hz, hzt⟩ ?_ (self _) (self _)
        intro w hw
        rcases List.mem_append.1 hw with hw | hw
        · exact hpall w hw
        · exact hqall w hw
    · refine ⟨[e1], by simp only [terms, hoo, if_false, checkL, h]; rfl, by simp, ⟨t, ht, htc, ⟨e1, by simp, ht⟩, ?_⟩, ?_⟩
      · intro x hx
        rw [List.mem_singleton.1 hx]
        exact ⟨t, ht, .inl rfl⟩
      · intro Γ t E hE
        exact ⟨[⟨t, E⟩], .cons hE .nil, fun σ => rfl⟩
  | .var _ _, _, Γ, Γ₁, e1, t, h, ht, htc | .call _ _ _, _, Γ, Γ₁, e1, t, h, ht, htc | .ite _ _ _ _, _, Γ, Γ₁, e1, t, h, ht, htc
  | .un _ _ _, _, Γ, Γ₁, e1, t, h, ht, htc | .cast _ _, _, Γ, Γ₁, e1, t, h, ht, htc | .quant _ _ _ _ _, _, Γ, Γ₁, e1, t, h, ht, htc
  | .subst _ _ _ _, _, Γ, Γ₁, e1, t, h, ht, htc | .lit _ _, _, Γ, Γ₁, e1, t, h, ht, htc => by
    refine ⟨[e1], by simp only [terms, checkL, h]; rfl, by simp, ⟨t, ht, htc, ⟨e1, by simp, ht⟩, ?_⟩, ?_⟩
    · intro x hx
      rw [List.mem_singleton.1 hx]
      exact ⟨t, ht, .inl rfl⟩
    · intro Γ t E hE
      exact ⟨[⟨t, E⟩], .cons hE .nil, fun σ => rfl⟩

omit [Doms] [Interp] in
/-- Chains are numbers or truth values. -/
theorem check_chain_ty {o : RBin} (ho : isAssoc o = true) {pre imp : Bool} {t : Option RTy} {a b : RExpr} {Γ Γ₁ : Ctx} {e1 : RExpr}
    (h : check pre imp (.bin t o a b) Γ = some (e1, Γ₁)) : ∃ u, e1.ty = some (.val u) ∧ chainTy u = true := by
  simp only [check, Option.bind_eq_bind, Option.bind_eq_some_iff, Prod.exists, Option.pure_def, Option.some.injEq, Prod.mk.injEq] at h
  obtain ⟨a1, Γa, ha, b1, Γb, hb, u, a2, b2, hbin, e2, hfin, rfl, rfl⟩ := h
  have hfin' := finish_some hfin
  subst hfin'
  rw [setTy_ty]
  cases o with
  | sub | div | mod | eq | ne | lt | le | ge | gt | impl | coimpl | compare | cocompare => cases ho
  | add | mul | inf | sup =>
    simp only [Front.checkBin, Option.bind_eq_bind, Option.bind_eq_some_iff] at hbin
    obtain ⟨_, h1, _, h2, hu⟩ := hbin
    obtain ⟨s, hs, hsn⟩ := opTy_some h1
    obtain ⟨s', hs', hsn'⟩ := opTy_some h2
    obtain ⟨_, _, hs1, hs1', hcase⟩ := tryUnify_some hu
    rw [hs] at hs1
    rw [hs'] at hs1'
    cases hs1
    cases hs1'
    rcases hcase with ⟨-, rfl, -⟩ | ⟨-, rfl, -⟩ | ⟨-, rfl, -⟩
    · exact ⟨s, rfl, by simp [chainTy, hsn]⟩
    · exact ⟨s', rfl, by simp [chainTy, hsn']⟩
    · exact ⟨s, rfl, by simp [chainTy, hsn]⟩
  | and | or =>
    simp only [Front.checkBin, Option.bind_eq_bind, Option.bind_eq_some_iff, Option.pure_def, Option.some.injEq, Prod.mk.injEq] at hbin
    obtain ⟨_, h1, _, h2, rfl, rfl, rfl⟩ := hbin
    exact ⟨.bool, rfl, rfl⟩

/-- Chains with the same terms have the same type and value. -/
theorem ChainVal.same {o : RBin} {l l' : List RExpr} {e e' : RExpr} (h : ChainVal o l e) (h' : ChainVal o l' e') (hl : List.Forall₂ SameVal l l') :
    SameVal e e' := by
  obtain ⟨t, ht, htc, ⟨x, hx, hxt⟩, hall⟩ := h.ty
  obtain ⟨t', ht', htc', ⟨x', hx', hxt'⟩, hall'⟩ := h'.ty
  have htys : l.map RExpr.ty = l'.map RExpr.ty := by
    clear hx hx' hall hall' h h'
    induction hl with
    | nil => rfl
    | cons h _ ih => simp [h.1, ih]
  have hmem : ∀ {s : Ty}, (∃ x ∈ l, x.ty = some (.val s)) ↔ ∃ x ∈ l', x.ty = some (.val s) := by
    intro s
    have : some (RTy.val s) ∈ l.map RExpr.ty ↔ some (RTy.val s) ∈ l'.map RExpr.ty := by rw [htys]
    simpa only [List.mem_map] using this
  have heq : t = t' := by
    obtain ⟨y', hy', hyt'⟩ := hmem.1 ⟨x, hx, hxt⟩
    obtain ⟨y, hy, hyt⟩ := hmem.2 ⟨x', hx', hxt'⟩
    obtain ⟨s, hs, hcase⟩ := hall y hy
    obtain ⟨s', hs', hcase'⟩ := hall' y' hy'
    rw [hyt] at hs
    rw [hyt'] at hs'
    cases hs
    cases hs'
    rcases hcase with h1 | h1
    · exact h1.symm
    · rcases hcase' with h2 | h2
      · exact h2
      · exact (less_irrefl h1 h2).elim
  subst heq
  refine ⟨ht.trans ht'.symm, ?_⟩
  intro Γ u E E' hE hE' σ
  have hu : u = t := by
    have := hE.ty.symm.trans ht
    injection this with this
    injection this
  subst hu
  obtain ⟨Es, hEs, hv⟩ := h.val Γ _ _ hE
  obtain ⟨Es', hEs', hv'⟩ := h'.val Γ _ _ hE'
  apply emb_inj htc
  rw [hv, hv']
  congr 1
  clear hv hv' hx hx' hall hall' hE hE' h h' hmem htys
  induction hl generalizing Es Es' with
  | nil =>
    cases hEs
    cases hEs'
    rfl
  | cons hxy _ ih =>
    cases hEs with
    | @cons _ A _ _ hA hAs =>
    cases hEs' with
    | @cons _ A' _ _ hA' hAs' =>
    obtain ⟨s, A⟩ := A
    obtain ⟨s', A'⟩ := A'
    cases reads_ty_eq hxy hA hA'
    simp only [List.map_cons, List.cons.injEq]
    exact ⟨by rw [hxy.2 Γ _ _ _ hA hA' σ], ih _ hAs _ hAs'⟩

/-! ## All trees -/

omit [Doms] [Interp] in
theorem chain_inj (o : RBin) : ∀ {l l' : List RExpr}, l ≠ [] → l' ≠ [] → (∀ x ∈ l, ∀ t a b, x ≠ .bin t o a b) → (∀ x ∈ l', ∀ t a b, x ≠ .bin t o a b) →
    chain o l = chain o l' → l = l'
  | [], _, h, _, _, _, _ => (h rfl).elim
  | _, [], _, h, _, _, _ => (h rfl).elim
  | [x], [y], _, _, _, _, h => by
    simp only [chain] at h
    rw [h]
  | [x], y :: z :: zs, _, _, hx, _, h => (hx x (by simp) _ _ _ h).elim
  | x :: y :: ys, [z], _, _, _, hz, h => (hz z (by simp) _ _ _ h.symm).elim
  | x :: y :: ys, x' :: y' :: ys', _, _, hl, hl', h => by
    simp only [chain, RExpr.bin.injEq, true_and] at h
    rw [h.1, chain_inj o (by simp) (by simp) (fun w hw => hl w (.tail _ hw)) (fun w hw => hl' w (.tail _ hw)) h.2]

omit [Doms] [Interp] in
/-- Equal normal forms of chains come from equal normal forms of the terms. -/
theorem terms_norm {o : RBin} (ho : isAssoc o = true) {e e' : RExpr} (h : norm e = norm e') : normL (terms o e) = normL (terms o e') := by
  rw [norm_terms ho, norm_terms ho e'] at h
  rw [normL_map, normL_map]
  refine chain_inj o (by simp [terms_ne]) (by simp [terms_ne]) ?_ ?_ h
  · intro x hx
    obtain ⟨y, hy, rfl⟩ := List.mem_map.1 hx
    exact norm_head (terms_chain o e y hy)
  · intro x hx
    obtain ⟨y, hy, rfl⟩ := List.mem_map.1 hx
    exact norm_head (terms_chain o e' y hy)

/-- The claim for fingerprints of at most `n` pieces. -/
def MeanUpTo (n : Nat) : Prop :=
  ∀ e e', (fp e).length ≤ n → Bare e → Bare e' → norm e = norm e' → ∀ pre imp Γ e1 Γ₁ e1' Γ₁', check pre imp e Γ = some (e1, Γ₁) →
    check pre imp e' Γ = some (e1', Γ₁') → Γ₁ = Γ₁' ∧ SameVal e1 e1'

theorem mean_list {n : Nat} (hn : MeanUpTo n) (pre : Bool) : ∀ (es es' : List RExpr), (fpL es).length ≤ n → BareL es → BareL es' →
    normL es = normL es' → ∀ {Γ es1 Γ₁ es1' Γ₁'}, checkL pre es Γ = some (es1, Γ₁) → checkL pre es' Γ = some (es1', Γ₁') →
    Γ₁ = Γ₁' ∧ List.Forall₂ SameVal es1 es1' := by
  intro es
  induction es with
  | nil =>
    intro es' _ _ _ hnorm Γ es1 Γ₁ es1' Γ₁' h h'
    cases es' with
    | nil =>
      cases h
      cases h'
      exact ⟨rfl, .nil⟩
    | cons y ys => cases hnorm
  | cons x xs ih =>
    intro es' hlen hb hb' hnorm Γ es1 Γ₁ es1' Γ₁' h h'
    cases es' with
    | nil => cases hnorm
    | cons y ys =>
      rw [fpL_cons] at hlen
      simp only [List.length_append, List.length_cons] at hlen
      simp only [normL, List.cons.injEq] at hnorm
      simp only [checkL, Option.bind_eq_bind, Option.bind_eq_some_iff, Prod.exists, Option.pure_def, Option.some.injEq, Prod.mk.injEq] at h h'
      obtain ⟨x1, Γx, hx, xs1, Γxs, hxs, rfl, rfl⟩ := h
      obtain ⟨y1, Γy, hy, ys1, Γys, hys, rfl, rfl⟩ := h'
      obtain ⟨rfl, h1⟩ := hn x y (by omega) hb.1 hb'.1 hnorm.1 _ _ _ _ _ _ _ hx hy
      obtain ⟨rfl, h2⟩ := ih ys (by omega) hb.2 hb'.2 hnorm.2 hxs hys
      exact ⟨rfl, .cons h1 h2⟩

theorem mean_lists {n : Nat} (hn : MeanUpTo n) (pre : Bool) : ∀ (es es' : List (List RExpr)), (fpLL es).length ≤ n → BareLL es → BareLL es' →
    normLL es = normLL es' → ∀ {Γ es1 Γ₁ es1' Γ₁'}, checkLL pre es Γ = some (es1, Γ₁) → checkLL pre es' Γ = some (es1', Γ₁') → Γ₁ = Γ₁' := by
  intro es
  induction es with
  | nil =>
    intro es' _ _ _ hnorm Γ es1 Γ₁ es1' Γ₁' h h'
    cases es' with
    | nil =>
      cases h
      cases h'
      rfl
    | cons y ys => cases hnorm
  | cons x xs ih =>
    intro es' hlen hb hb' hnorm Γ es1 Γ₁ es1' Γ₁' h h'
    cases es' with
    | nil => cases hnorm
    | cons y ys =>
      simp only [fpLL, List.length_append, List.length_cons] at hlen
      simp only [normLL, List.cons.injEq] at hnorm
      simp only [checkLL, Option.bind_eq_bind, Option.bind_eq_some_iff, Prod.exists, Option.pure_def, Option.some.injEq, Prod.mk.injEq] at h h'
      obtain ⟨x1, Γx, hx, xs1, Γxs, hxs, rfl, rfl⟩ := h
      obtain ⟨y1, Γy, hy, ys1, Γys, hys, rfl, rfl⟩ := h'
      obtain ⟨rfl, -⟩ := mean_list hn pre x y (by omega) hb.1 hb'.1 hnorm.1 hx hy
      exact ih ys (by omega) hb.2 hb'.2 hnorm.2 hxs hys

omit [Doms] [Interp] in
theorem letTy_congr {x : Ident} {v v' : RExpr} (h : v.ty = v'.ty) (Γ : Ctx) : letTy x v Γ = letTy x v' Γ := by
  unfold letTy
  rw [h]

omit [Doms] [Interp] in
/-- A tree whose normal form has an operator at the root has it itself. -/
theorem norm_bin_inv {e : RExpr} {t : Option RTy} {o : RBin} {a b : RExpr} (h : norm e = .bin t o a b) : ∃ t' a' b', e = .bin t' o a' b' := by
  cases e with
  | bin t' o' a' b' =>
    simp only [norm] at h
    split at h
    · obtain ⟨x, y, hg⟩ := graft_isBin o' (norm a') (norm b')
      rw [hg] at h
      injection h with _ h
      subst h
      exact ⟨_, _, _, rfl⟩
    · injection h with _ h
      subst h
      exact ⟨_, _, _, rfl⟩
  | _ => cases h

omit [Doms] [Interp] in
theorem norm_isBin (t : Option RTy) (o : RBin) (a b : RExpr) : ∃ t' a' b', norm (.bin t o a b) = .bin t' o a' b' := by
  simp only [norm]
  split
  · obtain ⟨x, y, hg⟩ := graft_isBin o (norm a) (norm b)
    exact ⟨_, _, _, hg⟩
  · exact ⟨_, _, _, rfl⟩

theorem SameVal.refl (e : RExpr) : SameVal e e :=
  ⟨rfl, fun Γ t E E' h h' σ => by
    have := h.unique h'
    simp only [Sigma.mk.injEq, true_and] at this
    rw [eq_of_heq this]⟩

theorem mean_all : ∀ n, MeanUpTo n := by
  intro n
  induction n with
  | zero =>
    intro e e' hl
    obtain ⟨p, ps, hp, -⟩ := fp_head e
    rw [hp] at hl
    simp at hl
  | succ n hn =>
    intro e e' hl hb hb' hnorm pre imp Γ e1 Γ₁ e1' Γ₁' h h'
    cases e with
    | cast t a => exact hb.elim
    | var t x =>
      cases e' with
      | var t' x' =>
        cases hnorm
        rw [h] at h'
        cases h'
        exact ⟨rfl, .refl _⟩
      | bin t' o' a' b' =>
        obtain ⟨_, _, _, hb⟩ := norm_isBin t' o' a' b'
        rw [hb] at hnorm
        cases hnorm
      | _ => cases hnorm
    | lit t x =>
      cases e' with
      | lit t' x' =>
        cases hnorm
        rw [h] at h'
        cases h'
        exact ⟨rfl, .refl _⟩
      | bin t' o' a' b' =>
        obtain ⟨_, _, _, hb⟩ := norm_isBin t' o' a' b'
        rw [hb] at hnorm
        cases hnorm
      | _ => cases hnorm
    | call t f args =>
      cases e' with
      | call t' f' args' =>
        obtain ⟨rfl, hb⟩ := hb
        obtain ⟨rfl, hb'⟩ := hb'
        simp only [norm, RExpr.call.injEq, true_and] at hnorm
        obtain ⟨rfl, hnorm⟩ := hnorm
        simp only [fp_call, List.length_append, List.length_cons] at hl
        simp only [check, Option.bind_eq_bind, Option.bind_eq_some_iff, Prod.exists] at h h'
        obtain ⟨as, Γa, has, d, hd, h⟩ := h
        obtain ⟨as', Γa', has', d', hd', h'⟩ := h'
        obtain ⟨rfl, hsame⟩ := mean_list hn pre args args' (by omega) hb hb' hnorm has has'
        rw [hd] at hd'
        cases hd'
        split at h
        · cases h
        split at h'
        · cases h'
        cases d with
        | proc ins outs =>
          simp only [Option.bind_eq_some_iff, Option.pure_def, Option.some.injEq, Prod.mk.injEq] at h h'
          obtain ⟨bs, hbs, e2, hfin, rfl, rfl⟩ := h
          obtain ⟨bs', hbs', e2', hfin', rfl, rfl⟩ := h'
          have hfin := finish_some hfin
          have hfin' := finish_some hfin'
          subst hfin
          subst hfin'
          exact ⟨rfl, .call _ f (sameVal_checkCall hsame hbs hbs')⟩
        | func ins out =>
          simp only [Option.bind_eq_some_iff, Option.pure_def, Option.some.injEq, Prod.mk.injEq] at h h'
          obtain ⟨bs, hbs, e2, hfin, rfl, rfl⟩ := h
          obtain ⟨bs', hbs', e2', hfin', rfl, rfl⟩ := h'
          have hfin := finish_some hfin
          have hfin' := finish_some hfin'
          subst hfin
          subst hfin'
          exact ⟨rfl, .call _ f (sameVal_checkCall hsame hbs hbs')⟩
        | dist k =>
          simp only [Option.bind_eq_some_iff, Option.pure_def, Option.some.injEq, Prod.mk.injEq] at h h'
          obtain ⟨bs, hbs, e2, hfin, rfl, rfl⟩ := h
          obtain ⟨bs', hbs', e2', hfin', rfl, rfl⟩ := h'
          have hfin := finish_some hfin
          have hfin' := finish_some hfin'
          subst hfin
          subst hfin'
          exact ⟨rfl, .call _ f (sameVal_checkCall hsame hbs hbs')⟩
        | listOp k =>
          simp only [Option.bind_eq_some_iff, Option.pure_def, Option.some.injEq, Prod.mk.injEq, Prod.exists] at h h'
          obtain ⟨bs, u, hbs, e2, hfin, rfl, rfl⟩ := h
          obtain ⟨bs', u', hbs', e2', hfin', rfl, rfl⟩ := h'
          have hfin := finish_some hfin
          have hfin' := finish_some hfin'
          subst hfin
          subst hfin'
          obtain ⟨rfl, hs⟩ := sameVal_checkListOp hsame hbs hbs'
          exact ⟨rfl, .call _ f hs⟩
        | var _ _ => cases h
        | annot _ => cases h
        | other => cases h
      | bin t' o' a' b' =>
        obtain ⟨_, _, _, hb⟩ := norm_isBin t' o' a' b'
        rw [hb] at hnorm
        cases hnorm
      | _ => cases hnorm
    | ite t c a b =>
      cases e' with
      | ite t' c' a' b' =>
        obtain ⟨rfl, hbc, hba, hbb⟩ := hb
        obtain ⟨rfl, hbc', hba', hbb'⟩ := hb'
        simp only [norm, RExpr.ite.injEq, true_and] at hnorm
        simp only [fp_ite, List.length_append, List.length_cons] at hl
        simp only [check, Option.bind_eq_bind, Option.bind_eq_some_iff, Prod.exists, Option.pure_def, Option.some.injEq, Prod.mk.injEq] at h h'
        obtain ⟨c1, Γc, hc, a1, Γa, ha, b1, Γb, hb, c2, hc2, u, a2, b2, hu, e2, hfin, rfl, rfl⟩ := h
        obtain ⟨c1', Γc', hc', a1', Γa', ha', b1', Γb', hb', c2', hc2', u', a2', b2', hu', e2', hfin', rfl, rfl⟩ := h'
        obtain ⟨rfl, s1⟩ := hn c c' (by omega) hbc hbc' hnorm.1 _ _ _ _ _ _ _ hc hc'
        obtain ⟨rfl, s2⟩ := hn a a' (by omega) hba hba' hnorm.2.1 _ _ _ _ _ _ _ ha ha'
        obtain ⟨rfl, s3⟩ := hn b b' (by omega) hbb hbb' hnorm.2.2 _ _ _ _ _ _ _ hb hb'
        have hfin := finish_some hfin
        have hfin' := finish_some hfin'
        subst hfin
        subst hfin'
        obtain ⟨rfl, s4, s5⟩ := s2.tryUnify s3 hu hu'
        exact ⟨rfl, .ite u (s1.tryCast hc2 hc2') s4 s5⟩
      | bin t' o' a' b' =>
        obtain ⟨_, _, _, hb⟩ := norm_isBin t' o' a' b'
        rw [hb] at hnorm
        cases hnorm
      | _ => cases hnorm
    | un t o a =>
      cases e' with
      | un t' o' a' =>
        obtain ⟨rfl, hba⟩ := hb
        obtain ⟨rfl, hba'⟩ := hb'
        simp only [norm, RExpr.un.injEq, true_and] at hnorm
        obtain ⟨rfl, hnorm⟩ := hnorm
        simp only [fp_un, List.length_append, List.length_cons] at hl
        simp only [check, Option.bind_eq_bind, Option.bind_eq_some_iff, Prod.exists, Option.pure_def, Option.some.injEq, Prod.mk.injEq] at h h'
        obtain ⟨a1, Γa, ha, u, a2, hu, e2, hfin, rfl, rfl⟩ := h
        obtain ⟨a1', Γa', ha', u', a2', hu', e2', hfin', rfl, rfl⟩ := h'
        obtain ⟨rfl, s1⟩ := hn a a' (by omega) hba hba' hnorm _ _ _ _ _ _ _ ha ha'
        have hfin := finish_some hfin
        have hfin' := finish_some hfin'
        subst hfin
        subst hfin'
        obtain ⟨rfl, s2⟩ := s1.checkUn hu hu'
        exact ⟨rfl, .un u o s2⟩
      | bin t' o' a' b' =>
        obtain ⟨_, _, _, hb⟩ := norm_isBin t' o' a' b'
        rw [hb] at hnorm
        cases hnorm
      | _ => cases hnorm
    | quant t o vs trs a =>
      cases e' with
      | quant t' o' vs' trs' a' =>
        obtain ⟨rfl, -, hbt, hba⟩ := hb
        obtain ⟨rfl, -, hbt', hba'⟩ := hb'
        simp only [norm, RExpr.quant.injEq, true_and] at hnorm
        obtain ⟨rfl, rfl, hnt, hna⟩ := hnorm
        simp only [fp_quant, List.length_append, List.length_cons] at hl
        simp only [check, Option.bind_eq_bind, Option.bind_eq_some_iff, Prod.exists] at h h'
        obtain ⟨ts, Γt, ht, a1, Γa, ha, _, _, h⟩ := h
        obtain ⟨ts', Γt', ht', a1', Γa', ha', _, _, h'⟩ := h'
        split at h
        · cases h
        split at h'
        · cases h'
        simp only [Option.bind_eq_some_iff, Option.pure_def, Option.some.injEq, Prod.mk.injEq] at h h'
        obtain ⟨e2, hfin, rfl, rfl⟩ := h
        obtain ⟨e2', hfin', rfl, rfl⟩ := h'
        obtain rfl := mean_lists hn pre trs trs' (by omega) hbt hbt' hnt ht ht'
        obtain ⟨rfl, s1⟩ := hn a a' (by omega) hba hba' hna _ _ _ _ _ _ _ ha ha'
        have hfin := finish_some hfin
        have hfin' := finish_some hfin'
        subst hfin
        subst hfin'
        exact ⟨rfl, .quant _ o vs _ _ s1⟩
      | bin t' o' a' b' =>
        obtain ⟨_, _, _, hb⟩ := norm_isBin t' o' a' b'
        rw [hb] at hnorm
        cases hnorm
      | _ => cases hnorm
    | subst t x v a =>
      cases e' with
      | subst t' x' v' a' =>
        obtain ⟨rfl, hbv, hba⟩ := hb
        obtain ⟨rfl, hbv', hba'⟩ := hb'
        simp only [norm, RExpr.subst.injEq, true_and] at hnorm
        obtain ⟨rfl, hnv, hna⟩ := hnorm
        simp only [fp_subst, List.length_append, List.length_cons] at hl
        simp only [check, Option.bind_eq_bind, Option.bind_eq_some_iff, Prod.exists, Option.pure_def, Option.some.injEq, Prod.mk.injEq] at h h'
        obtain ⟨v1, Γv, hv, Γl, hlet, a1, Γa, ha, u, hu, e2, hfin, rfl, rfl⟩ := h
        obtain ⟨v1', Γv', hv', Γl', hlet', a1', Γa', ha', u', hu', e2', hfin', rfl, rfl⟩ := h'
        obtain ⟨rfl, s1⟩ := hn v v' (by omega) hbv hbv' hnv _ _ _ _ _ _ _ hv hv'
        rw [letTy_congr s1.1, hlet'] at hlet
        cases hlet
        obtain ⟨rfl, s2⟩ := hn a a' (by omega) hba hba' hna _ _ _ _ _ _ _ ha ha'
        rw [s2.1, hu'] at hu
        cases hu
        have hfin := finish_some hfin
        have hfin' := finish_some hfin'
        subst hfin
        subst hfin'
        exact ⟨rfl, .subst _ x s1 s2⟩
      | bin t' o' a' b' =>
        obtain ⟨_, _, _, hb⟩ := norm_isBin t' o' a' b'
        rw [hb] at hnorm
        cases hnorm
      | _ => cases hnorm
    | bin t o a b =>
      obtain ⟨_, _, _, hbin⟩ := norm_isBin t o a b
      obtain ⟨t', a', b', rfl⟩ := norm_bin_inv (hnorm.symm.trans hbin)
      cases ho : isAssoc o with
      | false =>
        obtain ⟨rfl, hba, hbb⟩ := hb
        obtain ⟨rfl, hba', hbb'⟩ := hb'
        simp only [norm, ho, Bool.false_eq_true, if_false, RExpr.bin.injEq, true_and] at hnorm
        rw [fp_bin _ ho] at hl
        simp only [List.length_append, List.length_cons] at hl
        simp only [check, Option.bind_eq_bind, Option.bind_eq_some_iff, Prod.exists, Option.pure_def, Option.some.injEq, Prod.mk.injEq] at h h'
        obtain ⟨a1, Γa, ha, b1, Γb, hb, u, a2, b2, hu, e2, hfin, rfl, rfl⟩ := h
        obtain ⟨a1', Γa', ha', b1', Γb', hb', u', a2', b2', hu', e2', hfin', rfl, rfl⟩ := h'
        obtain ⟨rfl, s1⟩ := hn a a' (by omega) hba hba' hnorm.1 _ _ _ _ _ _ _ ha ha'
        obtain ⟨rfl, s2⟩ := hn b b' (by omega) hbb hbb' hnorm.2 _ _ _ _ _ _ _ hb hb'
        have hfin := finish_some hfin
        have hfin' := finish_some hfin'
        subst hfin
        subst hfin'
        obtain ⟨rfl, s3, s4⟩ := s1.checkBin s2 hu hu'
        exact ⟨rfl, .bin u o s3 s4⟩
      | true =>
        -- the flag for impure calls matters for calls only
        have h0 : check pre false (.bin t o a b) Γ = some (e1, Γ₁) := by simpa only [check] using h
        have h0' : check pre false (.bin t' o a' b') Γ = some (e1', Γ₁') := by simpa only [check] using h'
        obtain ⟨u, hu, huc⟩ := check_chain_ty ho h0
        obtain ⟨u', hu', huc'⟩ := check_chain_ty ho h0'
        obtain ⟨l, hl1, hlv⟩ := check_chain ho pre _ hb h0 hu huc
        obtain ⟨l', hl1', hlv'⟩ := check_chain ho pre _ hb' h0' hu' huc'
        rw [fp_assoc t ho] at hl
        simp only [List.length_append, List.length_cons] at hl
        obtain ⟨rfl, hs⟩ := mean_list hn pre _ _ (by omega) (bareL_terms o hb) (bareL_terms o hb') (terms_norm ho hnorm) hl1 hl1'
        exact ⟨rfl, hlv.same hlv' hs⟩

/-- Reassociation does not change the type, the value and the effect on the declarations. -/
theorem Reassoc.meaning {e e' : RExpr} (hr : Reassoc e e') (hb : Bare e) (hb' : Bare e') {pre imp : Bool} {Γ Γ₁ Γ₁' : Ctx} {e1 e1' : RExpr}
    (h : check pre imp e Γ = some (e1, Γ₁)) (h' : check pre imp e' Γ = some (e1', Γ₁')) : Γ₁ = Γ₁' ∧ SameVal e1 e1' :=
  mean_all _ e e' le_rfl hb hb' hr.norm _ _ _ _ _ _ _ h h'

end Parse
end Caesar
