import Verif.Opt.Preserve
import Verif.Props.C45
import Verif.Props.C09

/-!
# Expressions which stay in the safe fragment of constant folding (proof infrastructure)

`Expr.FoldSafe` (see `C45`) is not closed under substitution: `x - 1` is safe, `0 - 1` is not. This file has a smaller class which is closed under
substitution, unfolding and folding.
-/

namespace Caesar

/-- The literal is a number other than zero. -/
def LitKind.NonZero : LitKind → Prop
  | .uint n => n ≠ 0
  | .frac q => q ≠ 0
  | .infinity => True
  | .bool _ => False

/-- The expression is a literal (under casts) for a number other than zero. -/
def Expr.NonZeroLit {t : Ty} (e : Expr t) : Prop := ∃ k, e.derefLit = some k ∧ k.NonZero

/-- The operator may be used with this left operand. -/
def BinOp.Fit : {t : Ty} → BinOp t → Expr t → Prop
  | _, .sub _, a => a.NonZeroLit
  | _, .div _, a => a.NonZeroLit
  | t, .inf _, _ => t ≠ .int ∧ t ≠ .real
  | t, .sup _, _ => t ≠ .int ∧ t ≠ .real
  | _, _, _ => True

/-- All identifiers are in `D`; subtractions and divisions are only from a literal other than zero; no minimum or maximum of possibly negative numbers. -/
def Expr.Tame (D : List Ident) : {t : Ty} → Expr t → Prop
  | _, .var x => x ∈ D
  | _, .lit _ => True
  | _, .call _ args => ∀ i, (args i).Tame D
  | _, .ite c a b => c.Tame D ∧ a.Tame D ∧ b.Tame D
  | _, .bin op a b => op.Fit a ∧ a.Tame D ∧ b.Tame D
  | _, .rel _ a b => a.Tame D ∧ b.Tame D
  | _, .un _ a => a.Tame D
  | _, .embed a => a.Tame D
  | _, .iverson a => a.Tame D
  | _, .cast _ a => a.Tame D
  | _, .quant _ _ vs a => (∀ q ∈ vs, q.var.id ∈ D) ∧ a.Tame D
  | _, .subst x e a => x.id ∈ D ∧ e.Tame D ∧ a.Tame D

theorem Expr.Tame.mono {D D' : List Ident} (hD : D ⊆ D') {t : Ty} {e : Expr t} (h : e.Tame D) : e.Tame D' := by
  induction e with
  | var x => exact hD h
  | lit l => trivial
  | call f args ih => exact fun i => ih i (h i)
  | ite c a b ih1 ih2 ih3 => exact ⟨ih1 h.1, ih2 h.2.1, ih3 h.2.2⟩
  | bin op a b ih1 ih2 => exact ⟨h.1, ih1 h.2.1, ih2 h.2.2⟩
  | rel op a b ih1 ih2 => exact ⟨ih1 h.1, ih2 h.2⟩
  | un op a ih => exact ih h
  | embed a ih => exact ih h
  | iverson a ih => exact ih h
  | cast c a ih => exact ih h
  | quant op h' vs a ih => exact ⟨fun q hq => hD (h.1 q hq), ih h.2⟩
  | subst x e a ih1 ih2 => exact ⟨hD h.1, ih1 h.2.1, ih2 h.2.2⟩

theorem Expr.Tame.occurs {D : List Ident} {t : Ty} {e : Expr t} (h : e.Tame D) (v : Var) (hv : e.Occurs v) : v.id ∈ D := by
  induction e with
  | var x => exact hv ▸ h
  | lit l => exact hv.elim
  | call f args ih => obtain ⟨i, hi⟩ := hv; exact ih i (h i) hi
  | ite c a b ih1 ih2 ih3 =>
    rcases hv with hv | hv | hv
    · exact ih1 h.1 hv
    · exact ih2 h.2.1 hv
    · exact ih3 h.2.2 hv
  | bin op a b ih1 ih2 => exact hv.elim (ih1 h.2.1) (ih2 h.2.2)
  | rel op a b ih1 ih2 => exact hv.elim (ih1 h.1) (ih2 h.2)
  | un op a ih => exact ih h hv
  | embed a ih => exact ih h hv
  | iverson a ih => exact ih h hv
  | cast c a ih => exact ih h hv
  | quant op h' vs a ih =>
    rcases hv with hv | hv
    · exact ih h.2 hv
    · obtain ⟨q, hq, rfl⟩ := List.mem_map.1 hv; exact h.1 q hq
  | subst x e a ih1 ih2 =>
    rcases hv with hv | hv | hv
    · exact ih1 h.2.1 hv
    · exact ih2 h.2.2 hv
    · exact hv ▸ h.1

section
variable [Doms] [Interp]

omit [Interp] in
theorem IsNum.congr_number {t : Ty} {v : t.den} {c d : Smt.Concrete} (h : IsNum t v c) (h' : IsNum t v d) : c = d := by
  cases c with
  | real p =>
    cases d with
    | real q =>
      have hpq : (p : ℝ) = (q : ℝ) → Smt.Concrete.real p = .real q := fun h => by rw [Rat.cast_injective h]
      cases t with
      | uint => exact hpq (h.symm.trans h')
      | int => exact hpq (h.symm.trans h')
      | ureal => exact hpq (h.symm.trans h')
      | real => exact hpq (h.symm.trans h')
      | eureal =>
        exact hpq ((ENNReal.ofReal_eq_ofReal_iff (by exact_mod_cast h.1) (by exact_mod_cast h'.1)).1 (h.2.symm.trans h'.2))
      | _ => exact h.elim
    | infinity =>
      cases t with
      | eureal => exact (ENNReal.ofReal_ne_top (h.2.symm.trans h')).elim
      | _ => exact h'.elim
  | infinity =>
    cases t with
    | eureal =>
      cases d with
      | real q => exact (ENNReal.ofReal_ne_top (h'.2.symm.trans h)).elim
      | infinity => rfl
    | _ => exact h.elim

theorem Expr.NonZeroLit.not_constZero {t : Ty} (ht : t.isNum = true) {e : Expr t} (h : e.NonZeroLit) : ¬ e.ConstZero := by
  obtain ⟨k, hk, hn⟩ := h
  intro h0
  have hz := isNum_default ht
  rw [← h0 (fun v => v.ty.default)] at hz
  cases k with
  | bool b => exact hn
  | uint n => exact hn (by simpa using (derefLit_number e hk rfl (fun v => v.ty.default)).congr_number hz)
  | frac q => exact hn (by simpa using (derefLit_number e hk rfl (fun v => v.ty.default)).congr_number hz)
  | infinity => exact nomatch (derefLit_number e hk rfl (fun v => v.ty.default)).congr_number hz

theorem Expr.Tame.foldSafe {D : List Ident} {t : Ty} {e : Expr t} (h : e.Tame D) : e.FoldSafe := by
  induction e with
  | var x => trivial
  | lit l => trivial
  | call f args ih => exact fun i => ih i (h i)
  | ite c a b ih1 ih2 ih3 => exact ⟨ih1 h.1, ih2 h.2.1, ih3 h.2.2⟩
  | bin op a b ih1 ih2 =>
    have h1 := ih1 h.2.1
    have h2 := ih2 h.2.2
    have h3 := h.1
    cases op with
    | sub hn => exact ⟨h1, h2, fun h0 => ((h3 : a.NonZeroLit).not_constZero hn h0).elim⟩
    | div hn => exact ⟨h1, h2, fun h0 => ((h3 : a.NonZeroLit).not_constZero (isNum_of_isFrac hn) h0).elim⟩
    | inf hn => exact ⟨h1, h2, fun h0 => (h0.elim h3.1 h3.2).elim⟩
    | sup hn => exact ⟨h1, h2, fun h0 => (h0.elim h3.1 h3.2).elim⟩
    | _ => exact ⟨h1, h2⟩
  | rel op a b ih1 ih2 => exact ⟨ih1 h.1, ih2 h.2⟩
  | un op a ih => exact ih h
  | embed a ih => exact ih h
  | iverson a ih => exact ih h
  | cast c a ih => exact ih h
  | quant op h' vs a ih => exact ih h.2
  | subst x e a ih1 ih2 => exact ⟨ih1 h.2.1, ih2 h.2.2⟩

end

/-! ## Substitution and unfolding -/

/-- Literals are kept. -/
def KeepsLit {t : Ty} (e e' : Expr t) : Prop := ∀ k, e.derefLit = some k → e'.derefLit = some k

theorem BinOp.Fit.keep {t : Ty} {op : BinOp t} {a a' : Expr t} (h : op.Fit a) (hk : KeepsLit a a') : op.Fit a' := by
  cases op with
  | sub hn => obtain ⟨k, h1, h2⟩ := h; exact ⟨k, hk k h1, h2⟩
  | div hn => obtain ⟨k, h1, h2⟩ := h; exact ⟨k, hk k h1, h2⟩
  | inf hn => exact h
  | sup hn => exact h
  | _ => trivial

section
variable {D : List Ident}

def SubstFrame.Tame (D : List Ident) (fr : SubstFrame) : Prop := ∀ v e, fr.substs v = some e → e.Tame D

theorem SubstFrame.Tame.empty : SubstFrame.Tame D .empty := fun _ _ h => nomatch h

theorem SubstFrame.Tame.insert {fr : SubstFrame} (h : fr.Tame D) (x : Var) {e : Expr x.ty} (he : e.Tame D) : (fr.insert x e).Tame D := by
  intro v e' hv
  by_cases hx : v = x
  · subst hx
    have h1 : some e = some e' := by simpa [SubstFrame.insert] using hv
    cases h1
    exact he
  · exact h v e' (by simpa [SubstFrame.insert, hx] using hv)

theorem SubstFrame.Tame.remove {fr : SubstFrame} (h : fr.Tame D) (x : Var) : (fr.remove x).Tame D := by
  intro v e' hv
  by_cases hx : v = x
  · simp [SubstFrame.remove, hx] at hv
  · exact h v e' (by simpa [SubstFrame.remove, hx] using hv)

theorem pushQuant_tame (span : Nat) (qs : List QVar) : ∀ fr : SubstFrame,
    Par D (pushQuant span qs fr) fun r => fr.Tame D → (∀ q ∈ qs, q.var.id ∈ D) → (∀ q ∈ r.1, q.var.id ∈ D) ∧ r.2.Tame D := by
  induction qs with
  | nil => exact fun fr => Par.pure fun h _ => ⟨fun _ h => (nomatch h), h⟩
  | cons q qs ih =>
    intro fr
    unfold pushQuant
    dsimp only
    split
    · refine Par.bind (Par.cloneVar _ _) fun new => Par.bind (ih _) fun r => Par.pure fun hr hn h hq => ?_
      have h1 := hr ((h.remove q.var).insert q.var hn) fun q' h => hq q' (List.mem_cons_of_mem _ h)
      exact ⟨List.forall_mem_cons.2 ⟨hn, h1.1⟩, h1.2⟩
    · refine Par.bind (ih _) fun r => Par.pure fun hr h hq => ?_
      have h1 := hr (h.remove q.var) fun q' h => hq q' (List.mem_cons_of_mem _ h)
      exact ⟨List.forall_mem_cons.2 ⟨hq q List.mem_cons_self, h1.1⟩, h1.2⟩

theorem pushSubst_tame (fr : SubstFrame) (x : Var) (e : Expr x.ty) :
    Par D (fun c => (pushSubst fr x e).map (·, c) : PM TyCtx SubstFrame) fun fr' => fr.Tame D → e.Tame D → fr'.Tame D := by
  intro c fr' c' hs
  unfold pushSubst at hs
  cases hv : e.collect [] with
  | none => rw [hv] at hs; nomatch hs
  | some vars =>
    rw [hv] at hs
    cases hs
    exact ⟨fun _ h => h, fun _ h he => h.insert x he⟩

theorem applySubst_tame (span : Nat) {t : Ty} (e : Expr t) : ∀ fr : SubstFrame,
    Par D (e.applySubst span fr) fun e' => (fr.Tame D → e.Tame D → e'.Tame D) ∧ KeepsLit e e' := by
  induction e with
  | @var t x =>
    intro fr
    unfold Expr.applySubst
    cases hs : fr.substs ⟨x, t⟩ with
    | some e => exact Par.pure ⟨fun hf _ => hf _ _ hs, nofun⟩
    | none => exact Par.pure ⟨fun _ h => h, nofun⟩
  | lit l => exact fun fr => Par.pure ⟨fun _ h => h, fun _ h => h⟩
  | call f args ih =>
    intro fr
    unfold Expr.applySubst
    exact Par.bind (Par.traverse _ (fun i e' => (fr.Tame D → (args i).Tame D → e'.Tame D) ∧ KeepsLit (args i) e') fun i => ih i fr) fun args' =>
      Par.pure fun h => ⟨fun hf he i => (h i).1 hf (he i), nofun⟩
  | ite c a b ih1 ih2 ih3 =>
    intro fr
    unfold Expr.applySubst
    exact Par.bind (ih1 fr) fun c' => Par.bind (ih2 fr) fun a' => Par.bind (ih3 fr) fun b' =>
      Par.pure fun h3 h2 h1 => ⟨fun hf he => ⟨h1.1 hf he.1, h2.1 hf he.2.1, h3.1 hf he.2.2⟩, nofun⟩
  | bin op a b ih1 ih2 =>
    intro fr
    unfold Expr.applySubst
    exact Par.bind (ih1 fr) fun a' => Par.bind (ih2 fr) fun b' =>
      Par.pure fun h2 h1 => ⟨fun hf he => ⟨he.1.keep h1.2, h1.1 hf he.2.1, h2.1 hf he.2.2⟩, nofun⟩
  | rel op a b ih1 ih2 =>
    intro fr
    unfold Expr.applySubst
    exact Par.bind (ih1 fr) fun a' => Par.bind (ih2 fr) fun b' => Par.pure fun h2 h1 => ⟨fun hf he => ⟨h1.1 hf he.1, h2.1 hf he.2⟩, nofun⟩
  | un op a ih =>
    intro fr
    unfold Expr.applySubst
    exact Par.bind (ih fr) fun a' => Par.pure fun h => ⟨h.1, nofun⟩
  | embed a ih =>
    intro fr
    unfold Expr.applySubst
    exact Par.bind (ih fr) fun a' => Par.pure fun h => ⟨h.1, nofun⟩
  | iverson a ih =>
    intro fr
    unfold Expr.applySubst
    exact Par.bind (ih fr) fun a' => Par.pure fun h => ⟨h.1, nofun⟩
  | cast c a ih =>
    intro fr
    unfold Expr.applySubst
    exact Par.bind (ih fr) fun a' => Par.pure fun h => h
  | quant op h vs a ih =>
    intro fr
    unfold Expr.applySubst
    exact Par.bind (pushQuant_tame span vs fr) fun r => Par.bind (ih r.2) fun a' =>
      Par.pure fun h hr => ⟨fun hf he => ⟨(hr hf he.1).1, h.1 (hr hf he.1).2 he.2⟩, nofun⟩
  | subst x e a ih1 ih2 =>
    intro fr
    unfold Expr.applySubst
    exact Par.bind (ih1 fr) fun e' => Par.bind (pushSubst_tame fr x e') fun fr' => (ih2 fr').imp
      fun _ h h2 h1 => ⟨fun hf he => h.1 (h2 hf (h1.1 hf he.2.1)) he.2.2, nofun⟩

theorem pruning_tame {t : Ty} (op : BinOp t) (l : Expr t) (h : op.pruning = .nonbot l ∨ op.pruning = .nontop l) : l.Tame D := by
  cases op with
  | mul hm =>
    cases t <;> rcases h with h | h <;> first | (exact absurd hm Bool.false_ne_true) | (cases h; done) | (cases h; exact trivial)
  | impl h' => rcases h with h | h <;> cases h; cases t <;> first | exact absurd h' Bool.false_ne_true | exact trivial
  | compare h' => rcases h with h | h <;> cases h; cases t <;> first | exact absurd h' Bool.false_ne_true | exact trivial
  | coimpl h' => rcases h with h | h <;> cases h; cases t <;> first | exact absurd h' Bool.false_ne_true | exact trivial
  | cocompare h' => rcases h with h | h <;> cases h; cases t <;> first | exact absurd h' Bool.false_ne_true | exact trivial
  | _ => rcases h with h | h <;> nomatch h

theorem unfold_tame (o : Oracle) (span : Nat) {t : Ty} (e : Expr t) : ∀ (p : Path) (fr : SubstFrame),
    Par D (e.unfold o span p fr) fun e' => (fr.Tame D → e.Tame D → e'.Tame D) ∧ KeepsLit e e' := by
  let K : Lang := ⟨True, fun _ => True, D, fun _ => True⟩
  induction e with
  | @var t x =>
    intro p fr
    unfold Expr.unfold
    cases hs : fr.substs ⟨x, t⟩ with
    | some e => exact Par.pure ⟨fun hf _ => hf _ _ hs, nofun⟩
    | none => exact Par.pure ⟨fun _ h => h, nofun⟩
  | lit l => exact fun p fr => Par.pure ⟨fun _ h => h, fun _ h => h⟩
  | call f args ih =>
    intro p fr
    unfold Expr.unfold
    exact Par.bind (Par.traverse _ (fun i e' => (fr.Tame D → (args i).Tame D → e'.Tame D) ∧ KeepsLit (args i) e') fun i => ih i p fr) fun args' =>
      Par.pure fun h => ⟨fun hf he i => (h i).1 hf (he i), nofun⟩
  | ite c a b ih1 ih2 ih3 =>
    intro p fr
    unfold Expr.unfold
    refine Par.bind (ih1 p fr) fun c' => Par.bind (withSat_par (K := K) fun p => ih2 p fr) fun ra => ?_
    cases ra with
    | none => exact (ih3 p fr).imp fun _ h _ _ => ⟨fun hf he => h.1 hf he.2.2, nofun⟩
    | some a' =>
      refine Par.bind (withSat_par (K := K) fun p => ih3 p fr) fun rb => ?_
      cases rb with
      | none => exact Par.pure fun _ h2 _ => ⟨fun hf he => (h2 _ rfl).1 hf he.2.1, nofun⟩
      | some b' => exact Par.pure fun h3 h2 h1 => ⟨fun hf he => ⟨h1.1 hf he.1, (h2 _ rfl).1 hf he.2.1, (h3 _ rfl).1 hf he.2.2⟩, nofun⟩
  | bin op a b ih1 ih2 =>
    intro p fr
    unfold Expr.unfold
    refine Par.bind (ih1 p fr) fun a' => ?_
    cases hop : op.pruning with
    | none =>
      exact Par.bind (ih2 p fr) fun b' =>
        Par.pure fun h2 h1 => ⟨fun hf he => ⟨he.1.keep h1.2, h1.1 hf he.2.1, h2.1 hf he.2.2⟩, nofun⟩
    | nonbot l =>
      refine Par.bind (withNonbot_par (K := K) (fun p => ih2 p fr) a') fun rb => ?_
      cases rb with
      | none => exact Par.pure fun _ _ => ⟨fun _ _ => pruning_tame op l (.inl hop), nofun⟩
      | some b' => exact Par.pure fun h2 h1 => ⟨fun hf he => ⟨he.1.keep h1.2, h1.1 hf he.2.1, (h2 _ rfl).1 hf he.2.2⟩, nofun⟩
    | nontop l =>
      refine Par.bind (withNontop_par (K := K) (fun p => ih2 p fr) a') fun rb => ?_
      cases rb with
      | none => exact Par.pure fun _ _ => ⟨fun _ _ => pruning_tame op l (.inr hop), nofun⟩
      | some b' => exact Par.pure fun h2 h1 => ⟨fun hf he => ⟨he.1.keep h1.2, h1.1 hf he.2.1, (h2 _ rfl).1 hf he.2.2⟩, nofun⟩
  | rel op a b ih1 ih2 =>
    intro p fr
    unfold Expr.unfold
    exact Par.bind (ih1 p fr) fun a' => Par.bind (ih2 p fr) fun b' => Par.pure fun h2 h1 => ⟨fun hf he => ⟨h1.1 hf he.1, h2.1 hf he.2⟩, nofun⟩
  | un op a ih =>
    intro p fr
    unfold Expr.unfold
    exact Par.bind (ih p fr) fun a' => Par.pure fun h => ⟨h.1, nofun⟩
  | embed a ih =>
    intro p fr
    unfold Expr.unfold
    exact Par.bind (ih p fr) fun a' => Par.pure fun h => ⟨h.1, nofun⟩
  | iverson a ih =>
    intro p fr
    unfold Expr.unfold
    exact Par.bind (ih p fr) fun a' => Par.pure fun h => ⟨h.1, nofun⟩
  | cast c a ih =>
    intro p fr
    unfold Expr.unfold
    exact Par.bind (ih p fr) fun a' => Par.pure fun h => h
  | quant op h vs a ih =>
    intro p fr
    unfold Expr.unfold
    exact Par.bind (pushQuant_tame span vs fr).lift fun r => Par.bind (ih _ r.2) fun a' =>
      Par.pure fun h hr => ⟨fun hf he => ⟨(hr hf he.1).1, h.1 (hr hf he.1).2 he.2⟩, nofun⟩
  | subst x e a ih1 ih2 =>
    intro p fr
    unfold Expr.unfold
    exact Par.bind (ih1 p fr) fun e' => Par.bind (pushSubst_tame fr x e').lift fun fr' => (ih2 p fr').imp
      fun _ h h2 h1 => ⟨fun hf he => h.1 (h2 hf (h1.1 hf he.2.1)) he.2.2, nofun⟩

/-! ## Folding -/

theorem botLit?_tame {t : Ty} {e : Expr t} (h : botLit? t = some e) : e.Tame D := by
  cases t <;> cases h <;> trivial

theorem topLit?_tame {t : Ty} {e : Expr t} (h : topLit? t = some e) : e.Tame D := by
  cases t <;> cases h <;> trivial

theorem zeroLit?_tame {t : Ty} {e : Expr t} (h : zeroLit? t = some e) : e.Tame D := by
  cases t <;> cases h <;> trivial

theorem resultLit_tame {t : Ty} {c : Smt.Concrete} {e : Expr t} (h : resultLit t c = some (some e)) : e.Tame D := by
  cases t <;> cases c <;> cases h <;> trivial

theorem foldIdentities_tame {t : Ty} {e e' : Expr t} (h : e.foldIdentities = some e') (he : e.Tame D) : e'.Tame D := by
  cases e with
  | bin op a b =>
    have ha := he.2.1
    have hb := he.2.2
    cases op <;> simp only [Expr.foldIdentities] at h <;> repeat' split at h
    all_goals first
      | exact zeroLit?_tame h
      | exact botLit?_tame h
      | exact topLit?_tame h
      | (cases h; first | exact he | exact ha | exact hb)
  | un op a =>
    cases op <;> simp only [Expr.foldIdentities] at h <;> repeat' split at h
    all_goals first
      | exact botLit?_tame h
      | exact topLit?_tame h
      | (cases h; exact he)
  | embed a =>
    simp only [Expr.foldIdentities] at h
    repeat' split at h
    all_goals first | exact zeroLit?_tame h | exact topLit?_tame h | (cases h; exact he)
  | iverson a =>
    simp only [Expr.foldIdentities] at h
    repeat' split at h
    all_goals first | exact zeroLit?_tame h | (cases h; first | exact he | trivial)
  | _ => cases h; exact he

theorem foldConsts_tame {t : Ty} {e e' : Expr t} (h : e.foldConsts = some e') (he : e.Tame D) : e'.Tame D := by
  cases e with
  | bin op a b =>
    simp only [Expr.foldConsts, Option.map_eq_some_iff] at h
    obtain ⟨r, hr, rfl⟩ := h
    cases r with
    | none => exact he
    | some e'' =>
      unfold constBinop at hr
      repeat' split at hr
      all_goals first | exact resultLit_tame hr | cases hr
  | ite c a b =>
    simp only [Expr.foldConsts] at h
    repeat' split at h
    all_goals (cases h; first | exact he | exact he.2.1)
  | _ => cases h; exact he

theorem foldNode_tame {t : Ty} {e e' : Expr t} (h : e.foldNode = some e') (he : e.Tame D) : e'.Tame D := by
  obtain ⟨e1, h1, h2⟩ := Option.bind_eq_some_iff.1 h
  exact foldConsts_tame h2 (foldIdentities_tame h1 he)

theorem constFold_tame {t : Ty} {e : Expr t} : ∀ {e' : Expr t}, e.constFold = some e' → (e.Tame D → e'.Tame D) ∧ KeepsLit e e' := by
  induction e with
  | var x => intro e' h; cases h; exact ⟨fun h => h, fun _ h => h⟩
  | lit l => intro e' h; cases h; exact ⟨fun h => h, fun _ h => h⟩
  | call f args ih =>
    intro e' h
    obtain ⟨g, hg, h⟩ := Option.bind_eq_some_iff.1 h
    exact ⟨fun he => foldNode_tame h fun i => (ih i (optTraverse_some hg i)).1 (he i), nofun⟩
  | ite c a b ih1 ih2 ih3 =>
    intro e' h
    obtain ⟨c', hc, h⟩ := Option.bind_eq_some_iff.1 h
    obtain ⟨a', ha, h⟩ := Option.bind_eq_some_iff.1 h
    obtain ⟨b', hb, h⟩ := Option.bind_eq_some_iff.1 h
    exact ⟨fun he => foldNode_tame h ⟨(ih1 hc).1 he.1, (ih2 ha).1 he.2.1, (ih3 hb).1 he.2.2⟩, nofun⟩
  | bin op a b ih1 ih2 =>
    intro e' h
    obtain ⟨a', ha, h⟩ := Option.bind_eq_some_iff.1 h
    obtain ⟨b', hb, h⟩ := Option.bind_eq_some_iff.1 h
    exact ⟨fun he => foldNode_tame h ⟨he.1.keep (ih1 ha).2, (ih1 ha).1 he.2.1, (ih2 hb).1 he.2.2⟩, nofun⟩
  | rel op a b ih1 ih2 =>
    intro e' h
    obtain ⟨a', ha, h⟩ := Option.bind_eq_some_iff.1 h
    obtain ⟨b', hb, h⟩ := Option.bind_eq_some_iff.1 h
    exact ⟨fun he => foldNode_tame h ⟨(ih1 ha).1 he.1, (ih2 hb).1 he.2⟩, nofun⟩
  | un op a ih =>
    intro e' h
    obtain ⟨a', ha, h⟩ := Option.bind_eq_some_iff.1 h
    exact ⟨fun he => foldNode_tame h ((ih ha).1 he), nofun⟩
  | embed a ih =>
    intro e' h
    obtain ⟨a', ha, h⟩ := Option.bind_eq_some_iff.1 h
    exact ⟨fun he => foldNode_tame h ((ih ha).1 he), nofun⟩
  | iverson a ih =>
    intro e' h
    obtain ⟨a', ha, h⟩ := Option.bind_eq_some_iff.1 h
    exact ⟨fun he => foldNode_tame h ((ih ha).1 he), nofun⟩
  | cast c a ih =>
    intro e' h
    obtain ⟨a', ha, h⟩ := Option.bind_eq_some_iff.1 h
    cases h
    exact ih ha
  | quant op h' vs a ih =>
    intro e' h
    obtain ⟨a', ha, h⟩ := Option.bind_eq_some_iff.1 h
    exact ⟨fun he => foldNode_tame h ⟨he.1, (ih ha).1 he.2⟩, nofun⟩
  | subst x e a ih1 ih2 =>
    intro e' h
    obtain ⟨c', hc, h⟩ := Option.bind_eq_some_iff.1 h
    obtain ⟨a', ha, h⟩ := Option.bind_eq_some_iff.1 h
    exact ⟨fun he => foldNode_tame h ⟨he.1, (ih1 hc).1 he.2.1, (ih2 ha).1 he.2.2⟩, nofun⟩

end

end Caesar
