import Verif.Smt.TranslateQuant

/-!
# The SMT translation computes representations: all expressions
-/

open scoped ENNReal NNReal

namespace Caesar.Smt
set_option linter.unusedSectionVars false

variable [Doms] [Interp] [SmtInterp]

/-- Specification: no subtraction of extended reals has an infinite subtrahend, in any state. -/
def FinSub : {t : Ty} → Expr t → Prop
  | _, .var _ => True
  | _, .lit _ => True
  | _, .call _ args => ∀ i, FinSub (args i)
  | _, .ite c a b => FinSub c ∧ FinSub a ∧ FinSub b
  | _, .bin op a b => FinSub a ∧ FinSub b ∧ ∀ σ, SubOk op (b.eval σ)
  | _, .rel _ a b => FinSub a ∧ FinSub b
  | _, .un _ a => FinSub a
  | _, .embed a => FinSub a
  | _, .iverson a => FinSub a
  | _, .cast _ a => FinSub a
  | _, .quant _ _ _ a => FinSub a
  | _, .subst _ e a => FinSub e ∧ FinSub a

theorem Post.of_step {t : Ty} {e : Expr t} {st st' : TState} {r : Term t} {F : Var → Prop} (hF : ∀ v, F v → e.Free v) (hI : Inv st') (hs : Step F st st')
    (hc : Cons st st') (hg : Good st' e r) : Post e st r st' := ⟨hI, hs.mono hF, hg, hc⟩

/-! ## The cache -/

theorem lookup_good {O : Oracle} {t : Ty} {e : Expr t} {st : TState} {r : Term t} (hI : Inv st) (h : TState.lookup O e st = some r) : Good st e r := by
  unfold TState.lookup at h
  cases hu : O.use st e with
  | none => rw [hu] at h; cases h
  | some i =>
    rw [hu] at h
    dsimp only at h
    cases hc : (st.cache.headD [])[i]? with
    | none => rw [hc] at h; cases h
    | some c =>
      obtain ⟨t', e', r'⟩ := c
      rw [hc] at h
      dsimp only at h
      by_cases ht : t' = t
      · subst ht
        rw [dif_pos rfl] at h
        by_cases he : e' = e
        · subst he
          rw [if_pos rfl] at h
          cases h
          exact hI.cache _ (List.mem_of_getElem? hc)
        · rw [if_neg he] at h; cases h
      · rw [dif_neg ht] at h; cases h

theorem remember_post {t : Ty} {e : Expr t} {st st' : TState} {r : Term t} (hP : Post e st r st') : Post e st r (TState.remember e r st') := by
  unfold TState.remember
  split
  · exact hP
  next c cs hc =>
    have hg : ∀ {t : Ty} {e' : Expr t} {r' : Term t}, Good st' e' r' → Good { st' with cache := (⟨_, e, r⟩ :: c) :: cs } e' r' := fun h => h
    refine ⟨⟨hP.inv.below, hP.inv.inj, hP.inv.noList, hP.inv.qbelow, hP.inv.gbelow, hP.inv.absorb, ?_⟩, ?_, hP.good, hP.cons⟩
    · intro x hx
      rcases List.mem_cons.1 hx with rfl | hx
      · exact hP.good
      · exact hP.inv.cache x (by rw [hc]; exact hx)
    · refine ⟨hP.step.next, hP.step.ext, hP.step.dom, hP.step.quants, hP.step.global, hP.step.scopes, ?_⟩
      have := hP.step.cache
      rw [hc] at this
      exact this

theorem cached_post {O : Oracle} {t : Ty} {e : Expr t} {act : TState → Option (Term t × TState)}
    (hact : ∀ st r st', Inv st → act st = some (r, st') → Post e st r st') {st st' : TState} {r : Term t} (hI : Inv st)
    (h : TState.cached O e act st = some (r, st')) : Post e st r st' := by
  unfold TState.cached at h
  split at h
  · exact hact _ _ _ hI h
  · split at h
    next r' hr =>
      cases h
      exact ⟨hI, Step.refl _ _, lookup_good hI hr, Cons.refl _⟩
    next =>
      simp only [Option.bind_eq_bind, Option.bind_eq_some_iff, Prod.exists] at h
      obtain ⟨r', st1, h1, h⟩ := h
      have hP := hact _ _ _ hI h1
      cases h
      split
      · exact remember_post hP
      · exact hP

/-! ## Operands -/

/-- Translating two operands. -/
theorem Post.seq {t s : Ty} {a : Expr t} {b : Expr s} {st st1 st2 : TState} {r : Term t} {q : Term s} {F : Var → Prop} (ha : Post a st r st1) (hb : Post b st1 q st2)
    (hFa : ∀ v, a.Free v → F v) (hFb : ∀ v, b.Free v → F v) : Step F st st2 ∧ Cons st st2 ∧ Good st2 a r :=
  ⟨ha.step.trans hb.step hFa hFb, ha.cons.trans ha.step.next hb.cons, ha.good.mono hb.step⟩

theorem mapFin_post {n : Nat} {ty : Fin n → Ty} {es : (i : Fin n) → Expr (ty i)} {f : (i : Fin n) → TState → Option (Term (ty i) × TState)}
    (hf : ∀ i st r st', Inv st → f i st = some (r, st') → Post (es i) st r st') {st st' : TState} {rs : (i : Fin n) → Term (ty i)} (hI : Inv st)
    (h : mapFin (α := fun i => Term (ty i)) f st = some (rs, st')) :
    Inv st' ∧ Step (fun v => ∃ i, (es i).Free v) st st' ∧ Cons st st' ∧ ∀ i, Good st' (es i) (rs i) := by
  induction n generalizing st with
  | zero =>
    cases h
    exact ⟨hI, Step.refl _ _, Cons.refl _, fun i => i.elim0⟩
  | succ n ih =>
    unfold mapFin at h
    simp only [Option.bind_eq_bind, Option.bind_eq_some_iff, Prod.exists] at h
    obtain ⟨r0, st1, h0, rs', st2, hr, h⟩ := h
    have h := Option.some.inj h
    obtain ⟨rfl, rfl⟩ : _ = rs ∧ st2 = st' := ⟨congrArg Prod.fst h, congrArg Prod.snd h⟩
    have hP := hf 0 _ _ _ hI h0
    obtain ⟨hI2, hs2, hc2, hg2⟩ := ih (es := fun i => es i.succ) (fun i => hf i.succ) hP.inv hr
    refine ⟨hI2, hP.step.trans hs2 (fun v hv => ⟨0, hv⟩) (fun v ⟨i, hi⟩ => ⟨i.succ, hi⟩), hP.cons.trans hP.step.next hc2, fun i => ?_⟩
    refine Fin.cases ?_ (fun i => ?_) i
    · exact hP.good.mono hs2
    · exact hg2 i

/-- A node with one operand. -/
theorem Post.un {t s : Ty} {a : Expr s} {e : Expr t} {st st1 : TState} {r : Term s} {q : Term t} (ha : Post a st r st1) (hF : ∀ v, e.Free v ↔ a.Free v)
    (g : SVal s → SVal t) (hq : q = fun M => g (r M)) (hr : ∀ x σ, Rep s x (a.eval σ) → Rep t (g x) (e.eval σ)) : Post e st q st1 := by
  subst hq
  exact ⟨ha.inv, ha.step.mono fun v hv => (hF v).2 hv,
    ⟨fun v hv => ha.good.1 v ((hF v).1 hv), fun M M' h => congrArg g (ha.good.2.1 M M' h), fun M σ hS hR hq => hr _ _ (ha.good.2.2 M σ hS hR hq)⟩, ha.cons⟩

/-- A node with two operands. -/
theorem Post.bin {t s u : Ty} {a : Expr s} {b : Expr u} {e : Expr t} {st st1 st2 : TState} {r1 : Term s} {r2 : Term u} {q : Term t} (ha : Post a st r1 st1)
    (hb : Post b st1 r2 st2) (hF : ∀ v, e.Free v ↔ a.Free v ∨ b.Free v) (g : SVal s → SVal u → SVal t) (hq : q = fun M => g (r1 M) (r2 M))
    (hr : ∀ x y σ, Rep s x (a.eval σ) → Rep u y (b.eval σ) → Rep t (g x y) (e.eval σ)) : Post e st q st2 := by
  subst hq
  obtain ⟨hs, hc, hg⟩ := ha.seq (F := fun v => e.Free v) hb (fun v hv => (hF v).2 (.inl hv)) (fun v hv => (hF v).2 (.inr hv))
  refine ⟨hb.inv, hs, ⟨fun v hv => ((hF v).1 hv).elim (hg.1 v) (hb.good.1 v), fun M M' h => ?_, fun M σ hS hR hq => ?_⟩, hc⟩
  · show g _ _ = g _ _
    rw [hg.2.1 M M' h, hb.good.2.1 M M' h]
  · exact hr _ _ _ (hg.2.2 M σ hS hR hq) (hb.good.2.2 M σ hS hR hq)

/-- The translation of every expression. -/
theorem trans_post (F : Faithful) (O : Oracle) {t : Ty} (e : Expr t) (hfs : FinSub e) : ∀ {st st' : TState} {r : Term t}, Inv st →
    trans O e st = some (r, st') → Post e st r st' := by
  induction e with
  | var x =>
    intro st st' r hI h
    refine cached_post (fun st r st' hI h => ?_) hI h
    simp only [Option.bind_eq_bind, Option.bind_eq_some_iff, Prod.exists] at h
    obtain ⟨n, st1, h1, h⟩ := h
    cases h
    obtain ⟨hI1, hs1, hg1, hgl1, _, _⟩ := getLocal_spec h1 hI
    refine ⟨hI1, hs1, ⟨fun v hv => ?_, fun M M' ha => ha.1 n (hI1.below _ _ hg1) _, fun M σ hS hR hq => (hR _ _ hg1).2⟩, Cons.of_global hgl1⟩
    obtain rfl : v = _ := hv
    exact ⟨n, hg1⟩
  | lit l =>
    intro st st' r hI h
    refine cached_post (fun st r st' hI h => ?_) hI h
    simp only [Option.bind_eq_bind, Option.bind_eq_some_iff] at h
    obtain ⟨v, h1, h⟩ := h
    cases h
    exact ⟨hI, Step.refl _ _, ⟨fun v hv => hv.elim, fun _ _ _ => rfl, fun M σ _ _ _ => sLit_rep l h1⟩, Cons.refl _⟩
  | @call t f args ih =>
    intro st st' r hI h
    refine cached_post (fun st r st' hI h => ?_) hI h
    simp only [Option.bind_eq_bind, Option.bind_eq_some_iff, Prod.exists] at h
    obtain ⟨_, hn, rs, st1, h1, h⟩ := h
    cases h
    have ht : ∀ s, t ≠ Ty.list s := fun s hs => by rw [hs] at hn; cases hn
    obtain ⟨hI1, hs1, hc1, hg1⟩ := mapFin_post (es := args) (fun i st r st' hI h => ih i (hfs i) hI h) hI h1
    refine ⟨hI1, hs1, ⟨fun v ⟨i, hi⟩ => (hg1 i).1 v hi, fun M M' ha => ?_, fun M σ hS hR hq => ?_⟩, hc1⟩
    · exact congrArg (sCall f) (funext fun i => (hg1 i).2.1 M M' ha)
    · exact sCall_rep F ht f _ _ fun i => (hg1 i).2.2 M σ hS hR hq
  | ite c a b ihc iha ihb =>
    intro st st' r hI h
    refine cached_post (fun st r st' hI h => ?_) hI h
    simp only [Option.bind_eq_bind, Option.bind_eq_some_iff, Prod.exists] at h
    obtain ⟨rc, st1, h1, ra, st2, h2, rb, st3, h3, h⟩ := h
    cases h
    have hP1 := ihc hfs.1 hI h1
    have hP2 := iha hfs.2.1 hP1.inv h2
    have hP3 := ihb hfs.2.2 hP2.inv h3
    refine ⟨hP3.inv, ?_, ?_, (hP1.cons.trans hP1.step.next hP2.cons).trans (hP1.step.next.trans hP2.step.next) hP3.cons⟩
    · exact (hP1.step.trans hP2.step (H := fun v => c.Free v ∨ a.Free v ∨ b.Free v) (fun v hv => .inl hv) (fun v hv => .inr (.inl hv))).trans hP3.step
        (fun v hv => hv) (fun v hv => .inr (.inr hv))
    · have g1 := (hP1.good.mono hP2.step).mono hP3.step
      have g2 := hP2.good.mono hP3.step
      have g3 := hP3.good
      refine ⟨fun v hv => hv.elim (g1.1 v) fun hv => hv.elim (g2.1 v) (g3.1 v), fun M M' ha => ?_, fun M σ hS hR hq => ?_⟩
      · show sBranch _ (rc M) _ _ = sBranch _ (rc M') _ _
        rw [g1.2.1 M M' ha, g2.2.1 M M' ha, g3.2.1 M M' ha]
      · have hc : (show Prop from rc M) ↔ holds (c.eval σ) := g1.2.2 M σ hS hR hq
        show Rep _ (sBranch _ (rc M) (ra M) (rb M)) _
        by_cases h : holds (c.eval σ)
        · have he : (Expr.ite c a b).eval σ = a.eval σ := if_pos h
          rw [he, sBranch_pos (hc.2 h)]; exact g2.2.2 M σ hS hR hq
        · have he : (Expr.ite c a b).eval σ = b.eval σ := if_neg h
          rw [he, sBranch_neg (fun h' => h (hc.1 h'))]; exact g3.2.2 M σ hS hR hq
  | bin op a b iha ihb =>
    intro st st' r hI h
    refine cached_post (fun st r st' hI h => ?_) hI h
    simp only [Option.bind_eq_bind, Option.bind_eq_some_iff, Prod.exists] at h
    obtain ⟨ra, st1, h1, rb, st2, h2, f, hf, h⟩ := h
    cases h
    have hP1 := iha hfs.1 hI h1
    exact hP1.bin (ihb hfs.2.1 hP1.inv h2) (fun _ => Iff.rfl) f rfl fun x y σ hx hy => sBin_rep F op hf hx hy (hfs.2.2 σ)
  | rel op a b iha ihb =>
    intro st st' r hI h
    refine cached_post (fun st r st' hI h => ?_) hI h
    simp only [Option.bind_eq_bind, Option.bind_eq_some_iff, Prod.exists] at h
    obtain ⟨ra, st1, h1, rb, st2, h2, f, hf, h⟩ := h
    cases h
    have hP1 := iha hfs.1 hI h1
    exact hP1.bin (ihb hfs.2 hP1.inv h2) (fun _ => Iff.rfl) f rfl fun x y σ hx hy => sRel_rep op hf hx hy
  | un op a iha =>
    intro st st' r hI h
    refine cached_post (fun st r st' hI h => ?_) hI h
    simp only [Option.bind_eq_bind, Option.bind_eq_some_iff, Prod.exists] at h
    obtain ⟨ra, st1, h1, f, hf, h⟩ := h
    cases h
    exact (iha hfs hI h1).un (fun _ => Iff.rfl) f rfl fun x σ hx => sUn_rep op hf hx
  | embed a iha =>
    intro st st' r hI h
    refine cached_post (fun st r st' hI h => ?_) hI h
    simp only [Option.bind_eq_bind, Option.bind_eq_some_iff, Prod.exists] at h
    obtain ⟨ra, st1, h1, h⟩ := h
    cases h
    refine (iha hfs hI h1).un (t := .eureal) (fun _ => Iff.rfl) (fun x => (boolEmbed x : Pair)) rfl fun x σ hx => ?_
    have hx : x = a.eval σ := propext hx
    subst hx
    exact repr_ite (C12_constants _ 0 0).2.2.2.2.2.1
  | iverson a iha =>
    intro st st' r hI h
    refine cached_post (fun st r st' hI h => ?_) hI h
    simp only [Option.bind_eq_bind, Option.bind_eq_some_iff, Prod.exists] at h
    obtain ⟨ra, st1, h1, h⟩ := h
    cases h
    refine (iha hfs hI h1).un (t := .eureal) (fun _ => Iff.rfl) (fun x => Pair.iverson x) rfl fun x σ hx => ?_
    have hx : x = a.eval σ := propext hx
    subst hx
    exact repr_ite (C12_constants _ 0 0).2.2.2.2.1
  | cast c a iha =>
    intro st st' r hI h
    refine cached_post (fun st r st' hI h => ?_) hI h
    simp only [Option.bind_eq_bind, Option.bind_eq_some_iff, Prod.exists] at h
    obtain ⟨ra, st1, h1, h⟩ := h
    cases h
    exact (iha hfs hI h1).un (fun _ => Iff.rfl) (sCast c) rfl fun x σ hx => sCast_rep c hx
  | @quant t op hl vs a iha =>
    intro st st' r hI h
    cases t <;> try cases hl
    · refine cached_post (fun st r st' hI h => ?_) hI h
      simp only [Option.bind_eq_bind, Option.bind_eq_some_iff, Prod.exists] at h
      obtain ⟨bs, st1, h1, ra, st2, h2, st3, h3, h⟩ := h
      obtain ⟨st0, hE⟩ := enter_spec h1 hI
      have hP := iha hfs hE.inv1 h2
      cases op
      · cases h; exact scopeForall_post (.inl rfl) hE hP h3
      · cases h; exact scopeExists_post (.inl rfl) hE hP h3
      · cases h; exact scopeForall_post (.inr rfl) hE hP h3
      · cases h; exact scopeExists_post (.inr rfl) hE hP h3
    · refine cached_post (fun st r st' hI h => ?_) hI h
      simp only [Option.bind_eq_bind, Option.bind_eq_some_iff, Prod.exists] at h
      obtain ⟨bs, st1, h1, ra, st2, h2, st3, h3, h⟩ := h
      obtain ⟨st0, hE⟩ := enter_spec h1 hI
      have hP := iha hfs hE.inv1 h2
      cases op
      · cases h
        refine extremum_post hE hP h3 rfl InfimumAxioms sInf (fun cA cQ body ext hb => C14_infimum_unique C14_pair cA cQ body hb ext) fun f σ S hS => ?_
        rw [quantVars_inf _ f σ _ (.inl rfl)]
        refine le_antisymm (le_iInf₂ fun σ' hσ => sInf_le ((hS _).2 ⟨σ', hσ, rfl⟩)) (le_sInf fun y hy => ?_)
        obtain ⟨σ', hσ, rfl⟩ := (hS y).1 hy
        exact iInf₂_le σ' hσ
      · cases h
        refine extremum_post hE hP h3 rfl SupremumAxioms sSup (fun cA cQ body ext hb => C14_supremum_unique C14_pair cA cQ body hb ext) fun f σ S hS => ?_
        rw [quantVars_sup _ f σ _ (.inl rfl)]
        refine le_antisymm (sSup_le fun y hy => ?_) (iSup₂_le fun σ' hσ => le_sSup ((hS _).2 ⟨σ', hσ, rfl⟩))
        obtain ⟨σ', hσ, rfl⟩ := (hS y).1 hy
        exact le_iSup₂ (f := fun σ' (_ : σ' ∈ {σ' | Agree (vs.map QVar.var) σ σ'}) => f σ') σ' hσ
      · cases h
      · cases h
  | subst x e a _ _ =>
    intro st st' r hI h
    cases h

end Caesar.Smt
