import Verif.Opt.Boolify
import Verif.Ev

/-!
# Correctness and termination of boolification (helper lemmas)
-/

open scoped ENNReal NNReal

namespace Caesar
set_option linter.unusedSectionVars false

/-- Weight of an expression: does not grow when an expression is boolified (termination measure, not in the code). -/
def Expr.weight : {t : Ty} → Expr t → Nat
  | _, .var _ => 1
  | _, .lit _ => 1
  | _, .call f args => finSum f.args.length (fun i => (args i).weight) + 1
  | _, .ite c a b => c.weight + a.weight + b.weight + 1
  | _, .bin .and a b => a.weight + b.weight + 1
  | _, .bin .or a b => a.weight + b.weight + 1
  | _, .bin _ a b => a.weight + b.weight + 2
  | _, .rel _ a b => 2 * (a.weight + b.weight)
  | _, .un _ a => a.weight + 1
  | _, .embed a => a.weight + 2
  | _, .iverson a => a.weight + 1
  | _, .cast _ (.lit _) => 1
  | _, .cast _ a => a.weight + 1
  | _, .quant _ _ _ a => a.weight + 1
  | _, .subst _ e a => e.weight + a.weight + 1

theorem Expr.weight_pos {t : Ty} (e : Expr t) : 0 < e.weight := by
  induction e with
  | bin op a b ih1 ih2 => cases op <;> simp [Expr.weight]
  | rel op a b ih1 ih2 => simp [Expr.weight]; omega
  | cast c a ih => cases a <;> simp [Expr.weight]
  | _ => simp [Expr.weight]

theorem Expr.weight_bin_le {t : Ty} (op : BinOp t) (a b a' b' : Expr t) (h1 : a'.weight ≤ a.weight)
    (h2 : b'.weight ≤ b.weight) : (Expr.bin op a' b').weight ≤ (Expr.bin op a b).weight := by
  cases op <;> simp only [Expr.weight] <;> omega

theorem Expr.weight_bin_ge {t : Ty} (op : BinOp t) (a b : Expr t) :
    a.weight + b.weight + 1 ≤ (Expr.bin op a b).weight := by
  cases op <;> simp only [Expr.weight] <;> omega

theorem finSum_le {n : Nat} {f g : Fin n → Nat} (h : ∀ i, f i ≤ g i) : finSum n f ≤ finSum n g := by
  induction n with
  | zero => exact Nat.le_refl _
  | succ n ih =>
    unfold finSum
    exact Nat.add_le_add (h 0) (ih fun i => h i.succ)

theorem Expr.weight_cast_le {s t : Ty} (c : CastOp s t) (a : Expr s) : (Expr.cast c a).weight ≤ a.weight + 1 := by
  cases a <;> simp [Expr.weight]

theorem Expr.weight_topLit {t : Ty} (h : t.isLat = true) : (topLit t h).weight = 1 := by
  cases t <;> simp [Ty.isLat] at h <;> rfl

theorem Expr.weight_botLit {t : Ty} (h : t.isLat = true) : (botLit t h).weight = 1 := by
  cases t <;> simp [Ty.isLat] at h <;> rfl

section
variable [Doms] [Interp]

theorem asEmbed_spec {t : Ty} {e : Expr t} {b : Expr .bool} (h : e.asEmbed = some b) :
    e.weight = b.weight + 2 ∧ t.isLat = true ∧
      ∀ σ : Env, (b.tv σ → e.eval σ = t.top) ∧ (¬ b.tv σ → e.eval σ = t.bot) := by
  cases e with
  | embed b' =>
    cases h
    refine ⟨rfl, rfl, fun σ => ⟨fun hb => ?_, fun hb => ?_⟩⟩
    · exact if_pos hb
    · exact if_neg hb
  | _ => exact (nomatch h)

theorem asCoimplEmbed_spec {t : Ty} {e : Expr t} {a : Expr .bool} {b : Expr t} (h : e.asCoimplEmbed = some (a, b)) :
    e.weight = a.weight + b.weight + 4 ∧
      ∀ σ : Env, (a.tv σ → e.eval σ = t.bot) ∧ (¬ a.tv σ → e.eval σ = b.eval σ) := by
  cases e with
  | bin op x y =>
    cases op with
    | coimpl hl =>
      simp only [Expr.asCoimplEmbed, Option.map_eq_some_iff, Prod.mk.injEq] at h
      obtain ⟨x', hx, rfl, rfl⟩ := h
      obtain ⟨hw, hl, hs⟩ := asEmbed_spec hx
      refine ⟨by simp only [Expr.weight]; omega, fun σ => ⟨fun ha => ?_, fun ha => ?_⟩⟩
      · refine (Ty.coimpl_eq_bot hl).2 ?_
        rw [(hs σ).1 ha]
        exact Ty.le_top hl _
      · show Ty.coimpl t _ _ = _
        rw [(hs σ).2 ha]
        unfold Ty.coimpl
        split
        next h' => exact ((Ty.le_bot_iff hl).1 h').symm
        next => rfl
    | _ => simp [Expr.asCoimplEmbed] at h
  | _ => simp [Expr.asCoimplEmbed] at h

theorem asImplEmbed_spec {t : Ty} {e : Expr t} {a : Expr .bool} {b : Expr t} (h : e.asImplEmbed = some (a, b)) :
    e.weight = a.weight + b.weight + 4 ∧
      ∀ σ : Env, (a.tv σ → e.eval σ = b.eval σ) ∧ (¬ a.tv σ → e.eval σ = t.top) := by
  cases e with
  | bin op x y =>
    cases op with
    | impl hl =>
      simp only [Expr.asImplEmbed, Option.map_eq_some_iff, Prod.mk.injEq] at h
      obtain ⟨x', hx, rfl, rfl⟩ := h
      obtain ⟨hw, hl, hs⟩ := asEmbed_spec hx
      refine ⟨by simp only [Expr.weight]; omega, fun σ => ⟨fun ha => ?_, fun ha => ?_⟩⟩
      · show Ty.impl t _ _ = _
        rw [(hs σ).1 ha]
        unfold Ty.impl
        split
        next h' => exact ((Ty.top_le_iff hl).1 h').symm
        next => rfl
      · refine (Ty.impl_eq_top hl).2 ?_
        rw [(hs σ).2 ha]
        exact Ty.bot_le hl _
    | _ => simp [Expr.asImplEmbed] at h
  | _ => simp [Expr.asImplEmbed] at h

/-- Claim about `visit_expr`. -/
def BfExpr {t : Ty} (e : Expr t) : Prop := Ev (fun n => boolify n e) fun e' =>
  e'.weight ≤ e.weight ∧ ∀ σ : Env, e'.eval σ = e.eval σ

/-- Claim about `visit_leq`. -/
def BfLeq {t : Ty} (h : t.isLat = true) (l r : Expr t) : Prop := Ev (fun n => boolifyLeq n h l r) fun e' =>
  e'.weight ≤ 2 * (l.weight + r.weight) ∧ ∀ σ : Env, e'.tv σ ↔ t.le (l.eval σ) (r.eval σ)

/-- Claim about `visit_eq_top`. -/
def BfTop {t : Ty} (h : t.isLat = true) (e : Expr t) : Prop := Ev (fun n => boolifyEqTop n h e) fun e' =>
  e'.weight ≤ 2 * (1 + e.weight) ∧ ∀ σ : Env, e'.tv σ ↔ e.eval σ = t.top

/-- Claim about `visit_eq_bot`. -/
def BfBot {t : Ty} (h : t.isLat = true) (e : Expr t) : Prop := Ev (fun n => boolifyEqBot n h e) fun e' =>
  e'.weight ≤ 2 * (1 + e.weight) ∧ ∀ σ : Env, e'.tv σ ↔ e.eval σ = t.bot

theorem BfExpr.lit {t : Ty} (l : Lit t) : BfExpr (.lit l) :=
  Ev.shift (f := fun n => boolify n (.lit l)) (Ev.pure ⟨Nat.le_refl _, fun _ => rfl⟩)

theorem bf_leq_step {t : Ty} (h : t.isLat = true) (l r : Expr t)
    (hE : ∀ {s : Ty} (e : Expr s), e.weight < l.weight + r.weight → BfExpr e)
    (hL : ∀ {s : Ty} (h : s.isLat = true) (l' r' : Expr s), l'.weight + r'.weight < l.weight + r.weight → BfLeq h l' r')
    (hT : ∀ {s : Ty} (h : s.isLat = true) (e : Expr s), e.weight < l.weight + r.weight → BfTop h e)
    (hB : ∀ {s : Ty} (h : s.isLat = true) (e : Expr s), e.weight < l.weight + r.weight → BfBot h e) :
    BfLeq h l r := by
  have hl := l.weight_pos
  have hr := r.weight_pos
  refine Ev.shift ?_
  simp only [boolifyLeq]
  split
  next h1 =>
    refine Ev.pure ⟨by simp only [Expr.boolLit, Expr.weight]; omega, fun σ => ?_⟩
    rw [Expr.eval_isBotLit h l h1]
    exact iff_of_true rfl (Ty.bot_le h _)
  next h1 =>
  split
  next h2 =>
    refine (hT h r (by omega)).mono fun e' he' => ⟨by omega, fun σ => ?_⟩
    rw [he'.2 σ, Expr.eval_isTopLit h l h2, Ty.top_le_iff h]
  next h2 =>
  split
  next h3 =>
    refine (hB h l (by omega)).mono fun e' he' => ⟨by omega, fun σ => ?_⟩
    rw [he'.2 σ, Expr.eval_isBotLit h r h3, Ty.le_bot_iff h]
  next h3 =>
  split
  next h4 =>
    refine Ev.pure ⟨by simp only [Expr.boolLit, Expr.weight]; omega, fun σ => ?_⟩
    rw [Expr.eval_isTopLit h r h4]
    exact iff_of_true rfl (Ty.le_top h _)
  next h4 =>
  split
  next b hb =>
    obtain ⟨hw, _, hs⟩ := asEmbed_spec hb
    refine Ev.bind (hT h r (by omega)) fun e' he' => Ev.pure ⟨?_, fun σ => ?_⟩
    · simp only [Expr.weight]; omega
    · rw [Expr.tv_impl, he'.2 σ]
      by_cases hbt : b.tv σ
      · rw [(hs σ).1 hbt, Ty.top_le_iff h]
        exact ⟨fun hi => hi hbt, fun hi _ => hi⟩
      · rw [(hs σ).2 hbt]
        exact iff_of_true (fun hi => absurd hi hbt) (Ty.bot_le h _)
  next hb =>
  split
  next a b hab =>
    obtain ⟨hw, hs⟩ := asCoimplEmbed_spec hab
    refine Ev.bind (hL h b r (by omega)) fun e' he' => Ev.pure ⟨?_, fun σ => ?_⟩
    · simp only [Expr.weight]; omega
    · rw [Expr.tv_or, propext (he'.2 σ)]
      by_cases hat : a.tv σ
      · rw [(hs σ).1 hat]
        exact iff_of_true (Or.inl hat) (Ty.bot_le h _)
      · rw [(hs σ).2 hat]
        exact ⟨fun hi => hi.resolve_left hat, Or.inr⟩
  next hab =>
  split
  next b hb =>
    obtain ⟨hw, _, hs⟩ := asEmbed_spec hb
    refine Ev.bind (hB h l (by omega)) fun e' he' => Ev.pure ⟨?_, fun σ => ?_⟩
    · simp only [Expr.weight]; omega
    · rw [Expr.tv_or, propext (he'.2 σ)]
      by_cases hbt : b.tv σ
      · rw [(hs σ).1 hbt]
        exact iff_of_true (Or.inl hbt) (Ty.le_top h _)
      · rw [(hs σ).2 hbt, Ty.le_bot_iff h]
        exact ⟨fun hi => hi.resolve_left hbt, Or.inr⟩
  next hb =>
  split
  next a b hab =>
    obtain ⟨hw, hs⟩ := asImplEmbed_spec hab
    refine Ev.bind (hL h l b (by omega)) fun e' he' => Ev.pure ⟨?_, fun σ => ?_⟩
    · simp only [Expr.weight]; omega
    · rw [Expr.tv_impl, propext (he'.2 σ)]
      by_cases hat : a.tv σ
      · rw [(hs σ).1 hat]
        exact ⟨fun hi => hi hat, fun hi _ => hi⟩
      · rw [(hs σ).2 hat]
        exact iff_of_true (fun hi => absurd hi hat) (Ty.le_top h _)
  next hab =>
    refine Ev.bind (hE l (by omega)) fun l' hl' => ?_
    refine Ev.bind (g := fun r' _ => some (Expr.rel (.le (Ty.isOrd_of_isLat h)) l' r')) (hE r (by omega))
      fun r' hr' => Ev.pure ⟨?_, fun σ => ?_⟩
    · simp only [Expr.weight]; omega
    · rw [Expr.tv_le_rel, hl'.2, hr'.2]

theorem bf_ite_step {s2 : Ty} {c : Expr .bool} {fa fb : Nat → Option (Expr s2)}
    {Q : Expr s2 → Prop} {Qa Qb : Expr s2 → Prop}
    (hc : BfExpr c) (ha : Ev fa Qa) (hb : Ev fb Qb)
    (h : ∀ c' a' b', c'.weight ≤ c.weight → (∀ σ : Env, c'.eval σ = c.eval σ) → Qa a' → Qb b' → Q (.ite c' a' b')) :
    Ev (fun n => do return Expr.ite (← boolify n c) (← fa n) (← fb n)) Q := by
  refine Ev.bind (g := fun c' n => do return Expr.ite c' (← fa n) (← fb n)) hc fun c' hc' => ?_
  refine Ev.bind (g := fun a' n => do return Expr.ite c' a' (← fb n)) ha fun a' ha' => ?_
  exact Ev.bind (g := fun b' n => some (Expr.ite c' a' b')) hb fun b' hb' => Ev.pure (h c' a' b' hc'.1 hc'.2 ha' hb')

theorem bf_two {s1 s2 s3 : Ty} {fa : Nat → Option (Expr s1)} {fb : Nat → Option (Expr s2)} (k : Expr s1 → Expr s2 → Expr s3)
    {Qa : Expr s1 → Prop} {Qb : Expr s2 → Prop} {Q : Expr s3 → Prop} (ha : Ev fa Qa) (hb : Ev fb Qb)
    (h : ∀ a' b', Qa a' → Qb b' → Q (k a' b')) : Ev (fun n => do return k (← fa n) (← fb n)) Q := by
  refine Ev.bind (g := fun a' n => do return k a' (← fb n)) ha fun a' ha' => ?_
  exact Ev.bind (g := fun b' n => some (k a' b')) hb fun b' hb' => Ev.pure (h a' b' ha' hb')

theorem bf_one {s1 s2 : Ty} {fa : Nat → Option (Expr s1)} (k : Expr s1 → Expr s2)
    {Qa : Expr s1 → Prop} {Q : Expr s2 → Prop} (ha : Ev fa Qa)
    (h : ∀ a', Qa a' → Q (k a')) : Ev (fun n => do return k (← fa n)) Q :=
  Ev.bind (g := fun a' _ => some (k a')) ha fun a' ha' => Ev.pure (h a' ha')


theorem bf_top_step {t : Ty} (h : t.isLat = true) (e : Expr t)
    (hE : ∀ {s : Ty} (e' : Expr s), e'.weight ≤ e.weight → BfExpr e')
    (hL : ∀ {s : Ty} (h : s.isLat = true) (l r : Expr s), l.weight + r.weight < e.weight → BfLeq h l r)
    (hT : ∀ {s : Ty} (h : s.isLat = true) (e' : Expr s), e'.weight < e.weight → BfTop h e')
    (hB : ∀ {s : Ty} (h : s.isLat = true) (e' : Expr s), e'.weight < e.weight → BfBot h e') :
    BfTop h e := by
  refine Ev.shift ?_
  simp only [boolifyEqTop]
  split
  next c a b =>
    have hc := c.weight_pos
    simp only [Expr.weight] at hE hT
    refine bf_ite_step (hE c (by omega)) (hT h a (by omega)) (hT h b (by omega))
      fun c' a' b' hw hc' ha' hb' => ⟨by simp only [Expr.weight]; omega, fun σ => ?_⟩
    rw [Expr.tv_ite, Expr.eval_ite, Expr.tv_eq, hc' σ]
    by_cases hct : holds (c.eval σ)
    · rw [if_pos hct, if_pos hct]; exact ha'.2 σ
    · rw [if_neg hct, if_neg hct]; exact hb'.2 σ
  next hl l r =>
    simp only [Expr.weight] at hL
    refine (hL h l r (by omega)).mono fun e' he' => ⟨by simp only [Expr.weight]; omega, fun σ => ?_⟩
    exact (he'.2 σ).trans (Ty.impl_eq_top h).symm
  next hl l r =>
    simp only [Expr.weight] at hL
    refine (hL h l r (by omega)).mono fun e' he' => ⟨by simp only [Expr.weight]; omega, fun σ => ?_⟩
    exact (he'.2 σ).trans (Ty.compare_eq_top h).symm
  next hl a b =>
    simp only [Expr.weight] at hT
    refine bf_two _ (hT h a (by omega)) (hT h b (by omega)) fun a' b' ha' hb' =>
      ⟨by simp only [Expr.weight]; omega, fun σ => ?_⟩
    rw [Expr.tv_and, propext (ha'.2 σ), propext (hb'.2 σ)]
    exact (Ty.inf_eq_top h).symm
  next hl a b =>
    simp only [Expr.weight] at hT
    refine bf_two _ (hT h a (by omega)) (hT h b (by omega)) fun a' b' ha' hb' =>
      ⟨by simp only [Expr.weight]; omega, fun σ => ?_⟩
    rw [Expr.tv_or, propext (ha'.2 σ), propext (hb'.2 σ)]
    exact (Ty.sup_eq_top h).symm
  next hl a =>
    simp only [Expr.weight] at hB
    refine (hB h a (by omega)).mono fun e' he' => ⟨by simp only [Expr.weight]; omega, fun σ => ?_⟩
    exact (he'.2 σ).trans (Ty.not_eq_top h).symm
  next =>
    split
    next b hb =>
      obtain ⟨hw, _, hs⟩ := asEmbed_spec hb
      refine (hE b (by omega)).mono fun e' he' => ⟨by omega, fun σ => ?_⟩
      rw [Expr.tv_eq, he'.2 σ]
      by_cases hbt : b.tv σ
      · exact iff_of_true hbt ((hs σ).1 hbt)
      · refine iff_of_false hbt ?_
        rw [(hs σ).2 hbt]
        exact Ty.bot_ne_top h
    next hb =>
      refine bf_one _ (hE _ (Nat.le_refl _)) fun e' he' =>
        ⟨by simp only [Expr.weight, Expr.weight_topLit]; omega, fun σ => ?_⟩
      rw [Expr.tv_eq_rel, Expr.eval_topLit, he'.2 σ]
      exact eq_comm

theorem bf_bot_step {t : Ty} (h : t.isLat = true) (e : Expr t)
    (hE : ∀ {s : Ty} (e' : Expr s), e'.weight ≤ e.weight → BfExpr e')
    (hL : ∀ {s : Ty} (h : s.isLat = true) (l r : Expr s), l.weight + r.weight < e.weight → BfLeq h l r)
    (hT : ∀ {s : Ty} (h : s.isLat = true) (e' : Expr s), e'.weight < e.weight → BfTop h e')
    (hB : ∀ {s : Ty} (h : s.isLat = true) (e' : Expr s), e'.weight < e.weight → BfBot h e') :
    BfBot h e := by
  refine Ev.shift ?_
  simp only [boolifyEqBot]
  split
  next c a b =>
    have hc := c.weight_pos
    simp only [Expr.weight] at hE hB
    refine bf_ite_step (hE c (by omega)) (hB h a (by omega)) (hB h b (by omega))
      fun c' a' b' hw hc' ha' hb' => ⟨by simp only [Expr.weight]; omega, fun σ => ?_⟩
    rw [Expr.tv_ite, Expr.eval_ite, Expr.tv_eq, hc' σ]
    by_cases hct : holds (c.eval σ)
    · rw [if_pos hct, if_pos hct]; exact ha'.2 σ
    · rw [if_neg hct, if_neg hct]; exact hb'.2 σ
  next hl l r =>
    simp only [Expr.weight] at hL
    refine (hL h r l (by omega)).mono fun e' he' => ⟨by simp only [Expr.weight]; omega, fun σ => ?_⟩
    exact (he'.2 σ).trans (Ty.coimpl_eq_bot h).symm
  next hl l r =>
    simp only [Expr.weight] at hL
    refine (hL h r l (by omega)).mono fun e' he' => ⟨by simp only [Expr.weight]; omega, fun σ => ?_⟩
    exact (he'.2 σ).trans (Ty.cocompare_eq_bot h).symm
  next hl a b =>
    simp only [Expr.weight] at hB
    refine bf_two _ (hB h a (by omega)) (hB h b (by omega)) fun a' b' ha' hb' =>
      ⟨by simp only [Expr.weight]; omega, fun σ => ?_⟩
    rw [Expr.tv_or, propext (ha'.2 σ), propext (hb'.2 σ)]
    exact (Ty.inf_eq_bot h).symm
  next hl a b =>
    simp only [Expr.weight] at hB
    refine bf_two _ (hB h a (by omega)) (hB h b (by omega)) fun a' b' ha' hb' =>
      ⟨by simp only [Expr.weight]; omega, fun σ => ?_⟩
    rw [Expr.tv_and, propext (ha'.2 σ), propext (hb'.2 σ)]
    exact (Ty.sup_eq_bot h).symm
  next hl a =>
    simp only [Expr.weight] at hT
    refine (hT h a (by omega)).mono fun e' he' => ⟨by simp only [Expr.weight]; omega, fun σ => ?_⟩
    exact (he'.2 σ).trans (Ty.non_eq_bot h).symm
  next =>
    split
    next b hb =>
      obtain ⟨hw, _, hs⟩ := asEmbed_spec hb
      refine bf_one _ (hE b (by omega)) fun e' he' => ⟨by simp only [Expr.weight]; omega, fun σ => ?_⟩
      rw [Expr.tv_not, Expr.tv_eq, he'.2 σ]
      by_cases hbt : b.tv σ
      · refine iff_of_false (fun hn => hn hbt) ?_
        rw [(hs σ).1 hbt]
        exact Ty.top_ne_bot h
      · exact iff_of_true hbt ((hs σ).2 hbt)
    next hb =>
      refine bf_one _ (hE _ (Nat.le_refl _)) fun e' he' =>
        ⟨by simp only [Expr.weight, Expr.weight_botLit]; omega, fun σ => ?_⟩
      rw [Expr.tv_eq_rel, Expr.eval_botLit, he'.2 σ]
      exact eq_comm

theorem bf_expr_step {t : Ty} (e : Expr t)
    (hE : ∀ {s : Ty} (e' : Expr s), e'.weight < e.weight → BfExpr e')
    (hL : ∀ {s : Ty} (h : s.isLat = true) (l r : Expr s), l.weight + r.weight < e.weight → BfLeq h l r)
    (hT : ∀ {s : Ty} (h : s.isLat = true) (e' : Expr s), e'.weight < e.weight → BfTop h e')
    (hB : ∀ {s : Ty} (h : s.isLat = true) (e' : Expr s), e'.weight < e.weight → BfBot h e') :
    BfExpr e := by
  have walkRel : ∀ {s : Ty} (op : RelOp s) (a b : Expr s),
      (∀ {s : Ty} (e' : Expr s), e'.weight < (Expr.rel op a b).weight → BfExpr e') →
      Ev (fun n => do return Expr.rel op (← boolify n a) (← boolify n b))
        fun e' => e'.weight ≤ (Expr.rel op a b).weight ∧ ∀ σ : Env, e'.eval σ = (Expr.rel op a b).eval σ := by
    intro s op a b hE
    have ha := a.weight_pos
    have hb := b.weight_pos
    simp only [Expr.weight] at hE
    refine bf_two _ (hE a (by omega)) (hE b (by omega)) fun a' b' ha' hb' => ⟨by simp only [Expr.weight]; omega, fun σ => ?_⟩
    rw [Expr.eval_rel, Expr.eval_rel, ha'.2, hb'.2]
  have walkBin : ∀ (op : BinOp t) (a b : Expr t),
      (∀ {s : Ty} (e' : Expr s), e'.weight < (Expr.bin op a b).weight → BfExpr e') →
      Ev (fun n => do return Expr.bin op (← boolify n a) (← boolify n b))
        fun e' => e'.weight ≤ (Expr.bin op a b).weight ∧ ∀ σ : Env, e'.eval σ = (Expr.bin op a b).eval σ := by
    intro op a b hE
    have hw := Expr.weight_bin_ge op a b
    refine bf_two _ (hE a (by omega)) (hE b (by omega)) fun a' b' ha' hb' =>
      ⟨Expr.weight_bin_le _ _ _ _ _ ha'.1 hb'.1, fun σ => ?_⟩
    rw [Expr.eval_bin, Expr.eval_bin, ha'.2, hb'.2]
  refine Ev.shift ?_
  simp only [boolify]
  split
  next s a b =>
    have ha := a.weight_pos
    have hb := b.weight_pos
    split
    next h =>
      split
      next h1 =>
        simp only [Expr.weight] at hT
        refine (hT h b (by omega)).mono fun e' he' => ⟨by simp only [Expr.weight]; omega, fun σ => ?_⟩
        refine propext ((he'.2 σ).trans ?_)
        show _ ↔ a.eval σ = b.eval σ
        rw [Expr.eval_isTopLit h a h1]; exact eq_comm
      next h1 =>
      split
      next h2 =>
        simp only [Expr.weight] at hB
        refine (hB h b (by omega)).mono fun e' he' => ⟨by simp only [Expr.weight]; omega, fun σ => ?_⟩
        refine propext ((he'.2 σ).trans ?_)
        show _ ↔ a.eval σ = b.eval σ
        rw [Expr.eval_isBotLit h a h2]; exact eq_comm
      next h2 =>
      split
      next h3 =>
        simp only [Expr.weight] at hT
        refine (hT h a (by omega)).mono fun e' he' => ⟨by simp only [Expr.weight]; omega, fun σ => ?_⟩
        refine propext ((he'.2 σ).trans ?_)
        show _ ↔ a.eval σ = b.eval σ
        rw [Expr.eval_isTopLit h b h3]
      next h3 =>
      split
      next h4 =>
        simp only [Expr.weight] at hB
        refine (hB h a (by omega)).mono fun e' he' => ⟨by simp only [Expr.weight]; omega, fun σ => ?_⟩
        refine propext ((he'.2 σ).trans ?_)
        show _ ↔ a.eval σ = b.eval σ
        rw [Expr.eval_isBotLit h b h4]
      next h4 => exact walkRel _ a b hE
    next h => exact walkRel _ a b hE
  next s ho a b =>
    have ha := a.weight_pos
    have hb := b.weight_pos
    split
    next h =>
      simp only [Expr.weight] at hL
      refine (hL h a b (by omega)).mono fun e' he' => ⟨by simp only [Expr.weight]; omega, fun σ => ?_⟩
      exact propext (he'.2 σ)
    next h => exact walkRel _ a b hE
  next s ho a b =>
    have ha := a.weight_pos
    have hb := b.weight_pos
    split
    next h =>
      simp only [Expr.weight] at hL
      refine (hL h b a (by omega)).mono fun e' he' => ⟨by simp only [Expr.weight]; omega, fun σ => ?_⟩
      exact propext (he'.2 σ)
    next h => exact walkRel _ a b hE
  next s op a b _ _ _ => exact walkRel _ a b hE
  next h a b =>
    simp only [Expr.weight] at hE
    refine Ev.bind (g := fun a1 n => do
      let b1 ← boolify n b
      match a1.asEmbed with
        | some c => return Expr.ite c b1 (.topLit _ h)
        | none => return Expr.bin (.impl h) (← boolify n a1) (← boolify n b1)) (hE a (by omega)) fun a1 ha1 => ?_
    refine Ev.bind (g := fun b1 n => match a1.asEmbed with
        | some c => return Expr.ite c b1 (.topLit _ h)
        | none => return Expr.bin (.impl h) (← boolify n a1) (← boolify n b1)) (hE b (by omega)) fun b1 hb1 => ?_
    split
    next c hc =>
      obtain ⟨hw, _, hs⟩ := asEmbed_spec hc
      refine Ev.pure ⟨by simp only [Expr.weight, Expr.weight_topLit]; omega, fun σ => ?_⟩
      rw [Expr.eval_ite, Expr.eval_topLit, hb1.2 σ]
      show _ = t.impl (a.eval σ) (b.eval σ)
      rw [← ha1.2 σ]
      by_cases hct : c.tv σ
      · rw [(hs σ).1 hct]
        refine (if_pos hct).trans ?_
        unfold Ty.impl
        split
        next h' => exact (Ty.top_le_iff h).1 h'
        next => rfl
      · rw [(hs σ).2 hct, (Ty.impl_eq_top h).2 (Ty.bot_le h _)]
        exact if_neg hct
    next hc =>
      refine bf_two _ (hE a1 (by omega)) (hE b1 (by omega)) fun a' b' ha' hb' =>
        ⟨by simp only [Expr.weight]; omega, fun σ => ?_⟩
      rw [Expr.eval_bin, Expr.eval_bin, ha'.2, hb'.2, ha1.2, hb1.2]
  next h a b =>
    simp only [Expr.weight] at hE
    refine Ev.bind (g := fun a1 n => do
      let b1 ← boolify n b
      match a1.asEmbed with
        | some c => return Expr.ite c (.botLit _ h) b1
        | none => return Expr.bin (.coimpl h) (← boolify n a1) (← boolify n b1)) (hE a (by omega)) fun a1 ha1 => ?_
    refine Ev.bind (g := fun b1 n => match a1.asEmbed with
        | some c => return Expr.ite c (.botLit _ h) b1
        | none => return Expr.bin (.coimpl h) (← boolify n a1) (← boolify n b1)) (hE b (by omega)) fun b1 hb1 => ?_
    split
    next c hc =>
      obtain ⟨hw, _, hs⟩ := asEmbed_spec hc
      refine Ev.pure ⟨by simp only [Expr.weight, Expr.weight_botLit]; omega, fun σ => ?_⟩
      rw [Expr.eval_ite, Expr.eval_botLit, hb1.2 σ]
      show _ = t.coimpl (a.eval σ) (b.eval σ)
      rw [← ha1.2 σ]
      by_cases hct : c.tv σ
      · rw [(hs σ).1 hct, (Ty.coimpl_eq_bot h).2 (Ty.le_top h _)]
        exact if_pos hct
      · rw [(hs σ).2 hct]
        refine (if_neg hct).trans ?_
        unfold Ty.coimpl
        split
        next h' => exact (Ty.le_bot_iff h).1 h'
        next => rfl
    next hc =>
      refine bf_two _ (hE a1 (by omega)) (hE b1 (by omega)) fun a' b' ha' hb' =>
        ⟨by simp only [Expr.weight]; omega, fun σ => ?_⟩
      rw [Expr.eval_bin, Expr.eval_bin, ha'.2, hb'.2, ha1.2, hb1.2]
  next op a b _ _ => exact walkBin _ a b hE
  next x => exact Ev.pure ⟨Nat.le_refl _, fun _ => rfl⟩
  next l => exact Ev.pure ⟨Nat.le_refl _, fun _ => rfl⟩
  next f args =>
    simp only [Expr.weight] at hE
    refine Ev.bind (g := fun g _ => some (Expr.call f g)) (Ev.traverse (fun i n => boolify n (args i))
      (fun i e' => e'.weight ≤ (args i).weight ∧ ∀ σ : Env, e'.eval σ = (args i).eval σ)
      fun i => hE (args i) (by have := le_finSum (fun i => (args i).weight) i; omega)) fun g hg => ?_
    refine Ev.pure ⟨?_, fun σ => ?_⟩
    · simp only [Expr.weight]
      have := finSum_le (f := fun i => (g i).weight) (g := fun i => (args i).weight) fun i => (hg i).1
      omega
    · rw [Expr.eval_call, Expr.eval_call]
      congr 1
      funext i
      exact (hg i).2 σ
  next c a b =>
    simp only [Expr.weight] at hE
    refine bf_ite_step (hE c (by omega)) (hE a (by omega)) (hE b (by omega))
      fun c' a' b' hw hc' ha' hb' => ⟨by simp only [Expr.weight]; omega, fun σ => ?_⟩
    rw [Expr.eval_ite, Expr.eval_ite, hc', ha'.2, hb'.2]
  next op a =>
    simp only [Expr.weight] at hE
    refine bf_one _ (hE a (by omega)) fun a' ha' => ⟨by simp only [Expr.weight]; omega, fun σ => ?_⟩
    rw [Expr.eval_un, Expr.eval_un, ha'.2]
  next a =>
    simp only [Expr.weight] at hE
    refine bf_one _ (hE a (by omega)) fun a' ha' => ⟨by simp only [Expr.weight]; omega, fun σ => ?_⟩
    rw [Expr.eval_embed, Expr.eval_embed, ha'.2]
  next a =>
    simp only [Expr.weight] at hE
    refine bf_one _ (hE a (by omega)) fun a' ha' => ⟨by simp only [Expr.weight]; omega, fun σ => ?_⟩
    rw [Expr.eval_iverson, Expr.eval_iverson, ha'.2]
  next s a c =>
    by_cases hlit : ∃ l, a = Expr.lit l
    · obtain ⟨l, rfl⟩ := hlit
      refine Ev.bind (g := fun a' _ => some (Expr.cast c a')) (Q := fun a' => a' = .lit l)
        (Ev.shift (f := fun n => boolify n (Expr.lit l)) (Ev.pure rfl)) ?_
      rintro _ rfl
      exact Ev.pure ⟨Nat.le_refl _, fun _ => rfl⟩
    · have hw : (Expr.cast c a).weight = a.weight + 1 := by
        cases a with
        | lit l => exact absurd ⟨l, rfl⟩ hlit
        | _ => simp only [Expr.weight]
      refine bf_one _ (hE a (by omega)) fun a' ha' => ⟨?_, fun σ => ?_⟩
      · have := Expr.weight_cast_le c a'
        omega
      · rw [Expr.eval_cast, Expr.eval_cast, ha'.2]
  next op h vs a =>
    simp only [Expr.weight] at hE
    refine bf_one _ (hE a (by omega)) fun a' ha' => ⟨by simp only [Expr.weight]; omega, fun σ => ?_⟩
    rw [Expr.eval_quant, Expr.eval_quant, funext ha'.2]
  next x e a =>
    simp only [Expr.weight] at hE
    refine bf_two _ (hE e (by omega)) (hE a (by omega)) fun e' a' he' ha' => ⟨by simp only [Expr.weight]; omega, fun σ => ?_⟩
    rw [Expr.eval_subst, Expr.eval_subst, he'.2, ha'.2]

theorem bf_all (n : Nat) :
    (∀ {s : Ty} (e : Expr s), e.weight ≤ n → BfExpr e) ∧
    (∀ {s : Ty} (h : s.isLat = true) (l r : Expr s), l.weight + r.weight ≤ n → BfLeq h l r) ∧
    (∀ {s : Ty} (h : s.isLat = true) (e : Expr s), e.weight ≤ n → BfTop h e) ∧
    (∀ {s : Ty} (h : s.isLat = true) (e : Expr s), e.weight ≤ n → BfBot h e) := by
  induction n with
  | zero =>
    refine ⟨fun e h => ?_, fun _ l r h => ?_, fun _ e h => ?_, fun _ e h => ?_⟩
    · have := e.weight_pos; omega
    · have := l.weight_pos; omega
    · have := e.weight_pos; omega
    · have := e.weight_pos; omega
  | succ n ih =>
    obtain ⟨iE, iL, iT, iB⟩ := ih
    have hE : ∀ {s : Ty} (e : Expr s), e.weight ≤ n + 1 → BfExpr e := fun e he =>
      bf_expr_step e (fun e' h => iE e' (by omega)) (fun hl l r h => iL hl l r (by omega))
        (fun hl e' h => iT hl e' (by omega)) (fun hl e' h => iB hl e' (by omega))
    refine ⟨hE, fun hl l r h => ?_, fun hl e h => ?_, fun hl e h => ?_⟩
    · exact bf_leq_step hl l r (fun e' h => iE e' (by omega)) (fun hl l r h => iL hl l r (by omega))
        (fun hl e' h => iT hl e' (by omega)) (fun hl e' h => iB hl e' (by omega))
    · exact bf_top_step hl e (fun e' h => hE e' (by omega)) (fun hl l r h => iL hl l r (by omega))
        (fun hl e' h => iT hl e' (by omega)) (fun hl e' h => iB hl e' (by omega))
    · exact bf_bot_step hl e (fun e' h => hE e' (by omega)) (fun hl l r h => iL hl l r (by omega))
        (fun hl e' h => iT hl e' (by omega)) (fun hl e' h => iB hl e' (by omega))

theorem boolify_ev {t : Ty} (e : Expr t) : BfExpr e := (bf_all e.weight).1 e (Nat.le_refl _)

end
end Caesar
