import Verif.Opt.Relational

/-!
# Correctness of the relational optimisation (helper lemmas)
-/

open scoped ENNReal NNReal

namespace Caesar
set_option linter.unusedSectionVars false

/-- Types whose values are nonnegative (or truth values). -/
@[reducible] def Ty.unsigned : Ty → Bool
  | .bool | .uint | .ureal | .eureal => true
  | _ => false

section
variable [Doms] [Interp]

theorem isBotLit_le {t : Ty} (ht : t.unsigned = true) (e : Expr t) (h : e.isBotLit = true) (σ : Env) (b : t.den) :
    t.le (e.eval σ) b := by
  cases t <;> simp [Ty.unsigned] at ht
  case bool => rw [Expr.eval_isBotLit rfl e h]; exact Ty.bot_le rfl _
  case eureal => rw [Expr.eval_isBotLit rfl e h]; exact Ty.bot_le rfl _
  case uint =>
    cases e with
    | lit l =>
      cases l with
      | uint n =>
        have : n = 0 := by simpa [Expr.isBotLit, Lit.isBot] using h
        subst this
        exact Nat.zero_le _
    | cast c a => cases c
    | _ => exact absurd h Bool.false_ne_true
  case ureal =>
    cases e with
    | lit l =>
      cases l with
      | ufrac q =>
        have : q = 0 := by simpa [Expr.isBotLit, Lit.isBot] using h
        subst this
        show ((0 : ℚ≥0) : ℝ≥0) ≤ _
        rw [NNRat.cast_zero]
        exact zero_le
    | cast c a =>
      cases c
      cases a with
      | lit l =>
        cases l with
        | uint n =>
          have : n = 0 := by simpa [Expr.isBotLit, Lit.isBot] using h
          subst this
          show ((0 : ℕ) : ℝ≥0) ≤ _
          rw [Nat.cast_zero]
          exact zero_le
      | _ => exact absurd h Bool.false_ne_true
    | _ => exact absurd h Bool.false_ne_true

theorem isLat_of_isTopLit {t : Ty} (e : Expr t) (h : e.isTopLit = true) : t.isLat = true := by
  cases e with
  | lit l => cases l <;> first | rfl | exact absurd h Bool.false_ne_true
  | _ => exact absurd h Bool.false_ne_true

theorem onlyEUReal_eq {t : Ty} {e : Expr t} {e' : Expr .eureal} (h : e.onlyEUReal = some e') :
    ∃ ht : t = .eureal, ht ▸ e = e' := by
  cases t <;> simp [Expr.onlyEUReal] at h
  exact ⟨rfl, h⟩

theorem onlyEUReal_some {t : Ty} (e : Expr t) (h : t.isLat = true) (hb : t ≠ .bool) :
    ∃ e', e.onlyEUReal = some e' := by
  cases t <;> simp [Ty.isLat] at h hb
  exact ⟨e, rfl⟩

theorem boolLit_true (σ : Env) : (Expr.boolLit true).tv σ := rfl

/-- What is claimed of a result of `relational_leq`. -/
def RelOk {t : Ty} (lower upper : Expr t) (res : Option (Expr .bool)) : Prop :=
  (t ≠ .bool → ∃ r, res = some r) ∧
  ∀ r, res = some r → ∀ σ : Env, r.tv σ ↔ t.le (lower.eval σ) (upper.eval σ)

theorem RelOk.two {t s1 s2 : Ty} {l u : Expr t} {l1 u1 : Expr s1} {l2 u2 : Expr s2} {r1 r2 : Option (Expr .bool)}
    (op : BinOp .bool) (f : Prop → Prop → Prop)
    (hop : ∀ (c d : Expr .bool) (σ : Env), (Expr.bin op c d).tv σ = f (c.tv σ) (d.tv σ))
    (h1 : RelOk l1 u1 r1) (h2 : RelOk l2 u2 r2)
    (ht1 : t ≠ .bool → s1 ≠ .bool) (ht2 : t ≠ .bool → s2 ≠ .bool)
    (h : ∀ σ : Env, f (s1.le (l1.eval σ) (u1.eval σ)) (s2.le (l2.eval σ) (u2.eval σ)) ↔ t.le (l.eval σ) (u.eval σ)) :
    RelOk l u (do return Expr.bin op (← r1) (← r2)) := by
  constructor
  · intro hb
    obtain ⟨a, ha⟩ := h1.1 (ht1 hb)
    obtain ⟨b, hb'⟩ := h2.1 (ht2 hb)
    simp [ha, hb']
  · intro r hr σ
    cases r1 with
    | none => simp at hr
    | some a =>
      cases r2 with
      | none => simp at hr
      | some b =>
        simp at hr
        subst hr
        rw [hop, ← h σ, propext (h1.2 a rfl σ), propext (h2.2 b rfl σ)]

theorem relational_aux (n : Nat) : ∀ (t : Ty) (ho : t.isOrd = true) (_ : t.unsigned = true) (lower upper : Expr t),
    (2 * (lower.size + upper.size) + 1 ≤ n → RelOk lower upper (relationalLeq ho lower upper)) ∧
    (2 * (lower.size + upper.size) ≤ n → RelOk lower upper (relationalLower ho lower upper)) := by
  induction n with
  | zero =>
    intro t ho hu lower upper
    refine ⟨fun h => by omega, fun h => ?_⟩
    have := lower.size_pos
    omega
  | succ n ih =>
    intro t ho hu lower upper
    have hl := lower.size_pos
    have hup := upper.size_pos
    have ihL : ∀ (t : Ty) (ho : t.isOrd = true) (_ : t.unsigned = true) (l u : Expr t),
        2 * (l.size + u.size) + 1 ≤ n → RelOk l u (relationalLeq ho l u) := fun t ho hu l u => (ih t ho hu l u).1
    constructor
    · intro hn
      unfold relationalLeq
      split
      next htop =>
        refine ⟨fun _ => ⟨_, rfl⟩, fun r hr σ => ?_⟩
        cases hr
        have hlat := isLat_of_isTopLit _ htop
        rw [Expr.eval_isTopLit hlat _ htop]
        exact iff_of_true (boolLit_true σ) (Ty.le_top hlat _)
      next htop =>
        split
        next h a b =>
          simp only [Expr.size] at hn
          refine RelOk.two _ And (fun _ _ _ => rfl) (ihL t ho hu lower a (by omega)) (ihL t ho hu lower b (by omega))
            id id fun σ => ?_
          exact (Ty.le_inf_iff ho).symm
        next h a b =>
          simp only [Expr.size] at hn
          refine RelOk.two _ Or (fun _ _ _ => rfl) (ihL t ho hu lower a (by omega)) (ihL t ho hu lower b (by omega))
            id id fun σ => ?_
          exact (Ty.le_sup_iff ho).symm
        next h a b =>
          simp only [Expr.size] at hn
          refine RelOk.two _ Or (fun _ _ _ => rfl) (ihL t ho hu lower b (by omega)) (ihL t ho hu a b (by omega))
            id id fun σ => ?_
          exact or_comm.trans (Ty.le_impl_iff h).symm
        next h a =>
          simp only [Expr.size] at hn
          split
          next hlt =>
            have hev : ∀ σ : Env, t.le (lower.eval σ) ((Expr.un (.not h) a).eval σ) ↔ t.le (a.eval σ) t.bot := by
              intro σ
              rw [Expr.eval_isTopLit h _ hlt, Ty.top_le_iff h, Ty.le_bot_iff h]
              exact Ty.not_eq_top h
            split
            next a' ha =>
              obtain ⟨rfl, rfl⟩ := onlyEUReal_eq ha
              obtain ⟨h1, h2⟩ := ihL .eureal rfl rfl a .fracZero (by simp only [Expr.fracZero, Expr.size]; omega)
              refine ⟨fun _ => h1 (by simp), fun r hr σ => (h2 r hr σ).trans ?_⟩
              refine Iff.trans ?_ (hev σ).symm
              have : Expr.fracZero.eval σ = Ty.bot .eureal := by
                show (((0 : ℚ≥0) : ℝ≥0) : ℝ≥0∞) = 0
                rw [NNRat.cast_zero, ENNReal.coe_zero]
              rw [this]
            next ha =>
              refine ⟨fun hb => ?_, fun r hr => (nomatch hr)⟩
              obtain ⟨e', he'⟩ := onlyEUReal_some a h hb
              rw [he'] at ha
              cases ha
          next hlt =>
            exact (ih t ho hu lower _).2 (by simp only [Expr.size]; omega)
        next =>
          exact (ih t ho hu lower _).2 (by omega)
    · intro hn
      unfold relationalLower
      split
      next hbot =>
        refine ⟨fun _ => ⟨_, rfl⟩, fun r hr σ => ?_⟩
        cases hr
        exact iff_of_true (boolLit_true σ) (isBotLit_le hu _ hbot σ _)
      next hbot =>
        split
        next h a b =>
          simp only [Expr.size] at hn
          refine RelOk.two _ Or (fun _ _ _ => rfl) (ihL t ho hu a upper (by omega)) (ihL t ho hu b upper (by omega))
            id id fun σ => ?_
          exact (Ty.inf_le_iff ho).symm
        next h a b =>
          simp only [Expr.size] at hn
          refine RelOk.two _ And (fun _ _ _ => rfl) (ihL t ho hu a upper (by omega)) (ihL t ho hu b upper (by omega))
            id id fun σ => ?_
          exact (Ty.sup_le_iff ho).symm
        next h a b =>
          simp only [Expr.size] at hn
          refine RelOk.two _ Or (fun _ _ _ => rfl) (ihL t ho hu b upper (by omega)) (ihL t ho hu b a (by omega))
            id id fun σ => ?_
          exact or_comm.trans (Ty.coimpl_le_iff h).symm
        next h a b =>
          simp only [Expr.size] at hn
          have h1 := ihL t ho hu b a (by omega)
          constructor
          · intro hb
            obtain ⟨x, hx⟩ := h1.1 hb
            obtain ⟨u', hu'⟩ := onlyEUReal_some upper h hb
            have hs := Expr.onlyEUReal_size hu'
            obtain ⟨y, hy⟩ := (ihL .eureal rfl rfl .inftyLit u'
              (by simp only [Expr.inftyLit, Expr.size]; have := a.size_pos; omega)).1 (by simp)
            rw [hx]
            simp only [Option.bind_eq_bind, Option.bind_some]
            split
            next u'' hu'' =>
              rw [hu'] at hu''
              cases hu''
              simp [hy]
            next hu'' => rw [hu'] at hu''; cases hu''
          · intro r hr σ
            cases hx : relationalLeq ho b a with
            | none => rw [hx] at hr; cases hr
            | some x =>
              rw [hx] at hr
              simp only [Option.bind_eq_bind, Option.bind_some] at hr
              split at hr
              next u' hu' =>
                obtain ⟨rfl, rfl⟩ := onlyEUReal_eq hu'
                have h2 := ihL .eureal rfl rfl .inftyLit upper
                  (by simp only [Expr.inftyLit, Expr.size]; have := a.size_pos; omega)
                cases hy : relationalLeq (t := .eureal) rfl .inftyLit upper with
                | none => rw [hy] at hr; cases hr
                | some y =>
                  rw [hy] at hr
                  cases hr
                  rw [Expr.tv_or, propext (h1.2 x hx σ), propext (h2.2 y hy σ)]
                  show _ ↔ Ty.le .eureal (Ty.cocompare .eureal (a.eval σ) (b.eval σ)) (upper.eval σ)
                  by_cases hle : Ty.le .eureal (b.eval σ) (a.eval σ)
                  · rw [(Ty.cocompare_eq_bot (t := .eureal) rfl).2 hle]
                    exact iff_of_true (Or.inl hle) (Ty.bot_le (t := .eureal) rfl _)
                  · have : Ty.cocompare .eureal (a.eval σ) (b.eval σ) = Ty.top .eureal := if_neg hle
                    rw [this]
                    exact ⟨fun h => h.resolve_left hle, Or.inr⟩
              next hu' => cases hr
        next =>
          refine ⟨fun _ => ⟨_, rfl⟩, fun r hr σ => ?_⟩
          cases hr
          exact Iff.rfl

theorem relationalLeq_ok {t : Ty} (ho : t.isOrd = true) (hu : t.unsigned = true) (lower upper : Expr t) :
    RelOk lower upper (relationalLeq ho lower upper) :=
  (relational_aux _ t ho hu lower upper).1 (Nat.le_refl _)

end
end Caesar
