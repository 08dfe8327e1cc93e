import Verif.Opt.Preserve
import Verif.Opt.RelationalSound

/-!
# The relational optimisation calls no new functions (proof infrastructure)
-/

namespace Caesar

variable {K : Lang}

theorem onlyEUReal_clean {t : Ty} {e : Expr t} {e' : Expr .eureal} (h : e.onlyEUReal = some e') (he : e.Clean K) : e'.Clean K := by
  cases t <;> simp [Expr.onlyEUReal] at h
  exact h ▸ he

theorem clean_two {op : BinOp .bool} {r1 r2 : Option (Expr .bool)} (h1 : ∀ r, r1 = some r → r.Clean K) (h2 : ∀ r, r2 = some r → r.Clean K) :
    ∀ r, (do return .bin op (← r1) (← r2) : Option (Expr .bool)) = some r → r.Clean K := by
  intro r hr
  cases r1 with
  | none => cases hr
  | some a =>
    cases r2 with
    | none => cases hr
    | some b => cases hr; exact ⟨h1 a rfl, h2 b rfl⟩

theorem relational_aux_clean (hK : ∀ t, K.cmp t) (n : Nat) : ∀ (t : Ty) (ho : t.isOrd = true) (lower upper : Expr t), lower.Clean K → upper.Clean K →
    (2 * (lower.size + upper.size) + 1 ≤ n → ∀ r, relationalLeq ho lower upper = some r → r.Clean K) ∧
    (2 * (lower.size + upper.size) ≤ n → ∀ r, relationalLower ho lower upper = some r → r.Clean K) := by
  induction n with
  | zero =>
    intro t ho lower upper _ _
    have := lower.size_pos
    exact ⟨fun h => by omega, fun h => by omega⟩
  | succ n ih =>
    intro t ho lower upper hlc huc
    have hl := lower.size_pos
    have hup := upper.size_pos
    have ihL : ∀ (t : Ty) (ho : t.isOrd = true) (l u : Expr t), l.Clean K → u.Clean K →
        2 * (l.size + u.size) + 1 ≤ n → ∀ r, relationalLeq ho l u = some r → r.Clean K := fun t ho l u h1 h2 => (ih t ho l u h1 h2).1
    constructor
    · intro hn
      unfold relationalLeq
      split
      next => intro r hr; cases hr; exact trivial
      next htop =>
        split
        next h a b =>
          simp only [Expr.size] at hn
          exact clean_two (ihL t ho lower a hlc huc.1 (by omega)) (ihL t ho lower b hlc huc.2 (by omega))
        next h a b =>
          simp only [Expr.size] at hn
          exact clean_two (ihL t ho lower a hlc huc.1 (by omega)) (ihL t ho lower b hlc huc.2 (by omega))
        next h a b =>
          simp only [Expr.size] at hn
          exact clean_two (ihL t ho lower b hlc huc.2 (by omega)) (ihL t ho a b huc.1 huc.2 (by omega))
        next h a =>
          simp only [Expr.size] at hn
          split
          next =>
            split
            next a' ha =>
              exact ihL .eureal rfl a' .fracZero (onlyEUReal_clean ha huc) trivial
                (by have := Expr.onlyEUReal_size ha; simp only [Expr.fracZero, Expr.size]; omega)
            next => exact fun r hr => nomatch hr
          next => exact (ih t ho lower _ hlc huc).2 (by simp only [Expr.size]; omega)
        next => exact (ih t ho lower _ hlc huc).2 (by omega)
    · intro hn
      unfold relationalLower
      split
      next => intro r hr; cases hr; exact trivial
      next htop =>
        split
        next h a b =>
          simp only [Expr.size] at hn
          exact clean_two (ihL t ho a upper hlc.1 huc (by omega)) (ihL t ho b upper hlc.2 huc (by omega))
        next h a b =>
          simp only [Expr.size] at hn
          exact clean_two (ihL t ho a upper hlc.1 huc (by omega)) (ihL t ho b upper hlc.2 huc (by omega))
        next h a b =>
          simp only [Expr.size] at hn
          exact clean_two (ihL t ho b upper hlc.2 huc (by omega)) (ihL t ho b a hlc.2 hlc.1 (by omega))
        next h a b =>
          simp only [Expr.size] at hn
          have h1 := ihL t ho b a hlc.2 hlc.1 (by omega)
          intro r hr
          cases hx : relationalLeq ho b a with
          | none => rw [hx] at hr; cases hr
          | some x =>
            rw [hx] at hr
            simp only [Option.bind_eq_bind, Option.bind_some] at hr
            split at hr
            next u' hu' =>
              have h2 := ihL .eureal rfl .inftyLit u' trivial (onlyEUReal_clean hu' huc)
                (by have := Expr.onlyEUReal_size hu'; simp only [Expr.inftyLit, Expr.size]; have := a.size_pos; omega)
              cases hy : relationalLeq (t := .eureal) rfl .inftyLit u' with
              | none => rw [hy] at hr; cases hr
              | some y => rw [hy] at hr; cases hr; exact ⟨h1 x hx, h2 y hy⟩
            next => cases hr
        next => intro r hr; cases hr; exact ⟨fun _ => hK t, hlc, huc⟩

theorem relationalLeq_clean (hK : ∀ t, K.cmp t) {t : Ty} (ho : t.isOrd = true) {lower upper : Expr t} (h1 : lower.Clean K) (h2 : upper.Clean K) {r}
    (h : relationalLeq ho lower upper = some r) : r.Clean K :=
  (relational_aux_clean hK _ t ho lower upper h1 h2).1 (Nat.le_refl _) r h

theorem relational_clean (hK : ∀ t, K.cmp t) {t : Ty} (e : Expr t) : e.Clean K → ∀ r, e.relational = some r → r.Clean K := by
  induction e with
  | var _ => intro h r hr; cases hr; exact h
  | lit _ => intro h r hr; cases hr; exact h
  | call f args ih =>
    intro h r hr
    unfold Expr.relational at hr
    obtain ⟨args', h1, hr⟩ := Option.bind_eq_some_iff.1 hr
    cases hr
    exact ⟨h.1, fun i => ih i (h.2 i) _ (optTraverse_some h1 i)⟩
  | ite c a b ih1 ih2 ih3 =>
    intro h r hr
    unfold Expr.relational at hr
    obtain ⟨c', h1, hr⟩ := Option.bind_eq_some_iff.1 hr
    obtain ⟨a', h2, hr⟩ := Option.bind_eq_some_iff.1 hr
    obtain ⟨b', h3, hr⟩ := Option.bind_eq_some_iff.1 hr
    cases hr
    exact ⟨ih1 h.1 _ h1, ih2 h.2.1 _ h2, ih3 h.2.2 _ h3⟩
  | bin op a b ih1 ih2 =>
    intro h r hr
    unfold Expr.relational at hr
    obtain ⟨a', h2, hr⟩ := Option.bind_eq_some_iff.1 hr
    obtain ⟨b', h3, hr⟩ := Option.bind_eq_some_iff.1 hr
    cases hr
    exact ⟨ih1 h.1 _ h2, ih2 h.2 _ h3⟩
  | rel op a b ih1 ih2 =>
    intro h r hr
    unfold Expr.relational at hr
    obtain ⟨a', h2, hr⟩ := Option.bind_eq_some_iff.1 hr
    obtain ⟨b', h3, hr⟩ := Option.bind_eq_some_iff.1 hr
    have ha := ih1 h.2.1 _ h2
    have hb := ih2 h.2.2 _ h3
    cases op with
    | le ho => exact relationalLeq_clean hK ho ha hb hr
    | ge ho => exact relationalLeq_clean hK ho hb ha hr
    | eq =>
      dsimp only at hr
      split at hr
      next ho =>
        split at hr
        · exact relationalLeq_clean hK ho ha hb hr
        · split at hr
          · exact relationalLeq_clean hK ho hb ha hr
          · cases hr; exact ⟨fun _ => hK _, ha, hb⟩
      next => cases hr; exact ⟨fun _ => hK _, ha, hb⟩
    | _ => cases hr; exact ⟨fun _ => hK _, ha, hb⟩
  | un op a ih =>
    intro h r hr
    unfold Expr.relational at hr
    obtain ⟨a', h2, hr⟩ := Option.bind_eq_some_iff.1 hr
    cases hr
    exact ih h a' h2
  | embed a ih =>
    intro h r hr
    unfold Expr.relational at hr
    obtain ⟨a', h2, hr⟩ := Option.bind_eq_some_iff.1 hr
    cases hr
    exact ih h a' h2
  | iverson a ih =>
    intro h r hr
    unfold Expr.relational at hr
    obtain ⟨a', h2, hr⟩ := Option.bind_eq_some_iff.1 hr
    cases hr
    exact ih h a' h2
  | cast c a ih =>
    intro h r hr
    unfold Expr.relational at hr
    obtain ⟨a', h2, hr⟩ := Option.bind_eq_some_iff.1 hr
    cases hr
    exact ih h a' h2
  | quant op h' vs a ih =>
    intro h r hr
    unfold Expr.relational at hr
    obtain ⟨a', h2, hr⟩ := Option.bind_eq_some_iff.1 hr
    cases hr
    exact ⟨h.1, ih h.2 _ h2⟩
  | subst x e a ih1 ih2 =>
    intro h r hr
    unfold Expr.relational at hr
    obtain ⟨a', h2, hr⟩ := Option.bind_eq_some_iff.1 hr
    obtain ⟨b', h3, hr⟩ := Option.bind_eq_some_iff.1 hr
    cases hr
    exact ⟨h.1, ih1 h.2.1 _ h2, ih2 h.2.2 _ h3⟩

end Caesar
