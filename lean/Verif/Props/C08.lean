import Verif.Opt.RelationalSound
import Verif.Witness

/-!
# C08: the relational optimisation preserves the truth value
-/

open scoped ENNReal NNReal

namespace Caesar
set_option linter.unusedSectionVars false

/-- The comparisons which the optimisation looks at: `<=`, `>=`, `==`. -/
def RelOp.rewritten : {t : Ty} → RelOp t → Bool
  | _, .eq => true
  | _, .le _ => true
  | _, .ge _ => true
  | _, _ => false

/-- `P` holds of the operand type of every comparison `<=`, `>=`, `==` in the expression. -/
def Expr.CmpTypes (P : Ty → Prop) : {t : Ty} → Expr t → Prop
  | _, .var _ => True
  | _, .lit _ => True
  | _, .call _ args => ∀ i, (args i).CmpTypes P
  | _, .ite c a b => c.CmpTypes P ∧ a.CmpTypes P ∧ b.CmpTypes P
  | _, .bin _ a b => a.CmpTypes P ∧ b.CmpTypes P
  | _, .rel (s := s) op a b => (op.rewritten = true → P s) ∧ a.CmpTypes P ∧ b.CmpTypes P
  | _, .un _ a => a.CmpTypes P
  | _, .embed a => a.CmpTypes P
  | _, .iverson a => a.CmpTypes P
  | _, .cast _ a => a.CmpTypes P
  | _, .quant _ _ _ a => a.CmpTypes P
  | _, .subst _ e a => e.CmpTypes P ∧ a.CmpTypes P

/-- The full property: the result of the optimisation has the same value in every state, for all types. -/
def C08_full : Prop := ∀ (_ : Doms) (_ : Interp) (t : Ty) (e e' : Expr t),
  e.relational = some e' → ∀ σ : Env, e'.eval σ = e.eval σ

section
variable [Doms] [Interp]

theorem unsigned_of {t : Ty} (ho : t.isOrd = true) (h : t ≠ .int ∧ t ≠ .real) : t.unsigned = true := by
  cases t <;> simp_all [Ty.isOrd, Ty.isNum]

/-- For all expressions in which no `<=`, `>=`, `==` compares signed numbers (`Int`, `Real`), the result has the same
value in every state. Missing: signed operands, for which the claim is false (`C08_not_full`). -/
theorem C08_relational_preserves_value_partial {t : Ty} (e : Expr t)
    (h : e.CmpTypes fun s => s ≠ .int ∧ s ≠ .real) :
    ∀ e', e.relational = some e' → ∀ σ : Env, e'.eval σ = e.eval σ := by
  induction e with
  | var x => intro e' he' σ; cases he'; rfl
  | lit l => intro e' he' σ; cases he'; rfl
  | call f args ih =>
    intro e' he' σ
    unfold Expr.relational at he'
    cases hg : optTraverse f.args.length (fun i => (args i).relational) with
    | none => simp [hg] at he'
    | some g =>
      simp [hg] at he'
      subst he'
      rw [Expr.eval_call, Expr.eval_call]
      congr 1
      funext i
      exact ih i (h i) _ (optTraverse_some hg i) σ
  | ite c a b ih1 ih2 ih3 =>
    intro e' he' σ
    unfold Expr.relational at he'
    cases h1 : c.relational <;> cases h2 : a.relational <;> cases h3 : b.relational <;> simp [h1, h2, h3] at he'
    subst he'
    rw [Expr.eval_ite, Expr.eval_ite, ih1 h.1 _ h1, ih2 h.2.1 _ h2, ih3 h.2.2 _ h3]
  | bin op a b ih1 ih2 =>
    intro e' he' σ
    unfold Expr.relational at he'
    cases h1 : a.relational <;> cases h2 : b.relational <;> simp [h1, h2] at he'
    subst he'
    rw [Expr.eval_bin, Expr.eval_bin, ih1 h.1 _ h1, ih2 h.2 _ h2]
  | @rel s op a b ih1 ih2 =>
    intro e' he' σ
    unfold Expr.relational at he'
    cases h1 : a.relational with
    | none => simp [h1] at he'
    | some a' =>
      cases h2 : b.relational with
      | none => simp [h1, h2] at he'
      | some b' =>
        have e1 := ih1 h.2.1 _ h1 σ
        have e2 := ih2 h.2.2 _ h2 σ
        simp only [h1, h2, Option.bind_eq_bind, Option.bind_some] at he'
        cases op with
        | le ho =>
          refine propext (((relationalLeq_ok ho (unsigned_of ho (h.1 rfl)) a' b').2 _ he' σ).trans ?_)
          rw [e1, e2]; exact Iff.rfl
        | ge ho =>
          refine propext (((relationalLeq_ok ho (unsigned_of ho (h.1 rfl)) b' a').2 _ he' σ).trans ?_)
          rw [e1, e2]; exact Iff.rfl
        | eq =>
          dsimp only at he'
          split at he'
          next ho =>
            have hus := unsigned_of ho (h.1 rfl)
            split at he'
            next ht =>
              have hlat := isLat_of_isTopLit _ ht
              refine propext (((relationalLeq_ok ho hus a' b').2 _ he' σ).trans ?_)
              rw [e1, e2, Expr.eval_isTopLit hlat a ht, Ty.top_le_iff hlat, Expr.eval_rel]
              show _ ↔ a.eval σ = b.eval σ
              rw [Expr.eval_isTopLit hlat a ht]
              exact eq_comm
            next ht =>
              split at he'
              next hb =>
                refine propext (((relationalLeq_ok ho hus b' a').2 _ he' σ).trans ?_)
                rw [e1, e2]
                show _ ↔ a.eval σ = b.eval σ
                constructor
                · exact fun hle => Ty.le_antisymm (isBotLit_le hus a hb σ _) hle
                · intro heq; rw [heq]; exact Ty.le_refl _ _
              next hb =>
                cases he'
                rw [Expr.eval_rel, Expr.eval_rel, e1, e2]
          next ho =>
            cases he'
            rw [Expr.eval_rel, Expr.eval_rel, e1, e2]
        | ne => cases he'; rw [Expr.eval_rel, Expr.eval_rel, e1, e2]
        | lt ho => cases he'; rw [Expr.eval_rel, Expr.eval_rel, e1, e2]
        | gt ho => cases he'; rw [Expr.eval_rel, Expr.eval_rel, e1, e2]
  | un op a ih =>
    intro e' he' σ
    unfold Expr.relational at he'
    cases h1 : a.relational <;> simp [h1] at he'
    subst he'
    rw [Expr.eval_un, Expr.eval_un, ih h _ h1]
  | embed a ih =>
    intro e' he' σ
    unfold Expr.relational at he'
    cases h1 : a.relational <;> simp [h1] at he'
    subst he'
    rw [Expr.eval_embed, Expr.eval_embed, ih h _ h1]
  | iverson a ih =>
    intro e' he' σ
    unfold Expr.relational at he'
    cases h1 : a.relational <;> simp [h1] at he'
    subst he'
    rw [Expr.eval_iverson, Expr.eval_iverson, ih h _ h1]
  | cast c a ih =>
    intro e' he' σ
    unfold Expr.relational at he'
    cases h1 : a.relational <;> simp [h1] at he'
    subst he'
    rw [Expr.eval_cast, Expr.eval_cast, ih h _ h1]
  | quant op hl vs a ih =>
    intro e' he' σ
    unfold Expr.relational at he'
    cases h1 : a.relational <;> simp [h1] at he'
    subst he'
    rw [Expr.eval_quant, Expr.eval_quant, funext (ih h _ h1)]
  | subst x e a ih1 ih2 =>
    intro e' he' σ
    unfold Expr.relational at he'
    cases h1 : e.relational <;> cases h2 : a.relational <;> simp [h1, h2] at he'
    subst he'
    rw [Expr.eval_subst, Expr.eval_subst, ih1 h.1 _ h1, ih2 h.2 _ h2]

/-- The optimisation does not panic (produces no ill-typed comparison) if moreover no `<=`, `>=`, `==` compares Booleans. -/
theorem C08_relational_succeeds {t : Ty} (e : Expr t)
    (h : e.CmpTypes fun s => s ≠ .int ∧ s ≠ .real ∧ s ≠ .bool) : ∃ e', e.relational = some e' := by
  induction e with
  | var x => exact ⟨_, rfl⟩
  | lit l => exact ⟨_, rfl⟩
  | call f args ih =>
    obtain ⟨g, hg⟩ := optTraverse_isSome fun i => ih i (h i)
    unfold Expr.relational
    simp [hg]
  | ite c a b ih1 ih2 ih3 =>
    obtain ⟨_, h1⟩ := ih1 h.1
    obtain ⟨_, h2⟩ := ih2 h.2.1
    obtain ⟨_, h3⟩ := ih3 h.2.2
    unfold Expr.relational
    simp [h1, h2, h3]
  | bin op a b ih1 ih2 =>
    obtain ⟨_, h1⟩ := ih1 h.1
    obtain ⟨_, h2⟩ := ih2 h.2
    unfold Expr.relational
    simp [h1, h2]
  | @rel s op a b ih1 ih2 =>
    obtain ⟨a', h1⟩ := ih1 h.2.1
    obtain ⟨b', h2⟩ := ih2 h.2.2
    unfold Expr.relational
    simp only [h1, h2, Option.bind_eq_bind, Option.bind_some]
    have key : ∀ (ho : s.isOrd = true), op.rewritten = true → ∀ l u : Expr s, ∃ r, relationalLeq ho l u = some r :=
      fun ho hr l u => (relationalLeq_ok ho (unsigned_of ho ⟨(h.1 hr).1, (h.1 hr).2.1⟩) l u).1 (h.1 hr).2.2
    cases op with
    | le ho => exact key ho rfl _ _
    | ge ho => exact key ho rfl _ _
    | eq =>
      dsimp only
      split
      next ho =>
        split
        · exact key ho rfl _ _
        · split
          · exact key ho rfl _ _
          · exact ⟨_, rfl⟩
      next => exact ⟨_, rfl⟩
    | _ => exact ⟨_, rfl⟩
  | subst x e a ih1 ih2 =>
    obtain ⟨_, h1⟩ := ih1 h.1
    obtain ⟨_, h2⟩ := ih2 h.2
    unfold Expr.relational
    simp [h1, h2]
  | _ =>
    rename_i ih
    obtain ⟨_, h1⟩ := ih h
    unfold Expr.relational
    simp [h1]

end

/-- The property fails for signed numbers: `0 <= x` on `Int` is rewritten to `true`. -/
theorem C08_not_full : ¬ C08_full := by
  intro h
  let _ := unitDoms
  let _ := unitInterp
  let x : Var := ⟨⟨"x", 0⟩, .int⟩
  have h1 := h unitDoms unitInterp .bool
    (.rel (.le (t := .int) rfl) (.cast .uintInt (.lit (.uint 0))) (.var x.id)) (.boolLit true)
    (by simp [Expr.relational, relationalLeq, relationalLower, Expr.isTopLit, Expr.isBotLit, Lit.isBot])
    (zeroEnv.upd x (-1 : ℤ))
  have h2 : Ty.le .int ((0 : ℕ) : ℤ) (zeroEnv.upd x (-1 : ℤ) x) := cast h1 (rfl : true = true)
  have h3 : ((0 : ℕ) : ℤ) ≤ (-1 : ℤ) := (Env.upd_same zeroEnv x (-1 : ℤ)) ▸ h2
  exact absurd h3 (by decide)

/-- `true == !b` is turned into an ill-typed comparison. -/
theorem C08_panics_on_booleans :
    (Expr.rel (s := .bool) .eq (.lit (.bool true)) (.un (.not rfl) (.var ⟨"b", 0⟩))).relational = none := by
  simp [Expr.relational, relationalLeq, Expr.isTopLit, Lit.isTop, Expr.onlyEUReal]

/-- Non-vacuity: `∞ == (a ⊓ (b → c))` satisfies the hypotheses, and is really rewritten. -/
example : (Expr.rel (s := .eureal) .eq .inftyLit
    (.bin (.inf rfl) (.var ⟨"a", 0⟩) (.bin (.impl rfl) (.var ⟨"b", 0⟩) (.var ⟨"c", 0⟩)))).CmpTypes
      fun s => s ≠ .int ∧ s ≠ .real ∧ s ≠ .bool :=
  ⟨fun _ => by simp, trivial, trivial, trivial, trivial⟩

example : (Expr.rel (s := .eureal) .eq .inftyLit
    (.bin (.inf rfl) (.var ⟨"a", 0⟩) (.bin (.impl rfl) (.var ⟨"b", 0⟩) (.var ⟨"c", 0⟩)))).relational =
    some (.bin .and (.rel (s := .eureal) (.le rfl) .inftyLit (.var ⟨"a", 0⟩))
      (.bin .or (.rel (s := .eureal) (.le rfl) .inftyLit (.var ⟨"c", 0⟩))
        (.rel (s := .eureal) (.le rfl) (.var ⟨"b", 0⟩) (.var ⟨"c", 0⟩)))) := by
  simp [Expr.relational, relationalLeq, relationalLower, Expr.isTopLit, Lit.isTop, Expr.isBotLit, Lit.isBot,
    Expr.inftyLit]

end Caesar
