import Verif.ProofRules.LoopsMono

/-!
# Unrolling (proofs)
-/

open scoped ENNReal NNReal

namespace Caesar
set_option linter.unusedSectionVars false

/-- No annotations except the ones for slicing messages. -/
def Stmt.NoRules : Stmt → Prop
  | .seq a b | .demonic a b | .angelic a b | .additive a b | .ite _ a b => a.NoRules ∧ b.NoRules
  | .while _ s => s.NoRules
  | .annot (.slicing _) s => s.NoRules
  | .annot _ _ => False
  | _ => True

/-- Statements without loop rules are left alone. -/
theorem encodeLoops_noRules {d : Dir} {S : Stmt} (h : S.NoRules) : encodeLoops d S = .ok S := by
  induction S with
  | seq a b iha ihb | demonic a b iha ihb | angelic a b iha ihb | additive a b iha ihb | ite c a b iha ihb =>
    simp only [encodeLoops, iha h.1, ihb h.2]; rfl
  | «while» c s ih => simp only [encodeLoops, ih h]; rfl
  | annot an s ih =>
    cases an with
    | slicing n => simp only [encodeLoops, ih h]; rfl
    | _ => exact h.elim
  | _ => rfl

theorem encode_unroll_inv {d : Dir} {k : Nat} {t : Expr .eureal} {c : Expr .bool} {b b' T : Stmt}
    (hb : encodeLoops d b = .ok b') (h : encodeLoops d (.annot (.unroll k t) (.while c b)) = .ok T) :
    T = encodeUnroll c b' k (heyConst t d) := by
  simp only [encodeLoops, hb] at h
  cases h
  rfl

section
variable [Doms] [Interp]

theorem iterate_le_of_prefixed {Φ : Exp → Exp} (hΦ : Monotone Φ) {X t : Exp} (hX : Φ X ≤ X) (ht : t ≤ X) (k : Nat) :
    Φ^[k] t ≤ X := by
  induction k with
  | zero => exact ht
  | succ k ih => rw [Function.iterate_succ_apply']; exact (hΦ ih).trans hX

theorem le_iterate_of_postfixed {Φ : Exp → Exp} (hΦ : Monotone Φ) {X t : Exp} (hX : X ≤ Φ X) (ht : X ≤ t) (k : Nat) :
    X ≤ Φ^[k] t := by
  induction k with
  | zero => exact ht
  | succ k ih => rw [Function.iterate_succ_apply']; exact hX.trans (hΦ ih)

theorem iterate_bot_mono {Φ : Exp → Exp} (hΦ : Monotone Φ) {t : Exp} (ht : t ≤ Φ t) {k k' : Nat} (h : k ≤ k') :
    Φ^[k] t ≤ Φ^[k'] t := by
  obtain ⟨n, rfl⟩ := Nat.exists_eq_add_of_le h
  rw [Function.iterate_add_apply]
  exact hΦ.iterate k (le_iterate_of_postfixed hΦ ht le_rfl n)

theorem iterate_top_anti {Φ : Exp → Exp} (hΦ : Monotone Φ) {t : Exp} (ht : Φ t ≤ t) {k k' : Nat} (h : k ≤ k') :
    Φ^[k'] t ≤ Φ^[k] t := by
  obtain ⟨n, rfl⟩ := Nat.exists_eq_add_of_le h
  rw [Function.iterate_add_apply]
  exact hΦ.iterate k (iterate_le_of_prefixed hΦ ht le_rfl n)

theorem isBotLit_ev {t : Expr .eureal} (h : t.isBotLit = true) : t.ev = fun _ => 0 :=
  funext fun σ => Expr.eval_isBotLit (t := .eureal) rfl t h σ

theorem isTopLit_ev {t : Expr .eureal} (h : t.isTopLit = true) : t.ev = fun _ => ⊤ :=
  funext fun σ => Expr.eval_isTopLit (t := .eureal) rfl t h σ

end

end Caesar
