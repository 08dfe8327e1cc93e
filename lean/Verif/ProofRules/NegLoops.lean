import Verif.ProofRules.LoopsSound
import Verif.Props.C29

/-!
# Loops in programs with negations (proofs)

The proof rules are applied with the direction of the procedure (`src/proof_rules/mod.rs:288-289,314`), not with the direction
at the loop. Negations outside of loops do no harm if every loop is in a context of the direction of the procedure.
-/

open scoped ENNReal NNReal

namespace Caesar
set_option linter.unusedSectionVars false

/-- No negations in loops. -/
def Stmt.LoopsNoNeg : Stmt → Prop
  | .seq a b | .demonic a b | .angelic a b | .additive a b | .ite _ a b => a.LoopsNoNeg ∧ b.LoopsNoNeg
  | .while _ s => s.NoNeg
  | .annot _ s => s.LoopsNoNeg
  | _ => True

/-- Loops occur only at places where the direction is `d₀`, if the statement starts in direction `d`. -/
def Stmt.LoopsAt (d₀ : Dir) : Dir → Stmt → Prop
  | d, .seq a b => a.LoopsAt d₀ d ∧ ∀ d', monoVisit d a = some d' → b.LoopsAt d₀ d'
  | d, .demonic a b | d, .angelic a b | d, .additive a b | d, .ite _ a b => a.LoopsAt d₀ d ∧ b.LoopsAt d₀ d
  | d, .while _ _ => d = d₀
  | d, .annot _ s => s.LoopsAt d₀ d
  | _, _ => True

theorem Stmt.NoNeg.loops {S : Stmt} (h : S.NoNeg) : S.LoopsNoNeg := by
  induction S with
  | seq a b iha ihb | demonic a b iha ihb | angelic a b iha ihb | additive a b iha ihb | ite c a b iha ihb => exact ⟨iha h.1, ihb h.2⟩
  | «while» c s _ => exact h
  | annot an s ih => exact ih h
  | _ => trivial

theorem encodeLoops_loopsNoNeg {d : Dir} {S S' : Stmt} (h : encodeLoops d S = .ok S') (hS : S.LoopsNoNeg) : S'.LoopsNoNeg := by
  induction S generalizing S' with
  | seq a b iha ihb | demonic a b iha ihb | angelic a b iha ihb | additive a b iha ihb | ite c a b iha ihb =>
    obtain ⟨a', b', h1, h2, rfl⟩ := encode_seq_ok h
    exact ⟨iha h1 hS.1, ihb h2 hS.2⟩
  | «while» c s _ => exact (encodeLoops_noNeg h hS).loops
  | annot an s ih =>
    obtain ⟨s', h1, h2⟩ := bind_ok h
    rcases encodeAnnot_cases h2 with ⟨n, rfl, rfl⟩ | ⟨I, c, b', rfl, rfl, rfl⟩ | ⟨k, I, c, b', rfl, hk, rfl, rfl⟩ | ⟨k, t, c, b', rfl, rfl, rfl⟩
    · exact (ih h1 hS : s'.LoopsNoNeg)
    all_goals
      obtain ⟨b, rfl, hb⟩ := encode_while_inv h1
      exact (encodeLoops_noNeg h (S := .annot _ (.while c b)) hS).loops
  | _ => cases h; exact hS

section
variable [Doms] [Interp]

theorem vcSem_ignores_loops {C : SemCtx} (hC : C.Regular) {S : Stmt} (hS : S.LoopsNoNeg) {A : Var → Prop} {φ : Exp}
    (hφ : Ignores A φ) : Ignores (fun v => ¬ S.Reads v ∧ (A v ∨ S.Inits v)) (vcSem C S φ) := by
  classical
  induction S generalizing A φ with
  | negate d =>
    intro σ σ' h
    have h2 := hφ _ _ (h.mono fun v hv => hv.2.elim id False.elim)
    cases d <;> simp only [vcSem, h2]
  | seq a b iha ihb =>
    refine (iha hS.1 (ihb hS.2 hφ)).anti fun v hv => ⟨fun h => hv.1 (Or.inl h), ?_⟩
    by_cases hi : a.Inits v
    · exact Or.inr hi
    · exact Or.inl ⟨fun h => hv.1 (Or.inr ⟨hi, h⟩), hv.2.imp id fun h => h.resolve_left hi⟩
  | demonic a b iha ihb | angelic a b iha ihb | additive a b iha ihb =>
    intro σ σ' h
    have h1 := iha hS.1 hφ σ σ' (h.mono fun v hv => ⟨fun h => hv.1 (Or.inl h), hv.2.imp id And.left⟩)
    have h2 := ihb hS.2 hφ σ σ' (h.mono fun v hv => ⟨fun h => hv.1 (Or.inr h), hv.2.imp id And.right⟩)
    simp only [vcSem, h1, h2]
  | ite c a b iha ihb =>
    intro σ σ' h
    have h0 := tv_agreeOff (e := c) (fun v hv hf => hv.1 (Or.inl hf)) h
    have h1 := iha hS.1 hφ σ σ' (h.mono fun v hv => ⟨fun h => hv.1 (Or.inr (Or.inl h)), hv.2.imp id And.left⟩)
    have h2 := ihb hS.2 hφ σ σ' (h.mono fun v hv => ⟨fun h => hv.1 (Or.inr (Or.inr h)), hv.2.imp id And.right⟩)
    simp only [vcSem, h0, h1, h2]
  | «while» c s _ => exact vcSem_ignores hC (S := .while c s) hS hφ
  | annot an s ih => exact (ih hS hφ).anti fun v hv => ⟨fun h => hv.1 (Or.inr h), hv.2⟩
  | _ => exact vcSem_ignores hC (by trivial) hφ

/-- A bound behind a statement becomes a bound before it, in the direction there. -/
theorem MonoDir.le {d d' : Dir} {f : Exp → Exp} (h : MonoDir d d' f) {φ ψ : Exp} (hle : d'.Le φ ψ) : d.Le (f φ) (f ψ) := by
  unfold MonoDir at h
  split at h
  · next e => subst e; exact hle.apply h
  · next e => cases d <;> cases d' <;> first | exact (e rfl).elim | exact h hle

theorem encodeLoops_tracked {d₀ : Dir} {C : SemCtx} (hC : C.Regular) (hl : C.loop = d₀.inductionSem) (S : Stmt) :
    ∀ {d d' : Dir} {S' : Stmt} {A : Var → Prop} {φ : Exp}, encodeLoops d₀ S = .ok S' → monoVisit d S = some d' → S.BranchesReturn d →
      S.LoopsAt d₀ d → S.LoopsNoNeg → S.OnlyInduction → S.LocalsOk A → Ignores A φ → d.Le (vcSem C S' φ) (vcSem C S φ) := by
  induction S with
  | seq a b iha ihb =>
    intro d d' S' A φ h hv hb hat hN hI hL hφ
    obtain ⟨a', b', h1, h2, rfl⟩ := encode_seq_ok h
    obtain ⟨d1, v1, v2⟩ := Option.bind_eq_some_iff.mp (show (monoVisit d a).bind (fun d1 => monoVisit d1 b) = some d' from hv)
    have kb := ihb h2 v2 (hb.2 d1 v1) (hat.2 d1 v1) hN.2 hI.2 hL.1 hφ
    have hig := vcSem_ignores_loops hC (encodeLoops_loopsNoNeg h2 hN.2) hφ
    have ka := iha (φ := vcSem C b' φ) h1 v1 hb.1 hat.1 hN.1 hI.1 hL.2
      (hig.anti fun v hv => ⟨fun h => hv.1 (encodeLoops_reads h2 h), hv.2.imp id (encodeLoops_inits h2)⟩)
    exact ka.trans ((vcSem_monoDir C hC.mono v1 hb.1).le kb)
  | demonic a b iha ihb =>
    intro d d' S' A φ h hv hb hat hN hI hL hφ
    obtain ⟨a', b', h1, h2, rfl⟩ := encode_seq_ok h
    exact Dir.Le.pointwise (f := fun _ x y => min x y) (fun _ _ _ _ _ => min_le_min)
      (iha h1 hb.2.2.1 hb.1 hat.1 hN.1 hI.1 hL.1 hφ) (ihb h2 hb.2.2.2 hb.2.1 hat.2 hN.2 hI.2 hL.2 hφ)
  | angelic a b iha ihb =>
    intro d d' S' A φ h hv hb hat hN hI hL hφ
    obtain ⟨a', b', h1, h2, rfl⟩ := encode_seq_ok h
    exact Dir.Le.pointwise (f := fun _ x y => max x y) (fun _ _ _ _ _ => max_le_max)
      (iha h1 hb.2.2.1 hb.1 hat.1 hN.1 hI.1 hL.1 hφ) (ihb h2 hb.2.2.2 hb.2.1 hat.2 hN.2 hI.2 hL.2 hφ)
  | additive a b iha ihb =>
    intro d d' S' A φ h hv hb hat hN hI hL hφ
    obtain ⟨a', b', h1, h2, rfl⟩ := encode_seq_ok h
    exact Dir.Le.pointwise (f := fun _ x y => x + y) (fun _ _ _ _ _ => add_le_add)
      (iha h1 hb.2.2.1 hb.1 hat.1 hN.1 hI.1 hL.1 hφ) (ihb h2 hb.2.2.2 hb.2.1 hat.2 hN.2 hI.2 hL.2 hφ)
  | ite c a b iha ihb =>
    classical
    intro d d' S' A φ h hv hb hat hN hI hL hφ
    obtain ⟨a', b', h1, h2, rfl⟩ := encode_seq_ok h
    exact Dir.Le.pointwise (f := fun σ x y => if c.tv σ then x else y)
      (fun σ x x' y y' hx hy => by
        show ite _ _ _ ≤ ite _ _ _
        split
        · exact hx
        · exact hy)
      (iha h1 hb.2.2.1 hb.1 hat.1 hN.1 hI.1 hL.1 hφ) (ihb h2 hb.2.2.2 hb.2.1 hat.2 hN.2 hI.2 hL.2 hφ)
  | «while» c s _ =>
    intro d d' S' A φ h hv hb hat hN hI hL hφ
    cases (hat : d = d₀)
    exact (encodeLoops_sound hC hl (.while c s)).1 h hN hI hL hφ
  | annot an s ih =>
    intro d d' S' A φ h hv hb hat hN hI hL hφ
    obtain ⟨s', h1, h2⟩ := bind_ok h
    rcases encodeAnnot_cases h2 with ⟨n, rfl, rfl⟩ | ⟨I, c, b', rfl, rfl, rfl⟩ | ⟨k, I, c, b', rfl, hk, rfl, rfl⟩ | ⟨k, t, c, b', rfl, rfl, rfl⟩
    · have hL' : s.LocalsOk A := by
        cases s with
        | «while» c b =>
          obtain ⟨hl1, hl2⟩ := hL
          show b.LocalsOk _
          have : (fun v => A v ∧ ¬ (Annot.slicing n).Reads v ∧ ¬ c.Free v ∧ ¬ b.Reads v)
              = (fun v => A v ∧ ¬ c.Free v ∧ ¬ b.Reads v) := by
            funext v; simp [Annot.Reads]
          rw [this] at hl2
          exact hl2
        | _ => exact hL
      exact (ih h1 hv hb hat hN hI hL' hφ : d.Le (vcSem C s' φ) (vcSem C s φ))
    all_goals
      obtain ⟨b, rfl, -⟩ := encode_while_inv h1
      cases (hat : d = d₀)
      exact (encodeLoops_sound hC hl (.annot _ (.while c b))).1 h hN hI hL hφ
  | _ =>
    intro d d' S' A φ h hv hb hat hN hI hL hφ
    cases h
    exact Dir.Le.refl _ _

end

end Caesar
