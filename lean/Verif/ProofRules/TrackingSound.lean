import Verif.ProofRules.Tracking
import Verif.ProofRules.Unroll
import Verif.Props.C31

/-!
# Soundness of approximation tracking (proofs)
-/

open scoped ENNReal NNReal

namespace Caesar
set_option linter.unusedSectionVars false

/-- All loop annotations use the fixed point semantics `fk` (always the case when the procedure has a calculus
annotation). -/
def Stmt.FixIs (d : Dir) (calculus : Option CalculusType) (fk : FixKind) : Stmt → Prop
  | .seq a b | .demonic a b | .angelic a b | .additive a b | .ite _ a b => a.FixIs d calculus fk ∧ b.FixIs d calculus fk
  | .while _ s => s.FixIs d calculus fk
  | .annot an s => (an.isEncoding = true → an.inferFix calculus d = fk) ∧ s.FixIs d calculus fk
  | _ => True

/-- With a calculus annotation all loops of a procedure have the same semantics. -/
theorem Stmt.fixIs_calculus (d : Dir) (c : CalculusType) (S : Stmt) : S.FixIs d (some c) c.toFix := by
  induction S with
  | seq a b iha ihb | demonic a b iha ihb | angelic a b iha ihb | additive a b iha ihb | ite c a b iha ihb =>
    exact ⟨iha, ihb⟩
  | «while» c s ih => exact ih
  | annot an s ih => exact ⟨fun _ => rfl, ih⟩
  | _ => trivial

/-- All annotated loops use `@unroll` with terminators in `P`. -/
def Stmt.OnlyUnroll (P : Expr .eureal → Prop) : Stmt → Prop
  | .seq a b | .demonic a b | .angelic a b | .additive a b | .ite _ a b => a.OnlyUnroll P ∧ b.OnlyUnroll P
  | .while _ s => s.OnlyUnroll P
  | .annot (.unroll _ t) s => P t ∧ s.OnlyUnroll P
  | .annot (.slicing _) s => s.OnlyUnroll P
  | .annot _ _ => False
  | _ => True

section
variable [Doms] [Interp]

/-- Where fixed point iteration starts: bottom for least, top for greatest fixed points. -/
noncomputable def FixKind.start : FixKind → Exp
  | .lfp => fun _ => 0
  | .gfp => fun _ => ⊤

/-- The kind includes the side on which induction approximates. -/
def FixKind.InductionSide : FixKind → ApproxKind → Prop
  | .gfp, k => k.under = true
  | .lfp, k => k.over = true

/-- The kind includes the side on which unrolling approximates. -/
def FixKind.UnrollSide : FixKind → ApproxKind → Prop
  | .gfp, k => k.over = true
  | .lfp, k => k.under = true

/-- Loop rules are used where the tracked approximation can be right:
induction with the fixed point it is sound for, unrolling with terminator bottom (top) for least (greatest) fixed
points, and neither loop rules nor negations in `additive` branches, which the analysis does not look at. -/
def Stmt.RulesOk (d : Dir) (fk : FixKind) : Stmt → Prop
  | .seq a b | .demonic a b | .angelic a b | .ite _ a b => a.RulesOk d fk ∧ b.RulesOk d fk
  | .additive a b => (a.NoRules ∧ a.NoNeg) ∧ (b.NoRules ∧ b.NoNeg)
  | .while _ s => s.RulesOk d fk
  | .annot (.invariant _) s => fk.loopSem = d.inductionSem ∧ s.RulesOk d fk
  | .annot (.kInduction _ _) s => fk.loopSem = d.inductionSem ∧ s.RulesOk d fk
  | .annot (.unroll _ t) s => (t.ev = fk.start) ∧ s.RulesOk d fk
  | .annot (.slicing _) s => s.RulesOk d fk
  | .annot _ _ => False
  | _ => True

/-- The side on which unrolling approximates. -/
def FixKind.unrollDir : FixKind → Dir
  | .lfp => .down
  | .gfp => .up

theorem encodeLoops_unroll_sound {d : Dir} {C : SemCtx} (hC : ∀ l f a, Monotone (C.call l f a)) {fk : FixKind}
    (hl : C.loop = fk.loopSem) {S : Stmt} : ∀ {S' : Stmt}, encodeLoops d S = .ok S' → S.NoNeg →
      S.OnlyUnroll (fun t => t.ev = fk.start) →
      (∀ φ, fk.unrollDir.Le (vcSem C S' φ) (vcSem C S φ)) ∧
      ∀ c b', S' = .while c b' → ∃ b, S = .while c b ∧ ∀ φ, fk.unrollDir.Le (vcSem C b' φ) (vcSem C b φ) := by
  induction S with
  | seq a b iha ihb =>
    intro S' h hN hU
    obtain ⟨a', b', h1, h2, rfl⟩ := encode_seq_ok h
    exact ⟨fun φ => ((iha h1 hN.1 hU.1).1 _).trans (Dir.Le.apply (vcSem_mono C hC hN.1) ((ihb h2 hN.2 hU.2).1 φ)),
      fun _ _ h => nomatch h⟩
  | demonic a b iha ihb =>
    intro S' h hN hU
    obtain ⟨a', b', h1, h2, rfl⟩ := encode_seq_ok h
    exact ⟨fun φ => Dir.Le.pointwise (f := fun _ x y => min x y) (fun _ _ _ _ _ => min_le_min)
      ((iha h1 hN.1 hU.1).1 φ) ((ihb h2 hN.2 hU.2).1 φ), fun _ _ h => nomatch h⟩
  | angelic a b iha ihb =>
    intro S' h hN hU
    obtain ⟨a', b', h1, h2, rfl⟩ := encode_seq_ok h
    exact ⟨fun φ => Dir.Le.pointwise (f := fun _ x y => max x y) (fun _ _ _ _ _ => max_le_max)
      ((iha h1 hN.1 hU.1).1 φ) ((ihb h2 hN.2 hU.2).1 φ), fun _ _ h => nomatch h⟩
  | additive a b iha ihb =>
    intro S' h hN hU
    obtain ⟨a', b', h1, h2, rfl⟩ := encode_seq_ok h
    exact ⟨fun φ => Dir.Le.pointwise (f := fun _ x y => x + y) (fun _ _ _ _ _ => add_le_add)
      ((iha h1 hN.1 hU.1).1 φ) ((ihb h2 hN.2 hU.2).1 φ), fun _ _ h => nomatch h⟩
  | ite c a b iha ihb =>
    classical
    intro S' h hN hU
    obtain ⟨a', b', h1, h2, rfl⟩ := encode_seq_ok h
    exact ⟨fun φ => Dir.Le.pointwise (f := fun σ x y => if c.tv σ then x else y)
      (fun σ x x' y y' hx hy => by
        show ite _ _ _ ≤ ite _ _ _
        split
        · exact hx
        · exact hy)
      ((iha h1 hN.1 hU.1).1 φ) ((ihb h2 hN.2 hU.2).1 φ), fun _ _ h => nomatch h⟩
  | «while» c s ih =>
    intro S' h hN hU
    obtain ⟨s', h1, h2⟩ := bind_ok h
    cases h2
    have hi := (ih h1 hN hU).1
    refine ⟨while_larger hi, fun _ _ h => ?_⟩
    cases h
    exact ⟨s, rfl, hi⟩
  | annot an s ih =>
    intro S' h hN hU
    obtain ⟨s', h1, h2⟩ := bind_ok h
    rcases encodeAnnot_cases h2 with ⟨n, rfl, rfl⟩ | ⟨I, c, b', rfl, rfl, rfl⟩ | ⟨k, I, c, b', rfl, hk, rfl, rfl⟩ |
      ⟨k, t, c, b', rfl, rfl, rfl⟩
    · exact ⟨(ih h1 hN hU).1, fun _ _ h => nomatch h⟩
    · exact hU.elim
    · exact hU.elim
    · obtain ⟨b, rfl, hb⟩ := (ih h1 hN hU.2).2 c b' rfl
      refine ⟨fun φ => ?_, fun _ _ h => (encodeUnroll_ne_while h).elim⟩
      have hm : Monotone (loopFun C c b φ) := loopFun_mono (vcSem_mono C hC (S := b) hN) c φ
      have hb' : Monotone (loopFun C c b' φ) :=
        loopFun_mono (vcSem_mono C hC (S := b') (encodeLoops_noNeg (S := .while c b) (S' := .while c b') h1 hN)) c φ
      show fk.unrollDir.Le _ (vcSem C (.while c b) φ)
      rw [encodeUnroll_sem, heyConst_sem, vcSem_while, hl]
      have h3 := iterate_larger hb' (fun X => loopFun_le (c := c) (φ := φ) (hb X)) t.ev k
      refine h3.trans ?_
      have ht := hU.1
      cases fk with
      | lfp => exact iterate_le_of_prefixed hm (lfp_prefixed hm) (ht ▸ fun _ => zero_le) k
      | gfp => exact le_iterate_of_postfixed hm (gfp_postfixed hm) (ht ▸ fun _ => le_top) k
  | _ =>
    intro S' h _ _
    cases h
    exact ⟨fun φ => Dir.Le.refl _ _, fun _ _ h => nomatch h⟩

theorem Stmt.NoRules.onlyInduction {S : Stmt} (h : S.NoRules) : S.OnlyInduction := by
  induction S with
  | seq a b iha ihb | demonic a b iha ihb | angelic a b iha ihb | additive a b iha ihb | ite c a b iha ihb =>
    exact ⟨iha h.1, ihb h.2⟩
  | «while» c s ih => exact ih h
  | annot an s ih =>
    cases an with
    | slicing n => exact ih h
    | _ => exact h.elim
  | _ => trivial

theorem Stmt.NoRules.onlyUnroll {S : Stmt} {P : Expr .eureal → Prop} (h : S.NoRules) : S.OnlyUnroll P := by
  induction S with
  | seq a b iha ihb | demonic a b iha ihb | angelic a b iha ihb | additive a b iha ihb | ite c a b iha ihb =>
    exact ⟨iha h.1, ihb h.2⟩
  | «while» c s ih => exact ih h
  | annot an s ih =>
    cases an with
    | slicing n => exact ih h
    | _ => exact h.elim
  | _ => trivial

/-- If the analysis says something at all, there are no (relevant) negations. -/
theorem trackApprox_noNeg {d : Dir} {calculus : Option CalculusType} {fk : FixKind} {S : Stmt} (hR : S.RulesOk d fk)
    {p : ApproxKind → Prop} (hp : ¬ p .unknown) (h : ∀ k ∈ trackApprox d calculus S, p k) : S.NoNeg := by
  induction S with
  | seq a b iha ihb | demonic a b iha ihb | angelic a b iha ihb | ite c a b iha ihb =>
    exact ⟨iha hR.1 fun k hk => h k (List.mem_append_left _ hk), ihb hR.2 fun k hk => h k (List.mem_append_right _ hk)⟩
  | additive a b => exact ⟨hR.1.2, hR.2.2⟩
  | «while» c s ih => exact ih hR h
  | annot an s ih =>
    have h' : ∀ k ∈ trackApprox d calculus s, p k := by
      intro k hk
      refine h k ?_
      show k ∈ if _ then _ else _
      split
      · exact List.mem_append_left _ hk
      · exact hk
    cases an with
    | slicing n => exact ih hR h'
    | invariant I => exact ih hR.2 h'
    | kInduction k I => exact ih hR.2 h'
    | unroll k t => exact ih hR.2 h'
    | _ => exact hR.elim
  | negate d => exact absurd (h _ (List.mem_singleton.2 rfl)) hp
  | _ => trivial

/-- The rules used in a program that is classified as an approximation on the induction side. -/
theorem trackApprox_induction {d : Dir} {calculus : Option CalculusType} {fk : FixKind} {S : Stmt}
    (hR : S.RulesOk d fk) (hF : S.FixIs d calculus fk)
    (h : ∀ k ∈ trackApprox d calculus S, fk.InductionSide k) :
    S.OnlyInduction ∧ (fk.loopSem ≠ d.inductionSem → S.NoRules) := by
  induction S with
  | seq a b iha ihb | demonic a b iha ihb | angelic a b iha ihb | ite c a b iha ihb =>
    have ha := iha hR.1 hF.1 fun k hk => h k (List.mem_append_left _ hk)
    have hb := ihb hR.2 hF.2 fun k hk => h k (List.mem_append_right _ hk)
    exact ⟨⟨ha.1, hb.1⟩, fun hn => ⟨ha.2 hn, hb.2 hn⟩⟩
  | additive a b =>
    exact ⟨⟨hR.1.1.onlyInduction, hR.2.1.onlyInduction⟩, fun _ => ⟨hR.1.1, hR.2.1⟩⟩
  | «while» c s ih => exact ih hR hF h
  | annot an s ih =>
    cases an with
    | slicing n => exact ih hR hF.2 h
    | invariant I =>
      exact ⟨(ih hR.2 hF.2 fun k hk => h k (List.mem_append_left _ hk)).1, fun hn => absurd hR.1 hn⟩
    | kInduction k I =>
      exact ⟨(ih hR.2 hF.2 fun k hk => h k (List.mem_append_left _ hk)).1, fun hn => absurd hR.1 hn⟩
    | unroll k t =>
      exfalso
      have h1 := h _ (List.mem_append_right _ (List.mem_singleton.2 rfl))
      rw [hF.1 rfl] at h1
      cases fk <;> cases h1
    | _ => exact hR.elim
  | _ => exact ⟨trivial, fun _ => trivial⟩

/-- The rules used in a program that is classified as an approximation on the unrolling side. -/
theorem trackApprox_unroll {d : Dir} {calculus : Option CalculusType} {fk : FixKind} {S : Stmt}
    (hR : S.RulesOk d fk) (hF : S.FixIs d calculus fk)
    (h : ∀ k ∈ trackApprox d calculus S, fk.UnrollSide k) :
    S.OnlyUnroll (fun t => t.ev = fk.start) := by
  induction S with
  | seq a b iha ihb | demonic a b iha ihb | angelic a b iha ihb | ite c a b iha ihb =>
    exact ⟨iha hR.1 hF.1 fun k hk => h k (List.mem_append_left _ hk),
      ihb hR.2 hF.2 fun k hk => h k (List.mem_append_right _ hk)⟩
  | additive a b => exact ⟨hR.1.1.onlyUnroll, hR.2.1.onlyUnroll⟩
  | «while» c s ih => exact ih hR hF h
  | annot an s ih =>
    cases an with
    | slicing n => exact ih hR hF.2 h
    | unroll k t => exact ⟨hR.1, ih hR.2 hF.2 fun k hk => h k (List.mem_append_left _ hk)⟩
    | invariant I =>
      exfalso
      have h1 := h _ (List.mem_append_right _ (List.mem_singleton.2 rfl))
      rw [hF.1 rfl] at h1
      cases fk <;> cases h1
    | kInduction k I =>
      exfalso
      have h1 := h _ (List.mem_append_right _ (List.mem_singleton.2 rfl))
      rw [hF.1 rfl] at h1
      cases fk <;> cases h1
    | _ => exact hR.elim
  | _ => trivial

theorem trackApprox_sound {d : Dir} {calculus : Option CalculusType} {C : SemCtx} (hC : C.Regular) {fk : FixKind}
    (hl : C.loop = fk.loopSem) {S S' : Stmt} (hR : S.RulesOk d fk) (hF : S.FixIs d calculus fk) {A : Var → Prop}
    (hL : S.LocalsOk A) {φ : Exp} (hφ : Ignores A φ) (h : encodeLoops d S = .ok S') :
    (ApproxKind.infimum (trackApprox d calculus S)).Describes (vcSem C S' φ) (vcSem C S φ) := by
  have hind : S.NoNeg → (S.OnlyInduction ∧ (fk.loopSem ≠ d.inductionSem → S.NoRules)) →
      (match fk with | .gfp => vcSem C S' φ ≤ vcSem C S φ | .lfp => vcSem C S φ ≤ vcSem C S' φ) := by
    intro hN hI
    by_cases hd : fk.loopSem = d.inductionSem
    · have h1 := (encodeLoops_sound hC (hl.trans hd) S).1 h hN hI.1 hL hφ
      cases fk <;> cases d <;> first | exact h1 | cases hd
    · have h1 := encodeLoops_noRules (d := d) (hI.2 hd)
      cases h1.symm.trans h
      cases fk <;> exact le_rfl
  have hunr : S.NoNeg →
      S.OnlyUnroll (fun t => t.ev = fk.start) →
      (match fk with | .lfp => vcSem C S' φ ≤ vcSem C S φ | .gfp => vcSem C S φ ≤ vcSem C S' φ) := by
    intro hN hU
    have h1 := (encodeLoops_unroll_sound hC.mono hl h hN hU).1 φ
    cases fk <;> exact h1
  constructor
  · intro hu
    have hu' := ((infimum_under _ _).1.1 hu).2
    have hN := trackApprox_noNeg hR (p := fun k => k.under = true) (by decide) hu'
    cases fk with
    | gfp => exact hind hN (trackApprox_induction hR hF hu')
    | lfp => exact hunr hN (trackApprox_unroll hR hF hu')
  · intro hu
    have hu' := ((infimum_under _ _).2.1 hu).2
    have hN := trackApprox_noNeg hR (p := fun k => k.over = true) (by decide) hu'
    cases fk with
    | lfp => exact hind hN (trackApprox_induction hR hF hu')
    | gfp => exact hunr hN (trackApprox_unroll hR hF hu')

end

end Caesar
