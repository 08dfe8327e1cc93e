import Verif.Procs.Monotonicity
import Verif.VcgenSound
import Verif.Witness

/-!
# C29: the monotonicity check only accepts monotone procedures
-/

open scoped ENNReal NNReal

namespace Caesar
set_option linter.unusedSectionVars false

/-- C29: if the check accepts the body of a procedure of direction `d`, the meaning of the body is monotone in the
postexpectation (procedure calls being monotone). -/
def C29_full : Prop :=
  ∀ (_ : Doms) (_ : Interp) (C : SemCtx), (∀ l f a, Monotone (C.call l f a)) → ∀ (d : Dir) (B : Stmt),
    monoAccepts d B = true → ∀ φ ψ : Exp, φ ≤ ψ → vcSem C B φ ≤ vcSem C B ψ

/-- C29 is violated: a body consisting of one `negate` is accepted although it is not monotone. (The comment of
`src/procs/monotonicity.rs:1-9` demands that each `negate` is followed by a `conegate`; this is not checked.) -/
theorem C29_not_full : ¬ C29_full := by
  intro h
  let _ := unitDoms
  let _ := unitInterp
  have h1 := h unitDoms unitInterp ⟨.lfp, fun _ _ _ φ => φ⟩ (fun _ _ _ => monotone_id) .down (.negate .down) rfl
    (fun _ => 0) (fun _ => 1) (fun _ => zero_le_one) zeroEnv
  change (if (0 : ℝ≥0∞) = 0 then (⊤ : ℝ≥0∞) else 0) ≤ (if (1 : ℝ≥0∞) = 0 then (⊤ : ℝ≥0∞) else 0) at h1
  simp at h1

/-- C29 is violated even if the final direction is checked: the direction is threaded through the branches of a
conditional, so `if b { negate } else { conegate }` ends in the initial direction. -/
theorem C29_branches : let _ := unitDoms; let _ := unitInterp
    ∃ (C : SemCtx) (B : Stmt) (φ ψ : Exp), (∀ l f a, Monotone (C.call l f a)) ∧ monoVisit .down B = some .down ∧
      φ ≤ ψ ∧ ¬ vcSem C B φ ≤ vcSem C B ψ := by
  intro _ _
  refine ⟨⟨.lfp, fun _ _ _ φ => φ⟩, .ite (Expr.boolLit true) (.negate .down) (.negate .up), fun _ => 0, fun _ => 1,
    fun _ _ _ => monotone_id, rfl, fun _ => zero_le_one, fun h => ?_⟩
  have h1 := h zeroEnv
  have ht : (Expr.boolLit true).tv zeroEnv := rfl
  simp [vcSem, ht] at h1

/-- Every branch and every loop body ends in the direction in which it begins. -/
def Stmt.BranchesReturn : Dir → Stmt → Prop
  | d, .seq a b => a.BranchesReturn d ∧ ∀ d', monoVisit d a = some d' → b.BranchesReturn d'
  | d, .demonic a b | d, .angelic a b | d, .additive a b | d, .ite _ a b =>
    a.BranchesReturn d ∧ b.BranchesReturn d ∧ monoVisit d a = some d ∧ monoVisit d b = some d
  | d, .while _ s => s.BranchesReturn d ∧ monoVisit d s = some d
  | d, .annot _ s => s.BranchesReturn d
  | _, _ => True

/-! ## Helper lemma -/

variable [Doms] [Interp]

/-- Monotone or antitone, depending on whether the direction is restored. -/
def MonoDir (d d' : Dir) (f : Exp → Exp) : Prop := if d = d' then Monotone f else Antitone f

theorem vcSem_monoDir (C : SemCtx) (hC : ∀ l f a, Monotone (C.call l f a)) {S : Stmt} : ∀ {d d' : Dir},
    monoVisit d S = some d' → S.BranchesReturn d → MonoDir d d' (vcSem C S) := by
  classical
  induction S with
  | seq a b iha ihb =>
    intro d d' h hb
    obtain ⟨d1, h1, h2⟩ := Option.bind_eq_some_iff.mp (show (monoVisit d a).bind (fun d1 => monoVisit d1 b) = some d' from h)
    have ha := iha h1 hb.1
    have hb := ihb h2 (hb.2 d1 h1)
    unfold MonoDir at *
    by_cases e1 : d = d1 <;> by_cases e2 : d1 = d'
    · rw [if_pos e1] at ha; rw [if_pos e2] at hb; rw [if_pos (e1.trans e2)]; exact ha.comp hb
    · rw [if_pos e1] at ha; rw [if_neg e2] at hb; rw [if_neg (e1 ▸ e2)]; exact ha.comp_antitone hb
    · rw [if_neg e1] at ha; rw [if_pos e2] at hb; rw [if_neg (e2 ▸ e1)]; exact ha.comp_monotone hb
    · rw [if_neg e1] at ha; rw [if_neg e2] at hb
      rw [if_pos (show d = d' by cases d <;> cases d1 <;> cases d' <;> simp_all)]
      exact ha.comp hb
  | negate dn =>
    intro d d' h _
    unfold monoVisit at h
    split at h
    · exact nomatch h
    · obtain rfl := Option.some.inj h
      rw [MonoDir, if_neg (by cases d <;> decide)]
      intro φ ψ hle σ
      cases dn with
      | down =>
        show (if ψ σ = 0 then (⊤ : ℝ≥0∞) else 0) ≤ if φ σ = 0 then ⊤ else 0
        by_cases h0 : ψ σ = 0
        · rw [if_pos (show φ σ = 0 from le_zero_iff.mp (h0 ▸ hle σ))]; exact le_top
        · rw [if_neg h0]; exact zero_le
      | up =>
        show (if ψ σ = ⊤ then (0 : ℝ≥0∞) else ⊤) ≤ if φ σ = ⊤ then 0 else ⊤
        by_cases h0 : φ σ = ⊤
        · rw [if_pos (show ψ σ = ⊤ from top_le_iff.mp (h0 ▸ hle σ)), if_pos h0]
        · rw [if_neg h0]; exact le_top
  | demonic a b iha ihb =>
    intro d d' h hb
    obtain rfl : d = d' := by
      have : (monoVisit d a).bind (fun d1 => monoVisit d1 b) = some d' := h
      rw [hb.2.2.1] at this
      exact Option.some.inj (hb.2.2.2.symm.trans this)
    have ha := iha hb.2.2.1 hb.1
    have hb := ihb hb.2.2.2 hb.2.1
    rw [MonoDir, if_pos rfl] at *
    exact fun φ ψ hle σ => min_le_min (ha hle σ) (hb hle σ)
  | angelic a b iha ihb =>
    intro d d' h hb
    obtain rfl : d = d' := by
      have : (monoVisit d a).bind (fun d1 => monoVisit d1 b) = some d' := h
      rw [hb.2.2.1] at this
      exact Option.some.inj (hb.2.2.2.symm.trans this)
    have ha := iha hb.2.2.1 hb.1
    have hb := ihb hb.2.2.2 hb.2.1
    rw [MonoDir, if_pos rfl] at *
    exact fun φ ψ hle σ => max_le_max (ha hle σ) (hb hle σ)
  | additive a b iha ihb =>
    intro d d' h hb
    obtain rfl : d = d' := by
      have : (monoVisit d a).bind (fun d1 => monoVisit d1 b) = some d' := h
      rw [hb.2.2.1] at this
      exact Option.some.inj (hb.2.2.2.symm.trans this)
    have ha := iha hb.2.2.1 hb.1
    have hb := ihb hb.2.2.2 hb.2.1
    rw [MonoDir, if_pos rfl] at *
    exact fun φ ψ hle σ => add_le_add (ha hle σ) (hb hle σ)
  | ite c a b iha ihb =>
    intro d d' h hb
    obtain rfl : d = d' := by
      have : (monoVisit d a).bind (fun d1 => monoVisit d1 b) = some d' := h
      rw [hb.2.2.1] at this
      exact Option.some.inj (hb.2.2.2.symm.trans this)
    have ha := iha hb.2.2.1 hb.1
    have hb := ihb hb.2.2.2 hb.2.1
    rw [MonoDir, if_pos rfl] at *
    intro φ ψ hle σ
    show (if c.tv σ then _ else _) ≤ if c.tv σ then _ else _
    split
    · exact ha hle σ
    · exact hb hle σ
  | «while» c s ih =>
    intro d d' h hb
    obtain rfl : d = d' := Option.some.inj (hb.2.symm.trans h)
    rw [MonoDir, if_pos rfl]
    intro φ ψ hle
    refine fixpoint_mono fun X σ => ?_
    show (if c.tv σ then _ else _) ≤ if c.tv σ then _ else _
    split
    · exact le_rfl
    · exact hle σ
  | annot an s ih => intro d d' h hb; exact ih (d := d) (d' := d') h hb
  | skip | varDecl | varInit | assign | sample | call | havoc | assert | assume | compare | validate | tick | weigh | label =>
    intro d d' h _
    obtain rfl := Option.some.inj h
    rw [MonoDir, if_pos rfl]
    exact vcSem_mono C hC (by trivial)

/-! ## Property -/

/-- C29, for bodies in which each branch and each loop body restores the direction and which end in the initial
direction. Missing: both conditions are not checked by the code (`C29_not_full`, `C29_branches`). -/
theorem C29_partial (C : SemCtx) (hC : ∀ l f a, Monotone (C.call l f a)) (d : Dir) (B : Stmt)
    (_ : monoAccepts d B = true) (hend : monoVisit d B = some d) (hb : B.BranchesReturn d) :
    ∀ φ ψ : Exp, φ ≤ ψ → vcSem C B φ ≤ vcSem C B ψ := by
  have h := vcSem_monoDir C hC hend hb
  rw [MonoDir, if_pos rfl] at h
  exact fun φ ψ hle => h hle

/-- In particular, every accepted body which contains no `negate` at all is monotone. -/
theorem C29_noNeg (C : SemCtx) (hC : ∀ l f a, Monotone (C.call l f a)) (B : Stmt) (h : B.NoNeg) :
    (∀ d, monoAccepts d B = true) ∧ ∀ φ ψ : Exp, φ ≤ ψ → vcSem C B φ ≤ vcSem C B ψ := by
  refine ⟨fun d => ?_, fun φ ψ hle => vcSem_mono C hC h hle⟩
  have key : ∀ {S : Stmt}, S.NoNeg → ∀ d, monoVisit d S = some d := by
    intro S
    induction S with
    | seq a b iha ihb | demonic a b iha ihb | angelic a b iha ihb | additive a b iha ihb | ite c a b iha ihb =>
      intro h d
      show (monoVisit d a).bind (fun d1 => monoVisit d1 b) = some d
      rw [iha h.1]
      exact ihb h.2 d
    | «while» c s ih => intro h d; exact ih h d
    | annot an s ih => intro h d; exact ih h d
    | negate => intro h; exact h.elim
    | _ => intro h d; rfl
  show (monoVisit d B).isSome = true
  rw [key h d]
  rfl

/-- A body with a `negate` and a `conegate`, inside a branch, is accepted and monotone. -/
example (C : SemCtx) (hC : ∀ l f a, Monotone (C.call l f a)) (c : Expr .bool) (e : Expr .eureal) (φ ψ : Exp) (h : φ ≤ ψ) :
    vcSem C (.ite c (Stmt.block [.negate .down, .assert .up e, .negate .up]) (.tick e)) φ ≤
    vcSem C (.ite c (Stmt.block [.negate .down, .assert .up e, .negate .up]) (.tick e)) ψ :=
  C29_partial C hC .down (.ite c (Stmt.block [.negate .down, .assert .up e, .negate .up]) (.tick e)) rfl rfl ⟨⟨trivial, fun _ _ => ⟨trivial, fun _ _ => ⟨trivial, fun _ _ => trivial⟩⟩⟩, trivial, rfl, rfl⟩
    φ ψ h

end Caesar
