import Verif.Procs.RecLoops
import Verif.Props.C24

/-!
# C27: modular verification of (mutually) recursive procedures

`recSem` (`Procs/RecSpec.lean`) is the meaning of the program in which calls run the real bodies.
-/

open scoped ENNReal NNReal

namespace Caesar
set_option linter.unusedSectionVars false

/-- What the front end guarantees for a program of procedures of direction `d`: parameters and specifications are
well-formed, input parameters are not assigned, calls have the right types, and the temporaries of the encoding do not
occur in the program. Bodies contain no `negate`. -/
structure ProgramWF (procs : ProcTable) (d : Dir) : Prop where
  dir : ∀ f p, procs f = some p → p.dir = d
  wf : ∀ f p, procs f = some p → p.WF
  temps : ∀ f p, procs f = some p → ∀ v, Temp procs v → v ∉ p.ins ∧ v ∉ p.outputs
  noNeg : ∀ f p B, procs f = some p → p.body = some B → B.NoNeg
  ins : ∀ f p B, procs f = some p → p.body = some B → ∀ x ∈ p.ins, ¬ B.Touched x
  fresh : ∀ f p B, procs f = some p → p.body = some B → ∀ v, Temp procs v → ¬ B.ReadsSome v
  calls : ∀ f p B, procs f = some p → p.body = some B → ∀ lhs g args, B.Calls lhs g args →
    ∃ q, procs g = some q ∧ CallWF q lhs args

section
variable [Doms] [Interp]

/-- Procedures without body mean something that satisfies their specification. -/
structure ExtOk (procs : ProcTable) (ext : ProcSem) : Prop where
  mono : ∀ f, Monotone (ext f)
  keeps : ∀ f p, procs f = some p → p.body = none → KeepsIns p (ext f)
  meets : ∀ f p, procs f = some p → p.body = none → p.Meets (ext f)

/-- The verification task of `p` with calls replaced by specifications has the best possible value in every state. -/
def ProcVerified (C : SemCtx) (procs : ProcTable) (p : Proc) : Prop :=
  ∀ d T, encodeProcVerify p = some (d, T) → ∃ declared T' declared', specCall procs d T declared = some (T', declared') ∧
    ∀ σ, vcSem C T' (topLitInLattice d).ev σ = (match d with | .down => ⊤ | .up => 0)

end

/-- C27: if all procedures verify with calls replaced by specifications, all procedures satisfy their specification
in the recursive semantics. -/
def C27_full : Prop :=
  ∀ (_ : Doms) (_ : Interp) (procs : ProcTable) (d : Dir) (C : SemCtx) (ext : ProcSem),
    ProgramWF procs d → ExtOk procs ext → (∀ l f a, Monotone (C.call l f a)) →
    (∀ f p, procs f = some p → ProcVerified C procs p) →
    ∀ f p, procs f = some p → p.Meets (recSem d C.loop procs ext f)

section
variable [Doms] [Interp]

omit [Doms] [Interp] in
theorem specCall_atoms (procs : ProcTable) (d d' : Dir) (es : List (Expr .eureal)) :
    (∀ s ∈ es.map fun e => wrapSuccess (.assume d' e), ∀ decl, specCall procs d s decl = some (s, decl)) ∧
    (∀ s ∈ es.map fun e => wrapError (.assert d' e), ∀ decl, specCall procs d s decl = some (s, decl)) := by
  constructor <;>
  · intro s hs decl
    obtain ⟨e, -, rfl⟩ := List.mem_map.mp hs
    rfl

/-- A verified procedure: its body with calls replaced by specifications satisfies the specification. -/
theorem meets_of_verified {C : SemCtx} {procs : ProcTable} {p : Proc} {B : Stmt} (hB : p.body = some B)
    (h : ProcVerified C procs p) : ∃ decl S decl', specCall procs p.dir B decl = some (S, decl') ∧ p.Meets (vcSem C S) := by
  have he : encodeProcVerify p = some (p.dir, Stmt.block ((p.requires.map fun e => wrapSuccess (.assume p.dir e)) ++ [B] ++
      (p.ensures.map fun e => wrapError (.assert p.dir e)))) := by
    unfold encodeProcVerify; rw [hB]
  obtain ⟨decl, T', decl', h1, h2⟩ := h _ _ he
  obtain ⟨S, declB, h3, rfl⟩ := specCall_task (specCall_atoms procs p.dir p.dir p.requires).1
    (specCall_atoms procs p.dir p.dir p.ensures).2 h1
  refine ⟨decl, S, declB, h3, ?_⟩
  let q : Proc := { p with body := some S }
  have hq : encodeProcVerify q = some (p.dir, Stmt.block ((p.requires.map fun e => wrapSuccess (.assume p.dir e)) ++ [S] ++
      (p.ensures.map fun e => wrapError (.assert p.dir e)))) := rfl
  unfold Proc.Meets
  cases hd : p.dir with
  | down =>
    have h4 := ((C26_proc C q S rfl hd _ _ hq).2).mp (by rw [hd] at h2 ⊢; exact h2)
    intro τ
    show combine p.dir _ τ ≤ vcSem C S (combine p.dir _) τ
    rw [hd]
    exact h4 τ
  | up =>
    have h4 := ((C26_coproc C q S rfl hd _ _ hq).2).mp (by rw [hd] at h2 ⊢; exact h2)
    intro τ
    show vcSem C S (combine p.dir _) τ ≤ combine p.dir _ τ
    rw [hd]
    exact h4 τ

/-- The specifications as meanings of the procedures. -/
noncomputable def specSem (procs : ProcTable) (ext : ProcSem) : ProcSem := fun f =>
  match procs f with
  | some p => specT p
  | none => ext f

theorem specSem_some {procs : ProcTable} {f : Ident} {p : Proc} (h : procs f = some p) (ext : ProcSem) :
    specSem procs ext f = specT p := by
  unfold specSem; rw [h]

theorem specSem_mono {procs : ProcTable} {ext : ProcSem} (h : ∀ f, Monotone (ext f)) (f : Ident) :
    Monotone (specSem procs ext f) := by
  unfold specSem
  cases procs f with
  | none => exact h f
  | some p => exact specT_mono p

theorem post_ignores {procs : ProcTable} {p : Proc} (hw : p.WF) (ht : ∀ v, Temp procs v → v ∉ p.ins ∧ v ∉ p.outputs) :
    Ignores (Temp procs) p.post := by
  intro σ σ' h
  have key : ∀ e ∈ p.ensures, e.ev σ' = e.ev σ := fun e he => ev_agreeOff (fun v hv hf =>
    (hw.ensures e he v hf).elim (ht v hv).1 (ht v hv).2) h
  unfold Proc.post combine
  cases p.dir with
  | down => exact iInf_congr fun e => iInf_congr fun he => key e he
  | up => exact iSup_congr fun e => iSup_congr fun he => key e he

/-- If the bodies satisfy the specifications, with calls having the meaning of specifications, the specifications are on
the safe side of one unfolding. -/
theorem specSem_unfold {procs : ProcTable} {d : Dir} {k : LoopSem} {ext : ProcSem} (hw : ProgramWF procs d) (he : ExtOk procs ext)
    (hm : ∀ f p B, procs f = some p → p.body = some B → p.Meets (vcSem (callCtx k procs (specSem procs ext)) B))
    (f : Ident) (φ : Exp) : d.Le (specSem procs ext f φ) (unfoldProcs k procs ext (specSem procs ext) f φ) := by
  have hmono := specSem_mono (procs := procs) he.mono
  cases hf : procs f with
  | none =>
    unfold specSem unfoldProcs
    simp only [hf]
    exact Dir.Le.refl d _
  | some p =>
    have hd := hw.dir f p hf
    cases hB : p.body with
    | none =>
      have h := specT_le (he.mono f) (he.keeps f p hf hB) (he.meets f p hf hB) φ
      rw [hd] at h
      unfold unfoldProcs
      rw [specSem_some hf]
      simp only [hf, hB]
      exact h
    | some B =>
      have h := specT_le (vcSem_mono _ (callCtx_mono (k := k) (procs := procs) hmono) (hw.noNeg f p B hf hB))
        (fun φ ψ τ h => vcSem_frame_of (callCtx_frame _ _ _) (M := fun v => B.Touched v) (fun v hv => hv)
          fun τ' hτ' => h τ' fun x hx => hτ' x (hw.ins f p B hf hB x hx)) (hm f p B hf hB) φ
      rw [hd] at h
      unfold unfoldProcs
      rw [specSem_some hf]
      simp only [hf, hB]
      exact h

/-- A body that verifies with calls replaced by specifications satisfies the specification with calls having the meaning
of specifications. -/
theorem meets_specSem {procs : ProcTable} {d : Dir} {C : SemCtx} {ext : ProcSem} (he : ∀ f, Monotone (ext f))
    (hdir : ∀ f p, procs f = some p → p.dir = d) (hwf : ∀ f p, procs f = some p → p.WF)
    (hpost : ∀ f p, procs f = some p → p.ensures ≠ [])
    (hC : ∀ l f a, Monotone (C.call l f a)) {p : Proc} {B : Stmt} (hB : p.body = some B) (hd : p.dir = d) (hw : p.WF)
    (ht : ∀ v, Temp procs v → v ∉ p.ins ∧ v ∉ p.outputs) (hN : B.NoNeg) (hT : ∀ v, Temp procs v → ¬ B.ReadsSome v)
    (hcalls : CallsOk procs B) (hv : ProcVerified C procs p) :
    p.Meets (vcSem (callCtx C.loop procs (specSem procs ext)) B) := by
  obtain ⟨decl, S, decl', h1, h2⟩ := meets_of_verified hB hv
  rw [hd] at h1
  have hle := specCall_le (k := C.loop) (procs := procs) hdir hwf hpost (specSem_mono (procs := procs) he)
    (fun g q hq => by rw [specSem_some hq]; exact specT_keepsIns q) (fun g q hq => by rw [specSem_some hq]; exact specT_meets q)
    hC rfl hN hT hcalls h1 (post_ignores hw ht)
  unfold Proc.Meets at h2 ⊢
  cases d with
  | down => rw [hd] at h2 ⊢; exact fun τ => (h2 τ).trans (hle τ)
  | up => rw [hd] at h2 ⊢; exact fun τ => (hle τ).trans (h2 τ)

/-- The recursive semantics satisfies specifications on the safe side of one unfolding. -/
theorem meets_recSem {procs : ProcTable} {d : Dir} {k : LoopSem} {ext : ProcSem} (hw : ProgramWF procs d) (he : ExtOk procs ext)
    (h : ∀ f φ, d.Le (specSem procs ext f φ) (unfoldProcs k procs ext (specSem procs ext) f φ)) (f : Ident) (p : Proc)
    (hf : procs f = some p) : p.Meets (recSem d k procs ext f) := by
  have hm := specT_meets p
  have hd := hw.dir f p hf
  unfold Proc.Meets at hm ⊢
  cases d with
  | down =>
    rw [hd] at hm ⊢
    intro τ
    refine (hm τ).trans ?_
    rw [← specSem_some hf ext]
    exact le_iSup₂ (f := fun (Γ : ProcSem) (_ : Γ ∈ {Γ : ProcSem | (∀ f, Monotone (Γ f)) ∧
      ∀ f φ, Γ f φ ≤ unfoldProcs k procs ext Γ f φ}) => Γ f p.post τ) (specSem procs ext) ⟨specSem_mono he.mono, h⟩
  | up =>
    rw [hd] at hm ⊢
    intro τ
    refine le_trans ?_ (hm τ)
    rw [← specSem_some hf ext]
    exact iInf₂_le (f := fun (Γ : ProcSem) (_ : Γ ∈ {Γ : ProcSem | (∀ f, Monotone (Γ f)) ∧
      ∀ f φ, unfoldProcs k procs ext Γ f φ ≤ Γ f φ}) => Γ f p.post τ) (specSem procs ext) ⟨specSem_mono he.mono, h⟩

/-- C27, for programs in which every procedure has a postcondition and calls do not clash (`NoClash`): if every
procedure verifies with calls replaced by specifications, then every procedure satisfies its specification in the recursive
semantics, for any number of mutually recursive procedures and without a bound on the depth of the recursion. -/
theorem C27_partial (procs : ProcTable) (d : Dir) (C : SemCtx) (ext : ProcSem) (hw : ProgramWF procs d) (he : ExtOk procs ext)
    (hC : ∀ l f a, Monotone (C.call l f a)) (hpost : ∀ f p, procs f = some p → p.ensures ≠ [])
    (hcl : ∀ f p B, procs f = some p → p.body = some B → ∀ lhs g args, B.Calls lhs g args →
      ∀ q, procs g = some q → NoClash q lhs args)
    (hv : ∀ f p, procs f = some p → ProcVerified C procs p) :
    ∀ f p, procs f = some p → p.Meets (recSem d C.loop procs ext f) := by
  refine meets_recSem hw he (specSem_unfold hw he fun f p B hf hB => ?_)
  refine meets_specSem he.mono hw.dir hw.wf hpost hC hB (hw.dir f p hf) (hw.wf f p hf) (hw.temps f p hf) (hw.noNeg f p B hf hB)
    (hw.fresh f p B hf hB) (fun lhs g args hc => ?_) (hv f p hf)
  obtain ⟨q, hq, hq'⟩ := hw.calls f p B hf hB lhs g args hc
  exact ⟨q, hq, hq', hcl f p B hf hB lhs g args hc q hq⟩

/-! ## Together with loops -/

/-- `procs'` is the program `procs` after the loops in all bodies have been replaced by their encodings. -/
def LoopsEncoded (d : Dir) (procs procs' : ProcTable) : Prop :=
  (∀ f, procs f = none → procs' f = none) ∧ ∀ f p, procs f = some p → ∃ b', procs' f = some { p with body := b' } ∧
    (p.body = none → b' = none) ∧ ∀ B, p.body = some B → ∃ B', encodeLoops d B = .ok B' ∧ b' = some B'

omit [Doms] [Interp] in
theorem LoopsEncoded.inv {d : Dir} {procs procs' : ProcTable} (h : LoopsEncoded d procs procs') {f : Ident} {p' : Proc}
    (hf : procs' f = some p') : ∃ p, procs f = some p ∧ p' = { p with body := p'.body } := by
  cases hp : procs f with
  | none => rw [h.1 f hp] at hf; exact nomatch hf
  | some p =>
    obtain ⟨b', h1, -⟩ := h.2 f p hp
    rw [h1] at hf
    obtain rfl := Option.some.inj hf
    exact ⟨p, rfl, rfl⟩

theorem callCtx_encoded {d : Dir} {procs procs' : ProcTable} (h : LoopsEncoded d procs procs') (k : LoopSem) (Γ : ProcSem) :
    callCtx k procs' Γ = callCtx k procs Γ := by
  unfold callCtx
  congr 1
  funext l f a φ σ
  cases hp : procs f with
  | none => rw [h.1 f hp]
  | some p =>
    obtain ⟨b', h1, -⟩ := h.2 f p hp
    rw [h1]
    rfl

theorem specSem_encoded {d : Dir} {procs procs' : ProcTable} (h : LoopsEncoded d procs procs') (ext : ProcSem) :
    specSem procs' ext = specSem procs ext := by
  unfold specSem
  funext f
  cases hp : procs f with
  | none => rw [h.1 f hp]
  | some p =>
    obtain ⟨b', h1, -⟩ := h.2 f p hp
    rw [h1]
    rfl

omit [Doms] [Interp] in
theorem temp_encoded {d : Dir} {procs procs' : ProcTable} (h : LoopsEncoded d procs procs') {v : Var} (hv : Temp procs' v) :
    Temp procs v := by
  obtain ⟨f, p', hf, hv⟩ := hv
  obtain ⟨p, hp, hpp⟩ := h.inv hf
  rw [hpp] at hv
  exact ⟨f, p, hp, hv⟩

/-- C27 for programs with loops annotated by `@invariant` and `@k_induction`: if every procedure verifies after loops and
calls have been replaced by their encodings, every procedure satisfies its specification in the semantics where calls run
the original bodies and loops mean their fixed points (`C.loop`: greatest for procs, least for coprocs). Variables that
loop bodies change without assigning to them are local to the loops (`LocalsOk`, see C18). -/
theorem C27_loops_partial (procs procs' : ProcTable) (d : Dir) (C : SemCtx) (ext : ProcSem) (henc : LoopsEncoded d procs procs')
    (hw : ProgramWF procs d) (he : ExtOk procs ext) (hC : ∀ l f a, Monotone (C.call l f a)) (hl : C.loop = d.inductionSem)
    (hpost : ∀ f p, procs f = some p → p.ensures ≠ [])
    (hcl : ∀ f p B, procs f = some p → p.body = some B → ∀ lhs g args, B.Calls lhs g args →
      ∀ q, procs g = some q → NoClash q lhs args)
    (hind : ∀ f p B, procs f = some p → p.body = some B → B.OnlyInduction)
    (hloc : ∀ f p B, procs f = some p → p.body = some B → B.LocalsOk (fun v => v ∉ p.ins ∧ v ∉ p.outputs))
    (hv : ∀ f p', procs' f = some p' → ProcVerified C procs' p') :
    ∀ f p, procs f = some p → p.Meets (recSem d C.loop procs ext f) := by
  refine meets_recSem hw he (specSem_unfold hw he fun f p B hf hB => ?_)
  obtain ⟨b', h1, -, h2⟩ := henc.2 f p hf
  obtain ⟨B', h3, rfl⟩ := h2 B hB
  have hm : ({ p with body := some B' } : Proc).Meets (vcSem (callCtx C.loop procs' (specSem procs' ext)) B') := by
    refine meets_specSem (d := d) he.mono ?_ ?_ ?_ hC rfl (hw.dir f p hf) ?_ ?_ (encodeLoops_noNeg h3 (hw.noNeg f p B hf hB)) ?_ ?_ (hv f _ h1)
    · intro g q' hq
      obtain ⟨q, hq, hqq⟩ := henc.inv hq
      rw [hqq]; exact hw.dir g q hq
    · intro g q' hq
      obtain ⟨q, hq, hqq⟩ := henc.inv hq
      have := hw.wf g q hq
      rw [hqq]; exact ⟨this.1, this.2, this.3, this.4, this.5, this.6⟩
    · intro g q' hq
      obtain ⟨q, hq, hqq⟩ := henc.inv hq
      rw [hqq]; exact hpost g q hq
    · have := hw.wf f p hf
      exact ⟨this.1, this.2, this.3, this.4, this.5, this.6⟩
    · exact fun v hv => hw.temps f p hf v (temp_encoded henc hv)
    · exact fun v hv h => hw.fresh f p B hf hB v (temp_encoded henc hv) (encodeLoops_readsSome h3 h)
    · intro lhs g args hc
      have hc := encodeLoops_calls h3 hc
      obtain ⟨q, hq, hq'⟩ := hw.calls f p B hf hB lhs g args hc
      have hn := hcl f p B hf hB lhs g args hc q hq
      obtain ⟨q', hq1, -⟩ := henc.2 g q hq
      exact ⟨_, hq1, ⟨hq'.1, hq'.2, hq'.3, hq'.4⟩, ⟨hn.1, hn.2, hn.3⟩⟩
  have hm : p.Meets (vcSem (callCtx C.loop procs' (specSem procs' ext)) B') := hm
  rw [callCtx_encoded henc, specSem_encoded henc] at hm
  have hreg := callCtx_regular (k := C.loop) (procs := procs) (specSem_mono (procs := procs) (ext := ext) he.mono)
  have hp : Ignores (fun v => v ∉ p.ins ∧ v ∉ p.outputs) p.post := by
    intro σ σ' h
    have key : ∀ e ∈ p.ensures, e.ev σ' = e.ev σ := fun e hee => ev_agreeOff (fun v hv hfr =>
      ((hw.wf f p hf).ensures e hee v hfr).elim hv.1 hv.2) h
    unfold Proc.post combine
    cases p.dir with
    | down => exact iInf_congr fun e => iInf_congr fun he => key e he
    | up => exact iSup_congr fun e => iSup_congr fun he => key e he
  have hle := (encodeLoops_sound hreg hl B).1 h3 (hw.noNeg f p B hf hB) (hind f p B hf hB) (hloc f p B hf hB) hp
  have hd := hw.dir f p hf
  unfold Proc.Meets at hm ⊢
  cases d with
  | down => simp only [hd] at hm ⊢; exact fun τ => (hm τ).trans (hle τ)
  | up => simp only [hd] at hm ⊢; exact fun τ => (hle τ).trans (hm τ)

/-! ## The recursive semantics is a fixed point -/

theorem unfoldProcs_le {k : LoopSem} {procs : ProcTable} {ext : ProcSem}
    (hn : ∀ f p B, procs f = some p → p.body = some B → B.NoNeg) {Γ Γ' : ProcSem} (hΓ : ∀ f, Monotone (Γ f))
    (h : ∀ f φ, Γ f φ ≤ Γ' f φ) (f : Ident) (φ : Exp) : unfoldProcs k procs ext Γ f φ ≤ unfoldProcs k procs ext Γ' f φ := by
  unfold unfoldProcs
  cases hf : procs f with
  | none => exact le_rfl
  | some p =>
    cases hB : p.body with
    | none => simp only [hB]; exact le_rfl
    | some B =>
      simp only [hB]
      exact vcSem_ctx_mono (C := callCtx k procs Γ) (C' := callCtx k procs Γ') rfl (callCtx_le h) (callCtx_mono hΓ) (hn f p B hf hB) φ

theorem unfoldProcs_mono {k : LoopSem} {procs : ProcTable} {ext : ProcSem} (he : ∀ f, Monotone (ext f))
    (hn : ∀ f p B, procs f = some p → p.body = some B → B.NoNeg) {Γ : ProcSem} (hΓ : ∀ f, Monotone (Γ f)) (f : Ident) :
    Monotone (unfoldProcs k procs ext Γ f) := by
  unfold unfoldProcs
  cases hf : procs f with
  | none => exact he f
  | some p =>
    cases hB : p.body with
    | none => simp only [hB]; exact he f
    | some B => simp only [hB]; exact vcSem_mono _ (callCtx_mono hΓ) (hn f p B hf hB)

/-- Unfolding the recursive semantics once does not change it: calls have the meaning of the bodies. -/
theorem recSem_fixed (d : Dir) (k : LoopSem) (procs : ProcTable) (ext : ProcSem) (he : ∀ f, Monotone (ext f))
    (hn : ∀ f p B, procs f = some p → p.body = some B → B.NoNeg) (f : Ident) (φ : Exp) :
    unfoldProcs k procs ext (recSem d k procs ext) f φ = recSem d k procs ext f φ := by
  cases d with
  | down =>
    let P : ProcSem → Prop := fun Γ => (∀ f, Monotone (Γ f)) ∧ ∀ f φ, Γ f φ ≤ unfoldProcs k procs ext Γ f φ
    have hle : ∀ Γ, P Γ → ∀ f φ, Γ f φ ≤ recSem .down k procs ext f φ := fun Γ hΓ f φ τ =>
      le_iSup₂ (f := fun (Γ : ProcSem) (_ : Γ ∈ {Γ : ProcSem | P Γ}) => Γ f φ τ) Γ hΓ
    have hm : ∀ f, Monotone (recSem .down k procs ext f) := fun f φ ψ h τ => iSup₂_mono fun Γ hΓ => hΓ.1 f h τ
    have h1 : ∀ f φ, recSem .down k procs ext f φ ≤ unfoldProcs k procs ext (recSem .down k procs ext) f φ := fun f φ τ =>
      iSup₂_le fun Γ hΓ => (hΓ.2 f φ τ).trans (unfoldProcs_le hn hΓ.1 (hle Γ hΓ) f φ τ)
    exact le_antisymm (hle _ ⟨unfoldProcs_mono he hn hm, unfoldProcs_le hn hm h1⟩ f φ) (h1 f φ)
  | up =>
    let P : ProcSem → Prop := fun Γ => (∀ f, Monotone (Γ f)) ∧ ∀ f φ, unfoldProcs k procs ext Γ f φ ≤ Γ f φ
    have hle : ∀ Γ, P Γ → ∀ f φ, recSem .up k procs ext f φ ≤ Γ f φ := fun Γ hΓ f φ τ =>
      iInf₂_le (f := fun (Γ : ProcSem) (_ : Γ ∈ {Γ : ProcSem | P Γ}) => Γ f φ τ) Γ hΓ
    have hm : ∀ f, Monotone (recSem .up k procs ext f) := fun f φ ψ h τ => iInf₂_mono fun Γ hΓ => hΓ.1 f h τ
    have h1 : ∀ f φ, unfoldProcs k procs ext (recSem .up k procs ext) f φ ≤ recSem .up k procs ext f φ := fun f φ τ =>
      le_iInf₂ fun Γ hΓ => (unfoldProcs_le hn hm (hle Γ hΓ) f φ τ).trans (hΓ.2 f φ τ)
    exact le_antisymm (h1 f φ) (hle _ ⟨unfoldProcs_mono he hn hm, unfoldProcs_le hn (unfoldProcs_mono he hn hm) h1⟩ f φ)

end

/-! ## Violation -/

/-- `proc q() -> () pre 1 post 1 { p() }`. -/
def callerProc : Proc :=
  ⟨⟨"q", 0⟩, .down, [], [], [.requires (.lit (.efrac 1)), .ensures (.lit (.efrac 1))], some (.call false [] ⟨"p", 0⟩ [])⟩

/-- The program with `halfProc` (no `post`, `weigh 1/2`) and its caller. -/
def halfProgram : ProcTable := fun f => if f = ⟨"p", 0⟩ then some halfProc else if f = ⟨"q", 0⟩ then some callerProc else none

theorem halfProgram_cases {f : Ident} {p : Proc} (h : halfProgram f = some p) :
    (f = ⟨"p", 0⟩ ∧ p = halfProc) ∨ (f = ⟨"q", 0⟩ ∧ p = callerProc) := by
  unfold halfProgram at h
  split at h
  · next hf => exact Or.inl ⟨hf, (Option.some.inj h).symm⟩
  · split at h
    · next hf => exact Or.inr ⟨hf, (Option.some.inj h).symm⟩
    · exact nomatch h

theorem oneLit_ev [Doms] [Interp] (σ : Env) : (.lit (.efrac 1) : Expr .eureal).ev σ = 1 := by
  show (((1 : ℚ≥0) : ℝ≥0) : ℝ≥0∞) = 1
  push_cast
  rfl

/-- C27 is violated for procedures without postcondition: `q` claims to return at least `1`, and both `p` and `q` verify,
but running `q` yields `1/2`. -/
theorem C27_not_full : ¬ C27_full := by
  intro h
  let _ := unitDoms
  let _ := unitInterp
  have hnt : ∀ v, ¬ Temp halfProgram v := by
    rintro v ⟨f, p, hp, hv⟩
    rcases halfProgram_cases hp with ⟨-, rfl⟩ | ⟨-, rfl⟩ <;> exact absurd hv List.not_mem_nil
  have hw : ProgramWF halfProgram .down := by
    refine ⟨?_, ?_, fun _ _ _ v hv => absurd hv (hnt v), ?_, ?_, fun _ _ _ _ _ v hv => absurd hv (hnt v), ?_⟩
    · intro f p hp
      rcases halfProgram_cases hp with ⟨-, rfl⟩ | ⟨-, rfl⟩ <;> rfl
    · intro f p hp
      rcases halfProgram_cases hp with ⟨-, rfl⟩ | ⟨-, rfl⟩
      · exact ⟨List.nodup_nil, fun e he => absurd he List.not_mem_nil, fun e he => absurd he List.not_mem_nil,
          fun e he => absurd he List.not_mem_nil, List.nodup_nil, fun x hx => absurd hx List.not_mem_nil⟩
      · refine ⟨List.nodup_nil, fun e he v hv => ?_, fun e he v hv => ?_, fun e he => ?_, List.nodup_nil,
          fun x hx => absurd hx List.not_mem_nil⟩
        all_goals
          obtain rfl := List.mem_singleton.mp (show e ∈ [(.lit (.efrac 1) : Expr .eureal)] from he)
        · exact hv.elim
        · exact hv.elim
        · trivial
    · intro f p B hp hB
      rcases halfProgram_cases hp with ⟨-, rfl⟩ | ⟨-, rfl⟩ <;> cases hB <;> trivial
    · intro f p B hp hB x hx
      rcases halfProgram_cases hp with ⟨-, rfl⟩ | ⟨-, rfl⟩ <;> exact absurd hx List.not_mem_nil
    · intro f p B hp hB lhs g args hc
      rcases halfProgram_cases hp with ⟨-, rfl⟩ | ⟨-, rfl⟩
      · cases hB; exact hc.elim
      · cases hB
        obtain ⟨rfl, rfl, rfl⟩ := hc
        exact ⟨halfProc, rfl, rfl, rfl, fun a ha => absurd ha List.not_mem_nil, fun x hx => absurd hx List.not_mem_nil⟩
  have he : ExtOk halfProgram (fun _ φ => φ) := by
    refine ⟨fun _ _ _ h => h, ?_, ?_⟩
    all_goals
      intro f p hp hB
      rcases halfProgram_cases hp with ⟨-, rfl⟩ | ⟨-, rfl⟩ <;> exact nomatch hB
  have h1 := h unitDoms unitInterp halfProgram .down havocCtx (fun _ φ => φ) hw he (regular_havoc _).mono ?_ ⟨"q", 0⟩ callerProc rfl
  · have h2 : callerProc.pre zeroEnv ≤ recSem .down .lfp halfProgram (fun _ φ => φ) ⟨"q", 0⟩ callerProc.post zeroEnv := h1 zeroEnv
    have hone : ∀ τ, (⨅ e ∈ [(.lit (.efrac 1) : Expr .eureal)], e.ev τ) = (1 : ℝ≥0∞) := by
      intro τ
      simp [oneLit_ev]
    have hpre : callerProc.pre zeroEnv = (1 : ℝ≥0∞) := hone zeroEnv
    have hpost : callerProc.post = fun _ => (1 : ℝ≥0∞) := funext hone
    rw [hpre, hpost] at h2
    have h3 : recSem .down .lfp halfProgram (fun _ φ => φ) ⟨"q", 0⟩ (fun _ => 1) zeroEnv ≤ halfLit.ev zeroEnv * 1 := by
      refine iSup₂_le fun Γ hΓ => ?_
      refine (hΓ.2 ⟨"q", 0⟩ (fun _ => 1) zeroEnv).trans ?_
      refine (iInf_le _ zeroEnv).trans ?_
      exact hΓ.2 ⟨"p", 0⟩ (fun _ => 1) zeroEnv
    have h4 := h2.trans h3
    rw [halfLit_ev, mul_one] at h4
    have h5 : (1 : ℝ≥0) ≤ 1 / 2 := by exact_mod_cast h4
    exact absurd h5 (by norm_num)
  · intro f p hp d T hT
    rcases halfProgram_cases hp with ⟨-, rfl⟩ | ⟨-, rfl⟩
    · obtain ⟨rfl, rfl⟩ := Prod.mk.inj (Option.some.inj hT)
      refine ⟨[], _, [], rfl, fun σ => ?_⟩
      show halfLit.ev σ * (⊤ : ℝ≥0∞) = ⊤
      rw [halfLit_ev]
      exact ENNReal.mul_top (by simp)
    · obtain ⟨rfl, rfl⟩ := Prod.mk.inj (Option.some.inj hT)
      refine ⟨[], _, [], rfl, fun σ => ?_⟩
      show (if (.lit (.efrac 1) : Expr .eureal).ev σ ≤ ⨅ σ' ∈ {σ' | Agree [] σ σ'}, min ((.lit (.efrac 1) : Expr .eureal).ev σ') ⊤
        then (⊤ : ℝ≥0∞) else _) = ⊤
      refine if_pos (le_iInf₂ fun σ' _ => ?_)
      rw [oneLit_ev, oneLit_ev, min_top_right]

/-! ## Non-vacuity -/

/-- `proc p(a) -> (r) pre a post r { { r = a } [] { r = p(a) } }`. -/
def recProc : Proc :=
  ⟨⟨"p", 0⟩, .down, [⟨⟨⟨"a", 0⟩, .eureal⟩, 1⟩], [⟨⟨"r", 0⟩, .eureal⟩], [.requires (.var ⟨"a", 0⟩), .ensures (.var ⟨"r", 0⟩)],
    some (.demonic (.assign ⟨⟨"r", 0⟩, .eureal⟩ (.var ⟨"a", 0⟩))
      (.call false [⟨⟨"r", 0⟩, .eureal⟩] ⟨"p", 0⟩ [⟨.eureal, .var ⟨"a", 0⟩⟩]))⟩

def recProgram : ProcTable := fun f => if f = ⟨"p", 0⟩ then some recProc else none

theorem recProgram_cases {f : Ident} {p : Proc} (h : recProgram f = some p) : f = ⟨"p", 0⟩ ∧ p = recProc := by
  unfold recProgram at h
  split at h
  · next hf => exact ⟨hf, (Option.some.inj h).symm⟩
  · exact nomatch h

/-- A recursive procedure: all hypotheses hold. -/
example [Doms] [Interp] (k : LoopSem) : recProc.Meets (recSem .down k recProgram (fun _ φ => φ) ⟨"p", 0⟩) := by
  classical
  have htemp : ∀ v, Temp recProgram v → v = ⟨⟨"old_a", 1⟩, .eureal⟩ := by
    rintro v ⟨f, p, hp, hv⟩
    obtain ⟨-, rfl⟩ := recProgram_cases hp
    exact List.mem_singleton.mp hv
  refine C27_partial recProgram .down ⟨k, fun l _ _ φ σ => ⨅ σ' ∈ {σ' | Agree l σ σ'}, φ σ'⟩ (fun _ φ => φ) ?_ ?_ (regular_havoc k).mono ?_ ?_ ?_
    ⟨"p", 0⟩ recProc rfl
  · refine ⟨?_, ?_, ?_, ?_, ?_, ?_, ?_⟩
    · intro f p hp; obtain ⟨-, rfl⟩ := recProgram_cases hp; rfl
    · intro f p hp
      obtain ⟨-, rfl⟩ := recProgram_cases hp
      exact ⟨idProc_wf.1, idProc_wf.2, idProc_wf.3, idProc_wf.4, idProc_wf.5, idProc_wf.6⟩
    · intro f p hp v hv
      obtain ⟨-, rfl⟩ := recProgram_cases hp
      rw [htemp v hv]
      decide
    · intro f p B hp hB; obtain ⟨-, rfl⟩ := recProgram_cases hp; cases hB; exact ⟨trivial, trivial⟩
    · intro f p B hp hB x hx
      obtain ⟨-, rfl⟩ := recProgram_cases hp
      cases hB
      obtain rfl := List.mem_singleton.mp (show x ∈ [(⟨⟨"a", 0⟩, .eureal⟩ : Var)] from hx)
      unfold Stmt.Touched
      exact not_or.mpr ⟨by unfold Stmt.Touched; decide, by unfold Stmt.Touched; decide⟩
    · intro f p B hp hB v hv
      obtain ⟨-, rfl⟩ := recProgram_cases hp
      cases hB
      rw [htemp v hv]
      refine not_or.mpr ⟨fun h => ?_, fun h => ?_⟩
      · exact absurd (show (⟨⟨"old_a", 1⟩, .eureal⟩ : Var) = ⟨⟨"a", 0⟩, .eureal⟩ from h) (by decide)
      · obtain ⟨a, ha, h⟩ := h
        obtain rfl := List.mem_singleton.mp ha
        exact absurd (show (⟨⟨"old_a", 1⟩, .eureal⟩ : Var) = ⟨⟨"a", 0⟩, .eureal⟩ from h) (by decide)
    · intro f p B hp hB lhs g args hc
      obtain ⟨-, rfl⟩ := recProgram_cases hp
      cases hB
      obtain ⟨rfl, rfl, rfl⟩ := hc.resolve_left id
      refine ⟨recProc, rfl, rfl, rfl, fun a ha x hx h => ?_, by decide⟩
      obtain rfl := List.mem_singleton.mp ha
      obtain rfl := List.mem_singleton.mp (show x ∈ [(⟨⟨"old_a", 1⟩, .eureal⟩ : Var)] from hx)
      exact absurd (show (⟨⟨"old_a", 1⟩, .eureal⟩ : Var) = ⟨⟨"a", 0⟩, .eureal⟩ from h) (by decide)
  · refine ⟨fun _ _ _ h => h, ?_, ?_⟩
    all_goals
      intro f p hp hB
      obtain ⟨-, rfl⟩ := recProgram_cases hp
      exact nomatch hB
  · intro f p hp; obtain ⟨-, rfl⟩ := recProgram_cases hp; exact List.cons_ne_nil _ _
  · intro f p B hp hB lhs g args hc q hq
    obtain ⟨-, rfl⟩ := recProgram_cases hp
    obtain ⟨-, rfl⟩ := recProgram_cases hq
    cases hB
    obtain ⟨rfl, rfl, rfl⟩ := hc.resolve_left id
    refine ⟨List.nodup_singleton _, ⟨fun _ q hq => absurd hq List.not_mem_nil, trivial⟩,
      ⟨fun _ q hq => absurd hq List.not_mem_nil, trivial⟩⟩
  · intro f p hp d T hT
    obtain ⟨-, rfl⟩ := recProgram_cases hp
    obtain ⟨rfl, rfl⟩ := Prod.mk.inj (Option.some.inj hT)
    refine ⟨[], _, [], rfl, fun σ => ?_⟩
    let a : Expr .eureal := .var ⟨"a", 0⟩
    let r : Expr .eureal := .var ⟨"r", 0⟩
    have hcall : ∀ σ' : Env, (⊤ : ℝ≥0∞) ≤ if r.ev σ' ≤ min (r.ev σ') ⊤ then (⊤ : ℝ≥0∞) else 0 :=
      fun σ' => by rw [min_top_right, if_pos le_rfl]
    have h2 : a.ev σ ≤ min (min (r.ev (σ.upd ⟨⟨"r", 0⟩, .eureal⟩ (a.eval σ))) ⊤)
        (min (a.ev σ) (⨅ σ' ∈ {σ' | Agree [(⟨⟨"r", 0⟩, .eureal⟩ : Var)] σ σ'},
          if r.ev σ' ≤ min (r.ev σ') ⊤ then (⊤ : ℝ≥0∞) else 0)) := by
      rw [min_top_right]
      refine le_min (le_of_eq (Env.upd_same σ (⟨⟨"r", 0⟩, .eureal⟩ : Var) _).symm) (le_min le_rfl ?_)
      exact le_top.trans (le_iInf₂ fun σ' _ => hcall σ')
    exact if_pos h2

/-- `proc p(a) -> (r) pre a post r { @invariant(a) while true { r = a }; r = p(a) }`. -/
def recLoopBody : Stmt :=
  .seq (.annot (.invariant (.var ⟨"a", 0⟩)) (.while (Expr.boolLit true) (.assign ⟨⟨"r", 0⟩, .eureal⟩ (.var ⟨"a", 0⟩))))
    (.call false [⟨⟨"r", 0⟩, .eureal⟩] ⟨"p", 0⟩ [⟨.eureal, .var ⟨"a", 0⟩⟩])

def recLoopEncoded : Stmt :=
  .seq (transformKInduction .down 1 (.var ⟨"a", 0⟩) (Expr.boolLit true) (.assign ⟨⟨"r", 0⟩, .eureal⟩ (.var ⟨"a", 0⟩)))
    (.call false [⟨⟨"r", 0⟩, .eureal⟩] ⟨"p", 0⟩ [⟨.eureal, .var ⟨"a", 0⟩⟩])

def recLoopProc : Proc := { recProc with body := some recLoopEncoded }

/-- The encoding of the loop, the discipline on local variables and the verification of the encoded procedure hold for
a procedure with a loop and a recursive call. -/
example [Doms] [Interp] (k : LoopSem) :
    encodeLoops .down recLoopBody = .ok recLoopEncoded ∧ recLoopBody.OnlyInduction ∧
      recLoopBody.LocalsOk (fun v => v ∉ recProc.ins ∧ v ∉ recProc.outputs) ∧
      ProcVerified ⟨k, fun _ _ _ φ => φ⟩ (fun f => if f = ⟨"p", 0⟩ then some recLoopProc else none) recLoopProc := by
  classical
  refine ⟨rfl, ⟨trivial, trivial⟩, ⟨trivial, ?_, trivial⟩, ?_⟩
  · rintro v ⟨hv, hm⟩
    refine absurd ?_ hm
    obtain rfl : v = ⟨⟨"r", 0⟩, .eureal⟩ := hv
    decide
  · intro d T hT
    obtain ⟨rfl, rfl⟩ := Prod.mk.inj (Option.some.inj hT)
    refine ⟨[], _, [], rfl, fun σ => ?_⟩
    let a : Expr .eureal := .var ⟨"a", 0⟩
    let r : Expr .eureal := .var ⟨"r", 0⟩
    have har : ∀ (σ : Env) v, a.ev (σ.upd ⟨⟨"r", 0⟩, .eureal⟩ v) = a.ev σ := fun σ v =>
      Env.upd_ne σ (show (⟨⟨"a", 0⟩, .eureal⟩ : Var) ≠ ⟨⟨"r", 0⟩, .eureal⟩ by decide) v
    refine if_pos (show a.ev σ ≤ min (a.ev σ) _ from le_min le_rfl (le_top.trans (le_iInf₂ fun σ' _ => ?_)))
    refine le_of_eq (Eq.symm ?_)
    refine if_pos (if_pos (show a.ev σ' ≤ ite ((Expr.boolLit true).tv σ') _ _ from ?_))
    refine le_of_le_of_eq ?_ (if_pos (show (Expr.boolLit true).tv σ' from rfl)).symm
    refine le_min (le_of_eq (har σ' _).symm) (le_of_le_of_eq le_top (if_pos ?_).symm)
    exact le_of_eq_of_le (extremeLit_down _) (zero_le (α := ℝ≥0∞))

end Caesar
