import Verif.Procs.CalcSound
import Verif.Props.C10
import Verif.Props.C50

/-!
# C58: accepted programs satisfy their specifications in the annotated calculus

The whole chain: the call graph and calculus checks, the encoding of loops, the approximation analysis, the encoding of
calls and of procedures, verification condition generation (and, in `C58_solver_partial`, the lowering to a formula and its
translation for the solver). The conclusion does not mention any of these: it is about the program in which calls run
the bodies and loops and recursion mean the fixed points of the calculus.

The full property is false: an annotated procedure may call procedures without annotation (`C58_not_full`).
-/

open scoped ENNReal NNReal
open Relation

namespace Caesar
set_option linter.unusedSectionVars false

/-- The procedures of a program by name. -/
def table (P : List Proc) : ProcTable := fun f => P.find? fun p => p.name = f

/-- The procedures as seen by the recursion check. -/
def bodies (P : List Proc) : List ProcBody := P.map fun p => ⟨p.name, p.body⟩

section
variable [Doms] [Interp]

/-- The meaning of a program in a calculus: calls run the bodies; loops and recursion mean least fixed points for `wp` and
`ert`, greatest fixed points for `wlp`. -/
noncomputable def progSem (c : CalculusType) (procs : ProcTable) (ext : ProcSem) : ProcSem :=
  match c with
  | .wp | .ert => recSem .up .lfp procs ext
  | .wlp => recSem .down .gfp procs ext

/-- What is assumed about programs; all of it is independent of calculi. The conditions on postconditions, name clashes,
local variables, unrolling, `validate` and distributions are those of C27, C24, C18, C21, C32, C01. -/
structure ProgramOk (P : List Proc) (d : Dir) (cal : Ident → Option CalculusType) (ext : ProcSem) : Prop where
  names : (P.map Proc.name).Nodup
  wf : ProgramWF (table P) d
  ext : ExtOk (table P) ext
  posts : ∀ p ∈ P, p.ensures ≠ []
  clash : ∀ p ∈ P, ∀ B, p.body = some B → ∀ lhs g args, B.Calls lhs g args → ∀ q, table P g = some q → NoClash q lhs args
  locals : ∀ p ∈ P, ∀ B, p.body = some B → B.LocalsOk (fun v => v ∉ p.ins ∧ v ∉ p.outputs)
  unrolls : ∀ p ∈ P, ∀ B, p.body = some B → ∀ c, cal p.name = some c → B.UnrollsOk c.toFix
  noValidate : ∀ p ∈ P, ∀ B, p.body = some B → B.NoValidate
  dists : ∀ p ∈ P, ∀ B, p.body = some B → B.GoodDists

open Classical in
/-- The checks before verification: `sccs` is the result of the component analysis, `procs'` the program after the
encoding of loops. Every procedure passes the calculus check, and the approximation analysis says that proofs are sound. -/
structure Checked (P : List Proc) (d : Dir) (cal : Ident → Option CalculusType) (sccs : List (List Ident))
    (procs' : ProcTable) : Prop where
  isSccs : IsSccs (callGraph (bodies P)) sccs
  calculus : ∀ p ∈ P, ∀ B, p.body = some B → checkProc (cal p.name) p.dir
    (decide (∃ b ∈ findRecursive (callGraph (bodies P)) sccs, b.recursive = p.name)) (B.callees.map cal) = .ok ()
  encoded : LoopsEncoded d (table P) procs'
  sound : ∀ p ∈ P, ∀ B, p.body = some B → (procSoundness d (cal p.name) B).soundProofs = true

/-- The verification condition of the procedure, with calls replaced by specifications, holds. -/
def VcVerified (procs' : ProcTable) (p' : Proc) : Prop :=
  ∀ d T, encodeProcVerify p' = some (d, T) → ∃ declared T' declared' e, specCall procs' d T declared = some (T', declared') ∧
    coreVc d T' = .ok e ∧ VcHolds d e

end

/-- C58: if all checks pass and all procedures verify, each annotated procedure satisfies its specification in the
meaning that its calculus gives to the program. -/
def C58_full : Prop :=
  ∀ (_ : Doms) (_ : Interp) (P : List Proc) (d : Dir) (cal : Ident → Option CalculusType) (ext : ProcSem)
    (sccs : List (List Ident)) (procs' : ProcTable), ProgramOk P d cal ext → Checked P d cal sccs procs' →
    (∀ f p', procs' f = some p' → VcVerified procs' p') →
    ∀ p ∈ P, ∀ c, cal p.name = some c → p.Meets (progSem c (table P) ext p.name)

section
variable [Doms] [Interp]

omit [Doms] [Interp] in
theorem table_iff {P : List Proc} (hn : (P.map Proc.name).Nodup) {f : Ident} {p : Proc} :
    table P f = some p ↔ p ∈ P ∧ p.name = f := by
  unfold table
  constructor
  · intro h
    exact ⟨List.mem_of_find?_eq_some h, of_decide_eq_true (List.find?_some (p := fun p : Proc => decide (p.name = f)) h)⟩
  · rintro ⟨hp, rfl⟩
    induction P with
    | nil => exact absurd hp List.not_mem_nil
    | cons q P ih =>
      rw [List.map_cons, List.nodup_cons] at hn
      rcases List.mem_cons.1 hp with rfl | hp
      · exact List.find?_cons_of_pos (by simp)
      · rw [List.find?_cons_of_neg]
        · exact ih hn.2 hp
        · intro h
          have h : q.name = p.name := of_decide_eq_true h
          exact hn.1 (h ▸ List.mem_map.2 ⟨p, hp, rfl⟩)

omit [Doms] [Interp] in
theorem mem_bodies {P : List Proc} {f : Ident} {B : Stmt} :
    (⟨f, some B⟩ : ProcBody) ∈ bodies P ↔ ∃ p ∈ P, p.name = f ∧ p.body = some B := by
  unfold bodies
  rw [List.mem_map]
  constructor
  · rintro ⟨p, hp, h⟩
    obtain ⟨h1, h2⟩ := ProcBody.mk.inj h
    exact ⟨p, hp, h1, h2⟩
  · rintro ⟨p, hp, rfl, h⟩
    exact ⟨p, hp, by rw [h]⟩

/-- A valid verification condition: the encoded procedure is verified in the sense of C27. -/
theorem procVerified_of_vc {P : List Proc} {d : Dir} {cal : Ident → Option CalculusType} {ext : ProcSem}
    {sccs : List (List Ident)} {procs' : ProcTable} (ho : ProgramOk P d cal ext) (hc : Checked P d cal sccs procs')
    (C : SemCtx) {f : Ident} {p' : Proc} (hf : procs' f = some p') (hv : VcVerified procs' p') : ProcVerified C procs' p' := by
  intro d' T hT
  obtain ⟨decl, T', decl', e, h1, h2, h3⟩ := hv d' T hT
  refine ⟨decl, T', decl', h1, ?_⟩
  obtain ⟨p, hp, hpp⟩ := hc.encoded.inv hf
  have hpP := ((table_iff ho.names).1 hp).1
  obtain ⟨b', hb1, hb2, hb3⟩ := hc.encoded.2 f p hp
  rw [hb1] at hf
  obtain rfl := Option.some.inj hf
  cases hB : p.body with
  | none =>
    obtain rfl := hb2 hB
    exact nomatch hT
  | some B =>
    obtain ⟨B', hE, rfl⟩ := hb3 B hB
    obtain ⟨hg, hd⟩ := task_shape hE rfl (ho.noValidate p hpP B hB) (ho.dists p hpP B hB) hT
    have hsem := vcgen_sound C h2 ((specCall_guarded hg h1).validateOk _) (specCall_goodDists hd h1)
    have hterm : (topLitInLattice d').ev = (terminal d').ev := by cases d' <;> rfl
    intro σ
    rw [hterm, ← hsem]
    cases d' with
    | down => exact h3 σ
    | up => exact h3 σ

/-- A verified procedure of the calculus `c` satisfies its specification if calls have the meaning of specifications and loops
their meaning in `c`. -/
theorem body_meets {P : List Proc} {d : Dir} {cal : Ident → Option CalculusType} {ext : ProcSem}
    {sccs : List (List Ident)} {procs' : ProcTable} (ho : ProgramOk P d cal ext) (hc : Checked P d cal sccs procs')
    (hv : ∀ f p', procs' f = some p' → VcVerified procs' p') {p : Proc} (hp : p ∈ P) {B : Stmt} (hB : p.body = some B)
    {c : CalculusType} (hcal : cal p.name = some c) :
    p.Meets (vcSem (callCtx c.toFix.loopSem (table P) (specSem (table P) ext)) B) := by
  have hw := ho.wf
  have henc := hc.encoded
  have hf : table P p.name = some p := (table_iff ho.names).2 ⟨hp, rfl⟩
  obtain ⟨b', h1, -, h2⟩ := henc.2 p.name p hf
  obtain ⟨B', h3, rfl⟩ := h2 B hB
  let C : SemCtx := callCtx c.toFix.loopSem (table P) (specSem (table P) ext)
  have hmono := specSem_mono (procs := table P) (ext := ext) ho.ext.mono
  have hm : ({ p with body := some B' } : Proc).Meets (vcSem (callCtx C.loop procs' (specSem procs' ext)) B') := by
    refine meets_specSem (d := d) ho.ext.mono ?_ ?_ ?_ (callCtx_mono hmono) rfl (hw.dir p.name p hf) ?_ ?_
      (encodeLoops_noNeg h3 (hw.noNeg p.name p B hf hB)) ?_ ?_ (procVerified_of_vc ho hc C h1 (hv p.name _ h1))
    · intro g q' hq
      obtain ⟨q, hq, hqq⟩ := henc.inv hq
      rw [hqq]; exact hw.dir g q hq
    · intro g q' hq
      obtain ⟨q, hq, hqq⟩ := henc.inv hq
      have := hw.wf g q hq
      rw [hqq]; exact ⟨this.1, this.2, this.3, this.4, this.5, this.6⟩
    · intro g q' hq
      obtain ⟨q, hq, hqq⟩ := henc.inv hq
      rw [hqq]; exact ho.posts q ((table_iff ho.names).1 hq).1
    · have := hw.wf p.name p hf
      exact ⟨this.1, this.2, this.3, this.4, this.5, this.6⟩
    · exact fun v hv => hw.temps p.name p hf v (temp_encoded henc hv)
    · exact fun v hv h => hw.fresh p.name p B hf hB v (temp_encoded henc hv) (encodeLoops_readsSome h3 h)
    · intro lhs g args hc
      have hc := encodeLoops_calls h3 hc
      obtain ⟨q, hq, hq'⟩ := hw.calls p.name p B hf hB lhs g args hc
      have hn := ho.clash p hp B hB lhs g args hc q hq
      obtain ⟨q', hq1, -⟩ := henc.2 g q hq
      exact ⟨_, hq1, ⟨hq'.1, hq'.2, hq'.3, hq'.4⟩, ⟨hn.1, hn.2, hn.3⟩⟩
  have hm : p.Meets (vcSem (callCtx C.loop procs' (specSem procs' ext)) B') := hm
  rw [callCtx_encoded henc, specSem_encoded henc] at hm
  have hpost : Ignores (fun v => v ∉ p.ins ∧ v ∉ p.outputs) p.post := by
    intro σ σ' h
    have key : ∀ e ∈ p.ensures, e.ev σ' = e.ev σ := fun e hee => ev_agreeOff (fun v hv hfr =>
      ((hw.wf p.name p hf).ensures e hee v hfr).elim hv.1 hv.2) h
    unfold Proc.post combine
    cases p.dir with
    | down => exact iInf_congr fun e => iInf_congr fun he => key e he
    | up => exact iSup_congr fun e => iSup_congr fun he => key e he
  have hsound := hc.sound p hp B hB
  rw [hcal] at hsound
  have hle := encoded_le (c := c) (callCtx_regular (k := c.toFix.loopSem) (procs := table P) hmono) rfl
    (ho.unrolls p hp B hB c hcal) (ho.locals p hp B hB) hpost h3 hsound
  have hd := hw.dir p.name p hf
  unfold Proc.Meets at hm ⊢
  cases d with
  | down => simp only [hd] at hm ⊢; exact fun τ => (hm τ).trans (hle τ)
  | up => simp only [hd] at hm ⊢; exact fun τ => (hle τ).trans (hm τ)

/-- The specification of a procedure is on the safe side of its body, if calls have the meaning of specifications. -/
theorem specSem_unfold_at {procs : ProcTable} {d : Dir} {k : LoopSem} {ext : ProcSem} (hw : ProgramWF procs d) (he : ExtOk procs ext)
    (f : Ident) (hm : ∀ p B, procs f = some p → p.body = some B → p.Meets (vcSem (callCtx k procs (specSem procs ext)) B))
    (φ : Exp) : d.Le (specSem procs ext f φ) (unfoldProcs k procs ext (specSem procs ext) f φ) := by
  have hmono := specSem_mono (procs := procs) he.mono
  cases hf : procs f with
  | none =>
    unfold specSem unfoldProcs
    simp only [hf]
    exact Dir.Le.refl d _
  | some p =>
    have hd := hw.dir f p hf
    cases hB : p.body with
    | none =>
      have h := specT_le (he.mono f) (he.keeps f p hf hB) (he.meets f p hf hB) φ
      rw [hd] at h
      unfold unfoldProcs
      rw [specSem_some hf]
      simp only [hf, hB]
      exact h
    | some B =>
      have h := specT_le (vcSem_mono _ (callCtx_mono (k := k) (procs := procs) hmono) (hw.noNeg f p B hf hB))
        (fun φ ψ τ h => vcSem_frame_of (callCtx_frame _ _ _) (M := fun v => B.Touched v) (fun v hv => hv)
          fun τ' hτ' => h τ' fun x hx => hτ' x (hw.ins f p B hf hB x hx)) (hm p B hf hB) φ
      rw [hd] at h
      unfold unfoldProcs
      rw [specSem_some hf]
      simp only [hf, hB]
      exact h

theorem recSem_mono (d : Dir) (k : LoopSem) (procs : ProcTable) (ext : ProcSem) (f : Ident) :
    Monotone (recSem d k procs ext f) := by
  cases d with
  | down => exact fun φ ψ h τ => iSup₂_mono fun Γ hΓ => hΓ.1 f h τ
  | up => exact fun φ ψ h τ => iInf₂_mono fun Γ hΓ => hΓ.1 f h τ

/-- The worst value for a bound in direction `d`. -/
noncomputable def worst (d : Dir) : Exp → Exp := fun _ _ => match d with | .down => 0 | .up => ⊤

theorem worst_le (d : Dir) (φ ψ : Exp) : d.Le (worst d φ) ψ := by
  cases d with
  | down => exact fun _ => zero_le
  | up => exact fun _ => le_top

open Classical in
/-- The specifications of the procedures in `R`, the worst meaning for the others. -/
noncomputable def specOn (procs : ProcTable) (ext : ProcSem) (d : Dir) (R : Ident → Prop) : ProcSem := fun f =>
  if R f then specSem procs ext f else worst d

theorem specOn_mono {procs : ProcTable} {ext : ProcSem} (h : ∀ f, Monotone (ext f)) (d : Dir) (R : Ident → Prop) (f : Ident) :
    Monotone (specOn procs ext d R f) := by
  unfold specOn
  split
  · exact specSem_mono h f
  · exact fun _ _ _ _ => le_rfl

/-- Unfolding only needs the specifications of callees. -/
theorem unfold_specOn {procs : ProcTable} {ext : ProcSem} {k : LoopSem} (d : Dir) {R : Ident → Prop} {f : Ident}
    (hR : ∀ p B, procs f = some p → p.body = some B → ∀ g, ContainsCall g B → R g) (φ : Exp) :
    unfoldProcs k procs ext (specOn procs ext d R) f φ = unfoldProcs k procs ext (specSem procs ext) f φ := by
  unfold unfoldProcs
  cases hf : procs f with
  | none => rfl
  | some p =>
    cases hB : p.body with
    | none => simp only [hB]
    | some B =>
      simp only [hB]
      rw [vcSem_ctx_congr]
      intro g hg
      unfold specOn
      rw [if_pos (hR p B hf hB g hg)]

theorem Dir.Le.trans' {d : Dir} {f g h : Exp} (h1 : d.Le f g) (h2 : d.Le g h) : d.Le f h := h1.trans h2

/-- If induction is sound for the recursion: specifications that are closed under calls and verified bound the meaning. -/
theorem spec_le_recSem {procs : ProcTable} {d : Dir} {k : LoopSem} {ext : ProcSem} (hw : ProgramWF procs d) (he : ExtOk procs ext)
    {R : Ident → Prop} (hR : ∀ f, R f → ∀ p B, procs f = some p → p.body = some B → ∀ g, ContainsCall g B → R g)
    (hm : ∀ f, R f → ∀ p B, procs f = some p → p.body = some B → p.Meets (vcSem (callCtx k procs (specSem procs ext)) B))
    {f : Ident} (hf : R f) (φ : Exp) : d.Le (specSem procs ext f φ) (recSem d k procs ext f φ) := by
  have key : ∀ f φ, d.Le (specOn procs ext d R f φ) (unfoldProcs k procs ext (specOn procs ext d R) f φ) := by
    intro f φ
    by_cases hf : R f
    · rw [unfold_specOn d (hR f hf)]
      have h := specSem_unfold_at (k := k) hw he f (hm f hf) φ
      unfold specOn
      rw [if_pos hf]
      exact h
    · unfold specOn
      rw [if_neg hf]
      exact worst_le d _ _
  have hval : specOn procs ext d R f = specSem procs ext f := by unfold specOn; exact if_pos hf
  cases d with
  | down =>
    intro τ
    rw [← hval]
    exact le_iSup₂ (f := fun (Γ : ProcSem) (_ : Γ ∈ {Γ : ProcSem | (∀ f, Monotone (Γ f)) ∧
      ∀ f φ, Γ f φ ≤ unfoldProcs k procs ext Γ f φ}) => Γ f φ τ) (specOn procs ext .down R) ⟨specOn_mono he.mono _ _, key⟩
  | up =>
    intro τ
    rw [← hval]
    exact iInf₂_le (f := fun (Γ : ProcSem) (_ : Γ ∈ {Γ : ProcSem | (∀ f, Monotone (Γ f)) ∧
      ∀ f φ, unfoldProcs k procs ext Γ f φ ≤ Γ f φ}) => Γ f φ τ) (specOn procs ext .up R) ⟨specOn_mono he.mono _ _, key⟩

/-- Without recursion the same holds for both fixed points. -/
theorem spec_le_acyclic {P : List Proc} {d d' : Dir} {k : LoopSem} {ext : ProcSem} (hn : (P.map Proc.name).Nodup)
    (hw : ProgramWF (table P) d) (he : ExtOk (table P) ext) {R : Ident → Prop}
    (hR : ∀ f, R f → ∀ p B, table P f = some p → p.body = some B → ∀ g, ContainsCall g B → R g)
    (hm : ∀ f, R f → ∀ p B, table P f = some p → p.body = some B → p.Meets (vcSem (callCtx k (table P) (specSem (table P) ext)) B))
    (hac : ∀ f, R f → ¬ TransGen (Calls (bodies P)) f f)
    {f : Ident} (hf : R f) (hfP : ∃ p, table P f = some p) (φ : Exp) :
    d.Le (specSem (table P) ext f φ) (recSem d' k (table P) ext f φ) := by
  let α := {f : Ident // R f ∧ f ∈ P.map Proc.name}
  have hfin : Finite α := by
    refine Set.Finite.to_subtype (s := {f | R f ∧ f ∈ P.map Proc.name}) ?_
    exact (List.finite_toSet (P.map Proc.name)).subset fun x hx => hx.2
  let r : α → α → Prop := fun x y => TransGen (Calls (bodies P)) y.1 x.1
  have htr : IsTrans α r := ⟨fun x y z h1 h2 => h2.trans h1⟩
  have hir : Std.Irrefl r := ⟨fun x h => hac x.1 x.2.1 h⟩
  have hwf : WellFounded r := Finite.wellFounded_of_trans_of_irrefl r
  have main : ∀ x : α, ∀ φ, d.Le (specSem (table P) ext x.1 φ) (recSem d' k (table P) ext x.1 φ) := by
    intro x
    induction x using hwf.induction with
    | _ x ih =>
      intro φ
      obtain ⟨f, hf, hfP⟩ := x
      rw [← recSem_fixed d' k (table P) ext he.mono hw.noNeg f φ]
      refine Dir.Le.trans (specSem_unfold_at (k := k) hw he f (hm f hf) φ) ?_
      cases hp : table P f with
      | none =>
        unfold unfoldProcs
        simp only [hp]
        exact Dir.Le.refl d _
      | some p =>
        cases hB : p.body with
        | none =>
          unfold unfoldProcs
          simp only [hp, hB]
          exact Dir.Le.refl d _
        | some B =>
          rw [← unfold_specOn d (R := fun g => ContainsCall g B) (f := f)]
          · have hle : ∀ g ψ, d.Le (specOn (table P) ext d (fun g => ContainsCall g B) g ψ) (recSem d' k (table P) ext g ψ) := by
              intro g ψ
              by_cases hg : ContainsCall g B
              · obtain ⟨lhs, args, hcall⟩ := calls_of_containsCall hg
                obtain ⟨q, hq, -⟩ := hw.calls f p B hp hB lhs g args hcall
                obtain ⟨hpP, hpn⟩ := (table_iff hn).1 hp
                obtain ⟨hqP, hqn⟩ := (table_iff hn).1 hq
                have h := ih ⟨g, hR f hf p B hp hB g hg, hqn ▸ List.mem_map.2 ⟨q, hqP, rfl⟩⟩
                  (.single ⟨B, mem_bodies.2 ⟨p, hpP, hpn, hB⟩, hg⟩) ψ
                unfold specOn
                rw [if_pos hg]
                exact h
              · unfold specOn
                rw [if_neg hg]
                exact worst_le d _ _
            cases d with
            | down => exact unfoldProcs_le hw.noNeg (specOn_mono he.mono _ _) hle f φ
            | up => exact unfoldProcs_le hw.noNeg (recSem_mono _ _ _ _) hle f φ
          · intro p' B' hp' hB' g hg
            obtain rfl := Option.some.inj (hp.symm.trans hp')
            obtain rfl := Option.some.inj (hB.symm.trans hB')
            exact hg
  obtain ⟨p, hp⟩ := hfP
  obtain ⟨hpP, hpn⟩ := (table_iff hn).1 hp
  exact main ⟨f, hf, hpn ▸ List.mem_map.2 ⟨p, hpP, rfl⟩⟩ φ

/-- C58, for procedures which only reach annotated procedures by calls: then the procedure satisfies its specification in the
meaning which the calculus gives to the program. Direct and mutual recursion are covered, as are programs that use
different calculi in parts that do not call each other. -/
theorem C58_partial (P : List Proc) (d : Dir) (cal : Ident → Option CalculusType) (ext : ProcSem)
    (sccs : List (List Ident)) (procs' : ProcTable) (ho : ProgramOk P d cal ext) (hc : Checked P d cal sccs procs')
    (hv : ∀ f p', procs' f = some p' → VcVerified procs' p') (p : Proc) (hp : p ∈ P) (c : CalculusType)
    (hcal : cal p.name = some c)
    (hann : ∀ q ∈ P, q.body ≠ none → ReflTransGen (Calls (bodies P)) p.name q.name → cal q.name ≠ none) :
    p.Meets (progSem c (table P) ext p.name) := by
  let R : Ident → Prop := ReflTransGen (Calls (bodies P)) p.name
  have hf : table P p.name = some p := (table_iff ho.names).2 ⟨hp, rfl⟩
  have hR : ∀ f, R f → ∀ q B, table P f = some q → q.body = some B → ∀ g, ContainsCall g B → R g := by
    intro f hf q B hq hB g hg
    obtain ⟨hqP, hqn⟩ := (table_iff ho.names).1 hq
    exact hf.tail ⟨B, mem_bodies.2 ⟨q, hqP, hqn, hB⟩, hg⟩
  have hcalc : ∀ q ∈ P, ∀ B, q.body = some B → R q.name → cal q.name = some c := by
    have key : ∀ f, R f → ∀ q ∈ P, q.name = f → ∀ B, q.body = some B → cal q.name = some c := by
      intro f hf
      induction hf with
      | refl =>
        intro q hq hn B hB
        rw [hn]; exact hcal
      | tail h1 h2 ih =>
        rename_i a b
        intro q hq hn B hB
        obtain ⟨B₀, hB₀, hcc⟩ := h2
        obtain ⟨q₀, hq₀, hn₀, hb₀⟩ := mem_bodies.1 hB₀
        have h0 := ih q₀ hq₀ hn₀ B₀ hb₀
        have hchk := hc.calculus q₀ hq₀ B₀ hb₀
        rw [h0, C33_recursion] at hchk
        have hne := hann q hq (by rw [hB]; exact fun h => nomatch h) (hn ▸ h1.tail ⟨B₀, hB₀, hcc⟩)
        obtain ⟨c', hc'⟩ := Option.ne_none_iff_exists'.1 hne
        have := hchk.2 c' (List.mem_map.2 ⟨b, (mem_callees _ _).2 hcc, by rw [← hn]; exact hc'⟩)
        rw [hc', this]
    exact fun q hq B hB h => key q.name h q hq rfl B hB
  have hm : ∀ f, R f → ∀ q B, table P f = some q → q.body = some B →
      q.Meets (vcSem (callCtx c.toFix.loopSem (table P) (specSem (table P) ext)) B) := by
    intro f hf q B hq hB
    obtain ⟨hqP, hqn⟩ := (table_iff ho.names).1 hq
    exact body_meets ho hc hv hqP hB (hcalc q hqP B hB (by rw [hqn]; exact hf))
  have hpR : R p.name := .refl
  have hle : d.Le (specSem (table P) ext p.name p.post) (progSem c (table P) ext p.name p.post) := by
    by_cases hall : c.isInductionAllowed d = true
    · have h := spec_le_recSem ho.wf ho.ext hR hm hpR p.post
      cases c <;> cases d <;> first | exact h | cases hall
    · have hac : ∀ f, R f → ¬ TransGen (Calls (bodies P)) f f := by
        intro f hf hcyc
        obtain ⟨g, hg, -⟩ := TransGen.head'_iff.1 hcyc
        obtain ⟨B, hB, -⟩ := hg
        obtain ⟨q, hq, hqn, hqB⟩ := mem_bodies.1 hB
        have hchk := hc.calculus q hq B hqB
        rw [hcalc q hq B hqB (by rw [hqn]; exact hf), C33_recursion] at hchk
        have hdir := ho.wf.dir q.name q ((table_iff ho.names).2 ⟨hq, rfl⟩)
        refine hall ((C33_allowed_iff c d).2 ?_)
        rw [hdir] at hchk
        refine hchk.1 (decide_eq_true ?_)
        rw [C34_recursive_iff _ _ hc.isSccs, hqn]
        exact hcyc
      have h := fun d' => spec_le_acyclic (d' := d') (k := c.toFix.loopSem) ho.names ho.wf ho.ext hR hm hac hpR ⟨p, hf⟩ p.post
      cases c with
      | wp => exact h .up
      | ert => exact h .up
      | wlp => exact h .down
  have hspec := specT_meets p
  have hd := ho.wf.dir p.name p hf
  rw [specSem_some hf] at hle
  unfold Proc.Meets at hspec ⊢
  rw [hd] at hspec ⊢
  cases d with
  | down => exact fun τ => (hspec τ).trans (hle τ)
  | up => exact fun τ => (hle τ).trans (hspec τ)

/-- The procedure verifies with the solver: for arbitrarily large bounds on the recursion of the simplification passes, the verification
condition is lowered to a formula, the formula is translated, and all SMT models that respect the constraints of the translation
satisfy the term, i.e. the solver finds no model of its negation. The conditions on the statement are those of C10 (variables are
declared; no user-written quantifiers if quantifier elimination is enabled; no comparisons of `Int`, `Real`, `Bool` for the relational
optimisation), the one on the formula is that of C50. -/
def SolverVerified [Smt.SmtInterp] (o : Oracle) (O : Smt.Oracle) (opts : LowerOptions) (procs' : ProcTable) (p' : Proc) : Prop :=
  ∀ d T, encodeProcVerify p' = some (d, T) → ∃ declared T' declared' e, specCall procs' d T declared = some (T', declared') ∧
    coreVc d T' = .ok e ∧ ∃ (s : UState) (span span' span'' : Nat),
      T'.All (fun e => ∀ v, e.Occurs v → v.id ∈ s.1.decls) (fun x => x.id ∈ s.1.decls) ∧
      (opts.noQelim = false → T'.All (fun e => e.freshVars = []) (fun _ => True)) ∧
      (opts.optRel = true → T'.All (fun e => e.CmpTypes RelCmp) (fun _ => True)) ∧
      ∀ N, ∃ n ≥ N, ∃ b s' r st, lowerQuant o span span' span'' opts n d e s = some (b, s') ∧ Smt.FinSub b ∧
        Smt.trans O b .new = some (r, st) ∧ ∀ M, Smt.Respects st M → (show Prop from r M)

/-- What the solver accepts holds. -/
theorem vcVerified_of_solver [Smt.SmtInterp] (F : Smt.Faithful) {o : Oracle} (hos : o.Sound) (O : Smt.Oracle) (opts : LowerOptions)
    {P : List Proc} {d : Dir} {cal : Ident → Option CalculusType} {ext : ProcSem} {sccs : List (List Ident)} {procs' : ProcTable}
    (ho : ProgramOk P d cal ext) (hc : Checked P d cal sccs procs') {f : Ident} {p' : Proc} (hf : procs' f = some p')
    (hv : SolverVerified o O opts procs' p') : VcVerified procs' p' := by
  intro d' T hT
  obtain ⟨decl, T', decl', e, h1, h2, s, span, span', span'', hd, hq, hr, hn⟩ := hv d' T hT
  refine ⟨decl, T', decl', e, h1, h2, ?_⟩
  obtain ⟨p, hp, hpp⟩ := hc.encoded.inv hf
  have hpP := ((table_iff ho.names).1 hp).1
  obtain ⟨b', hb1, hb2, hb3⟩ := hc.encoded.2 f p hp
  rw [hb1] at hf
  obtain rfl := Option.some.inj hf
  cases hB : p.body with
  | none =>
    obtain rfl := hb2 hB
    exact nomatch hT
  | some B =>
    obtain ⟨B', hE, rfl⟩ := hb3 B hB
    obtain ⟨hg, hgd⟩ := task_shape hE rfl (ho.noValidate p hpP B hB) (ho.dists p hpP B hB) hT
    have hv1 := (specCall_guarded hg h1).validateOk (terminal d')
    have hg1 := specCall_goodDists hgd h1
    let C : SemCtx := callCtx .lfp procs' (fun _ φ => φ)
    obtain ⟨N, hN⟩ := C10_program_partial C hos span span' span'' opts d' T' s e h2 hd hq hr hv1 hg1
    obtain ⟨n, hnN, b, s', r, st, hl, hfin, htr, hM⟩ := hn N
    obtain ⟨b₂, s₂, hl₂, hiff⟩ := hN n hnN
    rw [hl] at hl₂
    obtain ⟨rfl, rfl⟩ := Prod.mk.inj (Option.some.inj hl₂)
    have hver := hiff.1 ((Smt.C50_validity_partial F O b hfin htr).1 hM)
    have hsem := vcgen_sound C h2 hv1 hg1
    rw [terminal_ev] at hsem
    cases d' with
    | down => exact fun σ => (congrFun hsem σ).trans (hver σ)
    | up => exact fun σ => (congrFun hsem σ).trans (hver σ)

/-- C58 from the source program to the queries of the solver: if all checks pass, and the solver finds no counterexample for any
procedure, each annotated procedure which only reaches annotated procedures satisfies its specification in its calculus. -/
theorem C58_solver_partial [Smt.SmtInterp] (F : Smt.Faithful) {o : Oracle} (hos : o.Sound) (O : Smt.Oracle) (opts : LowerOptions)
    (P : List Proc) (d : Dir) (cal : Ident → Option CalculusType) (ext : ProcSem) (sccs : List (List Ident)) (procs' : ProcTable)
    (ho : ProgramOk P d cal ext) (hc : Checked P d cal sccs procs')
    (hv : ∀ f p', procs' f = some p' → SolverVerified o O opts procs' p') (p : Proc) (hp : p ∈ P) (c : CalculusType)
    (hcal : cal p.name = some c)
    (hann : ∀ q ∈ P, q.body ≠ none → ReflTransGen (Calls (bodies P)) p.name q.name → cal q.name ≠ none) :
    p.Meets (progSem c (table P) ext p.name) :=
  C58_partial P d cal ext sccs procs' ho hc (fun _ _ hf => vcVerified_of_solver F hos O opts ho hc hf (hv _ _ hf)) p hp c hcal hann

end

/-! ## A program with a call and a loop -/

/-- The literal `1`. -/
def lit1 : Expr .eureal := .lit (.efrac 1)

/-- `@invariant(1) while true {}`. -/
def c58Loop : Stmt := .annot (.invariant lit1) (.while (Expr.boolLit true) .skip)

/-- `proc f() -> () pre 1 post 1 { g() }`. -/
def c58F : Proc := ⟨⟨"f", 0⟩, .down, [], [], [.requires lit1, .ensures lit1], some (.call false [] ⟨"g", 0⟩ [])⟩

/-- `proc g() -> () pre 1 post 1 { @invariant(1) while true {} }`. -/
def c58G : Proc := ⟨⟨"g", 0⟩, .down, [], [], [.requires lit1, .ensures lit1], some c58Loop⟩

/-- The program. -/
def c58P : List Proc := [c58F, c58G]

/-- `g` after the encoding of the loop. -/
def c58G' : Proc := { c58G with body := some (transformKInduction .down 1 lit1 (Expr.boolLit true) .skip) }

/-- The program after the encoding of the loop. -/
def c58P' : List Proc := [c58F, c58G']

theorem c58P_cases {f : Ident} {p : Proc} (h : table c58P f = some p) :
    (f = ⟨"f", 0⟩ ∧ p = c58F) ∨ (f = ⟨"g", 0⟩ ∧ p = c58G) := by
  obtain ⟨h1, h2⟩ := (table_iff (P := c58P) (by decide)).1 h
  rcases List.mem_cons.1 h1 with rfl | h1
  · exact Or.inl ⟨h2.symm, rfl⟩
  · obtain rfl := List.mem_singleton.1 h1
    exact Or.inr ⟨h2.symm, rfl⟩

theorem c58P'_cases {f : Ident} {p : Proc} (h : table c58P' f = some p) :
    (f = ⟨"f", 0⟩ ∧ p = c58F) ∨ (f = ⟨"g", 0⟩ ∧ p = c58G') := by
  obtain ⟨h1, h2⟩ := (table_iff (P := c58P') (by decide)).1 h
  rcases List.mem_cons.1 h1 with rfl | h1
  · exact Or.inl ⟨h2.symm, rfl⟩
  · obtain rfl := List.mem_singleton.1 h1
    exact Or.inr ⟨h2.symm, rfl⟩

section
variable [Doms] [Interp]

theorem lit1_ev (σ : Env) : lit1.ev σ = 1 := oneLit_ev σ

theorem c58_ok (cal : Ident → Option CalculusType) : ProgramOk c58P .down cal (fun _ φ => φ) := by
  have hnt : ∀ v, ¬ Temp (table c58P) v := by
    rintro v ⟨f, p, hp, hv⟩
    rcases c58P_cases hp with ⟨-, rfl⟩ | ⟨-, rfl⟩ <;> exact absurd hv List.not_mem_nil
  have hmem : ∀ p ∈ c58P, p = c58F ∨ p = c58G := by
    intro p hp
    rcases List.mem_cons.1 hp with rfl | hp
    · exact Or.inl rfl
    · exact Or.inr (List.mem_singleton.1 hp)
  refine ⟨by decide, ⟨?_, ?_, fun _ _ _ v hv => absurd hv (hnt v), ?_, ?_, fun _ _ _ _ _ v hv => absurd hv (hnt v), ?_⟩,
    ⟨fun _ _ _ h => h, ?_, ?_⟩, ?_, ?_, ?_, ?_, ?_, ?_⟩
  · intro f p hp
    rcases c58P_cases hp with ⟨-, rfl⟩ | ⟨-, rfl⟩ <;> rfl
  · intro f p hp
    rcases c58P_cases hp with ⟨-, rfl⟩ | ⟨-, rfl⟩
    all_goals
      refine ⟨List.nodup_nil, fun e he v hv => ?_, fun e he v hv => ?_, fun e he => ?_, List.nodup_nil,
        fun x hx => absurd hx List.not_mem_nil⟩
      all_goals
        obtain rfl := List.mem_singleton.mp (show e ∈ [lit1] from he)
      · exact hv.elim
      · exact hv.elim
      · trivial
  · intro f p B hp hB
    rcases c58P_cases hp with ⟨-, rfl⟩ | ⟨-, rfl⟩ <;> cases hB <;> trivial
  · intro f p B hp hB x hx
    rcases c58P_cases hp with ⟨-, rfl⟩ | ⟨-, rfl⟩ <;> exact absurd hx List.not_mem_nil
  · intro f p B hp hB lhs g args hc
    rcases c58P_cases hp with ⟨-, rfl⟩ | ⟨-, rfl⟩
    · cases hB
      obtain ⟨rfl, rfl, rfl⟩ := hc
      exact ⟨c58G, rfl, rfl, rfl, fun a ha => absurd ha List.not_mem_nil, fun x hx => absurd hx List.not_mem_nil⟩
    · cases hB; exact hc.elim
  · intro f p hp hB
    rcases c58P_cases hp with ⟨-, rfl⟩ | ⟨-, rfl⟩ <;> exact nomatch hB
  · intro f p hp hB
    rcases c58P_cases hp with ⟨-, rfl⟩ | ⟨-, rfl⟩ <;> exact nomatch hB
  · intro p hp
    rcases hmem p hp with rfl | rfl <;> exact List.cons_ne_nil _ _
  · intro p hp B hB lhs g args hc q hq
    rcases hmem p hp with rfl | rfl
    · cases hB
      obtain ⟨rfl, rfl, rfl⟩ := hc
      obtain rfl := Option.some.inj (show some c58G = some q from hq)
      exact ⟨List.nodup_nil, trivial, trivial⟩
    · cases hB; exact hc.elim
  · intro p hp B hB
    rcases hmem p hp with rfl | rfl
    · cases hB; trivial
    · cases hB; exact ⟨fun v hv => hv.1.elim, trivial⟩
  · intro p hp B hB c hc
    rcases hmem p hp with rfl | rfl <;> cases hB <;> trivial
  · intro p hp B hB
    rcases hmem p hp with rfl | rfl <;> cases hB <;> trivial
  · intro p hp B hB
    rcases hmem p hp with rfl | rfl <;> cases hB <;> trivial

theorem c58_sccs : IsSccs (callGraph (bodies c58P)) [[⟨"g", 0⟩], [⟨"f", 0⟩]] := by
  have hedge : callGraph (bodies c58P) = [((⟨"g", 0⟩ : Ident), (⟨"f", 0⟩ : Ident))] := rfl
  rw [hedge]
  have hstep : ∀ {x y : Ident}, (x, y) ∈ [((⟨"g", 0⟩ : Ident), (⟨"f", 0⟩ : Ident))] → x = ⟨"g", 0⟩ ∧ y = ⟨"f", 0⟩ := by
    intro x y h
    exact Prod.mk.inj (List.mem_singleton.1 h)
  have hf : ∀ {y : Ident}, ReflTransGen (fun a b => (a, b) ∈ [((⟨"g", 0⟩ : Ident), (⟨"f", 0⟩ : Ident))]) ⟨"f", 0⟩ y → y = ⟨"f", 0⟩ := by
    intro y h
    induction h with
    | refl => rfl
    | tail _ h ih => exact (hstep h).2
  have hg : ∀ {y : Ident}, ReflTransGen (fun a b => (a, b) ∈ [((⟨"g", 0⟩ : Ident), (⟨"f", 0⟩ : Ident))]) y ⟨"g", 0⟩ → y = ⟨"g", 0⟩ := by
    intro y h
    rcases ReflTransGen.cases_tail h with h | ⟨z, -, h⟩
    · exact h.symm
    · exact absurd (hstep h).2 (by decide)
  refine ⟨fun x => ?_, ?_, ?_⟩
  · simp [eq_comm]
  · intro scc h
    rcases List.mem_cons.1 h with rfl | h
    · exact List.nodup_singleton _
    · rw [List.mem_singleton.1 h]; exact List.nodup_singleton _
  · intro scc h x hx y
    rcases List.mem_cons.1 h with rfl | h
    · obtain rfl := List.mem_singleton.1 hx
      exact ⟨fun h => by rw [List.mem_singleton.1 h]; exact ⟨.refl, .refl⟩, fun h => List.mem_singleton.2 (hg h.2)⟩
    · obtain rfl := List.mem_singleton.1 h
      obtain rfl := List.mem_singleton.1 hx
      exact ⟨fun h => by rw [List.mem_singleton.1 h]; exact ⟨.refl, .refl⟩, fun h => List.mem_singleton.2 (hf h.1)⟩

theorem c58_encoded : LoopsEncoded .down (table c58P) (table c58P') := by
  refine ⟨fun f hf => ?_, fun f p hp => ?_⟩
  · cases h : table c58P' f with
    | none => rfl
    | some p =>
      rcases c58P'_cases h with ⟨rfl, -⟩ | ⟨rfl, -⟩ <;> exact nomatch hf
  · rcases c58P_cases hp with ⟨rfl, rfl⟩ | ⟨rfl, rfl⟩
    · exact ⟨some (.call false [] ⟨"g", 0⟩ []), rfl, (fun h => nomatch h), fun B hB => by cases hB; exact ⟨_, rfl, rfl⟩⟩
    · exact ⟨_, rfl, (fun h => nomatch h), fun B hB => by cases hB; exact ⟨_, rfl, rfl⟩⟩

/-- What happens to the two procedures of the program. -/
theorem c58_tasks {f : Ident} {p' : Proc} (h : table c58P' f = some p') {d : Dir} {T : Stmt} (hT : encodeProcVerify p' = some (d, T)) :
    d = .down ∧ ∃ T' e, specCall (table c58P') .down T [] = some (T', []) ∧ coreVc .down T' = .ok e ∧ VcHolds .down e ∧
      T'.All (fun e => ∀ v, e.Occurs v → v.id ∈ TyCtx.new.decls) (fun x => x.id ∈ TyCtx.new.decls) ∧
      (∀ n, lowerQuant (fun _ _ => false) 0 0 0 ⟨true, true, true, false⟩ n .down e (TyCtx.new, 0) = some (intoBoolVc .down e, (TyCtx.new, 0))) ∧
      Smt.FinSub (intoBoolVc .down e) ∧ ∀ _ : Smt.SmtInterp, ∃ r st, Smt.trans Smt.noCache (intoBoolVc .down e) .new = some (r, st) := by
  let C : SemCtx := ⟨.lfp, fun l _ _ φ σ => ⨅ σ' ∈ {σ' | Agree l σ σ'}, φ σ'⟩
  have key : ∀ {T T' e} {R : Stmt → Expr .eureal → Prop}, specCall (table c58P') .down T [] = some (T', []) → coreVc .down T' = .ok e → (T'.Guarded ∧ T'.GoodDists) →
      (∀ σ, vcSem C T' (fun _ => ⊤) σ = ⊤) → R T' e → ∃ T' e, specCall (table c58P') .down T [] = some (T', []) ∧
        coreVc .down T' = .ok e ∧ VcHolds .down e ∧ R T' e := by
    intro T T' e R h1 h2 h3 h5 h6
    refine ⟨T', e, h1, h2, fun σ => ?_, h6⟩
    have := vcgen_sound C h2 (h3.1.validateOk _) h3.2
    rw [terminal_ev] at this
    exact (congrFun this σ).trans (h5 σ)
  have hlit : ∀ v, lit1.Occurs v → v.id ∈ TyCtx.new.decls := fun v h => h.elim
  rcases c58P'_cases h with ⟨rfl, rfl⟩ | ⟨rfl, rfl⟩
  · obtain ⟨rfl, rfl⟩ := Prod.mk.inj (Option.some.inj hT)
    refine ⟨rfl, key rfl rfl ⟨?_, ?_⟩ (fun σ => ?_) ⟨?_, (fun n => rfl), ?_, fun _ => ?_⟩⟩
    · exact ⟨trivial, ⟨trivial, trivial, trivial, trivial⟩, trivial, trivial⟩
    · exact ⟨trivial, ⟨trivial, trivial, trivial, trivial⟩, trivial, trivial⟩
    · refine if_pos (show lit1.ev σ ≤ min (lit1.ev σ) _ from le_min le_rfl (le_iInf₂ fun σ' _ => ?_))
      refine le_of_le_of_eq le_top (if_pos ?_).symm
      exact le_min le_rfl le_top
    · exact ⟨hlit, ⟨hlit, fun x hx => absurd hx List.not_mem_nil, hlit, trivial⟩, hlit, trivial⟩
    · simp only [intoBoolVc, Smt.FinSub, Expr.topLit]
      repeat' (first | exact trivial | exact fun _ => trivial | constructor)
    · simp only [intoBoolVc, Expr.topLit, Smt.trans, Smt.cached_no]
      exact ⟨_, _, rfl⟩
  · obtain ⟨rfl, rfl⟩ := Prod.mk.inj (Option.some.inj hT)
    refine ⟨rfl, key rfl rfl ⟨?_, ?_⟩ (fun σ => ?_) ⟨?_, (fun n => rfl), ?_, fun _ => ?_⟩⟩
    · exact ⟨trivial, transform_guarded (c := Expr.boolLit true) (b := .skip) trivial 1 lit1 .down, trivial, trivial⟩
    · exact ⟨trivial, transform_goodDists (c := Expr.boolLit true) (b := .skip) trivial 1 lit1 .down, trivial, trivial⟩
    · refine if_pos (show lit1.ev σ ≤ vcSem C (transformKInduction .down 1 lit1 (Expr.boolLit true) .skip) _ σ from ?_)
      rw [transformKInduction_sem]
      refine le_of_eq (if_pos ?_).symm
      intro σ' _
      exact le_of_eq (if_pos (show (Expr.boolLit true).tv σ' from rfl)).symm
    · refine ⟨hlit, ⟨hlit, (fun x hx => absurd hx List.not_mem_nil), trivial, hlit, ⟨?_, ⟨trivial, hlit, ?_, trivial⟩, trivial⟩, trivial⟩, hlit, trivial⟩
      · exact fun v h => h.elim
      · exact fun v h => h.elim
    · simp only [intoBoolVc, Smt.FinSub, Expr.topLit]
      repeat' (first | exact trivial | exact fun _ => trivial | constructor)
    · simp only [intoBoolVc, Expr.topLit, Smt.trans, Smt.cached_no]
      exact ⟨_, _, rfl⟩

theorem c58_verified {f : Ident} {p' : Proc} (h : table c58P' f = some p') : VcVerified (table c58P') p' := by
  intro d T hT
  obtain ⟨rfl, T', e, h1, h2, h3, -⟩ := c58_tasks h hT
  exact ⟨[], T', [], e, h1, h2, h3⟩

theorem c58_checked (cal : Ident → Option CalculusType) (hc : ∀ c c', cal ⟨"f", 0⟩ = some c → cal ⟨"g", 0⟩ = some c' → c' = c)
    (hs : (procSoundness .down (cal ⟨"g", 0⟩) c58Loop).soundProofs = true) :
    Checked c58P .down cal [[⟨"g", 0⟩], [⟨"f", 0⟩]] (table c58P') := by
  have hrec : ∀ f, ¬ ∃ b ∈ findRecursive (callGraph (bodies c58P)) [[⟨"g", 0⟩], [⟨"f", 0⟩]], b.recursive = f := by
    rintro f ⟨b, hb, -⟩
    have : findRecursive (callGraph (bodies c58P)) [[⟨"g", 0⟩], [⟨"f", 0⟩]] = [] := rfl
    rw [this] at hb
    exact absurd hb List.not_mem_nil
  have hmem : ∀ p ∈ c58P, p = c58F ∨ p = c58G := by
    intro p hp
    rcases List.mem_cons.1 hp with rfl | hp
    · exact Or.inl rfl
    · exact Or.inr (List.mem_singleton.1 hp)
  refine ⟨c58_sccs, fun p hp B hB => ?_, c58_encoded, fun p hp B hB => ?_⟩
  · rw [decide_eq_false (hrec p.name)]
    have hcal : ∀ o, cal p.name = o → checkProc o p.dir false (B.callees.map cal) = .ok () := by
      intro o ho
      cases o with
      | none =>
        show (B.callees.map cal).forM (checkCall none) = .ok ()
        induction B.callees.map cal with
        | nil => rfl
        | cons a l ih => exact ih
      | some c =>
        rw [C33_recursion]
        refine ⟨(fun h => nomatch h), fun c' hc' => ?_⟩
        rcases hmem p hp with rfl | rfl
        · cases hB
          exact hc c c' ho (List.mem_singleton.1 hc').symm
        · cases hB
          exact absurd hc' List.not_mem_nil
    exact hcal _ rfl
  · rcases hmem p hp with rfl | rfl
    · cases hB
      rfl
    · cases hB
      exact hs

end

/-- `f` is annotated with `@wp`, `g` is not annotated. -/
def c58Wp : Ident → Option CalculusType := fun f => if f = ⟨"f", 0⟩ then some .wp else none

/-- The full property is false: `f` claims to terminate (`@wp`, post `1`, pre `1`), passes all checks and verifies, but it never
terminates. The loop in `g` is verified with its default meaning, the greatest fixed point, because `g` is not annotated. -/
theorem C58_not_full : ¬ C58_full := by
  intro h
  let _ := unitDoms
  let _ := unitInterp
  have h1 := h unitDoms unitInterp c58P .down c58Wp (fun _ φ => φ) _ _ (c58_ok _)
    (c58_checked c58Wp (fun c c' _ h => nomatch h) rfl) (fun f p' hp => c58_verified hp) c58F List.mem_cons_self .wp rfl
  have h2 : c58F.pre zeroEnv ≤ recSem .up .lfp (table c58P) (fun _ φ => φ) ⟨"f", 0⟩ c58F.post zeroEnv := h1 zeroEnv
  have hpre : c58F.pre zeroEnv = 1 := by
    show (⨅ e ∈ [lit1], e.ev zeroEnv) = 1
    simp [lit1_ev]
  let Γ : ProcSem := fun f φ => if f = ⟨"f", 0⟩ ∨ f = ⟨"g", 0⟩ then fun _ => 0 else φ
  have hΓ : (∀ f, Monotone (Γ f)) ∧ ∀ f φ, unfoldProcs .lfp (table c58P) (fun _ φ => φ) Γ f φ ≤ Γ f φ := by
    refine ⟨fun f φ ψ hφ => ?_, fun f φ => ?_⟩
    · show (if _ then _ else _) ≤ (if _ then _ else _)
      split
      · exact le_rfl
      · exact hφ
    · cases hp : table c58P f with
      | none =>
        have hne : ¬ (f = ⟨"f", 0⟩ ∨ f = ⟨"g", 0⟩) := by
          rintro (rfl | rfl) <;> exact nomatch hp
        show (match table c58P f with | none => φ | some p => _) ≤ if _ then _ else _
        rw [hp, if_neg hne]
      | some p =>
        rcases c58P_cases hp with ⟨rfl, rfl⟩ | ⟨rfl, rfl⟩
        · exact fun σ => iInf_le (fun _ : Env => (0 : ℝ≥0∞)) σ
        · show vcSem (callCtx .lfp (table c58P) Γ) (.while (Expr.boolLit true) .skip) φ ≤ fun _ => 0
          rw [vcSem_while]
          refine sInf_le (a := (fun _ => 0 : Exp)) ?_
          intro σ
          exact le_of_eq (if_pos (show (Expr.boolLit true).tv σ from rfl))
  have h3 : recSem .up .lfp (table c58P) (fun _ φ => φ) ⟨"f", 0⟩ c58F.post zeroEnv ≤ 0 :=
    iInf₂_le (f := fun (Γ : ProcSem) (_ : Γ ∈ {Γ : ProcSem | (∀ f, Monotone (Γ f)) ∧
      ∀ f φ, unfoldProcs .lfp (table c58P) (fun _ φ => φ) Γ f φ ≤ Γ f φ}) => Γ ⟨"f", 0⟩ c58F.post zeroEnv) Γ hΓ
  rw [hpre] at h2
  exact absurd (h2.trans h3) (by simp)

/-! ## Non-vacuity -/

/-- With `@wlp` on both procedures the program is accepted, and correct. -/
example [Doms] [Interp] : c58F.Meets (progSem .wlp (table c58P) (fun _ φ => φ) ⟨"f", 0⟩) :=
  C58_partial c58P .down (fun _ => some .wlp) (fun _ φ => φ) _ _ (c58_ok _)
    (c58_checked _ (fun c c' h h' => by cases h; cases h'; rfl) rfl) (fun f p' hp => c58_verified hp) c58F List.mem_cons_self .wlp rfl
    fun _ _ _ _ h => nomatch h

/-- The solver accepts the queries of both procedures. -/
example [Doms] [Interp] [Smt.SmtInterp] (F : Smt.Faithful) (f : Ident) (p' : Proc) (h : table c58P' f = some p') :
    SolverVerified (fun _ _ => false) Smt.noCache ⟨true, true, true, false⟩ (table c58P') p' := by
  intro d T hT
  obtain ⟨rfl, T', e, h1, h2, h3, h4, h5, h6, h7⟩ := c58_tasks h hT
  obtain ⟨r, st, h7⟩ := h7 _
  refine ⟨[], T', [], e, h1, h2, (TyCtx.new, 0), 0, 0, 0, ?_, (fun h => nomatch h), (fun h => nomatch h), fun N =>
    ⟨N, le_rfl, _, _, r, st, h5 N, h6, h7, (Smt.C50_validity_partial F _ _ h6 h7).2 fun σ => ?_⟩⟩
  · exact h4
  · exact (Expr.eval_topLit rfl σ).trans (h3 σ).symm

/-- With `@wp` on both procedures the approximation analysis rejects the program. -/
example [Doms] [Interp] (sccs : List (List Ident)) (procs' : ProcTable) : ¬ Checked c58P .down (fun _ => some .wp) sccs procs' :=
  fun h => nomatch h.sound c58G (List.mem_cons_of_mem _ List.mem_cons_self) c58Loop rfl

end Caesar
