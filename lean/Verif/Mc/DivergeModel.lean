import Verif.Mc.DivergeSound

/-!
# Divergence of exported models

The specification statements around a body do not contain loops, so the parts of an exported model have the same greatest fixed points
as the body.
-/

open scoped ENNReal NNReal

namespace Caesar.Mc
set_option linter.unusedSectionVars false

variable [Fns]

theorem noCoassume_append (l m : List Stmt) : NoCoassume (Stmt.block (l ++ m)) ↔ NoCoassume (Stmt.block l) ∧ NoCoassume (Stmt.block m) := by
  induction l with
  | nil => exact ⟨fun h => ⟨trivial, h⟩, fun h => h.2⟩
  | cons s l ih => exact (and_congr_right fun _ => ih).trans and_assoc.symm

theorem noCoassume_blockStmts (S : Stmt) : NoCoassume (Stmt.block (blockStmts S)) ↔ NoCoassume S := by
  induction S with
  | seq s t _ ih => exact and_congr_right fun _ => ih
  | skip => exact Iff.rfl
  | _ => exact ⟨fun h => h.1, fun h => ⟨h, trivial⟩⟩

theorem noNeg_append (l m : List Stmt) : (Stmt.block (l ++ m)).NoNeg ↔ (Stmt.block l).NoNeg ∧ (Stmt.block m).NoNeg := by
  induction l with
  | nil => exact ⟨fun h => ⟨trivial, h⟩, fun h => h.2⟩
  | cons s l ih => exact (and_congr_right fun _ => ih).trans and_assoc.symm

theorem noNeg_blockStmts (S : Stmt) : (Stmt.block (blockStmts S)).NoNeg ↔ S.NoNeg := by
  induction S with
  | seq s t _ ih => exact and_congr_right fun _ => ih
  | skip => exact Iff.rfl
  | _ => exact ⟨fun h => h.1, fun h => ⟨h, trivial⟩⟩

/-- Specification statements do not negate. -/
theorem noNeg_spec {l : List Stmt} (h : ∀ s ∈ l, ∃ d e, throughAnnotation s = .assume d e ∨ throughAnnotation s = .assert d e) :
    (Stmt.block l).NoNeg := by
  induction l with
  | nil => trivial
  | cons s l ih =>
    refine ⟨?_, ih fun t ht => h t (List.mem_cons_of_mem _ ht)⟩
    obtain ⟨d, e, hs⟩ := h s List.mem_cons_self
    cases s with
    | annot a s =>
      have hs : s = .assume d e ∨ s = .assert d e := hs
      rcases hs with rfl | rfl <;> trivial
    | assume d' e' => trivial
    | assert d' e' => trivial
    | _ => rcases hs with hs | hs <;> cases hs

theorem extractPre_front {dir : Dir} {skip : Bool} {L : List Stmt} {cs : List JExpr} {rest : List Stmt}
    (h : extractPre dir skip L = some (cs, rest)) : ∃ front, L = front ++ rest ∧ ∀ s ∈ front, ∃ d e, throughAnnotation s = .assume d e := by
  induction L generalizing cs with
  | nil => cases h; exact ⟨[], rfl, fun _ h => nomatch h⟩
  | cons a L ih =>
    rw [extractPre] at h
    split at h
    next d e ha =>
      have hcons : ∀ {cs'}, extractPre dir skip L = some (cs', rest) →
          ∃ front, a :: L = front ++ rest ∧ ∀ s ∈ front, ∃ d e, throughAnnotation s = .assume d e := fun h' => by
        obtain ⟨front, h1, h2⟩ := ih h'
        refine ⟨a :: front, by rw [h1]; rfl, fun s hs => ?_⟩
        rcases List.mem_cons.1 hs with rfl | hs
        · exact ⟨d, e, ha⟩
        · exact h2 s hs
      split at h
      next => cases h
      next =>
        split at h
        next =>
          dsimp only [bind, Option.bind] at h
          split at h
          next => cases h
          next =>
            dsimp only at h
            split at h
            next => cases h
            next r hr =>
              obtain ⟨cs', r'⟩ := r
              cases h
              exact hcons hr
        next =>
          split at h
          next => exact hcons h
          next => cases h
    next => cases h; exact ⟨[], rfl, fun _ h => nomatch h⟩

theorem takePosts_front {dir : Dir} {R : List Stmt} {posts : List (Expr .eureal)} {rest : List Stmt}
    (h : takePosts dir R = some (posts, rest)) : ∃ front, R = front ++ rest ∧ ∀ s ∈ front, ∃ d e, throughAnnotation s = .assert d e := by
  induction R generalizing posts with
  | nil => cases h; exact ⟨[], rfl, fun _ h => nomatch h⟩
  | cons a L ih =>
    rw [takePosts] at h
    split at h
    next d e ha =>
      split at h
      next => cases h
      next =>
        dsimp only [bind, Option.bind] at h
        split at h
        next => cases h
        next r hr =>
          obtain ⟨p, q⟩ := r
          cases h
          obtain ⟨front, h1, h2⟩ := ih hr
          refine ⟨a :: front, by rw [h1]; rfl, fun s hs => ?_⟩
          rcases List.mem_cons.1 hs with rfl | hs
          · exact ⟨d, e, ha⟩
          · exact h2 s hs
    next => cases h; exact ⟨[], rfl, fun _ h => nomatch h⟩

section
variable [Doms] [Interp]

theorem liberal_block_append (T : ℝ≥0∞) (C : SemCtx) (l m : List Stmt) (φ : Exp) :
    liberal T C (Stmt.block (l ++ m)) φ = liberal T C (Stmt.block l) (liberal T C (Stmt.block m) φ) := by
  induction l with
  | nil => rfl
  | cons s l ih => rw [List.cons_append, Stmt.block, liberal, ih, Stmt.block, liberal]

theorem liberal_blockStmts (T : ℝ≥0∞) (C : SemCtx) (S : Stmt) (φ : Exp) : liberal T C (Stmt.block (blockStmts S)) φ = liberal T C S φ := by
  induction S generalizing φ with
  | seq s t _ ih => rw [blockStmts, Stmt.block, liberal, liberal, ih]
  | skip => rfl
  | _ => rfl

/-- Specification statements have their usual meaning. -/
theorem liberal_spec (T : ℝ≥0∞) (C : SemCtx) {l : List Stmt}
    (h : ∀ s ∈ l, ∃ d e, throughAnnotation s = .assume d e ∨ throughAnnotation s = .assert d e) (φ : Exp) :
    liberal T C (Stmt.block l) φ = vcSem C (Stmt.block l) φ := by
  induction l with
  | nil => rfl
  | cons s l ih =>
    rw [Stmt.block, liberal, vcSem, ih fun t ht => h t (List.mem_cons_of_mem _ ht)]
    obtain ⟨d, e, hs⟩ := h s List.mem_cons_self
    cases s with
    | annot a s =>
      have hs : s = .assume d e ∨ s = .assert d e := hs
      rcases hs with rfl | rfl <;> rfl
    | assume d' e' => rfl
    | assert d' e' => rfl
    | _ => rcases hs with hs | hs <;> cases hs

variable [JOps]

/-- The parts of a model. -/
theorem model_parts (hd : SameOps) {o : McOptions} {p : Proc} {body : Stmt} (hb : p.body = some body) {M : JModel}
    (h : procToModel o p = some M) (hsc : ProcScoped p body) (hsup : Supported body)
    (hq : o.skipQuantPre = true → ¬ LeadingQuant (blockStmts body)) {σ : Env} {s : JState} (hinit : M.Initial s)
    (hr : Rep (paramVars p) σ s) : ∃ (S : Stmt) (j : JExpr) (φ : Exp), Ends M.automaton j ∧ Enc M.automaton p.dir S M.initial .fin ∧
      (∀ v, paramVars p v → isJaniTy v.ty = true) ∧ Scoped S (paramVars p) [] ∧ Supported S ∧ (NoCoassume body → NoCoassume S) ∧ body.NoNeg ∧
      (∀ τ t, Rel (scope (paramVars p) S) [] τ t → j.weight t = φ τ) ∧ Rel (paramVars p) (pend S) σ s ∧
      ∀ T C, liberal T C S φ σ = liberal T C body p.post σ := by
  obtain ⟨pres, stmts, posts, rest, start, b, j, locals, ins, outs, fns, h1, h2, h3, h4, h5, h6, h7, hfn, rfl⟩ := procToModel_some hb h
  have hV : ∀ v, paramVars p v → isJaniTy v.ty = true := fun v hv => hv.elim (inputDecls_ty h5 v) (outputDecls_ty h6 v)
  obtain ⟨cs1, cs2, k1, k2, k3, k4, k5⟩ := extractPre_requires _ h1
  obtain ⟨rest', k6, k7⟩ := extractPre_ensures (by
    intro s hs d e
    obtain ⟨e', _, rfl⟩ := List.mem_map.1 hs
    exact Stmt.noConfusion) k2
  have hcs : ∀ c ∈ pres, (c.eval s).holds := (conjunction_holds pres s).1 hinit.1
  have hscB : Scoped (Stmt.block (blockStmts body)) (paramVars p) [] := (scoped_blockStmts _ _ _).2 hsc.body
  have hsupB : Supported (Stmt.block (blockStmts body)) := (supported_blockStmts _).2 hsup
  obtain ⟨front, f1, f2, f3, f4⟩ := extractPre_sound hd hV hr k6 hq (fun c hc => hcs c (by rw [k1]; exact List.mem_append_right _ hc)) hscB
  obtain ⟨front', g1, g2⟩ := extractPre_front k6
  have hff : front' = front := List.append_cancel_right (g1.symm.trans f1)
  subst hff
  rw [f1, scoped_append, f3] at hscB
  rw [f1, supported_append] at hsupB
  have hrev : stmts.reverse = (p.ensures.reverse.map fun e => wrapError (.assert p.dir e)) ++ rest'.reverse := by
    rw [k7, List.reverse_append, List.map_reverse]
  rw [hrev] at h2
  obtain ⟨posts', t1, t2⟩ := takePosts_ensures _ h2
  have hrr : rest'.reverse.reverse = rest' := List.reverse_reverse _
  obtain ⟨back, b1, b2, b3, b4, b5⟩ := takePosts_sound (V := paramVars p) t2 (by rw [hrr]; exact hscB.2)
  rw [hrr] at b1
  obtain ⟨back', c1, c2⟩ := takePosts_front t2
  have hbb : back'.reverse = back := by
    have := congrArg List.reverse c1
    rw [hrr, List.reverse_append] at this
    exact List.append_cancel_left (this.symm.trans b1)
  have hscR := hscB.2
  have hsupR := hsupB.2
  rw [b1, scoped_append, b2, List.nil_append] at hscR
  rw [b1, supported_append] at hsupR
  have hpend : pend (Stmt.block rest.reverse) = pend body := by
    rw [← pend_blockStmts body, f1, pend_append, f2, b1, pend_append, b2, List.nil_append, List.append_nil]
  have hrel : Rel (paramVars p) (pend (Stmt.block rest.reverse)) σ s := by
    refine ⟨hr, fun q hq => ?_⟩
    rw [hpend] at hq
    obtain ⟨j', hj', hm⟩ := localDecls_pend h4 q hq
    have hconst := pend_const body q hq
    rw [hinit.2 ⟨q.1, some j'⟩ (List.mem_append_left _ (List.mem_append_left _ hm)) j' rfl]
    exact const_eval hconst hj' s σ
  have hpok : ExprOk (scope (paramVars p) (Stmt.block rest.reverse)) (singlePost p.dir posts) := by
    refine singlePost_ok _ _ fun e he => ?_
    rw [t1] at he
    rcases List.mem_append.1 he with he | he
    · exact (hsc.post e (List.mem_reverse.1 he)).mono (le_scope _ _)
    · exact b4 e he
  refine ⟨Stmt.block rest.reverse, j, fun τ => (singlePost p.dir posts).ev τ,
    finish_ends ((translateStmt_good p.dir _ h7).wf fun e he => by cases he) j, translateStmt_enc h7 j, hV, hscR.1, hsupR.1, fun hco => ?_, ?_,
    fun τ t ht => weight_eq hd (scope_ty hscR.1 hV) ht.vars h3 hpok, hrel, fun T C => ?_⟩
  · rw [← noCoassume_blockStmts, f1, noCoassume_append, b1, noCoassume_append] at hco
    exact hco.2.1
  · rw [← noNeg_blockStmts, f1, noNeg_append, b1, noNeg_append]
    refine ⟨noNeg_spec fun s hs => ?_, enc_noNeg (translateStmt_enc h7 j), noNeg_spec fun s hs => ?_⟩
    · obtain ⟨d, e, h⟩ := g2 s hs
      exact ⟨d, e, .inl h⟩
    · rw [← hbb, List.mem_reverse] at hs
      obtain ⟨d, e, h⟩ := c2 s hs
      exact ⟨d, e, .inr h⟩
  · rw [← liberal_blockStmts T C body, f1, liberal_block_append, liberal_spec T C (l := front') (fun s hs => by
        obtain ⟨d, e, h⟩ := g2 s hs
        exact ⟨d, e, .inl h⟩), f4, b1, liberal_block_append, liberal_spec T C (l := back) (fun s hs => by
        rw [← hbb, List.mem_reverse] at hs
        obtain ⟨d, e, h⟩ := c2 s hs
        exact ⟨d, e, .inr h⟩), b5]
    congr 1
    funext τ
    rw [singlePost_ev, t1, meet_mem_perm, meet_mem_perm, Proc.post, combine_meet, meet_mem_perm]
    cases p.dir with
    | down =>
      show min ⊤ _ = min (min ⊤ _) _
      rw [min_top_left, min_top_left]
      simp only [List.map_append, List.mem_append, iInf_or, iInf_inf_eq, List.map_reverse, List.mem_reverse]
    | up =>
      show max 0 _ = max (max 0 _) _
      rw [max_eq_right zero_le, max_eq_right zero_le]
      simp only [List.map_append, List.mem_append, iSup_or, iSup_sup_eq, List.map_reverse, List.mem_reverse]

end

end Caesar.Mc
