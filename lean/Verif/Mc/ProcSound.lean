import Verif.Mc.Sound
import Verif.Procs.Spec

/-!
# The value of the model of a procedure
-/

open scoped ENNReal NNReal

namespace Caesar.Mc
set_option linter.unusedSectionVars false

variable [Fns]

theorem ExprOk.mono {V V' : Var → Prop} (h : ∀ v, V v → V' v) {t : Ty} {e : Expr t} (he : ExprOk V e) : ExprOk V' e := by
  induction e with
  | var x => exact h _ he
  | lit => trivial
  | call f args ih => exact ⟨he.1, fun i => ih i (he.2 i)⟩
  | ite c a b ihc iha ihb => exact ⟨ihc he.1, iha he.2.1, ihb he.2.2⟩
  | bin op a b iha ihb => exact ⟨he.1, iha he.2.1, ihb he.2.2⟩
  | rel op a b iha ihb => exact ⟨he.1, iha he.2.1, ihb he.2.2⟩
  | subst x e a ihe iha => exact ⟨ihe he.1, iha he.2⟩
  | un _ a ih => exact ih he
  | embed a ih => exact ih he
  | iverson a ih => exact ih he
  | cast _ a ih => exact ih he
  | quant _ _ _ a ih => exact ih he

/-! ## Blocks -/

theorem pend_blockStmts (S : Stmt) : pend (Stmt.block (blockStmts S)) = pend S := by
  induction S with
  | seq s t _ ih => rw [blockStmts, Stmt.block, pend, pend, ih]
  | skip => rfl
  | _ => simp [blockStmts, Stmt.block, pend]

theorem scope_blockStmts (S : Stmt) (V : Var → Prop) : scope V (Stmt.block (blockStmts S)) = scope V S := by
  induction S generalizing V with
  | seq s t _ ih => rw [blockStmts, Stmt.block, scope, scope, ih]
  | skip => rfl
  | _ => simp [blockStmts, Stmt.block, scope]

theorem scoped_blockStmts (S : Stmt) (V : Var → Prop) (Q : List ((x : Var) × Expr x.ty)) :
    Scoped (Stmt.block (blockStmts S)) V Q ↔ Scoped S V Q := by
  induction S generalizing V Q with
  | seq s t _ ih => rw [blockStmts, Stmt.block, Scoped, Scoped, ih, pend_blockStmts]
  | skip => exact Iff.rfl
  | _ => simp [blockStmts, Stmt.block, Scoped, pend]

theorem supported_blockStmts (S : Stmt) : Supported (Stmt.block (blockStmts S)) ↔ Supported S := by
  induction S with
  | seq s t _ ih => rw [blockStmts, Stmt.block, Supported, Supported, ih]
  | skip => exact Iff.rfl
  | _ => simp [blockStmts, Stmt.block, Supported]

theorem pend_append (l m : List Stmt) : pend (Stmt.block (l ++ m)) = pend (Stmt.block l) ++ pend (Stmt.block m) := by
  induction l with
  | nil => rfl
  | cons s l ih => rw [List.cons_append, Stmt.block, pend, ih, Stmt.block, pend, List.append_assoc]

theorem scope_append (l m : List Stmt) (V : Var → Prop) :
    scope V (Stmt.block (l ++ m)) = scope (scope V (Stmt.block l)) (Stmt.block m) := by
  induction l generalizing V with
  | nil => rfl
  | cons s l ih => rw [List.cons_append, Stmt.block, scope, ih, Stmt.block, scope]

theorem scoped_append (l m : List Stmt) (V : Var → Prop) (Q : List ((x : Var) × Expr x.ty)) :
    Scoped (Stmt.block (l ++ m)) V Q ↔ Scoped (Stmt.block l) V (pend (Stmt.block m) ++ Q) ∧
      Scoped (Stmt.block m) (scope V (Stmt.block l)) Q := by
  induction l generalizing V with
  | nil => exact (iff_of_eq (true_and _)).symm
  | cons s l ih =>
    rw [List.cons_append, Stmt.block, Scoped, ih, Stmt.block, Scoped, scope, pend_append, List.append_assoc, and_assoc]

theorem supported_append (l m : List Stmt) :
    Supported (Stmt.block (l ++ m)) ↔ Supported (Stmt.block l) ∧ Supported (Stmt.block m) := by
  induction l with
  | nil => exact (iff_of_eq (true_and _)).symm
  | cons s l ih => rw [List.cons_append, Stmt.block, Supported, ih, Stmt.block, Supported, and_assoc]

theorem through_effect (s : Stmt) (V : Var → Prop) (Q : List ((x : Var) × Expr x.ty)) :
    pend s = pend (throughAnnotation s) ∧ scope V s = scope V (throughAnnotation s) ∧
      (Scoped s V Q ↔ Scoped (throughAnnotation s) V Q) ∧ (Supported s ↔ Supported (throughAnnotation s)) := by
  cases s <;> exact ⟨rfl, rfl, Iff.rfl, Iff.rfl⟩

/-- The statements begin with an `assume` of a quantity; it would be dropped with `--jani-skip-quant-pre`. -/
def LeadingQuant : List Stmt → Prop
  | [] => False
  | s :: rest => match throughAnnotation s with
    | .assume _ e => extractEmbed e = none ∨ LeadingQuant rest
    | _ => False

section
variable [Doms] [Interp]

theorem vcSem_through (C : SemCtx) (s : Stmt) : vcSem C s = vcSem C (throughAnnotation s) := by
  cases s <;> rfl

theorem vcSem_block_append (C : SemCtx) (l m : List Stmt) (φ : Exp) :
    vcSem C (Stmt.block (l ++ m)) φ = vcSem C (Stmt.block l) (vcSem C (Stmt.block m) φ) := by
  induction l with
  | nil => rfl
  | cons s l ih => rw [List.cons_append, Stmt.block, vcSem, ih, Stmt.block, vcSem]

theorem vcSem_blockStmts (C : SemCtx) (S : Stmt) (φ : Exp) : vcSem C (Stmt.block (blockStmts S)) φ = vcSem C S φ := by
  induction S generalizing φ with
  | seq s t _ ih => rw [blockStmts, Stmt.block, vcSem, vcSem, ih]
  | skip => rfl
  | _ => rfl

variable [JOps]

/-! ## Preconditions -/

/-- The neutral value of specifications: `∞` in procs, `0` in coprocs. -/
noncomputable def neutral : Dir → ℝ≥0∞
  | .down => ⊤
  | .up => 0

/-- A Boolean pre is at its neutral value exactly if execution continues. -/
theorem contCond_ev (hd : SameOps) {V : Var → Prop} (hV : ∀ v, V v → isJaniTy v.ty = true) {σ : Env} {s : JState}
    (hr : Rep V σ s) (d : Dir) {e : Expr .eureal} {c : Expr .bool} {j : JExpr} (h1 : extractEmbed e = some c)
    (h2 : translate c = some j) (hok : ExprOk V e) :
    ((contCond d j).eval s).holds ↔ e.ev σ = neutral d := by
  have hc := contCond_iff d j s (cond_eq hd hV hr h2 ((embed_spec h1).1 V hok))
  rw [hc]
  have he := (embed_spec h1).2 σ
  cases d with
  | down => exact ⟨fun h => he.1 h, fun h => by_contra fun hn => absurd ((he.2 hn).symm.trans h) ENNReal.zero_ne_top⟩
  | up => exact ⟨fun h => he.2 h, fun h hn => absurd ((he.1 hn).symm.trans h) ENNReal.top_ne_zero⟩

theorem assume_neutral (C : SemCtx) (d : Dir) (e : Expr .eureal) (φ : Exp) (σ : Env) (h : e.ev σ = neutral d) : vcSem C (.assume d e) φ σ = φ σ := by
  cases d with
  | down =>
    show (if e.ev σ ≤ φ σ then ⊤ else φ σ) = φ σ
    rw [h, neutral]
    split
    next ht => exact (top_le_iff.1 ht).symm
    next => rfl
  | up =>
    show (if e.ev σ ≥ φ σ then 0 else φ σ) = φ σ
    rw [h, neutral]
    split
    next ht => exact (le_antisymm ht zero_le).symm
    next => rfl

theorem extractPre_requires {dir : Dir} {skip : Bool} (es : List (Expr .eureal)) {L : List Stmt} {cs : List JExpr} {rest : List Stmt}
    (h : extractPre dir skip ((es.map fun e => wrapSuccess (.assume dir e)) ++ L) = some (cs, rest)) :
    ∃ cs1 cs2, cs = cs1 ++ cs2 ∧ extractPre dir skip L = some (cs2, rest) ∧
      (∀ j, j ∈ cs1 ↔ ∃ e ∈ es, ∃ c j', extractEmbed e = some c ∧ translate c = some j' ∧ j = contCond dir j') ∧
      (∀ e ∈ es, ∀ c, extractEmbed e = some c → ∃ j, translate c = some j) ∧
      (∀ e ∈ es, extractEmbed e = none → skip = true) := by
  induction es generalizing cs with
  | nil => exact ⟨[], cs, rfl, h, fun j => by simp, fun e he => (nomatch he), fun e he => (nomatch he)⟩
  | cons e es ih =>
    rw [List.map_cons, List.cons_append, extractPre] at h
    have ht : throughAnnotation (wrapSuccess (.assume dir e)) = .assume dir e := rfl
    rw [ht] at h
    dsimp only at h
    rw [if_neg (by simp)] at h
    cases hc : extractEmbed e with
    | none =>
      rw [hc] at h
      dsimp only at h
      split at h
      next hs =>
        obtain ⟨cs1, cs2, h1, h2, h3, h4, h5⟩ := ih h
        refine ⟨cs1, cs2, h1, h2, fun j => ?_, fun e' he' c hc' => ?_, fun e' he' hn => ?_⟩
        · rw [h3]
          refine ⟨fun ⟨e', he', r⟩ => ⟨e', List.mem_cons_of_mem _ he', r⟩, fun ⟨e', he', c, j', r1, r2⟩ => ?_⟩
          rcases List.mem_cons.1 he' with rfl | he'
          · rw [hc] at r1; cases r1
          · exact ⟨e', he', c, j', r1, r2⟩
        · rcases List.mem_cons.1 he' with rfl | he'
          · rw [hc] at hc'; cases hc'
          · exact h4 e' he' c hc'
        · exact hs
      next => cases h
    | some c =>
      rw [hc] at h
      dsimp only [bind, Option.bind] at h
      cases hj : translate c with
      | none => rw [hj] at h; cases h
      | some j =>
        rw [hj] at h
        dsimp only at h
        split at h
        next => cases h
        next r hr =>
          cases h
          obtain ⟨cs', rest'⟩ := r
          obtain ⟨cs1, cs2, h1, h2, h3, h4, h5⟩ := ih hr
          refine ⟨contCond dir j :: cs1, cs2, by rw [h1]; rfl, h2, fun j' => ?_, fun e' he' c' hc' => ?_, fun e' he' hn => ?_⟩
          · rw [List.mem_cons, h3]
            constructor
            · rintro (rfl | ⟨e', he', r⟩)
              · exact ⟨e, List.mem_cons_self, c, j, hc, hj, rfl⟩
              · exact ⟨e', List.mem_cons_of_mem _ he', r⟩
            · rintro ⟨e', he', c', j'', r1, r2, r3⟩
              rcases List.mem_cons.1 he' with rfl | he'
              · rw [hc] at r1
                cases r1
                rw [hj] at r2
                cases r2
                exact .inl r3
              · exact .inr ⟨e', he', c', j'', r1, r2, r3⟩
          · rcases List.mem_cons.1 he' with rfl | he'
            · rw [hc] at hc'
              cases hc'
              exact ⟨j, hj⟩
            · exact h4 e' he' c' hc'
          · rcases List.mem_cons.1 he' with rfl | he'
            · rw [hc] at hn; cases hn
            · exact h5 e' he' hn

/-- Dropping the `assume`s at the beginning does not change the expectation in the initial states. -/
theorem extractPre_sound (hd : SameOps) {V : Var → Prop} (hV : ∀ v, V v → isJaniTy v.ty = true) {σ : Env} {s : JState}
    (hr : Rep V σ s) {dir : Dir} {skip : Bool} {L : List Stmt} {cs : List JExpr} {rest : List Stmt}
    (h : extractPre dir skip L = some (cs, rest)) (hq : skip = true → ¬ LeadingQuant L) (hcs : ∀ c ∈ cs, (c.eval s).holds)
    {Q : List ((x : Var) × Expr x.ty)} (hsc : Scoped (Stmt.block L) V Q) :
    ∃ front, L = front ++ rest ∧ pend (Stmt.block front) = [] ∧ scope V (Stmt.block front) = V ∧
      ∀ C φ, vcSem C (Stmt.block front) φ σ = φ σ := by
  induction L generalizing cs with
  | nil => cases h; exact ⟨[], rfl, rfl, rfl, fun _ _ => rfl⟩
  | cons a L ih =>
    rw [extractPre] at h
    have hthr := through_effect a V (pend (Stmt.block L) ++ Q)
    split at h
    next d e ha =>
      rw [ha] at hthr
      split at h
      next => cases h
      next hdir =>
        have hdir : d = dir := not_not.1 hdir
        subst hdir
        have hsc' : Scoped (Stmt.block L) V Q := by
          have h2 := hsc.2
          rw [hthr.2.1] at h2
          exact h2
        split at h
        next c hc =>
          dsimp only [bind, Option.bind] at h
          cases hj : translate c with
          | none => rw [hj] at h; cases h
          | some j =>
            rw [hj] at h
            dsimp only at h
            split at h
            next => cases h
            next r hr' =>
              obtain ⟨cs', rest'⟩ := r
              cases h
              have hq' : skip = true → ¬ LeadingQuant L := fun hs hl => hq hs (by
                rw [LeadingQuant, ha]
                exact .inr hl)
              obtain ⟨front, h1, h2, h3, h4⟩ := ih hr' hq' (fun c hc => hcs c (List.mem_cons_of_mem _ hc)) hsc'
              refine ⟨a :: front, by rw [h1]; rfl, ?_, ?_, fun C φ => ?_⟩
              · rw [Stmt.block, pend, h2, hthr.1]; rfl
              · rw [Stmt.block, scope, hthr.2.1]; exact h3
              · rw [Stmt.block, vcSem, vcSem_through, ha, assume_neutral, h4]
                exact (contCond_ev hd hV hr d hc hj (hthr.2.2.1.1 hsc.1)).1 (hcs _ List.mem_cons_self)
        next hc =>
          split at h
          next hs => exact absurd (show LeadingQuant (a :: L) by rw [LeadingQuant, ha]; exact .inl hc) (hq hs)
          next => cases h
    next => cases h; exact ⟨[], rfl, rfl, rfl, fun _ _ => rfl⟩

theorem conjunction_holds (cs : List JExpr) (s : JState) : ((conjunction cs).eval s).holds ↔ ∀ c ∈ cs, (c.eval s).holds := by
  have hf : ∀ (cs : List JExpr) (c : JExpr), ((cs.foldl (.bin .and) c).eval s).holds ↔ (c.eval s).holds ∧ ∀ c ∈ cs, (c.eval s).holds := by
    intro cs
    induction cs with
    | nil => intro c; simp
    | cons c' cs ih =>
      intro c
      rw [List.foldl_cons, ih, List.forall_mem_cons]
      show (((c.eval s).holds ∧ (c'.eval s).holds) ∧ _) ↔ _
      tauto
  cases cs with
  | nil => exact ⟨fun _ c hc => (nomatch hc), fun _ => rfl⟩
  | cons c cs =>
    rw [conjunction, hf, List.forall_mem_cons]

/-! ## Postconditions -/

/-- The combination with a list of postconditions. -/
noncomputable def meet (d : Dir) (x : ℝ≥0∞) (es : List ℝ≥0∞) : ℝ≥0∞ :=
  match d with
  | .down => es.foldr min x
  | .up => es.foldr max x

theorem meet_cons (d : Dir) (x e : ℝ≥0∞) (es : List ℝ≥0∞) : meet d x (e :: es) = match d with
    | .down => min e (meet d x es)
    | .up => max e (meet d x es) := by cases d <;> rfl

theorem takePosts_ensures {dir : Dir} (es : List (Expr .eureal)) {R : List Stmt} {posts : List (Expr .eureal)} {rest : List Stmt}
    (h : takePosts dir ((es.map fun e => wrapError (.assert dir e)) ++ R) = some (posts, rest)) :
    ∃ posts', posts = es ++ posts' ∧ takePosts dir R = some (posts', rest) := by
  induction es generalizing posts with
  | nil => exact ⟨posts, rfl, h⟩
  | cons e es ih =>
    rw [List.map_cons, List.cons_append, takePosts] at h
    have ht : throughAnnotation (wrapError (.assert dir e)) = .assert dir e := rfl
    rw [ht] at h
    dsimp only [bind, Option.bind] at h
    rw [if_neg (by simp)] at h
    split at h
    next => cases h
    next r hr =>
      obtain ⟨p, q⟩ := r
      cases h
      obtain ⟨posts', h1, h2⟩ := ih hr
      exact ⟨posts', by rw [h1]; rfl, h2⟩

/-- The `assert`s taken from the end. -/
theorem takePosts_sound {dir : Dir} {R : List Stmt} {posts : List (Expr .eureal)} {rest : List Stmt}
    (h : takePosts dir R = some (posts, rest)) {V : Var → Prop} (hsc : Scoped (Stmt.block R.reverse) V []) :
    ∃ back, R.reverse = rest.reverse ++ back ∧ pend (Stmt.block back) = [] ∧ (∀ V, scope V (Stmt.block back) = V) ∧
      (∀ e ∈ posts, ExprOk (scope V (Stmt.block rest.reverse)) e) ∧
      ∀ C φ, vcSem C (Stmt.block back) φ = fun σ => meet dir (φ σ) (posts.reverse.map fun e => e.ev σ) := by
  induction R generalizing posts with
  | nil => cases h; exact ⟨[], rfl, rfl, fun _ => rfl, fun e he => (nomatch he), fun _ _ => by cases dir <;> rfl⟩
  | cons a R ih =>
    rw [takePosts] at h
    split at h
    next d e ha =>
      split at h
      next => cases h
      next hdir =>
        have hdir : d = dir := not_not.1 hdir
        subst hdir
        dsimp only [bind, Option.bind] at h
        split at h
        next => cases h
        next r hr =>
          obtain ⟨p, q⟩ := r
          cases h
          rw [List.reverse_cons, scoped_append] at hsc
          have hpa : ∀ V, pend (Stmt.block [a]) = [] ∧ scope V (Stmt.block [a]) = V ∧
              (Scoped (Stmt.block [a]) V [] → ExprOk V e) := fun V => by
            have hthr := through_effect a V (pend Stmt.skip ++ [])
            rw [ha] at hthr
            refine ⟨?_, ?_, fun h => ?_⟩
            · show pend a ++ [] = []
              rw [hthr.1]; rfl
            · exact hthr.2.1
            · exact hthr.2.2.1.1 h.1
          rw [(hpa V).1, List.nil_append] at hsc
          obtain ⟨back, h1, h2, h3, h4, h5⟩ := ih hr hsc.1
          refine ⟨back ++ [a], ?_, ?_, fun V => ?_, fun e' he' => ?_, fun C φ => ?_⟩
          · rw [List.reverse_cons, h1, List.append_assoc]
          · rw [pend_append, h2, (hpa V).1]; rfl
          · rw [scope_append, h3, (hpa V).2.1]
          · rcases List.mem_cons.1 he' with rfl | he'
            · have := (hpa _).2.2 hsc.2
              rw [h1, scope_append, h3] at this
              exact this
            · exact h4 e' he'
          · rw [vcSem_block_append, h5]
            funext σ
            have hvs : vcSem C (Stmt.block [a]) φ σ = meet d (φ σ) [e.ev σ] := by
              rw [Stmt.block, Stmt.block, vcSem, vcSem, vcSem_through, ha]
              cases d <;> rfl
            rw [hvs, List.reverse_cons, List.map_append]
            cases d <;> simp [meet]
    next =>
      cases h
      refine ⟨[], (List.append_nil _).symm, rfl, fun _ => rfl, fun e he => (nomatch he), fun _ _ => by cases dir <;> rfl⟩

theorem meet_mem_perm (d : Dir) (x : ℝ≥0∞) (es : List ℝ≥0∞) : meet d x es = match d with
    | .down => min x (⨅ e ∈ es, e)
    | .up => max x (⨆ e ∈ es, e) := by
  induction es with
  | nil => cases d <;> simp [meet]
  | cons e es ih =>
    rw [meet_cons]
    cases d with
    | down =>
      rw [show meet .down x es = min x (⨅ e ∈ es, e) from ih]
      show min e (min x _) = min x _
      rw [show (⨅ e' ∈ e :: es, e') = min e (⨅ e' ∈ es, e') by simp [iInf_or, iInf_inf_eq], min_left_comm]
    | up =>
      rw [show meet .up x es = max x (⨆ e ∈ es, e) from ih]
      show max e (max x _) = max x _
      rw [show (⨆ e' ∈ e :: es, e') = max e (⨆ e' ∈ es, e') by simp [iSup_or, iSup_sup_eq], max_left_comm]

theorem foldl_meet (d : Dir) (es : List (Expr .eureal)) (e : Expr .eureal) (σ : Env) :
    (es.foldl (.bin (match d with | .down => .inf rfl | .up => .sup rfl)) e).ev σ = meet d (e.ev σ) (es.map fun e => e.ev σ) := by
  induction es generalizing e with
  | nil => cases d <;> rfl
  | cons e' es ih =>
    rw [List.foldl_cons, ih, List.map_cons, meet_cons, meet_mem_perm, meet_mem_perm]
    cases d with
    | down =>
      show min ((Expr.bin (.inf rfl) e e').ev σ) _ = _
      rw [Expr.ev_inf]
      show min (min _ _) _ = min _ (min _ _)
      rw [min_assoc, min_left_comm]
    | up =>
      show max ((Expr.bin (.sup rfl) e e').ev σ) _ = _
      rw [Expr.ev_sup]
      show max (max _ _) _ = max _ (max _ _)
      rw [max_assoc, max_left_comm]

theorem isDirTopLit_ev {d : Dir} {e : Expr .eureal} (h : isDirTopLit d e = true) (σ : Env) : e.ev σ = neutral d := by
  cases d with
  | down => exact Expr.eval_isTopLit rfl e h σ
  | up => exact Expr.eval_isBotLit rfl e h σ

theorem singlePost_ev (d : Dir) (posts : List (Expr .eureal)) (σ : Env) :
    (singlePost d posts).ev σ = meet d (neutral d) (posts.map fun e => e.ev σ) := by
  have hf : meet d (neutral d) (posts.map fun e => e.ev σ) =
      meet d (neutral d) ((posts.filter fun e => !isDirTopLit d e).map fun e => e.ev σ) := by
    induction posts with
    | nil => rfl
    | cons e es ih =>
      by_cases he : isDirTopLit d e = true
      · rw [List.filter_cons_of_neg (by simp [he]), ← ih, List.map_cons, meet_cons, isDirTopLit_ev he]
        cases d with
        | down => exact min_top_left _
        | up => exact max_eq_right zero_le
      · rw [List.filter_cons_of_pos (by simp [he]), List.map_cons, List.map_cons, meet_cons, meet_cons, ih]
  rw [hf]
  unfold singlePost
  split
  next h =>
    rw [h]
    cases d with
    | down => rfl
    | up => exact Expr.eval_isBotLit (t := .eureal) rfl _ rfl σ
  next e es h =>
    rw [h]
    refine Eq.trans (b := meet d (e.ev σ) (es.map fun e => e.ev σ)) (by
      cases d with
      | down => exact foldl_meet .down es e σ
      | up => exact foldl_meet .up es e σ) ?_
    rw [List.map_cons, meet_cons, meet_mem_perm, meet_mem_perm]
    cases d with
    | down => show min _ _ = min _ (min ⊤ _); rw [min_top_left]
    | up => show max _ _ = max _ (max 0 _); rw [max_eq_right (a := 0) zero_le]

theorem singlePost_ok {V : Var → Prop} (d : Dir) (posts : List (Expr .eureal)) (h : ∀ e ∈ posts, ExprOk V e) :
    ExprOk V (singlePost d posts) := by
  have hf : ∀ (es : List (Expr .eureal)) (e : Expr .eureal), ExprOk V e → (∀ e ∈ es, ExprOk V e) →
      ExprOk V (es.foldl (.bin (match d with | .down => .inf rfl | .up => .sup rfl)) e) := by
    intro es
    induction es with
    | nil => exact fun e he _ => he
    | cons e' es ih =>
      intro e he hes
      refine ih _ ⟨?_, he, hes e' List.mem_cons_self⟩ fun e'' he'' => hes e'' (List.mem_cons_of_mem _ he'')
      cases d <;> exact Ty.noConfusion
  unfold singlePost
  split
  · cases d <;> trivial
  next e es he =>
    have hm : ∀ e' ∈ e :: es, e' ∈ posts := fun e' he' => List.mem_of_mem_filter (he ▸ he')
    exact hf es e (h e (hm e List.mem_cons_self)) fun e' he' => h e' (hm e' (List.mem_cons_of_mem _ he'))

theorem combine_meet (d : Dir) (es : List (Expr .eureal)) (σ : Env) :
    combine d es σ = meet d (neutral d) (es.map fun e => e.ev σ) := by
  rw [meet_mem_perm]
  cases d with
  | down =>
    show _ = min ⊤ _
    rw [min_top_left]
    exact (iInf_image (f := fun e : Expr .eureal => e.ev σ) (t := {e | e ∈ es}) (g := id)).symm.trans (by simp [Set.image])
  | up =>
    show _ = max 0 _
    rw [max_eq_right zero_le]
    exact (iSup_image (f := fun e : Expr .eureal => e.ev σ) (t := {e | e ∈ es}) (g := id)).symm.trans (by simp [Set.image])

/-! ## Procedures -/

/-- The parameters of a procedure. -/
def paramVars (p : Proc) (v : Var) : Prop := v ∈ p.ins ∨ v ∈ p.outputs

/-- What the front end guarantees (declared variables only), and unique names. -/
structure ProcScoped (p : Proc) (body : Stmt) : Prop where
  pre : ∀ e ∈ p.requires, ExprOk (paramVars p) e
  post : ∀ e ∈ p.ensures, ExprOk (paramVars p) e
  body : Scoped body (paramVars p) []

/-- The initial states of a JANI model: the declared initial values, and `restrict-initial`. -/
def JModel.Initial (M : JModel) (s : JState) : Prop :=
  (M.restrict.eval s).holds ∧ ∀ d ∈ M.decls, ∀ e, d.init = some e → s d.var.id.name = e.eval s

omit [Fns] [Doms] [Interp] [JOps] in
theorem mkDecl_some {x : Var} {i : Option JExpr} {ds : List JDecl} (h : mkDecl x i = some ds) :
    isJaniTy x.ty = true ∧ ds = [⟨x, i⟩] := by
  unfold mkDecl at h
  split at h
  next ht => cases h; exact ⟨ht, rfl⟩
  next => cases h

theorem inputDecls_ty {xs : List Var} {ds : List JDecl} (h : inputDecls xs = some ds) : ∀ x ∈ xs, isJaniTy x.ty = true := by
  induction xs generalizing ds with
  | nil => exact fun x hx => (nomatch hx)
  | cons x xs ih =>
    rw [inputDecls] at h
    dsimp only [bind, Option.bind] at h
    split at h
    next => cases h
    next d hd =>
      dsimp only at h
      split at h
      next => cases h
      next d' hd' =>
        intro y hy
        rcases List.mem_cons.1 hy with rfl | hy
        · exact (mkDecl_some hd).1
        · exact ih hd' y hy

theorem outputDecls_ty {u : Bool} {xs : List Var} {ds : List JDecl} (h : outputDecls u xs = some ds) :
    ∀ x ∈ xs, isJaniTy x.ty = true := by
  induction xs generalizing ds with
  | nil => exact fun x hx => (nomatch hx)
  | cons x xs ih =>
    rw [outputDecls] at h
    dsimp only [bind, Option.bind] at h
    split at h
    next => cases h
    next d hd =>
      dsimp only at h
      split at h
      next => cases h
      next d' hd' =>
        intro y hy
        rcases List.mem_cons.1 hy with rfl | hy
        · exact (mkDecl_some hd).1
        · exact ih hd' y hy

/-- The variables declared with a constant have it as their initial value. -/
theorem localDecls_pend {S : Stmt} {ds : List JDecl} (h : localDecls S = some ds) :
    ∀ q ∈ pend S, ∃ j, translate q.2 = some j ∧ ⟨q.1, some j⟩ ∈ ds := by
  induction S generalizing ds with
  | varInit x e =>
    rw [localDecls] at h
    rw [pend]
    split at h
    next hc =>
      rw [if_pos hc]
      dsimp only [bind, Option.bind] at h
      split at h
      next => cases h
      next j hj =>
        intro q hq
        rw [List.mem_singleton.1 hq]
        refine ⟨j, hj, ?_⟩
        rw [(mkDecl_some h).2]
        exact List.mem_cons_self
    next hc =>
      rw [if_neg hc]
      exact fun q hq => (nomatch hq)
  | seq a b iha ihb | demonic a b iha ihb | angelic a b iha ihb | additive a b iha ihb | ite _ a b iha ihb =>
    rw [localDecls] at h
    dsimp only [bind, Option.bind] at h
    split at h
    next => cases h
    next d hd =>
      dsimp only at h
      split at h
      next => cases h
      next d' hd' =>
        cases h
        intro q hq
        rcases List.mem_append.1 hq with hq | hq
        · obtain ⟨j, h1, h2⟩ := iha hd q hq
          exact ⟨j, h1, List.mem_append_left _ h2⟩
        · obtain ⟨j, h1, h2⟩ := ihb hd' q hq
          exact ⟨j, h1, List.mem_append_right _ h2⟩
  | «while» _ s ih => exact ih h
  | annot _ s ih => exact ih h
  | _ => exact fun q hq => (nomatch hq)

theorem const_eval {t : Ty} {e : Expr t} (h : isConstant e = true) {j : JExpr} (hj : translate e = some j) (s : JState) (σ : Env) :
    j.eval s = toJ t (e.eval σ) := by
  cases e with
  | lit l => exact (lit_eval l hj s).2.1
  | _ => cases h

omit [Doms] [Interp] [JOps] in
/-- A model: its parts. -/
theorem procToModel_some {o : McOptions} {p : Proc} {body : Stmt} (hb : p.body = some body) {M : JModel}
    (h : procToModel o p = some M) : ∃ pres stmts posts rest start b j locals ins outs fns,
      extractPre p.dir o.skipQuantPre ((p.requires.map fun e => wrapSuccess (.assume p.dir e)) ++ (blockStmts body ++
        (p.ensures.map fun e => wrapError (.assert p.dir e)))) = some (pres, stmts) ∧
      takePosts p.dir stmts.reverse = some (posts, rest) ∧ translate (singlePost p.dir posts) = some j ∧
      localDecls body = some locals ∧ inputDecls p.ins = some ins ∧ outputDecls o.uninitOutputs p.outputs = some outs ∧
      translateStmt p.dir (Stmt.block rest.reverse) .fin ⟨0, [], false⟩ = some (start, b) ∧
      translateFns ((pres.map JExpr.calls).flatten ++ j.calls ++ (b.edges.map JEdge.calls).flatten) = some fns ∧
      M = ⟨locals ++ ins ++ outs, finish b j, start, conjunction pres, b.nondet, fns⟩ := by
  unfold procToModel at h
  rw [hb] at h
  dsimp only [bind, Option.bind] at h
  rw [List.append_assoc] at h
  split at h
  next => cases h
  next r h1 =>
    obtain ⟨pres, stmts⟩ := r
    dsimp only at h
    split at h
    next => cases h
    next r h2 =>
      obtain ⟨j, rest'⟩ := r
      dsimp only at h
      unfold extractPost at h2
      dsimp only [bind, Option.bind] at h2
      split at h2
      next => cases h2
      next r h3 =>
        obtain ⟨posts, rest⟩ := r
        dsimp only at h2
        split at h2
        next => cases h2
        next =>
          split at h2
          next => cases h2
          next j' h4 =>
            cases h2
            split at h
            next => cases h
            next locals h5 =>
              dsimp only at h
              split at h
              next => cases h
              next ins h6 =>
                dsimp only at h
                split at h
                next => cases h
                next outs h7 =>
                  dsimp only at h
                  split at h
                  next => cases h
                  next r h8 =>
                    obtain ⟨start, b⟩ := r
                    dsimp only at h
                    split at h
                    next => cases h
                    next fns h9 =>
                      cases h
                      exact ⟨pres, stmts, posts, rest, start, b, j, locals, ins, outs, fns, h1, h3, h4, h5, h6, h7, h8, h9, rfl⟩

theorem extractPre_ensures {dir : Dir} {skip : Bool} {L E : List Stmt} (hE : ∀ s ∈ E, ∀ d e, throughAnnotation s ≠ .assume d e)
    {cs : List JExpr} {rest : List Stmt} (h : extractPre dir skip (L ++ E) = some (cs, rest)) :
    ∃ rest', extractPre dir skip L = some (cs, rest') ∧ rest = rest' ++ E := by
  induction L generalizing cs with
  | nil =>
    cases E with
    | nil => cases h; exact ⟨[], rfl, rfl⟩
    | cons e E =>
      rw [List.nil_append, extractPre] at h
      split at h
      next d e' he => exact absurd he (hE e List.mem_cons_self d e')
      next => cases h; exact ⟨[], rfl, rfl⟩
  | cons a L ih =>
    rw [List.cons_append, extractPre] at h
    rw [extractPre]
    split at h
    next d e ha =>
      split at h
      next => cases h
      next hd =>
        rw [if_neg hd]
        cases hc : extractEmbed e with
        | none =>
          rw [hc] at h
          dsimp only at h ⊢
          split at h
          next hs => rw [if_pos hs]; exact ih h
          next => cases h
        | some c =>
          rw [hc] at h
          dsimp only [bind, Option.bind] at h ⊢
          cases hj : translate c with
          | none => rw [hj] at h; cases h
          | some j =>
            rw [hj] at h
            dsimp only at h ⊢
            split at h
            next => cases h
            next r hr =>
              obtain ⟨cs', r'⟩ := r
              cases h
              obtain ⟨rest', h1, h2⟩ := ih hr
              rw [h1]
              exact ⟨rest', rfl, h2⟩
    next hna =>
      cases h
      exact ⟨a :: L, rfl, rfl⟩

/-- The initial states of the model are those in which the Boolean preconditions hold. -/
theorem restrict_iff (hd : SameOps) {o : McOptions} {p : Proc} {body : Stmt} (hb : p.body = some body) {M : JModel}
    (h : procToModel o p = some M) (hsc : ProcScoped p body) {σ : Env} {s : JState} (hr : Rep (paramVars p) σ s)
    (hno : ∀ a r, blockStmts body = a :: r → ∀ d e, throughAnnotation a ≠ .assume d e) :
    (M.restrict.eval s).holds ↔ ∀ e ∈ p.requires, extractEmbed e ≠ none → e.ev σ = neutral p.dir := by
  obtain ⟨pres, stmts, posts, rest, start, b, j, locals, ins, outs, fns, h1, h2, h3, h4, h5, h6, h7, hfn, rfl⟩ := procToModel_some hb h
  have hV : ∀ v, paramVars p v → isJaniTy v.ty = true := fun v hv => hv.elim (inputDecls_ty h5 v) (outputDecls_ty h6 v)
  obtain ⟨cs1, cs2, k1, k2, k3, k4, k5⟩ := extractPre_requires _ h1
  obtain ⟨rest', k6, k7⟩ := extractPre_ensures (by
    intro s hs d e
    obtain ⟨e', _, rfl⟩ := List.mem_map.1 hs
    exact Stmt.noConfusion) k2
  have hnil : cs2 = [] := by
    cases hbs : blockStmts body with
    | nil => rw [hbs] at k6; cases k6; rfl
    | cons a r =>
      rw [hbs, extractPre] at k6
      split at k6
      next d e ha => exact absurd ha (hno a r hbs d e)
      next => cases k6; rfl
  show ((conjunction pres).eval s).holds ↔ _
  rw [conjunction_holds, k1, hnil, List.append_nil]
  constructor
  · intro hh e he hne
    obtain ⟨c, hc⟩ := Option.ne_none_iff_exists'.1 hne
    obtain ⟨j', hj'⟩ := k4 e he c hc
    exact (contCond_ev hd hV hr p.dir hc hj' (hsc.pre e he)).1 (hh _ ((k3 _).2 ⟨e, he, c, j', hc, hj', rfl⟩))
  · intro hh j' hj'
    obtain ⟨e, he, c, j'', hc, hj'', rfl⟩ := (k3 _).1 hj'
    exact (contCond_ev hd hV hr p.dir hc hj'' (hsc.pre e he)).2 (hh e he (by rw [hc]; simp))

/-- The value of the model in an initial state is the expectation of the body. -/
theorem model_value (hd : SameOps) (C : SemCtx) (hC : C.loop = .lfp) (hcall : ∀ l f a, Monotone (C.call l f a))
    {o : McOptions} {p : Proc} {body : Stmt} (hb : p.body = some body) {M : JModel} (h : procToModel o p = some M)
    (hsc : ProcScoped p body) (hsup : Supported body) (hq : o.skipQuantPre = true → ¬ LeadingQuant (blockStmts body))
    {σ : Env} {s : JState} (hinit : M.Initial s) (hr : Rep (paramVars p) σ s) :
    M.automaton.value p.dir M.initial s = vcSem C body p.post σ := by
  obtain ⟨pres, stmts, posts, rest, start, b, j, locals, ins, outs, fns, h1, h2, h3, h4, h5, h6, h7, hfn, rfl⟩ := procToModel_some hb h
  have hV : ∀ v, paramVars p v → isJaniTy v.ty = true := fun v hv => hv.elim (inputDecls_ty h5 v) (outputDecls_ty h6 v)
  obtain ⟨cs1, cs2, k1, k2, k3, k4, k5⟩ := extractPre_requires _ h1
  obtain ⟨rest', k6, k7⟩ := extractPre_ensures (by
    intro s hs d e
    obtain ⟨e', _, rfl⟩ := List.mem_map.1 hs
    exact Stmt.noConfusion) k2
  have hcs : ∀ c ∈ pres, (c.eval s).holds := (conjunction_holds pres s).1 hinit.1
  have hscB : Scoped (Stmt.block (blockStmts body)) (paramVars p) [] := (scoped_blockStmts _ _ _).2 hsc.body
  have hsupB : Supported (Stmt.block (blockStmts body)) := (supported_blockStmts _).2 hsup
  obtain ⟨front, f1, f2, f3, f4⟩ := extractPre_sound hd hV hr k6 hq (fun c hc => hcs c (by rw [k1]; exact List.mem_append_right _ hc)) hscB
  rw [f1, scoped_append, f3] at hscB
  rw [f1, supported_append] at hsupB
  have hrev : stmts.reverse = (p.ensures.reverse.map fun e => wrapError (.assert p.dir e)) ++ rest'.reverse := by
    rw [k7, List.reverse_append, List.map_reverse]
  rw [hrev] at h2
  obtain ⟨posts', t1, t2⟩ := takePosts_ensures _ h2
  have hrr : rest'.reverse.reverse = rest' := List.reverse_reverse _
  obtain ⟨back, b1, b2, b3, b4, b5⟩ := takePosts_sound (V := paramVars p) t2 (by rw [hrr]; exact hscB.2)
  rw [hrr] at b1
  have hscR := hscB.2
  have hsupR := hsupB.2
  rw [b1, scoped_append, b2, List.nil_append] at hscR
  rw [b1, supported_append] at hsupR
  have hpend : pend (Stmt.block rest.reverse) = pend body := by
    rw [← pend_blockStmts body, f1, pend_append, f2, b1, pend_append, b2, List.nil_append, List.append_nil]
  have hrel : Rel (paramVars p) (pend (Stmt.block rest.reverse)) σ s := by
    refine ⟨hr, fun q hq => ?_⟩
    rw [hpend] at hq
    obtain ⟨j', hj', hm⟩ := localDecls_pend h4 q hq
    have hconst := pend_const body q hq
    rw [hinit.2 ⟨q.1, some j'⟩ (List.mem_append_left _ (List.mem_append_left _ hm)) j' rfl]
    exact const_eval hconst hj' s σ
  have hpok : ExprOk (scope (paramVars p) (Stmt.block rest.reverse)) (singlePost p.dir posts) := by
    refine singlePost_ok _ _ fun e he => ?_
    rw [t1] at he
    rcases List.mem_append.1 he with he | he
    · exact (hsc.post e (List.mem_reverse.1 he)).mono (le_scope _ _)
    · exact b4 e he
  rw [show (JModel.automaton _) = finish b j from rfl, show (JModel.initial _) = start from rfl,
    value_eq_vcSem hd C hC hcall h7 hV hscR.1 hsupR.1 h3 hpok hrel, ← vcSem_blockStmts C body, f1, vcSem_block_append, f4, b1,
    vcSem_block_append, b5]
  congr 1
  funext τ
  rw [singlePost_ev, t1, meet_mem_perm, meet_mem_perm, Proc.post, combine_meet, meet_mem_perm]
  cases p.dir with
  | down =>
    show min ⊤ _ = min (min ⊤ _) _
    rw [min_top_left, min_top_left]
    simp only [List.map_append, List.mem_append, iInf_or, iInf_inf_eq, List.map_reverse, List.mem_reverse]
  | up =>
    show max 0 _ = max (max 0 _) _
    rw [max_eq_right zero_le, max_eq_right zero_le]
    simp only [List.map_append, List.mem_append, iSup_or, iSup_sup_eq, List.map_reverse, List.mem_reverse]

end

end Caesar.Mc
