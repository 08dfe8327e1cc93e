import Verif.Slicing.TransformSound
import Verif.Witness

/-!
# C54: a slice is the program without the disabled statements
-/

open scoped ENNReal NNReal

namespace Caesar
set_option linter.unusedSectionVars false
open Slicing

/-- Specification: `Cut S T` means that `T` is obtained from `S` by deleting assignments, samplings, calls, assumptions, assertions, `tick`s and
`weigh`s, by replacing nondeterministic choices by one of their branches, and by deleting slicing annotations. -/
inductive Cut : Stmt → Stmt → Prop where
  | same (s : Stmt) : Cut s s
  | assign (x : Var) (e : Expr x.ty) : Cut (.assign x e) .skip
  | sample (b : Bool) (x : Ident) {t : Ty} (d : DistCall t) : Cut (.sample b x d) .skip
  | call (b : Bool) (l : List Var) (f : Ident) (args : List ((t : Ty) × Expr t)) : Cut (.call b l f args) .skip
  | assume (d : Dir) (e : Expr .eureal) : Cut (.assume d e) .skip
  | assert (d : Dir) (e : Expr .eureal) : Cut (.assert d e) .skip
  | tick (e : Expr .eureal) : Cut (.tick e) .skip
  | weigh (e : Expr .eureal) : Cut (.weigh e) .skip
  | demonicLeft {a b a' : Stmt} (h : Cut a a') : Cut (.demonic a b) a'
  | demonicRight {a b b' : Stmt} (h : Cut b b') : Cut (.demonic a b) b'
  | angelicLeft {a b a' : Stmt} (h : Cut a a') : Cut (.angelic a b) a'
  | angelicRight {a b b' : Stmt} (h : Cut b b') : Cut (.angelic a b) b'
  | slicing (n : Nat) {s s' : Stmt} (h : Cut s s') : Cut (.annot (.slicing n) s) s'
  | annot (an : Annot) {s s' : Stmt} (h : Cut s s') : Cut (.annot an s) (.annot an s')
  | seq {a b a' b' : Stmt} (ha : Cut a a') (hb : Cut b b') : Cut (.seq a b) (.seq a' b')
  | demonic {a b a' b' : Stmt} (ha : Cut a a') (hb : Cut b b') : Cut (.demonic a b) (.demonic a' b')
  | angelic {a b a' b' : Stmt} (ha : Cut a a') (hb : Cut b b') : Cut (.angelic a b) (.angelic a' b')
  | additive {a b a' b' : Stmt} (ha : Cut a a') (hb : Cut b b') : Cut (.additive a b) (.additive a' b')
  | ite (c : Expr .bool) {a b a' b' : Stmt} (ha : Cut a a') (hb : Cut b b') : Cut (.ite c a b) (.ite c a' b')
  | while (c : Expr .bool) {s s' : Stmt} (h : Cut s s') : Cut (.while c s) (.while c s')

section
variable [Doms] [Interp] {C : SemCtx} {V : List SliceStmt} {m : Ident → Prop}

/-! ## Helper lemmas -/

theorem addSlice_value {state : Selection} {eff : Effect} {st : St} (hs : ∀ s ∈ (addSlice state eff st).2.stmts, s ∈ V) :
    ∃ p : Prop, ∀ σ, Good V m σ → ((addSlice state eff st).1.tv σ ↔ p) :=
  ⟨m (freshToggle st.tcx).1, fun _ hσ => hσ _ (hs _ (List.mem_append_right _ (List.mem_singleton_self _)))⟩

theorem cut_toggle (hC : C.Regular) {v : Expr .bool} {p : Prop} (hp : ∀ σ, Good V m σ → (v.tv σ ↔ p)) {S S' : Stmt} (hv : Toggles C v S S')
    (ht : ∀ s ∈ V, ¬ S.Touched s.var) (hS : Cut S .skip) : ∃ T, Cut S T ∧ Rel C V m .eq .eq T S' := by
  classical
  by_cases h : p
  · refine ⟨S, .same S, fun φ φ' hφ σ hσ => ?_⟩
    rw [hv, if_pos ((hp σ hσ).mpr h)]
    exact Rel.refl hC ht (.inl rfl) φ φ' hφ σ hσ
  · refine ⟨.skip, hS, fun φ φ' hφ σ hσ => ?_⟩
    rw [hv, if_neg fun h' => h ((hp σ hσ).mp h')]
    exact hφ σ hσ

theorem cut_leaf (hC : C.Regular) (f : Selection) {S : Stmt} (ht : ∀ s ∈ V, ¬ S.Touched s.var)
    (hv : ∀ state st, visit f state st S = sliceLeaf f state st S) (state : Selection) (st : St)
    (hs : ∀ s ∈ (visit f state st S).2.1.stmts, s ∈ V) : ∃ T, Cut S T ∧ Rel C V m .eq .eq T (visit f state st S).1 := by
  have hr : ∃ T, Cut S T ∧ Rel C V m .eq .eq T S := ⟨S, .same S, Rel.refl hC ht (.inl rfl)⟩
  rw [hv] at hs ⊢
  revert hs
  unfold sliceLeaf
  split <;> (try split) <;> intro hs
  · obtain ⟨p, hp⟩ := addSlice_value (m := m) hs
    exact cut_toggle hC hp (toggles_assign _ _ _) ht (.assign _ _)
  · exact hr
  · obtain ⟨p, hp⟩ := addSlice_value (m := m) hs
    exact cut_toggle hC hp (toggles_ite _ _) ht (.sample _ _ _)
  · exact hr
  · obtain ⟨p, hp⟩ := addSlice_value (m := m) hs
    exact cut_toggle hC hp (toggles_ite _ _) ht (.call _ _ _ _)
  · exact hr
  · obtain ⟨p, hp⟩ := addSlice_value (m := m) hs
    exact cut_toggle hC hp (toggles_assume _ _ _) ht (.assume _ _)
  · exact hr
  · obtain ⟨p, hp⟩ := addSlice_value (m := m) hs
    exact cut_toggle hC hp (toggles_assert _ _ _) ht (.assert _ _)
  · exact hr
  · obtain ⟨p, hp⟩ := addSlice_value (m := m) hs
    exact cut_toggle hC hp (toggles_tick _ _) ht (.tick _)
  · exact hr
  · obtain ⟨p, hp⟩ := addSlice_value (m := m) hs
    exact cut_toggle hC hp (toggles_weigh _ _) ht (.weigh _)
  all_goals exact hr

theorem cut_two (hC : C.Regular) {f state : Selection} {st : St} {a b : Stmt} {mk : Stmt → Stmt → Stmt} {k : Stmt → Stmt → St → Res}
    (iha : ∀ (state : Selection) (st : St), (∀ s ∈ (visit f state st a).2.1.stmts, s ∈ V) →
      (∀ c ∈ (visit f state st a).2.1.constraints, ∀ σ, Good V m σ → c.tv σ) → ∃ T, Cut a T ∧ Rel C V m .eq .eq T (visit f state st a).1)
    (ihb : ∀ (state : Selection) (st : St), (∀ s ∈ (visit f state st b).2.1.stmts, s ∈ V) →
      (∀ c ∈ (visit f state st b).2.1.constraints, ∀ σ, Good V m σ → c.tv σ) → ∃ T, Cut b T ∧ Rel C V m .eq .eq T (visit f state st b).1)
    (hb : ∀ s ∈ V, ¬ b.Touched s.var)
    (hmk : ∀ {ta tb a' b'}, Cut a ta → Cut b tb → Rel C V m .eq .eq ta a' → Rel C V m .eq .eq tb b' →
      ∃ T, Cut (mk a b) T ∧ Rel C V m .eq .eq T (mk a' b'))
    (hkg : ∀ a b st, Grows st (k a b st).2.1)
    (hk : ∀ {ta tb a' b' st2}, Cut a ta → Cut b tb → Rel C V m .eq .eq ta a' → Rel C V m .eq .eq tb b' →
      (∀ s ∈ (k a' b' st2).2.1.stmts, s ∈ V) → (∀ c ∈ (k a' b' st2).2.1.constraints, ∀ σ, Good V m σ → c.tv σ) →
      ∃ T, Cut (mk a b) T ∧ Rel C V m .eq .eq T (k a' b' st2).1)
    (hs : ∀ s ∈ (visitTwo mk (visit f state st a) b (fun st => visit f state st b) k).2.1.stmts, s ∈ V)
    (hc : ∀ c ∈ (visitTwo mk (visit f state st a) b (fun st => visit f state st b) k).2.1.constraints, ∀ σ, Good V m σ → c.tv σ) :
    ∃ T, Cut (mk a b) T ∧ Rel C V m .eq .eq T (visitTwo mk (visit f state st a) b (fun st => visit f state st b) k).1 := by
  have ha := iha state st
  revert hs hc
  generalize visit f state st a = ra at ha
  obtain ⟨a', st1, ok⟩ := ra
  cases ok with
  | false =>
    intro hs hc
    obtain ⟨ta, h1, h2⟩ := ha hs hc
    exact hmk h1 (.same b) h2 (Rel.refl hC hb (.inl rfl))
  | true =>
    have hbr := ihb state st1
    have hgb := visit_grows f b state st1
    unfold visitTwo
    dsimp only
    generalize visit f state st1 b = rb at hbr hgb
    obtain ⟨b', st2, ok⟩ := rb
    cases ok with
    | false =>
      intro hs hc
      obtain ⟨ta, h1, h2⟩ := ha (fun s h => hs s (hgb.stmts s h)) (fun c h => hc c (hgb.constraints c h))
      obtain ⟨tb, h3, h4⟩ := hbr hs hc
      exact hmk h1 h3 h2 h4
    | true =>
      intro hs hc
      have hg := hkg a' b' st2
      have hs2 : ∀ s ∈ st2.stmts, s ∈ V := fun s h => hs s (hg.stmts s h)
      have hc2 : ∀ c ∈ st2.constraints, ∀ σ, Good V m σ → c.tv σ := fun c h => hc c (hg.constraints c h)
      obtain ⟨ta, h1, h2⟩ := ha (fun s h => hs2 s (hgb.stmts s h)) (fun c h => hc2 c (hgb.constraints c h))
      obtain ⟨tb, h3, h4⟩ := hbr hs2 hc2
      exact hk h1 h3 h2 h4 hs hc

theorem cut_demonic {state : Selection} {st : St} {a b ta tb a' b' : Stmt} (h1 : Cut a ta) (h2 : Cut b tb) (h3 : Rel C V m .eq .eq ta a')
    (h4 : Rel C V m .eq .eq tb b') (hs : ∀ s ∈ (addBranches state (reductiveEffect st.dir) demonicGuard .demonic a' b' st).2.1.stmts, s ∈ V)
    (hc : ∀ c ∈ (addBranches state (reductiveEffect st.dir) demonicGuard .demonic a' b' st).2.1.constraints, ∀ σ, Good V m σ → c.tv σ) :
    ∃ T, Cut (.demonic a b) T ∧ Rel C V m .eq .eq T (addBranches state (reductiveEffect st.dir) demonicGuard .demonic a' b' st).1 := by
  classical
  have hs1 : ∀ s ∈ (addSlice state (reductiveEffect st.dir) st).2.stmts, s ∈ V := fun s h => hs s (List.mem_append_left _ h)
  obtain ⟨p, hp⟩ := addSlice_value (m := m) hs1
  obtain ⟨q, hq⟩ := addSlice_value (m := m) (state := state) (eff := reductiveEffect st.dir) (st := (addSlice state (reductiveEffect st.dir) st).2) hs
  have hcon := hc _ (List.mem_append_right _ (List.mem_singleton_self _))
  have hsem : ∀ φ σ, vcSem C (addBranches state (reductiveEffect st.dir) demonicGuard .demonic a' b' st).1 φ σ =
      min (if (addSlice state (reductiveEffect st.dir) st).1.tv σ then vcSem C a' φ σ else ⊤)
        (if (addSlice state (reductiveEffect st.dir) (addSlice state (reductiveEffect st.dir) st).2).1.tv σ then vcSem C b' φ σ else ⊤) :=
    fun φ σ => congr (congrArg min (demonicGuard_sem _ _ _ σ)) (demonicGuard_sem _ _ _ σ)
  by_cases hpp : p <;> by_cases hqq : q
  · refine ⟨_, .demonic h1 h2, fun φ φ' hφ σ hσ => ?_⟩
    rw [hsem, if_pos ((hp σ hσ).mpr hpp), if_pos ((hq σ hσ).mpr hqq)]
    exact Rel.demonic h3 h4 φ φ' hφ σ hσ
  · refine ⟨_, .demonicLeft h1, fun φ φ' hφ σ hσ => ?_⟩
    rw [hsem, if_pos ((hp σ hσ).mpr hpp), if_neg fun h => hqq ((hq σ hσ).mp h), min_top_right]
    exact h3 φ φ' hφ σ hσ
  · refine ⟨_, .demonicRight h2, fun φ φ' hφ σ hσ => ?_⟩
    rw [hsem, if_neg fun h => hpp ((hp σ hσ).mp h), if_pos ((hq σ hσ).mpr hqq), min_top_left]
    exact h4 φ φ' hφ σ hσ
  · refine ⟨_, .demonic h1 h2, fun φ φ' hφ σ hσ => ?_⟩
    rcases hcon σ hσ with h | h
    · exact absurd ((hp σ hσ).mp h) hpp
    · exact absurd ((hq σ hσ).mp h) hqq

theorem cut_angelic {state : Selection} {st : St} {a b ta tb a' b' : Stmt} (h1 : Cut a ta) (h2 : Cut b tb) (h3 : Rel C V m .eq .eq ta a')
    (h4 : Rel C V m .eq .eq tb b') (hs : ∀ s ∈ (addBranches state (extensiveEffect st.dir) angelicGuard .angelic a' b' st).2.1.stmts, s ∈ V)
    (hc : ∀ c ∈ (addBranches state (extensiveEffect st.dir) angelicGuard .angelic a' b' st).2.1.constraints, ∀ σ, Good V m σ → c.tv σ) :
    ∃ T, Cut (.angelic a b) T ∧ Rel C V m .eq .eq T (addBranches state (extensiveEffect st.dir) angelicGuard .angelic a' b' st).1 := by
  classical
  have hs1 : ∀ s ∈ (addSlice state (extensiveEffect st.dir) st).2.stmts, s ∈ V := fun s h => hs s (List.mem_append_left _ h)
  obtain ⟨p, hp⟩ := addSlice_value (m := m) hs1
  obtain ⟨q, hq⟩ := addSlice_value (m := m) (state := state) (eff := extensiveEffect st.dir) (st := (addSlice state (extensiveEffect st.dir) st).2) hs
  have hcon := hc _ (List.mem_append_right _ (List.mem_singleton_self _))
  have hsem : ∀ φ σ, vcSem C (addBranches state (extensiveEffect st.dir) angelicGuard .angelic a' b' st).1 φ σ =
      max (if (addSlice state (extensiveEffect st.dir) st).1.tv σ then vcSem C a' φ σ else 0)
        (if (addSlice state (extensiveEffect st.dir) (addSlice state (extensiveEffect st.dir) st).2).1.tv σ then vcSem C b' φ σ else 0) :=
    fun φ σ => congr (congrArg max (angelicGuard_sem _ _ _ σ)) (angelicGuard_sem _ _ _ σ)
  by_cases hpp : p <;> by_cases hqq : q
  · refine ⟨_, .angelic h1 h2, fun φ φ' hφ σ hσ => ?_⟩
    rw [hsem, if_pos ((hp σ hσ).mpr hpp), if_pos ((hq σ hσ).mpr hqq)]
    exact Rel.angelic h3 h4 φ φ' hφ σ hσ
  · refine ⟨_, .angelicLeft h1, fun φ φ' hφ σ hσ => ?_⟩
    rw [hsem, if_pos ((hp σ hσ).mpr hpp), if_neg fun h => hqq ((hq σ hσ).mp h), max_eq_left zero_le]
    exact h3 φ φ' hφ σ hσ
  · refine ⟨_, .angelicRight h2, fun φ φ' hφ σ hσ => ?_⟩
    rw [hsem, if_neg fun h => hpp ((hp σ hσ).mp h), if_pos ((hq σ hσ).mpr hqq), max_eq_right zero_le]
    exact h4 φ φ' hφ σ hσ
  · refine ⟨_, .angelic h1 h2, fun φ φ' hφ σ hσ => ?_⟩
    rcases hcon σ hσ with h | h
    · exact absurd ((hp σ hσ).mp h) hpp
    · exact absurd ((hq σ hσ).mp h) hqq

theorem visit_cut (hC : C.Regular) (f : Selection) (S : Stmt) (ht : ∀ s ∈ V, ¬ S.Touched s.var) : ∀ (state : Selection) (st : St),
    (∀ s ∈ (visit f state st S).2.1.stmts, s ∈ V) → (∀ c ∈ (visit f state st S).2.1.constraints, ∀ σ, Good V m σ → c.tv σ) →
    ∃ T, Cut S T ∧ Rel C V m .eq .eq T (visit f state st S).1 := by
  induction S with
  | seq a b iha ihb =>
    exact fun state st hs hc => cut_two hC (iha fun s h h' => ht s h (.inl h')) (ihb fun s h h' => ht s h (.inr h'))
      (fun s h h' => ht s h (.inr h')) (fun h1 h2 h3 h4 => ⟨_, .seq h1 h2, h3.seq h4⟩) (fun _ _ st => Grows.refl st)
      (fun h1 h2 h3 h4 _ _ => ⟨_, .seq h1 h2, h3.seq h4⟩) hs hc
  | additive a b iha ihb =>
    exact fun state st hs hc => cut_two hC (iha fun s h h' => ht s h (.inl h')) (ihb fun s h h' => ht s h (.inr h'))
      (fun s h h' => ht s h (.inr h')) (fun h1 h2 h3 h4 => ⟨_, .additive h1 h2, h3.additive h4⟩) (fun _ _ st => Grows.refl st)
      (fun h1 h2 h3 h4 _ _ => ⟨_, .additive h1 h2, h3.additive h4⟩) hs hc
  | ite c a b iha ihb =>
    exact fun state st hs hc => cut_two hC (iha fun s h h' => ht s h (.inl h')) (ihb fun s h h' => ht s h (.inr h'))
      (fun s h h' => ht s h (.inr h')) (fun h1 h2 h3 h4 => ⟨_, .ite c h1 h2, h3.ite h4⟩) (fun _ _ st => Grows.refl st)
      (fun h1 h2 h3 h4 _ _ => ⟨_, .ite c h1 h2, h3.ite h4⟩) hs hc
  | demonic a b iha ihb =>
    refine fun state st hs hc => cut_two hC (iha fun s h h' => ht s h (.inl h')) (ihb fun s h h' => ht s h (.inr h'))
      (fun s h h' => ht s h (.inr h')) (fun h1 h2 h3 h4 => ⟨_, .demonic h1 h2, h3.demonic h4⟩)
      (fun _ _ st => by split; exacts [addBranches_grows _ _ _ _ _ _ _, Grows.refl st])
      (fun h1 h2 h3 h4 => ?_) hs hc
    split
    · exact cut_demonic h1 h2 h3 h4
    · exact fun _ _ => ⟨_, .demonic h1 h2, h3.demonic h4⟩
  | angelic a b iha ihb =>
    refine fun state st hs hc => cut_two hC (iha fun s h h' => ht s h (.inl h')) (ihb fun s h h' => ht s h (.inr h'))
      (fun s h h' => ht s h (.inr h')) (fun h1 h2 h3 h4 => ⟨_, .angelic h1 h2, h3.angelic h4⟩)
      (fun _ _ st => by split; exacts [addBranches_grows _ _ _ _ _ _ _, Grows.refl st])
      (fun h1 h2 h3 h4 => ?_) hs hc
    split
    · exact cut_angelic h1 h2 h3 h4
    · exact fun _ _ => ⟨_, .angelic h1 h2, h3.angelic h4⟩
  | «while» c s ih =>
    intro state st hs hc
    obtain ⟨t, h1, h2⟩ := ih ht state st hs hc
    exact ⟨_, .while c h1, h2.while⟩
  | annot an s ih =>
    intro state st hs hc
    cases an with
    | slicing n =>
      obtain ⟨t, h1, h2⟩ := ih ht (pushAnnotation state n) st hs hc
      exact ⟨t, .slicing n h1, h2⟩
    | _ =>
      obtain ⟨t, h1, h2⟩ := ih ht state st hs hc
      exact ⟨.annot _ t, .annot _ h1, h2⟩
  | _ => exact fun state st hs _ => cut_leaf hC f ht (fun _ _ => rfl) state st hs

/-- C54: for every choice `m` of the slice variables that satisfies the constraints, the transformed program means, in all states where the slice
variables have these values, the same as one program `T` obtained by deleting statements and branches of the original program. -/
theorem C54_slice (C : SemCtx) (hC : C.Regular) (filter : Selection) (tcx : TyCtx) (d : Dir) (S : Stmt)
    (hdecl : ∀ v, S.Touched v → v.id ∈ tcx.decls) (m : Ident → Prop)
    (hm : ∀ c ∈ (transform filter tcx d S).2.constraints, ∀ σ,
      (∀ s ∈ (transform filter tcx d S).2.stmts, (.var s.ident : Expr .bool).tv σ ↔ m s.ident) → c.tv σ) :
    ∃ T, Cut S T ∧ ∀ φ σ, (∀ s ∈ (transform filter tcx d S).2.stmts, (.var s.ident : Expr .bool).tv σ ↔ m s.ident) →
      vcSem C (transform filter tcx d S).1 φ σ = vcSem C T φ σ := by
  have hg := visit_grows filter S {} { tcx := tcx, dir := d }
  obtain ⟨T, h1, h2⟩ := visit_cut (C := C) (V := (transform filter tcx d S).2.stmts) (m := m) hC filter S
    (fun s hs ht => (hg.fresh s hs).elim (fun h => nomatch h) fun h => h (hdecl _ ht)) {} { tcx := tcx, dir := d } (fun s hs => hs) hm
  exact ⟨T, h1, fun φ σ hσ => h2 φ φ (fun _ _ => rfl) σ hσ⟩

/-- If the constraint is violated, both branches of a demonic choice disappear, and with them the meaning as a subprogram: the slice of
`{} ⊓ {}` with both branches disabled has the value `⊤`. -/
example : let _ := unitDoms; let _ := unitInterp
    ∃ (filter : Selection) (S : Stmt), vcSem ⟨.lfp, fun _ _ _ φ => φ⟩ (transform filter TyCtx.new .down S).1 (fun _ => 0) zeroEnv = ⊤ ∧
      vcSem ⟨.lfp, fun _ _ _ φ => φ⟩ S (fun _ => 0) zeroEnv = 0 ∧ ∃ c ∈ (transform filter TyCtx.new .down S).2.constraints, ¬ c.tv zeroEnv := by
  intro _ _
  have key : ∀ i : Ident, vcSem ⟨.lfp, fun _ _ _ φ => φ⟩ (demonicGuard .down (.var i)) (fun _ => 0) zeroEnv = ⊤ := fun i => by
    rw [demonicGuard_sem]
    exact if_neg fun h => h
  refine ⟨{ discordant := true }, .demonic .skip .skip, ?_, min_self (0 : ℝ≥0∞), _, List.mem_singleton_self _, ?_⟩
  · exact (congr (congrArg min (key _)) (key _)).trans (min_self _)
  · rintro (h | h) <;> exact h

/-- `assume a; { } ⊓ { tick a }`. -/
def c54S : Stmt := .seq (.assume .down (.var ⟨"a", 0⟩)) (.demonic .skip (.tick (.var ⟨"a", 0⟩)))

/-- The hypotheses are satisfied by this program when only its first branch is enabled, and there is one constraint. -/
example : (∀ v, ¬ c54S.Touched v) ∧
    (transform (prepareSelection false true false true) TyCtx.new .down c54S).2.constraints.length = 1 ∧
    ∀ c ∈ (transform (prepareSelection false true false true) TyCtx.new .down c54S).2.constraints, ∀ σ,
      (∀ s ∈ (transform (prepareSelection false true false true) TyCtx.new .down c54S).2.stmts,
        (.var s.ident : Expr .bool).tv σ ↔ s.ident.name = "slice_toggle_2") → c.tv σ := by
  refine ⟨?_, by decide, ?_⟩
  · rintro v (h | h | h) <;> exact h
  · intro c hc σ h
    obtain rfl := List.mem_singleton.mp hc
    exact .inl ((h _ (.tail _ (.tail _ (.head _)))).mpr (by decide))

end

end Caesar
