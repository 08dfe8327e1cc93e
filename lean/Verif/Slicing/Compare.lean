import Verif.Props.C41
import Verif.Props.C54

/-!
# Comparing two slices

Two choices of the slice variables that differ as the effects of the statements allow give two programs that compare: enabling concordant statements and
disabling discordant ones makes verification easier.
-/

open scoped ENNReal NNReal

namespace Caesar.Slicing
set_option linter.unusedSectionVars false

theorem inits_touched {v : Var} {S : Stmt} (h : S.Inits v) : S.Touched v := by
  induction S with
  | seq a b iha ihb => exact h.imp iha ihb
  | demonic a b iha _ | angelic a b iha _ | additive a b iha _ | ite c a b iha _ => exact .inl (iha h.1)
  | annot an s ih => exact ih h
  | varInit | assign | sample | call | havoc => exact h
  | _ => exact h.elim

section
variable [Doms] [Interp] {C : SemCtx} {V : List SliceStmt} {m m' : Ident → Prop}

/-- How the first slice compares to the second one. -/
abbrev easier (d : Dir) : Cmp := kind (some true) d

theorem kind_flip {d : Dir} {a b : ℝ≥0∞} (h : (kind (some false) d).R a b) : (easier d).R b a := by cases d <;> exact h

/-- The second choice only enables concordant statements and only disables discordant ones. -/
def Relaxes (V : List SliceStmt) (m m' : Ident → Prop) : Prop :=
  ∀ s ∈ V, (¬ m s.ident → m' s.ident → s.selection.concordant = true) ∧ (m s.ident → ¬ m' s.ident → s.selection.discordant = true)

/-- The programs `T` and `T'` are the slices of `S'` for the two choices, do not contain slice variables, and compare. -/
structure Pair (C : SemCtx) (V : List SliceStmt) (m m' : Ident → Prop) (d : Dir) (S' T T' : Stmt) : Prop where
  noNeg : T.NoNeg
  noNeg' : T'.NoNeg
  reads : ∀ s ∈ V, ¬ T.Reads s.var
  reads' : ∀ s ∈ V, ¬ T'.Reads s.var
  first : Rel C V m .eq .eq T S'
  second : Rel C V m' .eq .eq T' S'
  cmp : Rel C [] m (easier d) (easier d) T' T

theorem good_nil (σ : Env) : Good [] m σ := fun _ h => nomatch h

theorem Pair.same (hC : C.Regular) {d : Dir} {S : Stmt} (hN : S.NoNeg) (hr : ∀ s ∈ V, ¬ S.Reads s.var) (ht : ∀ s ∈ V, ¬ S.Touched s.var) :
    Pair C V m m' d S S S :=
  ⟨hN, hN, hr, hr, Rel.refl hC ht (.inl rfl), Rel.refl hC ht (.inl rfl),
    Rel.refl hC (fun _ h => nomatch h) (.inr (vcSem_mono C hC.mono hN))⟩

theorem skip_reads (v : Var) : ¬ Stmt.skip.Reads v := fun h => h

theorem pair_toggle (hC : C.Regular) {d : Dir} {v : Expr .bool} {p p' : Prop} (hp : ∀ σ, Good V m σ → (v.tv σ ↔ p))
    (hp' : ∀ σ, Good V m' σ → (v.tv σ ↔ p')) {S S' : Stmt} (hv : Toggles C v S S') (hN : S.NoNeg) (hr : ∀ s ∈ V, ¬ S.Reads s.var)
    (ht : ∀ s ∈ V, ¬ S.Touched s.var) (hon : ¬ p → p' → ∀ φ σ, (kind (some true) d).R (φ σ) (vcSem C S φ σ))
    (hoff : p → ¬ p' → ∀ φ σ, (kind (some false) d).R (φ σ) (vcSem C S φ σ)) : ∃ T T', Pair C V m m' d S' T T' := by
  classical
  have on : ∀ {m : Ident → Prop} {p : Prop}, (∀ σ, Good V m σ → (v.tv σ ↔ p)) → p → Rel C V m .eq .eq S S' := fun hp h φ φ' hφ σ hσ => by
    rw [hv, if_pos ((hp σ hσ).mpr h)]
    exact Rel.refl hC ht (.inl rfl) φ φ' hφ σ hσ
  have off : ∀ {m : Ident → Prop} {p : Prop}, (∀ σ, Good V m σ → (v.tv σ ↔ p)) → ¬ p → Rel C V m .eq .eq .skip S' := fun hp h φ φ' hφ σ hσ => by
    rw [hv, if_neg fun h' => h ((hp σ hσ).mp h')]
    exact hφ σ hσ
  have hmono : Rel C [] m (easier d) (easier d) S S := Rel.refl hC (fun _ h => nomatch h) (.inr (vcSem_mono C hC.mono hN))
  by_cases h : p <;> by_cases h' : p'
  · exact ⟨S, S, hN, hN, hr, hr, on hp h, on hp' h', hmono⟩
  · refine ⟨S, .skip, hN, trivial, hr, fun _ _ => skip_reads _, on hp h, off hp' h', fun φ φ' hφ σ hσ => ?_⟩
    exact (kind_flip (hoff h h' φ' σ)).trans (hφ σ hσ)
  · refine ⟨.skip, S, trivial, hN, fun _ _ => skip_reads _, hr, off hp h, on hp' h', fun φ φ' hφ σ hσ => ?_⟩
    exact (hφ σ hσ).trans (hon h h' φ σ)
  · exact ⟨.skip, .skip, trivial, trivial, fun _ _ => skip_reads _, fun _ _ => skip_reads _, off hp h, off hp' h', fun φ φ' hφ σ hσ => hφ σ hσ⟩

/-- The value of a new slice variable in the two choices. -/
theorem addSlice_two {state : Selection} {eff : Effect} {st : St} (hV : Relaxes V m m')
    (hs : ∀ s ∈ (addSlice state eff st).2.stmts, s ∈ V) :
    ∃ p p' : Prop, (∀ σ, Good V m σ → ((addSlice state eff st).1.tv σ ↔ p)) ∧ (∀ σ, Good V m' σ → ((addSlice state eff st).1.tv σ ↔ p')) ∧
      (¬ p → p' → Allowed (some true) (eff == .concordant) (eff == .discordant)) ∧
      (p → ¬ p' → Allowed (some false) (eff == .concordant) (eff == .discordant)) := by
  have hm := hs _ (List.mem_append_right _ (List.mem_singleton_self _))
  exact ⟨m (freshToggle st.tcx).1, m' (freshToggle st.tcx).1, fun _ hσ => hσ _ hm, fun _ hσ => hσ _ hm,
    fun h h' => .inl ⟨rfl, (hV _ hm).1 h h'⟩, fun h h' => .inr ⟨rfl, (hV _ hm).2 h h'⟩⟩

theorem leaf_two (hC : C.Regular) (hV : Relaxes V m m') (f : Selection) {S : Stmt} (hN : S.NoNeg) (hr : ∀ s ∈ V, ¬ S.Reads s.var)
    (ht : ∀ s ∈ V, ¬ S.Touched s.var) (hv : ∀ state st, visit f state st S = sliceLeaf f state st S) (state : Selection) (st : St)
    (hs : ∀ s ∈ (visit f state st S).2.1.stmts, s ∈ V) : ∃ T T', Pair C V m m' st.dir (visit f state st S).1 T T' := by
  have hsame : ∃ T T', Pair C V m m' st.dir S T T' := ⟨S, S, Pair.same hC hN hr ht⟩
  rw [hv] at hs ⊢
  revert hs
  unfold sliceLeaf
  split <;> (try split) <;> intro hs
  · obtain ⟨p, p', h1, h2, h3, h4⟩ := addSlice_two hV hs
    exact pair_toggle hC h1 h2 (toggles_assign _ _ _) hN hr ht (fun h h' => absurd (h3 h h') not_allowed_ambiguous)
      (fun h h' => absurd (h4 h h') not_allowed_ambiguous)
  · exact hsame
  · obtain ⟨p, p', h1, h2, h3, h4⟩ := addSlice_two hV hs
    exact pair_toggle hC h1 h2 (toggles_ite _ _) hN hr ht (fun h h' => absurd (h3 h h') not_allowed_ambiguous)
      (fun h h' => absurd (h4 h h') not_allowed_ambiguous)
  · exact hsame
  · obtain ⟨p, p', h1, h2, h3, h4⟩ := addSlice_two hV hs
    exact pair_toggle hC h1 h2 (toggles_ite _ _) hN hr ht (fun h h' => absurd (h3 h h') not_allowed_ambiguous)
      (fun h h' => absurd (h4 h h') not_allowed_ambiguous)
  · exact hsame
  · obtain ⟨p, p', h1, h2, h3, h4⟩ := addSlice_two hV hs
    exact pair_toggle hC h1 h2 (toggles_assume _ _ _) hN hr ht (fun h h' φ σ => assume_disabled _ (h3 h h') φ σ)
      (fun h h' φ σ => assume_disabled _ (h4 h h') φ σ)
  · exact hsame
  · obtain ⟨p, p', h1, h2, h3, h4⟩ := addSlice_two hV hs
    exact pair_toggle hC h1 h2 (toggles_assert _ _ _) hN hr ht (fun h h' φ σ => assert_disabled _ (h3 h h') φ σ)
      (fun h h' φ σ => assert_disabled _ (h4 h h') φ σ)
  · exact hsame
  · next e _ =>
    obtain ⟨p, p', h1, h2, h3, h4⟩ := addSlice_two hV hs
    refine pair_toggle hC h1 h2 (toggles_tick _ _) hN hr ht (fun h h' φ σ => ?_) (fun h h' φ σ => ?_)
    · rw [extensive_disabled (h3 h h')]
      exact le_add_of_nonneg_right (α := ℝ≥0∞) (a := φ σ) (b := e.ev σ) zero_le
    · rw [extensive_disabled (h4 h h')]
      exact le_add_of_nonneg_right (α := ℝ≥0∞) (a := φ σ) (b := e.ev σ) zero_le
  · exact hsame
  · obtain ⟨p, p', h1, h2, h3, h4⟩ := addSlice_two hV hs
    exact pair_toggle hC h1 h2 (toggles_weigh _ _) hN hr ht (fun h h' φ σ => weigh_disabled _ (h3 h h') φ σ)
      (fun h h' φ σ => weigh_disabled _ (h4 h h') φ σ)
  · exact hsame
  · exact hN.elim
  · exact hN.elim
  · exact hsame

/-- The guard of a disabled branch without slice variables. -/
def offGuard (angelic : Bool) : Stmt :=
  if angelic then .assert .down (Expr.botLit .eureal rfl) else .assume .down (Expr.botLit .eureal rfl)

theorem offGuard_sem (b : Bool) (φ : Exp) (σ : Env) : vcSem C (offGuard b) φ σ = if b then 0 else ⊤ := by
  classical
  have hb : (Expr.botLit .eureal rfl).ev σ = 0 := Expr.eval_botLit _ σ
  cases b with
  | true =>
    show min ((Expr.botLit .eureal rfl).ev σ) (φ σ) = 0
    rw [hb]; exact min_eq_left zero_le
  | false =>
    show (if (Expr.botLit .eureal rfl).ev σ ≤ φ σ then ⊤ else φ σ) = ⊤
    rw [hb, if_pos zero_le]

theorem botLit_free (v : Var) : ¬ (Expr.botLit .eureal rfl).Free v := fun h => by cases h

open Classical in
/-- A branch of a choice with a toggle. -/
theorem pair_branch {angelic : Bool} {d : Dir} {guard : Stmt} {v : Expr .bool} {S' T T' : Stmt} {p p' : Prop}
    (hg : ∀ (φ : Exp) (σ : Env), vcSem C guard φ σ = if v.tv σ then φ σ else (if angelic then 0 else ⊤))
    (hp : ∀ σ, Good V m σ → (v.tv σ ↔ p)) (hp' : ∀ σ, Good V m' σ → (v.tv σ ↔ p'))
    (hon : ¬ p → p' → kind (some true) d = if angelic then .le else .ge)
    (hoff : p → ¬ p' → kind (some false) d = if angelic then .le else .ge)
    (h : Pair C V m m' d S' T T') : ∃ U U', Pair C V m m' d (.seq guard S') U U' := by
  have on : ∀ {m : Ident → Prop} {p : Prop} {T : Stmt}, (∀ σ, Good V m σ → (v.tv σ ↔ p)) → p → Rel C V m .eq .eq T S' →
      Rel C V m .eq .eq (.seq .skip T) (.seq guard S') := fun hp h hT φ φ' hφ σ hσ => by
    show vcSem C guard (vcSem C S' φ') σ = _
    rw [hg, if_pos ((hp σ hσ).mpr h)]
    exact hT φ φ' hφ σ hσ
  have off : ∀ {m : Ident → Prop} {p : Prop} {T : Stmt}, (∀ σ, Good V m σ → (v.tv σ ↔ p)) → ¬ p →
      Rel C V m .eq .eq (.seq (offGuard angelic) T) (.seq guard S') := fun {m p T} hp h φ φ' hφ σ hσ => by
    show vcSem C guard (vcSem C S' φ') σ = vcSem C (offGuard angelic) (vcSem C T φ) σ
    rw [hg, if_neg fun h' => h ((hp σ hσ).mp h'), offGuard_sem]
  have hGN : (offGuard angelic).NoNeg := by cases angelic <;> exact trivial
  have hGr : ∀ (v : Var), ¬ (offGuard angelic).Reads v := fun v => by cases angelic <;> exact botLit_free v
  have rd : ∀ {T : Stmt} {v : Var}, ¬ T.Reads v → ¬ (Stmt.seq .skip T).Reads v := fun h h' => h'.elim id fun h' => h h'.2
  have rd' : ∀ {T : Stmt} {v : Var}, ¬ T.Reads v → ¬ (Stmt.seq (offGuard angelic) T).Reads v := fun h h' => h'.elim (hGr _) fun h' => h h'.2
  by_cases h1 : p <;> by_cases h2 : p'
  · exact ⟨.seq .skip T, .seq .skip T', ⟨trivial, h.noNeg⟩, ⟨trivial, h.noNeg'⟩, fun s hs => rd (h.reads s hs), fun s hs => rd (h.reads' s hs), on hp h1 h.first,
      on hp' h2 h.second, fun φ φ' hφ σ hσ => h.cmp φ φ' hφ σ hσ⟩
  · refine ⟨.seq .skip T, .seq (offGuard angelic) T', ⟨trivial, h.noNeg⟩, ⟨hGN, h.noNeg'⟩, fun s hs => rd (h.reads s hs),
      fun s hs => rd' (h.reads' s hs), on hp h1 h.first, off hp' h2, fun φ φ' hφ σ hσ => ?_⟩
    refine kind_flip ?_
    show (kind (some false) d).R (vcSem C (offGuard angelic) (vcSem C T' φ) σ) _
    rw [offGuard_sem, hoff h1 h2]
    cases angelic
    · exact le_top (α := ℝ≥0∞)
    · exact zero_le (α := ℝ≥0∞)
  · refine ⟨.seq (offGuard angelic) T, .seq .skip T', ⟨hGN, h.noNeg⟩, ⟨trivial, h.noNeg'⟩, fun s hs => rd' (h.reads s hs),
      fun s hs => rd (h.reads' s hs), off hp h1, on hp' h2 h.second, fun φ φ' hφ σ hσ => ?_⟩
    show (kind (some true) d).R (vcSem C (offGuard angelic) (vcSem C T φ') σ) _
    rw [offGuard_sem, hon h1 h2]
    cases angelic
    · exact le_top (α := ℝ≥0∞)
    · exact zero_le (α := ℝ≥0∞)
  · refine ⟨.seq (offGuard angelic) T, .seq (offGuard angelic) T', ⟨hGN, h.noNeg⟩, ⟨hGN, h.noNeg'⟩, fun s hs => rd' (h.reads s hs),
      fun s hs => rd' (h.reads' s hs), off hp h1, off hp' h2, fun φ φ' hφ σ hσ => ?_⟩
    show (easier d).R (vcSem C (offGuard angelic) (vcSem C T φ') σ) (vcSem C (offGuard angelic) (vcSem C T' φ) σ)
    rw [offGuard_sem, offGuard_sem]
    exact Cmp.R.refl _ _

theorem Pair.demonic {d : Dir} {A B T T' U U' : Stmt} (h : Pair C V m m' d A T T') (h' : Pair C V m m' d B U U') :
    Pair C V m m' d (.demonic A B) (.demonic T U) (.demonic T' U') :=
  ⟨⟨h.noNeg, h'.noNeg⟩, ⟨h.noNeg', h'.noNeg'⟩, fun s hs hr => hr.elim (h.reads s hs) (h'.reads s hs),
    fun s hs hr => hr.elim (h.reads' s hs) (h'.reads' s hs), h.first.demonic h'.first, h.second.demonic h'.second, h.cmp.demonic h'.cmp⟩

theorem Pair.angelic {d : Dir} {A B T T' U U' : Stmt} (h : Pair C V m m' d A T T') (h' : Pair C V m m' d B U U') :
    Pair C V m m' d (.angelic A B) (.angelic T U) (.angelic T' U') :=
  ⟨⟨h.noNeg, h'.noNeg⟩, ⟨h.noNeg', h'.noNeg'⟩, fun s hs hr => hr.elim (h.reads s hs) (h'.reads s hs),
    fun s hs hr => hr.elim (h.reads' s hs) (h'.reads' s hs), h.first.angelic h'.first, h.second.angelic h'.second, h.cmp.angelic h'.cmp⟩

theorem Pair.additive {d : Dir} {A B T T' U U' : Stmt} (h : Pair C V m m' d A T T') (h' : Pair C V m m' d B U U') :
    Pair C V m m' d (.additive A B) (.additive T U) (.additive T' U') :=
  ⟨⟨h.noNeg, h'.noNeg⟩, ⟨h.noNeg', h'.noNeg'⟩, fun s hs hr => hr.elim (h.reads s hs) (h'.reads s hs),
    fun s hs hr => hr.elim (h.reads' s hs) (h'.reads' s hs), h.first.additive h'.first, h.second.additive h'.second, h.cmp.additive h'.cmp⟩

theorem Pair.seq {d : Dir} {A B T T' U U' : Stmt} (h : Pair C V m m' d A T T') (h' : Pair C V m m' d B U U') :
    Pair C V m m' d (.seq A B) (.seq T U) (.seq T' U') :=
  ⟨⟨h.noNeg, h'.noNeg⟩, ⟨h.noNeg', h'.noNeg'⟩, fun s hs hr => hr.elim (h.reads s hs) fun hr => h'.reads s hs hr.2,
    fun s hs hr => hr.elim (h.reads' s hs) fun hr => h'.reads' s hs hr.2, h.first.seq h'.first, h.second.seq h'.second, h.cmp.seq h'.cmp⟩

theorem Pair.ite {d : Dir} {c : Expr .bool} (hc : ∀ s ∈ V, ¬ c.Free s.var) {A B T T' U U' : Stmt} (h : Pair C V m m' d A T T')
    (h' : Pair C V m m' d B U U') : Pair C V m m' d (.ite c A B) (.ite c T U) (.ite c T' U') :=
  ⟨⟨h.noNeg, h'.noNeg⟩, ⟨h.noNeg', h'.noNeg'⟩, fun s hs hr => hr.elim (hc s hs) fun hr => hr.elim (h.reads s hs) (h'.reads s hs),
    fun s hs hr => hr.elim (hc s hs) fun hr => hr.elim (h.reads' s hs) (h'.reads' s hs), h.first.ite h'.first, h.second.ite h'.second, h.cmp.ite h'.cmp⟩

theorem Pair.while {d : Dir} {c : Expr .bool} (hc : ∀ s ∈ V, ¬ c.Free s.var) {A T T' : Stmt} (h : Pair C V m m' d A T T') :
    Pair C V m m' d (.while c A) (.while c T) (.while c T') :=
  ⟨h.noNeg, h.noNeg', fun s hs hr => hr.elim (hc s hs) (h.reads s hs), fun s hs hr => hr.elim (hc s hs) (h.reads' s hs),
    h.first.while, h.second.while, h.cmp.while⟩

/-- Two substatements of a program without negations. -/
theorem two_two {f : Selection} {a b : Stmt} {mk : Stmt → Stmt → Stmt} {k : Stmt → Stmt → St → Res} (hNa : a.NoNeg) (hNb : b.NoNeg)
    (iha : ∀ (state : Selection) (st : St), (∀ s ∈ (visit f state st a).2.1.stmts, s ∈ V) →
      ∃ T T', Pair C V m m' st.dir (visit f state st a).1 T T')
    (ihb : ∀ (state : Selection) (st : St), (∀ s ∈ (visit f state st b).2.1.stmts, s ∈ V) →
      ∃ T T', Pair C V m m' st.dir (visit f state st b).1 T T')
    (hkg : ∀ a b st, Grows st (k a b st).2.1)
    (hk : ∀ (a' b' T T' U U' : Stmt) (st : St), (∀ s ∈ (k a' b' st).2.1.stmts, s ∈ V) → Pair C V m m' st.dir a' T T' → Pair C V m m' st.dir b' U U' →
      ∃ W W', Pair C V m m' st.dir (k a' b' st).1 W W') (state : Selection) (st : St)
    (hs : ∀ s ∈ (visitTwo mk (visit f state st a) b (fun st => visit f state st b) k).2.1.stmts, s ∈ V) :
    ∃ W W', Pair C V m m' st.dir (visitTwo mk (visit f state st a) b (fun st => visit f state st b) k).1 W W' := by
  have ha := iha state st
  have hda := visit_dir f a state st st.dir (noNeg_tracked hNa st.dir).1
  revert hs
  generalize visit f state st a = ra at ha hda
  obtain ⟨a', st1, ok⟩ := ra
  obtain ⟨rfl, hd1⟩ : ok = true ∧ st1.dir = st.dir := hda
  have hb := ihb state st1
  have hdb := visit_dir f b state st1 st1.dir (noNeg_tracked hNb st1.dir).1
  have hgb := visit_grows f b state st1
  unfold visitTwo
  dsimp only
  generalize visit f state st1 b = rb at hb hdb hgb
  obtain ⟨b', st2, ok⟩ := rb
  obtain ⟨rfl, hd2⟩ : ok = true ∧ st2.dir = st1.dir := hdb
  intro hs
  have hg := hkg a' b' st2
  have hs2 : ∀ s ∈ st2.stmts, s ∈ V := fun s h => hs s (hg.stmts s h)
  obtain ⟨T, T', h1⟩ := ha fun s h => hs2 s (hgb.stmts s h)
  obtain ⟨U, U', h2⟩ := hb hs2
  have := hk a' b' T T' U U' st2 hs (by rw [hd2, hd1]; exact h1) (by rw [hd2]; exact h2)
  rw [hd2, hd1] at this
  exact this

theorem visit_two (hC : C.Regular) (hV : Relaxes V m m') (f : Selection) (S : Stmt) (hN : S.NoNeg) (hr : ∀ s ∈ V, ¬ S.Reads s.var)
    (ht : ∀ s ∈ V, ¬ S.Touched s.var) : ∀ (state : Selection) (st : St), (∀ s ∈ (visit f state st S).2.1.stmts, s ∈ V) →
    ∃ T T', Pair C V m m' st.dir (visit f state st S).1 T T' := by
  induction S with
  | seq a b iha ihb =>
    exact two_two hN.1 hN.2 (iha hN.1 (fun s h h' => hr s h (.inl h')) fun s h h' => ht s h (.inl h'))
      (ihb hN.2 (fun s h h' => hr s h (.inr ⟨fun hi => ht s h (.inl (inits_touched hi)), h'⟩)) fun s h h' => ht s h (.inr h'))
      (fun _ _ st => Grows.refl st) fun _ _ _ _ _ _ _ _ h h' => ⟨_, _, h.seq h'⟩
  | additive a b iha ihb =>
    exact two_two hN.1 hN.2 (iha hN.1 (fun s h h' => hr s h (.inl h')) fun s h h' => ht s h (.inl h'))
      (ihb hN.2 (fun s h h' => hr s h (.inr h')) fun s h h' => ht s h (.inr h'))
      (fun _ _ st => Grows.refl st) fun _ _ _ _ _ _ _ _ h h' => ⟨_, _, h.additive h'⟩
  | ite c a b iha ihb =>
    exact two_two hN.1 hN.2 (iha hN.1 (fun s h h' => hr s h (.inr (.inl h'))) fun s h h' => ht s h (.inl h'))
      (ihb hN.2 (fun s h h' => hr s h (.inr (.inr h'))) fun s h h' => ht s h (.inr h'))
      (fun _ _ st => Grows.refl st) fun _ _ _ _ _ _ _ _ h h' => ⟨_, _, h.ite (fun s h h' => hr s h (.inl h')) h'⟩
  | demonic a b iha ihb =>
    refine fun state st hs => two_two hN.1 hN.2 (iha hN.1 (fun s h h' => hr s h (.inl h')) fun s h h' => ht s h (.inl h'))
      (ihb hN.2 (fun s h h' => hr s h (.inr h')) fun s h h' => ht s h (.inr h'))
      (fun _ _ st => by split; exacts [addBranches_grows _ _ _ _ _ _ _, Grows.refl st]) (fun a' b' T T' U U' st2 => ?_) state st hs
    split
    · intro hs h h'
      have hs1 : ∀ s ∈ (addSlice _ (reductiveEffect st2.dir) st2).2.stmts, s ∈ V := fun s h => hs s (List.mem_append_left _ h)
      obtain ⟨p, p', h1, h2, h3, h4⟩ := addSlice_two hV hs1
      obtain ⟨q, q', h5, h6, h7, h8⟩ := addSlice_two (eff := reductiveEffect st2.dir) (st := (addSlice _ (reductiveEffect st2.dir) st2).2) hV hs
      obtain ⟨W, W', hW⟩ := pair_branch (angelic := false) (guard := demonicGuard st2.dir _) (demonicGuard_sem _ _) h1 h2
        (fun h h' => reductive_disabled (h3 h h')) (fun h h' => reductive_disabled (h4 h h')) h
      obtain ⟨X, X', hX⟩ := pair_branch (angelic := false) (guard := demonicGuard st2.dir _) (demonicGuard_sem _ _) h5 h6
        (fun h h' => reductive_disabled (h7 h h')) (fun h h' => reductive_disabled (h8 h h')) h'
      exact ⟨_, _, hW.demonic hX⟩
    · exact fun _ h h' => ⟨_, _, h.demonic h'⟩
  | angelic a b iha ihb =>
    refine fun state st hs => two_two hN.1 hN.2 (iha hN.1 (fun s h h' => hr s h (.inl h')) fun s h h' => ht s h (.inl h'))
      (ihb hN.2 (fun s h h' => hr s h (.inr h')) fun s h h' => ht s h (.inr h'))
      (fun _ _ st => by split; exacts [addBranches_grows _ _ _ _ _ _ _, Grows.refl st]) (fun a' b' T T' U U' st2 => ?_) state st hs
    split
    · intro hs h h'
      have hs1 : ∀ s ∈ (addSlice _ (extensiveEffect st2.dir) st2).2.stmts, s ∈ V := fun s h => hs s (List.mem_append_left _ h)
      obtain ⟨p, p', h1, h2, h3, h4⟩ := addSlice_two hV hs1
      obtain ⟨q, q', h5, h6, h7, h8⟩ := addSlice_two (eff := extensiveEffect st2.dir) (st := (addSlice _ (extensiveEffect st2.dir) st2).2) hV hs
      obtain ⟨W, W', hW⟩ := pair_branch (angelic := true) (guard := angelicGuard st2.dir _) (angelicGuard_sem _ _) h1 h2
        (fun h h' => extensive_disabled (h3 h h')) (fun h h' => extensive_disabled (h4 h h')) h
      obtain ⟨X, X', hX⟩ := pair_branch (angelic := true) (guard := angelicGuard st2.dir _) (angelicGuard_sem _ _) h5 h6
        (fun h h' => extensive_disabled (h7 h h')) (fun h h' => extensive_disabled (h8 h h')) h'
      exact ⟨_, _, hW.angelic hX⟩
    · exact fun _ h h' => ⟨_, _, h.angelic h'⟩
  | «while» c s ih =>
    intro state st hs
    obtain ⟨T, T', h⟩ := ih hN (fun s h h' => hr s h (.inr h')) ht state st hs
    exact ⟨_, _, h.while fun s h h' => hr s h (.inl h')⟩
  | annot an s ih =>
    have hr' := fun s h h' => hr s h (.inr h')
    intro state st hs
    cases an with
    | slicing n => exact ih hN hr' ht (pushAnnotation state n) st hs
    | _ =>
      obtain ⟨T, T', h⟩ := ih hN hr' ht state st hs
      exact ⟨T, T', h.noNeg, h.noNeg', h.reads, h.reads', h.first, h.second, h.cmp⟩
  | negate d => exact hN.elim
  | _ => exact leaf_two hC hV f hN hr ht fun _ _ => rfl

end

end Caesar.Slicing
