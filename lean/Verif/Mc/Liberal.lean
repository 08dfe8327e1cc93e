import Verif.Mc.DivergeSpec

/-!
# Greatest fixed points and the steps of the automaton

Both directions of the simulation, as in `Verif/Mc/Sound.lean`, for the semantics in which loops are greatest fixed points below a bound.
-/

open scoped ENNReal NNReal

namespace Caesar.Mc
set_option linter.unusedSectionVars false

variable [Fns]

section
variable [Doms] [Interp]

theorem liberal_mono (T : ℝ≥0∞) (C : SemCtx) (hcall : ∀ l f a, Monotone (C.call l f a)) {S : Stmt} (hS : S.NoNeg) :
    Monotone (liberal T C S) := by
  classical
  induction S with
  | seq a b iha ihb => exact fun φ ψ h => iha hS.1 (ihb hS.2 h)
  | demonic a b iha ihb => exact fun φ ψ h σ => min_le_min (iha hS.1 h σ) (ihb hS.2 h σ)
  | angelic a b iha ihb => exact fun φ ψ h σ => max_le_max (iha hS.1 h σ) (ihb hS.2 h σ)
  | additive a b iha ihb => exact fun φ ψ h σ => add_le_add (iha hS.1 h σ) (ihb hS.2 h σ)
  | ite c a b iha ihb =>
    intro φ ψ h σ
    show (if c.tv σ then _ else _) ≤ if c.tv σ then _ else _
    split
    · exact iha hS.1 h σ
    · exact ihb hS.2 h σ
  | «while» c body ih =>
    intro φ ψ h
    refine sSup_le fun X hX => le_sSup ⟨hX.1, fun σ => (hX.2 σ).trans ?_⟩
    show (if c.tv σ then _ else _) ≤ if c.tv σ then _ else _
    split
    · exact le_rfl
    · exact h σ
  | annot _ s ih => exact ih hS
  | _ => exact vcSem_mono C hcall hS

/-- A loop is at most the bound, and unfolds. -/
theorem liberal_while (T : ℝ≥0∞) (C : SemCtx) (hcall : ∀ l f a, Monotone (C.call l f a)) {c : Expr .bool} {body : Stmt}
    (hn : body.NoNeg) (φ : Exp) (σ : Env) : liberal T C (.while c body) φ σ ≤ T ∧
      (c.tv σ → liberal T C (.while c body) φ σ ≤ liberal T C body (liberal T C (.while c body) φ) σ) ∧
      (¬ c.tv σ → liberal T C (.while c body) φ σ ≤ φ σ) := by
  classical
  have hm := liberal_mono T C hcall hn
  have h1 : liberal T C (.while c body) φ ≤ fun _ => T := sSup_le fun X hX σ => hX.1 σ
  have h2 : liberal T C (.while c body) φ ≤ fun σ => if c.tv σ then liberal T C body (liberal T C (.while c body) φ) σ else φ σ := by
    refine sSup_le fun X hX τ => (hX.2 τ).trans ?_
    show (if c.tv τ then _ else _) ≤ if c.tv τ then _ else _
    split
    · exact hm (le_sSup hX) τ
    · exact le_rfl
  exact ⟨h1 σ, fun hc => (h2 σ).trans (le_of_eq (if_pos hc)), fun hc => (h2 σ).trans (le_of_eq (if_neg hc))⟩

end

section
variable [Doms] [Interp] [JOps]

/-! ## Enabled edges -/

theorem enabled_single {A : JAutomaton} {l : Loc} {ds : List JDest} (h : At A l [⟨l, none, ds⟩]) (s : JState) :
    A.enabled l s = [⟨l, none, ds⟩] := by
  rw [enabled_at h.1]
  exact List.filter_eq_self.2 fun e he => by
    rw [List.mem_singleton.1 he]
    exact @decide_eq_true (JEdge.enabled _ s) (Classical.propDecidable _) trivial

theorem enabled_if {A : JAutomaton} {c : JExpr} {l a b : Loc} (h : EncIf A c l a b) (s : JState) : A.enabled l s ≠ [] := by
  rw [enabled_at h.1]
  by_cases hc : (c.eval s).holds
  · have h1 : (JEdge.fromToIf l a c).enabled s := hc
    rw [List.filter_cons_of_pos (by simpa using h1)]
    exact List.cons_ne_nil _ _
  · have h1 : ¬ (JEdge.fromToIf l a c).enabled s := hc
    have h2 : (JEdge.fromToIf l b (.not c)).enabled s := hc
    rw [List.filter_cons_of_neg (by simpa using h1), List.filter_cons_of_pos (by simpa using h2)]
    exact List.cons_ne_nil _ _

theorem enabled_choice {A : JAutomaton} {l a b : Loc} (h : At A l [.fromTo l a, .fromTo l b]) (s : JState) :
    A.enabled l s = [.fromTo l a, .fromTo l b] := by
  rw [enabled_at h.1]
  refine List.filter_eq_self.2 fun e he => ?_
  rcases List.mem_cons.1 he with h | h
  · rw [h]; exact @decide_eq_true (JEdge.enabled _ s) (Classical.propDecidable _) trivial
  · rw [List.mem_singleton.1 h]; exact @decide_eq_true (JEdge.enabled _ s) (Classical.propDecidable _) trivial

theorem enabled_assign {A : JAutomaton} {x : String} {t : Ty} {e : Expr t} {a b : Loc} (h : EncAssign A x e a b) (s : JState) :
    A.enabled a s ≠ [] := by
  obtain ⟨j, _, h⟩ := h
  rw [enabled_single h]
  exact List.cons_ne_nil _ _

/-- One step of the location of a failed `assume`. -/
theorem miracle_step {A : JAutomaton} {mir : Loc} (h : At A mir [⟨mir, none, [⟨mir, none, [(rewardVar, .num 1)]⟩]⟩]) (d : Dir)
    (X : Loc → JState → ℝ≥0∞) (s : JState) : A.bellman d X mir s = 1 + X mir s := by
  rw [bellman_single h]
  unfold JEdge.expect
  rw [List.map_singleton, List.sum_singleton, (next_reward mir none (.num 1) s).1, (next_reward mir none (.num 1) s).2]
  show 1 * (ENNReal.ofReal ((1 : ℕ) : ℝ) + _) = _
  simp

/-! ## Upper bounds -/

/-- Values that are at least the bound at the start, and do not fall below their last step, are at least the meaning. -/
theorem liberal_le (hd : SameOps) {T : ℝ≥0∞} (C : SemCtx) (hcall : ∀ l f a, Monotone (C.call l f a))
    (A : JAutomaton) (dir : Dir) (Y : ℕ → Loc → JState → ℝ≥0∞) (hT : ∀ l s, A.enabled l s ≠ [] → T ≤ Y 0 l s)
    (hY : ∀ l s, A.enabled l s ≠ [] → ∀ k, A.bellman dir (Y (k - 1)) l s ≤ Y k l s) (S : Stmt) {V : Var → Prop}
    {Q : List ((x : Var) × Expr x.ty)} {start next : Loc} {φ : Exp} {n : ℕ} (hV : ∀ v, V v → isJaniTy v.ty = true)
    (hQ : ∀ q ∈ Q, isConstant q.2 = true) (henc : Enc A dir S start next) (hsc : Scoped S V Q) (hsup : Supported S)
    (hφ : ∀ m ≤ n, ∀ τ t, Rel (scope V S) Q τ t → φ τ ≤ Y m next t) :
    ∀ m ≤ n, ∀ σ s, Rel V (pend S ++ Q) σ s → liberal T C S φ σ ≤ Y m start s := by
  classical
  induction S generalizing V Q start next φ n with
  | skip =>
    cases henc
    exact hφ
  | label _ =>
    cases henc
    exact hφ
  | seq a b iha ihb =>
    obtain ⟨mid, h1, h2⟩ := henc
    intro m hm σ s hr
    have hb := ihb (scope_ty hsc.1 hV) hQ h1 hsc.2 hsup.2 hφ
    refine iha hV (fun q hq => (List.mem_append.1 hq).elim (pend_const b q) (hQ q)) h2 hsc.1 hsup.1 hb m hm σ s ?_
    rw [pend, List.append_assoc] at hr
    exact hr
  | varInit x e =>
    intro m hm σ s hr
    have hm' : m - 1 ≤ n := (Nat.sub_le m 1).trans hm
    rw [Enc] at henc
    rw [Scoped] at hsc
    rw [pend] at hr
    split at henc
    next hc =>
      subst henc
      rw [if_pos hc] at hr
      refine hφ m hm (σ.upd x (e.eval σ)) s ⟨fun v hv => ?_, fun q hq => ?_⟩
      · by_cases hx : v = x
        · subst hx
          rw [Env.upd_same]
          exact hr.pend ⟨v, e⟩ List.mem_cons_self
        · rw [Env.upd_ne _ hx]
          exact hr.vars v (hv.resolve_left hx)
      · rw [hr.pend q (List.mem_cons_of_mem _ hq), eval_const (hQ q hq) σ]
    next hc =>
      rw [if_neg hc] at hsc hr
      refine le_trans ?_ (hY start s (enabled_assign henc s) m)
      rw [assign_step hd hV hr.vars hsc.2.reward henc hsc.1]
      exact hφ (m - 1) hm' _ _ (hr.set hsc.2 hQ _)
  | assign x e =>
    intro m hm σ s hr
    have hm' : m - 1 ≤ n := (Nat.sub_le m 1).trans hm
    refine le_trans ?_ (hY start s (enabled_assign henc s) m)
    rw [assign_step hd hV hr.vars hsc.2.reward henc hsc.1]
    exact hφ (m - 1) hm' _ _ ((hr.set hsc.2 hQ _).mono (fun v hv => .inr hv) fun q hq => hq)
  | sample bb x d =>
    intro m hm σ s hr
    have hm' : m - 1 ≤ n := (Nat.sub_le m 1).trans hm
    obtain ⟨tbl, dests, h1, h2, h3⟩ := henc
    obtain ⟨hw, hdist⟩ := hsc
    obtain ⟨hgood, hne⟩ := hsup
    refine le_trans ?_ (hY start s (by rw [enabled_single h3]; exact List.cons_ne_nil _ _) m)
    show DistCall.expect d σ _ ≤ _
    rw [sample_step hd hV hr.vars hw.reward (apply_ok hdist h1) h2 h3, ← apply_mean hgood h1 (fun h => hne (h ▸ h1))]
    refine mean_mono _ _ fun v => hφ (m - 1) hm' _ _ ((hr.set hw hQ v).mono (fun w hw' => ?_) fun q hq => hq)
    cases bb with
    | true => exact hw'
    | false => exact .inr hw'
  | assert d e =>
    intro m hm σ s hr
    have hm' : m - 1 ≤ n := (Nat.sub_le m 1).trans hm
    obtain ⟨rfl, henc⟩ := henc
    have hn := hφ (m - 1) hm' σ s hr
    rcases henc with ⟨c, j, h1, h2, h3⟩ | ⟨_, ret, h2, h3⟩
    · refine le_trans ?_ (hY start s (enabled_if h3 s) m)
      cases d with
      | up => rw [hsup rfl] at h1; cases h1
      | down =>
        have hc := cond_eq hd hV hr.vars h2 ((embed_spec h1).1 V hsc)
        rw [bellman_if h3]
        show min (e.ev σ) (φ σ) ≤ if (j.eval s).holds then _ else _
        split
        next hh => exact (min_le_right _ _).trans hn
        next hh => rw [((embed_spec h1).2 σ).2 fun h => hh (hc.2 h), min_eq_left zero_le]; exact zero_le
    · refine le_trans ?_ (hY start s (by rw [enabled_choice h2]; exact List.cons_ne_nil _ _) m)
      rw [bellman_choice h2]
      have hret : e.ev σ ≤ Y (m - 1) ret s := by
        refine le_trans ?_ (hY ret s (enabled_assign h3 s) (m - 1))
        rw [reward_step hd hV hr.vars h3 hsc]
        exact le_self_add
      cases d with
      | down => exact le_min ((min_le_right _ _).trans hn) ((min_le_left _ _).trans hret)
      | up => exact max_le (hret.trans (le_max_right _ _)) (hn.trans (le_max_left _ _))
  | assume d e =>
    intro m hm σ s hr
    have hm' : m - 1 ≤ n := (Nat.sub_le m 1).trans hm
    obtain ⟨c, j, mir, h1, h2, h3, h4⟩ := henc
    refine le_trans ?_ (hY start s (enabled_if h3 s) m)
    have hn := hφ (m - 1) hm' σ s hr
    have hc := contCond_iff d j s (cond_eq hd hV hr.vars h2 ((embed_spec h1).1 V hsc))
    rw [bellman_if h3]
    cases d with
    | down =>
      show (if e.ev σ ≤ φ σ then ⊤ else φ σ) ≤ _
      by_cases hh : c.tv σ
      · rw [if_pos (hc.2 hh), ((embed_spec h1).2 σ).1 hh]
        split
        next ht => exact ht.trans hn
        next => exact hn
      · rw [if_neg fun h => hh (hc.1 h)]
        have hen : A.enabled mir s ≠ [] := by rw [enabled_single h4]; exact List.cons_ne_nil _ _
        have ht : ∀ k, Y k mir s = ⊤ := by
          intro k
          induction k with
          | zero =>
            have h0 := hY mir s hen 0
            rw [miracle_step h4] at h0
            by_contra hne
            exact absurd (ENNReal.lt_add_right hne one_ne_zero) (not_lt.2 (by rwa [add_comm]))
          | succ k ih =>
            have h0 := hY mir s hen (k + 1)
            rw [miracle_step h4, Nat.add_sub_cancel, ih, add_top] at h0
            exact top_le_iff.1 h0
        rw [ht]
        exact le_top
    | up =>
      show (if e.ev σ ≥ φ σ then 0 else φ σ) ≤ _
      by_cases hh : c.tv σ
      · rw [((embed_spec h1).2 σ).1 hh, if_pos (show φ σ ≤ ⊤ from le_top)]
        exact zero_le
      · rw [if_pos (hc.2 hh)]
        split
        · exact zero_le
        · exact hn
  | tick e =>
    intro m hm σ s hr
    have hm' : m - 1 ≤ n := (Nat.sub_le m 1).trans hm
    refine le_trans ?_ (hY start s (enabled_assign henc s) m)
    show φ σ + e.ev σ ≤ _
    rw [reward_step hd hV hr.vars henc hsc, add_comm]
    exact add_le_add le_rfl (hφ (m - 1) hm' σ s hr)
  | demonic a b iha ihb =>
    intro m hm σ s hr
    have hm' : m - 1 ≤ n := (Nat.sub_le m 1).trans hm
    obtain ⟨rfl, la, lb, h1, h2, h3⟩ := henc
    refine le_trans ?_ (hY start s (by rw [enabled_choice h3]; exact List.cons_ne_nil _ _) m)
    rw [bellman_choice h3]
    refine min_le_min (iha hV hQ h1 hsc.1 hsup.1 (fun k hk τ t hr => hφ k hk τ t (hr.mono (le_scope V a) fun q hq => hq)) (m - 1) hm' σ s
      (hr.mono (fun _ h => h) fun q hq => ?_)) (ihb hV hQ h2 hsc.2 hsup.2 (fun k hk τ t hr => hφ k hk τ t
        (hr.mono (le_scope V b) fun q hq => hq)) (m - 1) hm' σ s (hr.mono (fun _ h => h) fun q hq => ?_))
    · simp only [pend, List.mem_append] at hq ⊢; tauto
    · simp only [pend, List.mem_append] at hq ⊢; tauto
  | angelic a b iha ihb =>
    intro m hm σ s hr
    have hm' : m - 1 ≤ n := (Nat.sub_le m 1).trans hm
    obtain ⟨rfl, la, lb, h1, h2, h3⟩ := henc
    refine le_trans ?_ (hY start s (by rw [enabled_choice h3]; exact List.cons_ne_nil _ _) m)
    rw [bellman_choice h3]
    refine max_le_max (iha hV hQ h1 hsc.1 hsup.1 (fun k hk τ t hr => hφ k hk τ t (hr.mono (le_scope V a) fun q hq => hq)) (m - 1) hm' σ s
      (hr.mono (fun _ h => h) fun q hq => ?_)) (ihb hV hQ h2 hsc.2 hsup.2 (fun k hk τ t hr => hφ k hk τ t
        (hr.mono (le_scope V b) fun q hq => hq)) (m - 1) hm' σ s (hr.mono (fun _ h => h) fun q hq => ?_))
    · simp only [pend, List.mem_append] at hq ⊢; tauto
    · simp only [pend, List.mem_append] at hq ⊢; tauto
  | ite c a b iha ihb =>
    intro m hm σ s hr
    have hm' : m - 1 ≤ n := (Nat.sub_le m 1).trans hm
    obtain ⟨j, la, lb, h0, h1, h2, h3⟩ := henc
    refine le_trans ?_ (hY start s (enabled_if h3 s) m)
    show (if c.tv σ then liberal T C a φ σ else liberal T C b φ σ) ≤ _
    rw [bellman_if h3]
    have hc := cond_eq hd hV hr.vars h0 hsc.1
    by_cases hh : c.tv σ
    · rw [if_pos hh, if_pos (hc.2 hh)]
      refine iha hV hQ h1 hsc.2.1 hsup.1 (fun k hk τ t hr => hφ k hk τ t (hr.mono (le_scope V a) fun q hq => hq)) (m - 1) hm' σ s
        (hr.mono (fun _ h => h) fun q hq => ?_)
      simp only [pend, List.mem_append] at hq ⊢; tauto
    · rw [if_neg hh, if_neg (fun h => hh (hc.1 h))]
      refine ihb hV hQ h2 hsc.2.2 hsup.2 (fun k hk τ t hr => hφ k hk τ t (hr.mono (le_scope V b) fun q hq => hq)) (m - 1) hm' σ s
        (hr.mono (fun _ h => h) fun q hq => ?_)
      simp only [pend, List.mem_append] at hq ⊢; tauto
  | «while» c body ih =>
    obtain ⟨j, la, h0, h1, h3⟩ := henc
    obtain ⟨hc, hsc⟩ := hsc
    obtain ⟨hp, hsup⟩ := hsup
    have hpe : pend (.while c body) = [] := hp
    rw [hpe, List.nil_append]
    intro m
    induction m using Nat.strong_induction_on with
    | _ m ihm =>
      intro hm σ s hr
      have hu := liberal_while T C hcall (c := c) (enc_noNeg h1) φ σ
      cases m with
      | zero => exact hu.1.trans (hT start s (enabled_if h3 s))
      | succ m =>
        refine le_trans ?_ (hY start s (enabled_if h3 s) (m + 1))
        rw [bellman_if h3, Nat.add_sub_cancel]
        have hm' := Nat.le_of_succ_le hm
        have hcc := cond_eq hd hV hr.vars h0 hc
        by_cases hh : c.tv σ
        · rw [if_pos (hcc.2 hh)]
          refine (hu.2.1 hh).trans ?_
          refine ih (n := m) hV hQ h1 hsc hsup (fun k hk τ t hr => ihm k (Nat.lt_succ_of_le hk) (hk.trans hm') τ t
            (hr.mono (le_scope V body) fun q hq => hq)) m le_rfl σ s ?_
          rw [hp]
          exact hr
        · rw [if_neg (fun h => hh (hcc.1 h))]
          exact (hu.2.2 hh).trans (hφ m hm' σ s hr)
  | annot _ s ih => exact ih hV hQ henc hsc hsup hφ
  | varDecl _ => exact henc.elim
  | call _ _ _ _ => exact henc.elim
  | havoc _ _ => exact henc.elim
  | compare _ _ => exact henc.elim
  | negate _ => exact henc.elim
  | validate _ => exact henc.elim
  | weigh _ => exact henc.elim
  | additive _ _ _ _ => exact henc.elim

/-! ## Lower bounds -/

/-- Values below the bound that do not grow before a step are at most the meaning. -/
theorem le_liberal (hd : SameOps) {T : ℝ≥0∞} (C : SemCtx)
    (A : JAutomaton) (dir : Dir) (X : Loc → JState → ℝ≥0∞) (hX : ∀ l s, A.enabled l s ≠ [] → X l s ≤ A.bellman dir X l s)
    (hT : ∀ l s, X l s ≤ T) (herr : ∀ s, X .err s = 0) (S : Stmt) {V : Var → Prop}
    {Q : List ((x : Var) × Expr x.ty)} {start next : Loc} {φ : Exp} (hV : ∀ v, V v → isJaniTy v.ty = true)
    (hQ : ∀ q ∈ Q, isConstant q.2 = true) (henc : Enc A dir S start next) (hsc : Scoped S V Q) (hsup : Supported S) (hco : NoCoassume S)
    (hφ : ∀ τ t, Rel (scope V S) Q τ t → X next t ≤ φ τ) :
    ∀ σ s, Rel V (pend S ++ Q) σ s → X start s ≤ liberal T C S φ σ := by
  classical
  induction S generalizing V Q start next φ with
  | skip =>
    cases henc
    exact hφ
  | label _ =>
    cases henc
    exact hφ
  | seq a b iha ihb =>
    obtain ⟨mid, h1, h2⟩ := henc
    intro σ s hr
    have hb := ihb (scope_ty hsc.1 hV) hQ h1 hsc.2 hsup.2 hco.2 hφ
    refine iha hV (fun q hq => (List.mem_append.1 hq).elim (pend_const b q) (hQ q)) h2 hsc.1 hsup.1 hco.1 hb σ s ?_
    rw [pend, List.append_assoc] at hr
    exact hr
  | varInit x e =>
    intro σ s hr
    rw [Enc] at henc
    rw [Scoped] at hsc
    rw [pend] at hr
    split at henc
    next hc =>
      subst henc
      rw [if_pos hc] at hr
      refine hφ (σ.upd x (e.eval σ)) s ⟨fun v hv => ?_, fun q hq => ?_⟩
      · by_cases hx : v = x
        · subst hx
          rw [Env.upd_same]
          exact hr.pend ⟨v, e⟩ List.mem_cons_self
        · rw [Env.upd_ne _ hx]
          exact hr.vars v (hv.resolve_left hx)
      · rw [hr.pend q (List.mem_cons_of_mem _ hq), eval_const (hQ q hq) σ]
    next hc =>
      rw [if_neg hc] at hsc hr
      refine (hX start s (enabled_assign henc s)).trans ?_
      rw [assign_step hd hV hr.vars hsc.2.reward henc hsc.1]
      exact hφ _ _ (hr.set hsc.2 hQ _)
  | assign x e =>
    intro σ s hr
    refine (hX start s (enabled_assign henc s)).trans ?_
    rw [assign_step hd hV hr.vars hsc.2.reward henc hsc.1]
    exact hφ _ _ ((hr.set hsc.2 hQ _).mono (fun v hv => .inr hv) fun q hq => hq)
  | sample bb x d =>
    intro σ s hr
    obtain ⟨tbl, dests, h1, h2, h3⟩ := henc
    obtain ⟨hw, hdist⟩ := hsc
    obtain ⟨hgood, hne⟩ := hsup
    refine (hX start s (by rw [enabled_single h3]; exact List.cons_ne_nil _ _)).trans ?_
    show _ ≤ DistCall.expect d σ _
    rw [sample_step hd hV hr.vars hw.reward (apply_ok hdist h1) h2 h3, ← apply_mean hgood h1 (fun h => hne (h ▸ h1))]
    refine mean_mono _ _ fun v => hφ _ _ ((hr.set hw hQ v).mono (fun w hw' => ?_) fun q hq => hq)
    cases bb with
    | true => exact hw'
    | false => exact .inr hw'
  | assert d e =>
    intro σ s hr
    obtain ⟨rfl, henc⟩ := henc
    have hn := hφ σ s hr
    rcases henc with ⟨c, j, h1, h2, h3⟩ | ⟨_, ret, h2, h3⟩
    · refine (hX start s (enabled_if h3 s)).trans ?_
      cases d with
      | up => rw [hsup rfl] at h1; cases h1
      | down =>
        have hc := cond_eq hd hV hr.vars h2 ((embed_spec h1).1 V hsc)
        rw [bellman_if h3]
        show (if (j.eval s).holds then _ else _) ≤ min (e.ev σ) (φ σ)
        split
        next hh => rw [((embed_spec h1).2 σ).1 (hc.1 hh), min_top_left]; exact hn
        next => rw [herr]; exact zero_le
    · refine (hX start s (by rw [enabled_choice h2]; exact List.cons_ne_nil _ _)).trans ?_
      rw [bellman_choice h2]
      have hret : X ret s ≤ e.ev σ := by
        refine (hX ret s (enabled_assign h3 s)).trans ?_
        rw [reward_step hd hV hr.vars h3 hsc, herr, add_zero]
      cases d with
      | down => exact le_min (min_le_right _ _ |>.trans hret) (min_le_left _ _ |>.trans hn)
      | up => exact max_le (hn.trans (le_max_right _ _)) (hret.trans (le_max_left _ _))
  | assume d e =>
    intro σ s hr
    obtain ⟨c, j, mir, h1, h2, h3, h4⟩ := henc
    cases (show d = .down from hco)
    refine (hX start s (enabled_if h3 s)).trans ?_
    have hn := hφ σ s hr
    have hc := contCond_iff .down j s (cond_eq hd hV hr.vars h2 ((embed_spec h1).1 V hsc))
    rw [bellman_if h3]
    show _ ≤ if e.ev σ ≤ φ σ then ⊤ else φ σ
    split
    next hh =>
      split
      · exact le_top
      · exact hn
    next hh => rw [((embed_spec h1).2 σ).2 fun h => hh (hc.2 h), if_pos zero_le]; exact le_top
  | tick e =>
    intro σ s hr
    refine (hX start s (enabled_assign henc s)).trans ?_
    show _ ≤ φ σ + e.ev σ
    rw [reward_step hd hV hr.vars henc hsc, add_comm]
    exact add_le_add_left (hφ σ s hr) _
  | demonic a b iha ihb =>
    intro σ s hr
    obtain ⟨rfl, la, lb, h1, h2, h3⟩ := henc
    refine (hX start s (by rw [enabled_choice h3]; exact List.cons_ne_nil _ _)).trans ?_
    rw [bellman_choice h3]
    refine min_le_min (iha hV hQ h1 hsc.1 hsup.1 hco.1 (fun τ t hr => hφ τ t (hr.mono (le_scope V a) fun q hq => hq)) σ s
      (hr.mono (fun _ h => h) fun q hq => ?_)) (ihb hV hQ h2 hsc.2 hsup.2 hco.2 (fun τ t hr => hφ τ t
        (hr.mono (le_scope V b) fun q hq => hq)) σ s (hr.mono (fun _ h => h) fun q hq => ?_))
    · simp only [pend, List.mem_append] at hq ⊢; tauto
    · simp only [pend, List.mem_append] at hq ⊢; tauto
  | angelic a b iha ihb =>
    intro σ s hr
    obtain ⟨rfl, la, lb, h1, h2, h3⟩ := henc
    refine (hX start s (by rw [enabled_choice h3]; exact List.cons_ne_nil _ _)).trans ?_
    rw [bellman_choice h3]
    refine max_le_max (iha hV hQ h1 hsc.1 hsup.1 hco.1 (fun τ t hr => hφ τ t (hr.mono (le_scope V a) fun q hq => hq)) σ s
      (hr.mono (fun _ h => h) fun q hq => ?_)) (ihb hV hQ h2 hsc.2 hsup.2 hco.2 (fun τ t hr => hφ τ t
        (hr.mono (le_scope V b) fun q hq => hq)) σ s (hr.mono (fun _ h => h) fun q hq => ?_))
    · simp only [pend, List.mem_append] at hq ⊢; tauto
    · simp only [pend, List.mem_append] at hq ⊢; tauto
  | ite c a b iha ihb =>
    intro σ s hr
    obtain ⟨j, la, lb, h0, h1, h2, h3⟩ := henc
    refine (hX start s (enabled_if h3 s)).trans ?_
    show _ ≤ (if c.tv σ then liberal T C a φ σ else liberal T C b φ σ)
    rw [bellman_if h3]
    have hc := cond_eq hd hV hr.vars h0 hsc.1
    by_cases hh : c.tv σ
    · rw [if_pos hh, if_pos (hc.2 hh)]
      refine iha hV hQ h1 hsc.2.1 hsup.1 hco.1 (fun τ t hr => hφ τ t (hr.mono (le_scope V a) fun q hq => hq)) σ s
        (hr.mono (fun _ h => h) fun q hq => ?_)
      simp only [pend, List.mem_append] at hq ⊢; tauto
    · rw [if_neg hh, if_neg (fun h => hh (hc.1 h))]
      refine ihb hV hQ h2 hsc.2.2 hsup.2 hco.2 (fun τ t hr => hφ τ t (hr.mono (le_scope V b) fun q hq => hq)) σ s
        (hr.mono (fun _ h => h) fun q hq => ?_)
      simp only [pend, List.mem_append] at hq ⊢; tauto
  | «while» c body ih =>
    obtain ⟨j, la, h0, h1, h3⟩ := henc
    obtain ⟨hc, hsc⟩ := hsc
    obtain ⟨hp, hsup⟩ := hsup
    have hpe : pend (.while c body) = [] := hp
    rw [hpe, List.nil_append]
    intro σ s hr
    let ψ : Exp := fun σ => ⨆ t, ⨆ _ : Rel V Q σ t, X start t
    have hψ : ∀ τ t, Rel V Q τ t → X start t ≤ ψ τ := fun τ t h => le_iSup₂ (f := fun t (_ : Rel V Q τ t) => X start t) t h
    refine (hψ σ s hr).trans ((le_sSup ⟨fun τ => iSup₂_le fun t _ => hT start t, fun τ => iSup₂_le fun t ht => ?_⟩ :
      ψ ≤ liberal T C (.while c body) φ) σ)
    refine (hX start t (enabled_if h3 t)).trans ?_
    rw [bellman_if h3]
    have hcc := cond_eq hd hV ht.vars h0 hc
    show _ ≤ (if c.tv τ then liberal T C body ψ τ else φ τ)
    by_cases hh : c.tv τ
    · rw [if_pos hh, if_pos (hcc.2 hh)]
      refine ih hV hQ h1 hsc hsup hco (fun τ' t' hr' => hψ τ' t' (hr'.mono (le_scope V body) fun q hq => hq)) τ t ?_
      rw [hp]
      exact ht
    · rw [if_neg hh, if_neg (fun h => hh (hcc.1 h))]
      exact hφ τ t ht
  | annot _ s ih => exact ih hV hQ henc hsc hsup hco hφ
  | varDecl _ => exact henc.elim
  | call _ _ _ _ => exact henc.elim
  | havoc _ _ => exact henc.elim
  | compare _ _ => exact henc.elim
  | negate _ => exact henc.elim
  | validate _ => exact henc.elim
  | weigh _ => exact henc.elim
  | additive _ _ _ _ => exact henc.elim

end

end Caesar.Mc
