import Verif.Driver.Lower
import Verif.Opt.Preserve
import Verif.Props.C01
import Verif.Props.C05
import Verif.Props.C07
import Verif.Props.C09

/-!
# C10: the Boolean verification condition is valid iff the quantitative one holds
-/

open scoped ENNReal NNReal

namespace Caesar
set_option linter.unusedSectionVars false

/-- The full property: whatever the options and the (sound) solver used for the unfolding, every quantitative verification condition over
declared variables is turned into a Boolean formula, and this formula is valid iff the condition is `∞` in all states (`proc`) resp. `0` in all
states (`coproc`). -/
def C10_full : Prop := ∀ (_ : Doms) (_ : Interp) (o : Oracle) (span span' span'' : Nat) (opts : LowerOptions) (d : Dir) (e : Expr .eureal) (s : UState),
  o.Sound → (∀ v, e.Occurs v → v.id ∈ s.1.decls) →
    ∃ N, ∀ n ≥ N, ∃ b s', lowerQuant o span span' span'' opts n d e s = some (b, s') ∧ ((∀ σ : Env, b.tv σ) ↔ VcHolds d e)

/-- The comparisons for which the relational optimisation is correct and does not panic (`C08`). -/
def RelCmp (t : Ty) : Prop := t ≠ .int ∧ t ≠ .real ∧ t ≠ .bool

section
variable [Doms] [Interp]

theorem CmpTypes.imp {P Q : Ty → Prop} (h : ∀ t, P t → Q t) {t : Ty} (e : Expr t) : e.CmpTypes P → e.CmpTypes Q := by
  induction e with
  | var x => exact fun h => h
  | lit x => exact fun h => h
  | call f args ih => exact fun h i => ih i (h i)
  | ite c a b ih1 ih2 ih3 => exact fun h => ⟨ih1 h.1, ih2 h.2.1, ih3 h.2.2⟩
  | bin op a b ih1 ih2 => exact fun h => ⟨ih1 h.1, ih2 h.2⟩
  | rel op a b ih1 ih2 => exact fun h' => ⟨fun hr => h _ (h'.1 hr), ih1 h'.2.1, ih2 h'.2.2⟩
  | un op a ih => exact ih
  | embed a ih => exact ih
  | iverson a ih => exact ih
  | cast c a ih => exact ih
  | quant op h vs a ih => exact ih
  | subst x e a ih1 ih2 => exact fun h => ⟨ih1 h.1, ih2 h.2⟩

omit [Doms] [Interp] in
theorem cmpTypes_true {t : Ty} (e : Expr t) : e.CmpTypes fun _ => True := by
  induction e with
  | var x => trivial
  | lit x => trivial
  | call f args ih => exact ih
  | ite c a b ih1 ih2 ih3 => exact ⟨ih1, ih2, ih3⟩
  | bin op a b ih1 ih2 => exact ⟨ih1, ih2⟩
  | rel op a b ih1 ih2 => exact ⟨fun _ => trivial, ih1, ih2⟩
  | un op a ih => exact ih
  | embed a ih => exact ih
  | iverson a ih => exact ih
  | cast c a ih => exact ih
  | quant op h vs a ih => exact ih
  | subst x e a ih1 ih2 => exact ⟨ih1, ih2⟩

/-- The Boolean formula is true in exactly the states in which the quantitative one is `∞` resp. `0`. -/
theorem intoBoolVc_tv (d : Dir) (e : Expr .eureal) (σ : Env) :
    (intoBoolVc d e).tv σ ↔ match d with | .down => e.ev σ = ⊤ | .up => e.ev σ = 0 := by
  have ht : (Expr.topLit .eureal rfl).ev σ = ⊤ := Expr.eval_topLit rfl σ
  cases d with
  | down =>
    show (Expr.topLit .eureal rfl).ev σ = e.ev σ ↔ e.ev σ = ⊤
    rw [ht]
    exact eq_comm
  | up =>
    show (Expr.topLit .eureal rfl).ev σ = (Expr.un (.not rfl) e).ev σ ↔ e.ev σ = 0
    rw [ht, Expr.ev_not]
    constructor
    · intro h
      by_contra hn
      rw [if_neg hn] at h
      exact ENNReal.top_ne_zero h
    · intro h
      rw [if_pos h]

theorem vcHolds_iff (d : Dir) (e : Expr .eureal) : (∀ σ : Env, (intoBoolVc d e).tv σ) ↔ VcHolds d e := by
  cases d with
  | down => exact forall_congr' fun σ => intoBoolVc_tv .down e σ
  | up => exact forall_congr' fun σ => intoBoolVc_tv .up e σ

/-- The optimisations of the Boolean formula succeed and preserve its truth value in all states. -/
theorem optBool_spec {K : Lang} (opts : LowerOptions) (b : Expr .bool) (hb : opts.optRel = true → b.Clean K) (hK : opts.optRel = true → ∀ t, K.cmp t → RelCmp t) :
    ∃ N, ∀ n ≥ N, ∃ b', optBool opts n b = some b' ∧ ∀ σ : Env, b'.tv σ ↔ b.tv σ := by
  obtain ⟨b1, hb1⟩ : ∃ b1, b1 = parensStep opts b := ⟨_, rfl⟩
  have e1 : ∀ σ : Env, b1.eval σ = b.eval σ := by
    intro σ
    rw [hb1, parensStep]
    split
    · exact C05_value_preserved b σ
    · rfl
  have c1 : opts.optRel = true → b1.Clean K := by
    intro h
    rw [hb1, parensStep]
    split
    · exact removeParensAux_clean b true (hb h)
    · exact hb h
  obtain ⟨N, b2, h2, e2, c2⟩ : ∃ N b2, (∀ n ≥ N, boolifyStep opts n b1 = some b2) ∧
      (∀ σ : Env, b2.eval σ = b1.eval σ) ∧ (opts.optRel = true → b2.Clean K) := by
    by_cases h : opts.noBoolify = true
    · exact ⟨0, b1, fun n _ => if_pos h, fun _ => rfl, c1⟩
    · obtain ⟨b2, N, h2⟩ := C07_terminates b1
      exact ⟨N, b2, fun n hn => (if_neg h).trans (h2 n hn), C07_value_preserved b1 b2 ⟨N, h2⟩,
        fun hr => (boolify_clean N).1 b1 (c1 hr) b2 (h2 N (Nat.le_refl N))⟩
  refine ⟨N, fun n hn => ?_⟩
  have step : optBool opts n b = if opts.optRel = true then b2.relational else some b2 := by
    unfold optBool
    rw [← hb1, h2 n hn]
    rfl
  have e12 : ∀ σ : Env, b2.eval σ = b.eval σ := fun σ => (e2 σ).trans (e1 σ)
  by_cases h : opts.optRel = true
  · have hc := CmpTypes.imp (hK h) b2 ((Expr.clean_iff { K with funcs := fun _ => True } (fun _ => trivial) b2).1 (c2 h).anyFuncs).2.1
    obtain ⟨b3, h3⟩ := C08_relational_succeeds b2 hc
    refine ⟨b3, by rw [step, if_pos h, h3], fun σ => ?_⟩
    have e3 := C08_relational_preserves_value_partial b2 (CmpTypes.imp (fun t h => ⟨h.1, h.2.1⟩) b2 hc) b3 h3 σ
    exact iff_of_eq (e3.trans (e12 σ))
  · exact ⟨b2, by rw [step, if_neg h], fun σ => iff_of_eq (e12 σ)⟩

/-- For all option settings, the pipeline succeeds and the resulting formula is valid iff the verification condition holds, provided that
the condition contains no quantifier written by the user if quantifier elimination is enabled (those of `havoc` are allowed), and no
`<=`, `>=`, `==` on `Int`, `Real` or `Bool` if the relational optimisation is enabled.
Missing: the excluded cases, in which the claim is false (`C10_not_full`, `C10_program_not_full`, `C10_optRel_unsound`, `C10_optRel_panics`). -/
theorem C10_lowering_partial {o : Oracle} (ho : o.Sound) (span span' span'' : Nat) (opts : LowerOptions) (d : Dir) (e : Expr .eureal) (s : UState)
    (hd : ∀ v, e.Occurs v → v.id ∈ s.1.decls) (hq : opts.noQelim = false → e.freshVars = []) (hr : opts.optRel = true → e.CmpTypes RelCmp) :
    ∃ N, ∀ n ≥ N, ∃ b s', lowerQuant o span span' span'' opts n d e s = some (b, s') ∧ ((∀ σ : Env, b.tv σ) ↔ VcHolds d e) := by
  have hclean : ∀ D, s.1.decls ⊆ D → e.Clean ⟨opts.noQelim = true, fun t => opts.optRel = true → RelCmp t, D, fun _ => True⟩ := by
    intro D hD
    refine (Expr.clean_iff _ (fun _ => trivial) e).2 ⟨fun hf => ?_, ?_, fun v hv => hD (hd v hv)⟩
    · by_contra h
      exact hf (hq (Bool.eq_false_iff.2 h))
    · by_cases h : opts.optRel = true
      · exact CmpTypes.imp (fun t ht _ => ht) e (hr h)
      · exact CmpTypes.imp (fun t _ h' => absurd h' h) e (cmpTypes_true e)
  obtain ⟨e1, s1, r1, g1, n1, v1⟩ : ∃ e1 s1, unfoldStep o span opts e s = some (e1, s1) ∧
      s.1.decls ⊆ s1.1.decls ∧ e1.NoSubst ∧ ∀ σ : Env, e1.eval σ = e.eval σ := by
    unfold unfoldStep
    split
    · obtain ⟨e1, s1, h1, h2, h3, h4, h5⟩ := (applySubst_spec span e .empty s.1 (FrameOk.empty _ _) hd).lift
      exact ⟨e1, s1, h1, h2, h3, fun σ => h5 σ σ fun v _ => rfl⟩
    · obtain ⟨e1, s1, h1, h2, h3, h4, h5⟩ := unfold_spec ho span e {} .empty s Path.ok_empty (FrameOk.empty _ _) hd
      exact ⟨e1, s1, h1, h2, h3, fun σ => h5 σ σ (Path.reach_empty σ) fun v _ => rfl⟩
  have c1 : e1.Clean ⟨opts.noQelim = true, fun t => opts.optRel = true → RelCmp t, s1.1.decls, fun _ => True⟩ := by
    have key : Par s1.1.decls (unfoldStep o span opts e) fun e' =>
        e.Clean ⟨opts.noQelim = true, fun t => opts.optRel = true → RelCmp t, s1.1.decls, fun _ => True⟩ →
        e'.Clean ⟨opts.noQelim = true, fun t => opts.optRel = true → RelCmp t, s1.1.decls, fun _ => True⟩ := by
      unfold unfoldStep
      split
      · exact (applySubst_clean (K := ⟨opts.noQelim = true, fun t => opts.optRel = true → RelCmp t, s1.1.decls, fun _ => True⟩) span e .empty).lift.imp fun _ h he => h SubstFrame.Clean.empty he
      · exact (unfold_clean (K := ⟨opts.noQelim = true, fun t => opts.optRel = true → RelCmp t, s1.1.decls, fun _ => True⟩) o span e {} .empty).imp fun _ h he => h SubstFrame.Clean.empty he
    exact (key s e1 s1 r1).2 (fun _ h => h) (hclean _ g1)
  obtain ⟨e2, s2, r2, v2, c2⟩ : ∃ e2 s2, qelimStep span' span'' opts d e1 s1 = some (e2, s2) ∧
      (VcHolds d e2 ↔ VcHolds d e1) ∧ e2.Clean ⟨opts.noQelim = true, fun t => opts.optRel = true → RelCmp t, s2.1.decls, fun _ => True⟩ := by
    by_cases h : opts.noQelim = true
    · exact ⟨e1, s1, by rw [qelimStep, if_pos h]; rfl, Iff.rfl, c1⟩
    · have c1' := (Expr.clean_iff _ (fun _ => trivial) e1).1 c1
      have hf : e1.freshVars = [] := by
        by_contra hf
        exact h (c1'.1 hf)
      obtain ⟨e2, t2, h1, h2, -, h3, -⟩ := C06_qelim_preserves_verdict_partial span' span'' e1 d s1.1 rfl c1'.2.2 n1 (freshOk_of_nil e1 hf d)
      have hl : liftTcx (qelimPass span' span'' e1 d) s1 = some (e2, (t2, s1.2)) := by simp [liftTcx, h1]
      refine ⟨e2, (t2, s1.2), by rw [qelimStep, if_neg h, hl], h2, ?_⟩
      refine ((qelimPass_clean (K := ⟨opts.noQelim = true, fun t => opts.optRel = true → RelCmp t, t2.decls, fun _ => True⟩) span' span'' e1 d) s1.1 e2 t2 h1).2 (fun _ h => h) ?_
      exact (Expr.clean_iff _ (fun _ => trivial) e1).2 ⟨c1'.1, c1'.2.1, fun v hv => h3 (c1'.2.2 v hv)⟩
  have cb : opts.optRel = true → (intoBoolVc d e2).Clean ⟨opts.noQelim = true, fun t => opts.optRel = true → RelCmp t, s2.1.decls, fun _ => True⟩ := by
    intro _
    cases d with
    | down => exact ⟨fun _ _ => by simp [RelCmp], topLit_clean rfl, c2⟩
    | up => exact ⟨fun _ _ => by simp [RelCmp], topLit_clean rfl, c2⟩
  obtain ⟨N, hN⟩ := optBool_spec opts (intoBoolVc d e2) cb fun h t ht => ht h
  refine ⟨N, fun n hn => ?_⟩
  obtain ⟨b, h1, h2⟩ := hN n hn
  refine ⟨b, s2, ?_, ?_⟩
  · show (unfoldStep o span opts e s).bind _ = _
    rw [r1]
    show (qelimStep span' span'' opts d e1 s1).bind _ = _
    rw [r2]
    show (optBool opts n (intoBoolVc d e2)).map _ = _
    rw [h1]
    rfl
  · rw [forall_congr' h2, vcHolds_iff, v2]
    cases d with
    | down => exact forall_congr' fun σ => by rw [v1]
    | up => exact forall_congr' fun σ => by rw [v1]

end

/-! ## From programs -/

/-- The argument expression of the distribution, if any, satisfies `P`. -/
def DistCall.All (P : {t : Ty} → Expr t → Prop) : {t : Ty} → DistCall t → Prop
  | _, .flip p => P p
  | _, _ => True

/-- All expressions of the (loop-free and call-free) statement satisfy `P`, and all of its assigned variables satisfy `V`. -/
def Stmt.All (P : {t : Ty} → Expr t → Prop) (V : Var → Prop) : Stmt → Prop
  | .seq a b => a.All P V ∧ b.All P V
  | .varInit x e => V x ∧ P e
  | .assign x e => V x ∧ P e
  | .sample _ x (t := t) d => V ⟨x, t⟩ ∧ d.All P
  | .havoc _ xs => ∀ x ∈ xs, V x
  | .assert _ e => P e
  | .assume _ e => P e
  | .compare _ e => P e
  | .tick e => P e
  | .weigh e => P e
  | .demonic a b => a.All P V ∧ b.All P V
  | .angelic a b => a.All P V ∧ b.All P V
  | .additive a b => a.All P V ∧ b.All P V
  | .ite c a b => P c ∧ a.All P V ∧ b.All P V
  | .annot _ s => s.All P V
  | _ => True

theorem Stmt.All.and {P Q R : {t : Ty} → Expr t → Prop} {V W : Var → Prop} (h : ∀ {t : Ty} (e : Expr t), P e → Q e → R e) {S : Stmt} :
    S.All P V → S.All Q W → S.All R V := by
  induction S with
  | seq a b iha ihb => exact fun h1 h2 => ⟨iha h1.1 h2.1, ihb h1.2 h2.2⟩
  | varInit x e => exact fun h1 h2 => ⟨h1.1, h e h1.2 h2.2⟩
  | assign x e => exact fun h1 h2 => ⟨h1.1, h e h1.2 h2.2⟩
  | sample b x d =>
    intro h1 h2
    cases d with
    | flip p => exact ⟨h1.1, h p h1.2 h2.2⟩
    | _ => exact ⟨h1.1, trivial⟩
  | assert _ e => exact fun h1 h2 => h e h1 h2
  | assume _ e => exact fun h1 h2 => h e h1 h2
  | compare _ e => exact fun h1 h2 => h e h1 h2
  | tick e => exact fun h1 h2 => h e h1 h2
  | weigh e => exact fun h1 h2 => h e h1 h2
  | demonic a b iha ihb => exact fun h1 h2 => ⟨iha h1.1 h2.1, ihb h1.2 h2.2⟩
  | angelic a b iha ihb => exact fun h1 h2 => ⟨iha h1.1 h2.1, ihb h1.2 h2.2⟩
  | additive a b iha ihb => exact fun h1 h2 => ⟨iha h1.1 h2.1, ihb h1.2 h2.2⟩
  | ite c a b iha ihb => exact fun h1 h2 => ⟨h c h1.1 h2.1, iha h1.2.1 h2.2.1, ihb h1.2.2 h2.2.2⟩
  | annot _ s ih => exact ih
  | _ => exact fun h1 _ => h1

theorem fromOdds_clean {K : Lang} {t : Ty} {pairs : List (Nat × Expr t)} {ds : Dist t} (hp : ∀ p ∈ pairs, p.2.Clean K) (h : Dist.fromOdds pairs = .ok ds) :
    ∀ p ∈ ds, p.1.Clean K ∧ p.2.Clean K := by
  unfold Dist.fromOdds at h
  dsimp only at h
  split at h
  · nomatch h
  · cases h
    intro p hm
    obtain ⟨q, hq, rfl⟩ := List.mem_map.1 hm
    exact ⟨trivial, hp q hq⟩

theorem dist_clean {K : Lang} {t : Ty} (d : DistCall t) (ds : Dist t) (h : d.All fun e => e.Clean K) (hd : d.apply = .ok ds) : ∀ p ∈ ds, p.1.Clean K ∧ p.2.Clean K := by
  unfold DistCall.apply at hd
  cases d with
  | ber pa pb => exact fromOdds_clean (by simp [Expr.boolLit, Expr.Clean]) hd
  | flip p =>
    dsimp only at hd
    cases hd
    intro q hq
    have hp : p.Clean K := h
    simp only [List.mem_cons, List.not_mem_nil, or_false] at hq
    rcases hq with rfl | rfl
    · exact ⟨hp, trivial⟩
    · exact ⟨⟨trivial, hp⟩, trivial⟩
  | unif a b =>
    refine fromOdds_clean ?_ hd
    intro p hp
    obtain ⟨v, -, rfl⟩ := List.mem_map.1 hp
    trivial
  | binom n pa pb =>
    dsimp only at hd
    split at hd
    · nomatch hd
    · refine fromOdds_clean ?_ hd
      intro p hp
      obtain ⟨v, -, rfl⟩ := List.mem_map.1 hp
      trivial
  | hyper pN k pn =>
    dsimp only at hd
    split at hd
    · nomatch hd
    · refine fromOdds_clean ?_ hd
      intro p hp
      obtain ⟨v, -, rfl⟩ := List.mem_map.1 hp
      trivial

theorem foldl_clean {K : Lang} (es : List (Expr .eureal)) : ∀ e : Expr .eureal, e.Clean K → (∀ e ∈ es, e.Clean K) →
    (es.foldl (fun a b => Expr.bin (.add rfl) a b) e).Clean K := by
  induction es with
  | nil => exact fun e he _ => he
  | cons e' es ih => exact fun e he h => ih _ ⟨he, h e' List.mem_cons_self⟩ fun x hx => h x (List.mem_cons_of_mem _ hx)

theorem vcgen_clean {K : Lang} {S : Stmt} : ∀ {post e : Expr .eureal}, vcgen S post = .ok e →
    S.All (fun e => e.Clean K) (fun x => x.id ∈ K.decls) → post.Clean K → e.Clean K := by
  induction S with
  | skip => intro post e h hS hp; cases h; exact hp
  | seq a b iha ihb =>
    intro post e h hS hp
    obtain ⟨p', h1, h2⟩ := bind_ok h
    exact iha h2 hS.1 (ihb h1 hS.2 hp)
  | varDecl x => intro post e h hS hp; cases h; exact hp
  | label x => intro post e h hS hp; cases h; exact hp
  | varInit x v => intro post e h hS hp; cases h; exact ⟨hS.1, hS.2, hp⟩
  | assign x v => intro post e h hS hp; cases h; exact ⟨hS.1, hS.2, hp⟩
  | @sample b x t d =>
    intro post e h hS hp
    have hx : x ∈ K.decls := hS.1
    obtain ⟨ds, h1, h2⟩ := bind_ok h
    have hds := dist_clean d ds hS.2 h1
    unfold Dist.expectation at h2
    have hes : ∀ e ∈ ds.map (fun (prob, val) => Expr.bin (.mul rfl) prob (.subst ⟨x, t⟩ val post)), e.Clean K := by
      intro e he
      obtain ⟨p, hp', rfl⟩ := List.mem_map.1 he
      exact ⟨(hds p hp').1, hx, (hds p hp').2, hp⟩
    split at h2
    · nomatch h2
    · next e0 es heq =>
      cases h2
      rw [heq] at hes
      exact foldl_clean es e0 (hes e0 List.mem_cons_self) fun x hx => hes x (List.mem_cons_of_mem _ hx)
  | call => intro post e h hS hp; nomatch h
  | havoc d xs =>
    intro post e h hS hp
    have hq : ∀ q ∈ xs.map (⟨false, ·⟩ : Var → QVar), (q.fresh = true → K.fresh) ∧ q.var.id ∈ K.decls := by
      intro q hq
      obtain ⟨x, hx, rfl⟩ := List.mem_map.1 hq
      exact ⟨(nomatch ·), hS x hx⟩
    cases d <;> cases h <;> exact ⟨hq, hp⟩
  | assert d v => intro post e h hS hp; cases d <;> cases h <;> exact ⟨hS, hp⟩
  | assume d v => intro post e h hS hp; cases d <;> cases h <;> exact ⟨hS, hp⟩
  | compare d v => intro post e h hS hp; cases d <;> cases h <;> exact ⟨hS, hp⟩
  | negate d => intro post e h hS hp; cases d <;> cases h <;> exact hp
  | validate d =>
    intro post e h hS hp
    cases d <;> (unfold vcgen at h; split at h <;> cases h <;> exact hp)
  | tick v => intro post e h hS hp; cases h; exact ⟨hS, hp⟩
  | weigh v => intro post e h hS hp; cases h; exact ⟨hS, hp⟩
  | demonic a b iha ihb =>
    intro post e h hS hp
    obtain ⟨p1, h1, h⟩ := bind_ok h
    obtain ⟨p2, h2, h⟩ := bind_ok h
    cases h
    exact ⟨iha h1 hS.1 hp, ihb h2 hS.2 hp⟩
  | angelic a b iha ihb =>
    intro post e h hS hp
    obtain ⟨p1, h1, h⟩ := bind_ok h
    obtain ⟨p2, h2, h⟩ := bind_ok h
    cases h
    exact ⟨iha h1 hS.1 hp, ihb h2 hS.2 hp⟩
  | additive a b iha ihb =>
    intro post e h hS hp
    obtain ⟨p1, h1, h⟩ := bind_ok h
    obtain ⟨p2, h2, h⟩ := bind_ok h
    cases h
    exact ⟨iha h1 hS.1 hp, ihb h2 hS.2 hp⟩
  | ite c a b iha ihb =>
    intro post e h hS hp
    obtain ⟨p1, h1, h⟩ := bind_ok h
    obtain ⟨p2, h2, h⟩ := bind_ok h
    cases h
    exact ⟨hS.1, iha h1 hS.2.1 hp, ihb h2 hS.2.2 hp⟩
  | «while» => intro post e h hS hp; nomatch h
  | annot an s ih =>
    intro post e h hS hp
    cases an with
    | slicing _ => exact ih h hS hp
    | _ => nomatch h

/-- The statement verifies according to the documented semantics: the lower bound `∞` holds for the postexpectation `∞` (`proc`) resp. the upper bound
`0` holds for the postexpectation `0` (`coproc`), in all states. -/
def Verifies [Doms] [Interp] (C : SemCtx) (d : Dir) (S : Stmt) : Prop :=
  match d with
  | .down => ∀ σ, vcSem C S (fun _ => ⊤) σ = ⊤
  | .up => ∀ σ, vcSem C S (fun _ => 0) σ = 0

/-- The full claim for programs: if verification condition generation succeeds, the formula given to the solver is valid iff the
statement verifies. -/
def C10_program_full : Prop := ∀ (_ : Doms) (_ : Interp) (C : SemCtx) (o : Oracle) (span span' span'' : Nat) (opts : LowerOptions) (d : Dir) (S : Stmt) (s : UState)
  (e : Expr .eureal), o.Sound → coreVc d S = .ok e →
    S.All (fun e => ∀ v, e.Occurs v → v.id ∈ s.1.decls) (fun x => x.id ∈ s.1.decls) → S.NoValidate → S.GoodDists →
    ∃ N, ∀ n ≥ N, ∃ b s', lowerQuant o span span' span'' opts n d e s = some (b, s') ∧ ((∀ σ : Env, b.tv σ) ↔ Verifies C d S)

section
variable [Doms] [Interp]

theorem terminal_ev (d : Dir) : (terminal d).ev = match d with | .down => fun _ => ⊤ | .up => fun _ => 0 := by
  funext σ
  have ht : (Expr.topLit .eureal rfl).ev σ = ⊤ := Expr.eval_topLit rfl σ
  cases d with
  | down => exact ht
  | up =>
    show (Expr.un (.non rfl) (.topLit .eureal rfl)).ev σ = 0
    rw [Expr.ev_non, ht, if_pos rfl]

/-- The formula given to the solver is valid iff the statement verifies, for all options, for statements in which no user-written quantifiers
occur (if quantifier elimination is enabled) and no `<=`, `>=`, `==` on `Int`, `Real`, `Bool` (if the relational optimisation is enabled).
The conditions on `validate` and on `binom` are those of `C01`. -/
theorem C10_program_partial (C : SemCtx) {o : Oracle} (ho : o.Sound) (span span' span'' : Nat) (opts : LowerOptions) (d : Dir) (S : Stmt) (s : UState)
    (e : Expr .eureal) (he : coreVc d S = .ok e)
    (hd : S.All (fun e => ∀ v, e.Occurs v → v.id ∈ s.1.decls) (fun x => x.id ∈ s.1.decls))
    (hq : opts.noQelim = false → S.All (fun e => e.freshVars = []) (fun _ => True))
    (hr : opts.optRel = true → S.All (fun e => e.CmpTypes RelCmp) (fun _ => True))
    (hv : ValidateOk S (terminal d)) (hg : S.GoodDists) :
    ∃ N, ∀ n ≥ N, ∃ b s', lowerQuant o span span' span'' opts n d e s = some (b, s') ∧ ((∀ σ : Env, b.tv σ) ↔ Verifies C d S) := by
  have hS1 : S.All (fun e => e.Clean ⟨True, fun _ => True, s.1.decls, fun _ => True⟩) (fun x => x.id ∈ s.1.decls) :=
    hd.and (fun e h _ => (Expr.clean_iff _ (fun _ => trivial) e).2 ⟨fun _ => trivial, cmpTypes_true e, h⟩) hd
  have hterm : ∀ K, (terminal d).Clean K := by
    intro K
    cases d <;> exact topLit_clean rfl
  have c1 := (Expr.clean_iff _ (fun _ => trivial) e).1 (vcgen_clean he hS1 (hterm _))
  have c2 : opts.noQelim = false → e.freshVars = [] := by
    intro h
    have h2 := (Expr.clean_iff _ (fun _ => trivial) e).1 (vcgen_clean (K := ⟨False, fun _ => True, s.1.decls, fun _ => True⟩) he
      (hd.and (fun e h h' => (Expr.clean_iff _ (fun _ => trivial) e).2 ⟨fun hf => hf h', cmpTypes_true e, h⟩) (hq h)) (hterm _))
    by_contra hf
    exact h2.1 hf
  have c3 : opts.optRel = true → e.CmpTypes RelCmp := by
    intro h
    exact ((Expr.clean_iff _ (fun _ => trivial) e).1 (vcgen_clean (K := ⟨True, RelCmp, s.1.decls, fun _ => True⟩) he
      (hd.and (fun e h h' => (Expr.clean_iff _ (fun _ => trivial) e).2 ⟨fun _ => trivial, h', h⟩) (hr h)) (hterm _))).2.1
  obtain ⟨N, hN⟩ := C10_lowering_partial ho span span' span'' opts d e s c1.2.2 c2 c3
  refine ⟨N, fun n hn => ?_⟩
  obtain ⟨b, s', h1, h2⟩ := hN n hn
  refine ⟨b, s', h1, h2.trans ?_⟩
  have hsem := vcgen_sound C he hv hg
  rw [terminal_ev] at hsem
  cases d with
  | down => exact forall_congr' fun σ => iff_of_eq (congrArg (fun x : ℝ≥0∞ => x = ⊤) (congrFun hsem σ))
  | up => exact forall_congr' fun σ => iff_of_eq (congrArg (fun x : ℝ≥0∞ => x = 0) (congrFun hsem σ))

end

/-! ## The full claims are false -/

theorem lowerQuant_eq {o : Oracle} {span span' span'' : Nat} {opts : LowerOptions} {n : Nat} {d : Dir} {e e1 e2 : Expr .eureal} {s s1 s2 : UState}
    (h1 : unfoldStep o span opts e s = some (e1, s1)) (h2 : qelimStep span' span'' opts d e1 s1 = some (e2, s2)) :
    lowerQuant o span span' span'' opts n d e s = (optBool opts n (intoBoolVc d e2)).map (·, s2) := by
  show (unfoldStep o span opts e s).bind _ = _
  rw [h1]
  show (qelimStep span' span'' opts d e1 s1).bind _ = _
  rw [h2]
  rfl

theorem C10_not_full : ¬ C10_full := by
  intro h
  let _ := unitDoms
  let _ := unitInterp
  obtain ⟨N, hN⟩ := h unitDoms unitInterp (fun _ _ => false) 1 1 1 {} .down c06W (⟨[⟨"x", 0⟩], fun _ => none⟩, 0) sound_unknown
    (by
      rintro v ((rfl | hv) | (rfl | hv))
      · exact List.mem_singleton.2 rfl
      · rw [List.mem_singleton.1 hv]; exact List.mem_singleton.2 rfl
      · exact List.mem_singleton.2 rfl
      · rw [List.mem_singleton.1 hv]; exact List.mem_singleton.2 rfl)
  obtain ⟨M, hM⟩ := optBool_spec (K := ⟨True, fun _ => True, [], fun _ => True⟩) {} (intoBoolVc .down c06W') (fun h => nomatch h) (fun h => nomatch h)
  obtain ⟨b, s', h1, h2⟩ := hN (max N M) (le_max_left _ _)
  obtain ⟨b', h3, h4⟩ := hM (max N M) (le_max_right _ _)
  have h5 : (optBool {} (max N M) (intoBoolVc .down c06W')).map (·, ((⟨[⟨"x", 0⟩], fun _ => none⟩, 0) : UState)) = some (b, s') := h1
  rw [h3] at h5
  obtain ⟨rfl, -⟩ := Prod.mk.inj (Option.some.inj h5)
  exact c06_old (h2.1 ((forall_congr' h4).2 ((vcHolds_iff .down c06W').2 c06_new)))

/-- `b = ber(1, 1); assert inf x: Bool. ?(b == x)`. -/
def c10S : Stmt := .seq (.sample false ⟨"b", 0⟩ (.ber 1 1))
  (.assert .down (.quant .inf rfl [⟨true, ⟨⟨"x", 0⟩, .bool⟩⟩] (.embed (.rel .eq (.var (t := .bool) ⟨"b", 0⟩) (.var ⟨"x", 0⟩)))))

def c10s : UState := (⟨[⟨"b", 0⟩, ⟨"x", 0⟩], fun _ => none⟩, 0)

theorem c10_unfold (q : ℚ≥0) (hq : Lit.isBot (.efrac q) = false) (a b : Expr .eureal) (a' b' : Expr .eureal)
    (ha : a.unfold (fun _ _ => false) 1 {} .empty c10s = some (a', c10s)) (hb : b.unfold (fun _ _ => false) 1 {} .empty c10s = some (b', c10s)) :
    unfoldStep (fun _ _ => false) 1 {} (.bin (.add rfl) (.bin (.mul rfl) (.lit (.efrac q)) a) (.bin (.mul rfl) (.lit (.efrac q)) b)) c10s =
      some (.bin (.add rfl) (.bin (.mul rfl) (.lit (.efrac q)) a') (.bin (.mul rfl) (.lit (.efrac q)) b'), c10s) := by
  have hm : ∀ (a a' : Expr .eureal), a.unfold (fun _ _ => false) 1 {} .empty c10s = some (a', c10s) →
      (Expr.bin (.mul rfl) (.lit (.efrac q)) a).unfold (fun _ _ => false) 1 {} .empty c10s = some (Expr.bin (.mul rfl) (.lit (.efrac q)) a', c10s) := by
    intro a a' ha
    have h1 : withNonbot (fun _ _ => false) {} (fun p => a.unfold (fun _ _ => false) 1 p .empty) (.lit (.efrac q)) c10s = some (some a', c10s) := by
      show (if Lit.isBot (.efrac q) = true then pure none else
        (a.unfold (fun _ _ => false) 1 {} .empty >>= fun r => pure (some r) : PM UState (Option (Expr .eureal)))) c10s = _
      rw [hq, if_neg Bool.false_ne_true]
      show (a.unfold (fun _ _ => false) 1 {} .empty c10s).bind _ = _
      rw [ha]
      rfl
    show (withNonbot (fun _ _ => false) {} (fun p => a.unfold (fun _ _ => false) 1 p .empty) (.lit (.efrac q)) c10s).bind _ = _
    rw [h1]
    rfl
  show ((Expr.bin (.mul rfl) (.lit (.efrac q)) a).unfold (fun _ _ => false) 1 {} .empty c10s).bind _ = _
  rw [hm a a' ha]
  show ((Expr.bin (.mul rfl) (.lit (.efrac q)) b).unfold (fun _ _ => false) 1 {} .empty c10s).bind _ = _
  rw [hm b b' hb]
  rfl

/-- The probability. -/
def c10q : ℚ≥0 := ((1 : ℕ) : ℚ≥0) / ((2 : ℕ) : ℚ≥0)

/-- `(inf x: Bool. ?(b == x)) ⊓ ∞`. -/
def c10P : Expr .eureal := .bin (.inf rfl)
  (.quant .inf rfl [⟨true, ⟨⟨"x", 0⟩, .bool⟩⟩] (.embed (.rel .eq (.var (t := .bool) ⟨"b", 0⟩) (.var ⟨"x", 0⟩)))) (.topLit .eureal rfl)

/-- The verification condition. -/
def c10E : Expr .eureal := .bin (.add rfl)
  (.bin (.mul rfl) (.lit (.efrac c10q)) (.subst ⟨⟨"b", 0⟩, .bool⟩ (.boolLit true) c10P))
  (.bin (.mul rfl) (.lit (.efrac c10q)) (.subst ⟨⟨"b", 0⟩, .bool⟩ (.boolLit false) c10P))

/-- `?(v == x) ⊓ ∞`. -/
def c10R (v : Bool) : Expr .eureal := .bin (.inf rfl) (.embed (.rel .eq (.boolLit v) (.var ⟨"x", 0⟩))) (.topLit .eureal rfl)

theorem c10_vc : coreVc .down c10S = .ok c10E := rfl

/-- The verification condition after unfolding, and after quantifier elimination: now both copies of `x` are the same variable. -/
def c10U : Expr .eureal := .bin (.add rfl)
  (.bin (.mul rfl) (.lit (.efrac c10q)) (.bin (.inf rfl) (.quant .inf rfl [⟨true, ⟨⟨"x", 0⟩, .bool⟩⟩] (.embed (.rel .eq (.boolLit true) (.var ⟨"x", 0⟩)))) (.topLit .eureal rfl)))
  (.bin (.mul rfl) (.lit (.efrac c10q)) (.bin (.inf rfl) (.quant .inf rfl [⟨true, ⟨⟨"x", 0⟩, .bool⟩⟩] (.embed (.rel .eq (.boolLit false) (.var ⟨"x", 0⟩)))) (.topLit .eureal rfl)))

def c10Q : Expr .eureal := .bin (.add rfl) (.bin (.mul rfl) (.lit (.efrac c10q)) (c10R true)) (.bin (.mul rfl) (.lit (.efrac c10q)) (c10R false))

theorem c10_qelim : qelimStep 1 1 {} .down c10U c10s = some (c10Q, c10s) := rfl

theorem c10q_pos : c10q ≠ 0 := by
  unfold c10q
  norm_num

theorem c10_lower (n : Nat) : lowerQuant (fun _ _ => false) 1 1 1 {} n .down c10E c10s =
    (optBool {} n (intoBoolVc .down c10Q)).map (·, c10s) := by
  have hu : unfoldStep (fun _ _ => false) 1 {} c10E c10s = some (c10U, c10s) :=
    c10_unfold c10q (by simp [Lit.isBot, c10q_pos]) _ _ _ _ rfl rfl
  exact lowerQuant_eq hu c10_qelim

/-- The program verifies with default options although its expected value is `0`: the two copies of the quantifier share the variable. -/
theorem C10_program_not_full : ¬ C10_program_full := by
  intro h
  let _ := unitDoms
  let _ := unitInterp
  let C : SemCtx := ⟨.lfp, fun _ _ _ φ => φ⟩
  obtain ⟨N, hN⟩ := h unitDoms unitInterp C (fun _ _ => false) 1 1 1 {} .down c10S c10s c10E sound_unknown c10_vc
    (by
      refine ⟨⟨List.mem_cons_self, trivial⟩, ?_⟩
      rintro v ((rfl | rfl) | hv)
      · exact List.mem_cons_self
      · exact List.mem_cons_of_mem _ List.mem_cons_self
      · rw [List.mem_singleton.1 hv]
        exact List.mem_cons_of_mem _ List.mem_cons_self) ⟨trivial, trivial⟩ ⟨trivial, trivial⟩
  obtain ⟨M, hM⟩ := optBool_spec (K := ⟨True, fun _ => True, [], fun _ => True⟩) {} (intoBoolVc .down c10Q) (fun h => nomatch h) (fun h => nomatch h)
  obtain ⟨b, s', h1, h2⟩ := hN (max N M) (le_max_left _ _)
  obtain ⟨b', h3, h4⟩ := hM (max N M) (le_max_right _ _)
  rw [c10_lower, h3] at h1
  obtain ⟨rfl, -⟩ := Prod.mk.inj (Option.some.inj h1)
  have hq : ((c10q : ℝ≥0) : ℝ≥0∞) ≠ 0 := by simpa using c10q_pos
  have hR : ∀ v (σ : Env), (Expr.rel .eq (.boolLit v) (.var ⟨"x", 0⟩)).tv σ → (c10R v).ev σ = ⊤ := by
    intro v σ h
    unfold c10R
    rw [Expr.ev_inf, Expr.ev_embed, if_pos h]
    have ht : (Expr.topLit .eureal rfl).ev σ = ⊤ := Expr.eval_topLit rfl σ
    rw [ht, min_self]
  have hv : ∀ σ : Env, b'.tv σ := by
    refine (forall_congr' h4).2 ((vcHolds_iff .down _).2 fun σ => ?_)
    show c10Q.ev σ = ⊤
    unfold c10Q
    rw [Expr.ev_add, Expr.ev_mul, Expr.ev_mul, Expr.ev_efrac]
    rcases Classical.em ((Expr.var (t := .bool) ⟨"x", 0⟩).tv σ) with hx | hx
    · have : (Expr.rel .eq (.boolLit true) (.var ⟨"x", 0⟩)).tv σ := propext ⟨fun _ => hx, fun _ => rfl⟩
      rw [hR _ _ this, ENNReal.mul_top hq, top_add]
    · have : (Expr.rel .eq (.boolLit false) (.var ⟨"x", 0⟩)).tv σ := propext ⟨fun h => Bool.noConfusion (h : false = true), fun h => absurd h hx⟩
      rw [hR _ _ this, ENNReal.mul_top hq, add_top]
  have h5 : ∀ σ, vcSem C c10S (fun _ => ⊤) σ = ⊤ := h2.1 hv
  have h6 := vcgen_sound C c10_vc ⟨trivial, fun _ _ => trivial⟩ ⟨trivial, trivial⟩
  rw [terminal_ev] at h6
  have h7 : c10E.ev zeroEnv = ⊤ := (congrFun h6 zeroEnv).trans (h5 zeroEnv)
  have hP : ∀ v, c10P.ev (zeroEnv.upd ⟨⟨"b", 0⟩, .bool⟩ ((Expr.boolLit v).eval zeroEnv)) = 0 := by
    intro v
    have key : ∀ τ : Env, c10P.ev τ = 0 := by
      intro τ
      unfold c10P
      rw [Expr.ev_inf]
      refine nonpos_iff_eq_zero.1 (le_trans (min_le_left _ _) (le_trans (iInf_le (α := ℝ≥0∞) _ (¬ τ ⟨⟨"b", 0⟩, .bool⟩ : Prop)) ?_))
      have hx : (τ.upd ⟨⟨"x", 0⟩, .bool⟩ (¬ τ ⟨⟨"b", 0⟩, .bool⟩ : Prop)) ⟨⟨"x", 0⟩, .bool⟩ = (¬ τ ⟨⟨"b", 0⟩, .bool⟩ : Prop) := Env.upd_same _ _ _
      have hb : (τ.upd ⟨⟨"x", 0⟩, .bool⟩ (¬ τ ⟨⟨"b", 0⟩, .bool⟩ : Prop)) ⟨⟨"b", 0⟩, .bool⟩ = τ ⟨⟨"b", 0⟩, .bool⟩ :=
        Env.upd_ne τ (show (⟨⟨"b", 0⟩, .bool⟩ : Var) ≠ ⟨⟨"x", 0⟩, .bool⟩ by decide) _
      refine le_of_eq (if_neg fun heq => ?_)
      have h8 : τ ⟨⟨"b", 0⟩, .bool⟩ = (¬ τ ⟨⟨"b", 0⟩, .bool⟩ : Prop) := hb.symm.trans (Eq.trans heq hx)
      exact (not_iff_self (a := τ ⟨⟨"b", 0⟩, .bool⟩)) (iff_of_eq h8.symm)
    exact key _
  unfold c10E at h7
  rw [Expr.ev_add, Expr.ev_mul, Expr.ev_mul, Expr.ev_subst, Expr.ev_subst, hP, hP, mul_zero, add_zero] at h7
  exact ENNReal.top_ne_zero h7.symm

/-- With `--opt-rel`, `assert ?(0 <= x)` verifies for `x: Int`: the formula given to the solver is `true`. -/
theorem C10_optRel_unsound : let _ := unitDoms; let _ := unitInterp
    ∃ (S : Stmt) (e : Expr .eureal) (s : UState), coreVc .down S = .ok e ∧
      (∃ N, ∀ n ≥ N, lowerQuant (fun _ _ => false) 1 1 1 { optRel := true } n .down e s = some (.bin .and (.boolLit true) (.boolLit true), s)) ∧
      ¬ Verifies ⟨.lfp, fun _ _ _ φ => φ⟩ .down S := by
  intro _ _
  let g : Expr .bool := .rel (.le (t := .int) rfl) (.cast .uintInt (.uintLit 0)) (.var ⟨"x", 0⟩)
  refine ⟨.assert .down (.embed g), .bin (.inf rfl) (.embed g) (.topLit .eureal rfl), (⟨[⟨"x", 0⟩], fun _ => none⟩, 0), rfl, ⟨6, ?_⟩, fun h => ?_⟩
  · intro n hn
    obtain ⟨m, rfl⟩ : ∃ m, n = m + 6 := ⟨n - 6, by omega⟩
    rw [lowerQuant_eq (e1 := .bin (.inf rfl) (.embed g) (.topLit .eureal rfl)) (e2 := .bin (.inf rfl) (.embed g) (.topLit .eureal rfl)) rfl rfl]
    have h1 : optBool { optRel := true } (m + 6) (intoBoolVc .down (.bin (.inf rfl) (.embed g) (.topLit .eureal rfl))) =
        some (.bin .and (.boolLit true) (.boolLit true)) := by
      simp [g, optBool, boolifyStep, parensStep, relationalStep, intoBoolVc, Expr.removeParens, Expr.removeParensAux, boolify, boolifyEqTop, Expr.topLit, Expr.isTopLit,
        Expr.isBotLit, Lit.isTop, Lit.isBot, Expr.asEmbed, Ty.isLat, Expr.relational, relationalLeq, relationalLower, Expr.uintLit, Ty.isOrd, Ty.isNum, Expr.inftyLit]
    rw [h1]
    rfl
  · let x : Var := ⟨⟨"x", 0⟩, .int⟩
    have h1 : min ((Expr.embed g).ev (zeroEnv.upd x (-1 : ℤ))) ⊤ = ⊤ := h (zeroEnv.upd x (-1 : ℤ))
    rw [min_top_right, Expr.ev_embed] at h1
    have hg : ¬ g.tv (zeroEnv.upd x (-1 : ℤ)) := by
      intro h2
      have h2 : Ty.le .int ((0 : ℕ) : ℤ) (zeroEnv.upd x (-1 : ℤ) x) := h2
      have h3 : ((0 : ℕ) : ℤ) ≤ (-1 : ℤ) := (Env.upd_same zeroEnv x (-1 : ℤ)) ▸ h2
      exact absurd h3 (by decide)
    rw [if_neg hg] at h1
    exact ENNReal.top_ne_zero h1.symm

/-- With `--opt-rel --no-boolify`, `assert ?(true == !b)` makes the verifier panic. -/
theorem C10_optRel_panics : ∃ (S : Stmt) (e : Expr .eureal) (s : UState), coreVc .down S = .ok e ∧
    ∀ n, lowerQuant (fun _ _ => false) 1 1 1 { optRel := true, noBoolify := true } n .down e s = none := by
  let g : Expr .bool := .rel (s := .bool) .eq (.lit (.bool true)) (.un (.not rfl) (.var ⟨"b", 0⟩))
  refine ⟨.assert .down (.embed g), .bin (.inf rfl) (.embed g) (.topLit .eureal rfl), (⟨[⟨"b", 0⟩], fun _ => none⟩, 0), rfl, fun n => ?_⟩
  rw [lowerQuant_eq (e1 := .bin (.inf rfl) (.embed g) (.topLit .eureal rfl)) (e2 := .bin (.inf rfl) (.embed g) (.topLit .eureal rfl)) rfl rfl]
  have h : g.relational = none := C08_panics_on_booleans
  have hp : g.removeParensAux true = g := rfl
  have h1 : optBool { optRel := true, noBoolify := true } n (intoBoolVc .down (.bin (.inf rfl) (.embed g) (.topLit .eureal rfl))) = none := by
    simp [optBool, boolifyStep, parensStep, relationalStep, intoBoolVc, Expr.removeParens, Expr.removeParensAux, hp, Expr.topLit, Expr.relational, h]
  rw [h1]
  rfl

/-! ## Non-vacuity -/

/-- `havoc x; assert ?(x <= y); assume y; tick y` over `EUReal`: all hypotheses of `C10_program_partial` are satisfied, for all options. -/
def c10T : Stmt := .seq (.havoc .down [⟨⟨"x", 0⟩, .eureal⟩]) (.seq (.assert .down (.embed (.rel (.le (t := .eureal) rfl) (.var ⟨"x", 0⟩) (.var ⟨"y", 0⟩))))
  (.seq (.assume .down (.var ⟨"y", 0⟩)) (.tick (.var ⟨"y", 0⟩))))

def c10t : UState := (⟨[⟨"x", 0⟩, ⟨"y", 0⟩], fun _ => none⟩, 0)

example : c10T.All (fun e => ∀ v, e.Occurs v → v.id ∈ c10t.1.decls) (fun x => x.id ∈ c10t.1.decls) ∧ c10T.All (fun e => e.freshVars = []) (fun _ => True) ∧
    c10T.All (fun e => e.CmpTypes RelCmp) (fun _ => True) ∧ c10T.NoValidate ∧ c10T.GoodDists ∧ ∀ d, ∃ e, coreVc d c10T = .ok e := by
  refine ⟨⟨?_, ?_, ?_, ?_⟩, ⟨fun _ _ => trivial, rfl, rfl, rfl⟩, ⟨fun _ _ => trivial, ⟨fun _ => by simp [RelCmp], trivial, trivial⟩, trivial, trivial⟩,
    ⟨trivial, trivial, trivial, trivial⟩, ⟨trivial, trivial, trivial, trivial⟩, fun d => ⟨_, rfl⟩⟩
  · intro x hx
    rw [List.mem_singleton.1 hx]
    exact List.mem_cons_self
  · rintro v (rfl | rfl)
    · exact List.mem_cons_self
    · exact List.mem_cons_of_mem _ List.mem_cons_self
  · rintro v rfl
    exact List.mem_cons_of_mem _ List.mem_cons_self
  · rintro v rfl
    exact List.mem_cons_of_mem _ List.mem_cons_self

end Caesar
