import Verif.Opt.Unfolder
import Verif.Lattice
import Verif.Ev

/-!
# Correctness of the unfolder
-/

open scoped ENNReal NNReal

namespace Caesar
set_option linter.unusedSectionVars false

section
variable [Doms] [Interp]

/-- Values of the SMT constants: `ρ v n` is the value of constant number `n` of variable `v`. -/
abbrev Valuation := (v : Var) → Nat → v.ty.den

/-- The assumption holds for the given values of the SMT constants. -/
def Assumption.Holds (a : Assumption) (ρ : Valuation) : Prop := a.cond.tv fun v => ρ v (a.names v)

/-- The solver is sound: if it answers `Unsat`, then no values of the SMT constants satisfy all assumptions. Nothing is said about the other
answers. -/
def Oracle.Sound (o : Oracle) : Prop := ∀ n q, o n q = true → ¬ ∃ ρ : Valuation, ∀ a ∈ q, a.Holds ρ

/-- The state satisfies the path condition. -/
def Path.Reach (p : Path) (σ : Env) : Prop := ∃ ρ : Valuation, (∀ a ∈ p.conds, a.Holds ρ) ∧ ∀ v, σ v = ρ v (p.names v)

/-- All numbers are at most the current depth. -/
structure Path.Ok (p : Path) : Prop where
  names : ∀ v, p.names v ≤ p.depth
  conds : ∀ a ∈ p.conds, ∀ v, a.names v ≤ p.depth

theorem Path.ok_empty : Path.Ok {} := ⟨fun _ => Nat.le_refl _, fun _ h => nomatch h⟩

theorem Path.reach_empty (σ : Env) : Path.Reach {} σ := ⟨fun v _ => σ v, fun _ h => (nomatch h), fun _ => rfl⟩

theorem Path.Ok.add {p : Path} (h : p.Ok) (c : Expr .bool) : (p.add c).Ok := by
  refine ⟨h.names, fun a ha => ?_⟩
  rcases List.mem_cons.mp ha with rfl | ha
  · exact h.names
  · exact h.conds a ha

theorem Path.Ok.enter {p : Path} (h : p.Ok) (vs : List Var) : (p.enter vs).Ok := by
  refine ⟨fun v => ?_, fun a ha v => le_trans (h.conds a ha v) (Nat.le_succ _)⟩
  show (if v ∈ vs then p.depth + 1 else p.names v) ≤ p.depth + 1
  split
  · exact Nat.le_refl _
  · exact le_trans (h.names v) (Nat.le_succ _)

theorem Path.Reach.add {p : Path} {σ : Env} (h : p.Reach σ) {c : Expr .bool} (hc : c.tv σ) : (p.add c).Reach σ := by
  obtain ⟨ρ, h1, h2⟩ := h
  refine ⟨ρ, fun a ha => ?_, h2⟩
  rcases List.mem_cons.mp ha with rfl | ha
  · show c.tv fun v => ρ v (p.names v)
    rwa [← funext h2]
  · exact h1 a ha

open Classical in
/-- Other values of the constants of one number. -/
noncomputable def Valuation.set (ρ : Valuation) (n : Nat) (σ : Env) : Valuation := fun v m => if m = n then σ v else ρ v m

theorem Valuation.set_holds {ρ : Valuation} {n : Nat} {σ : Env} {a : Assumption} (hn : ∀ v, a.names v < n) :
    a.Holds (ρ.set n σ) ↔ a.Holds ρ := by
  have : (fun v => ρ.set n σ v (a.names v)) = fun v => ρ v (a.names v) :=
    funext fun v => if_neg (Nat.ne_of_lt (hn v))
  unfold Assumption.Holds
  rw [this]

/-- Entering a quantifier forgets nothing about the other variables, and nothing is known about the quantified ones. -/
theorem Path.Reach.enter {p : Path} (hp : p.Ok) {σ : Env} (h : p.Reach σ) (vs : List Var) : (p.enter vs).Reach σ := by
  obtain ⟨ρ, h1, h2⟩ := h
  refine ⟨ρ.set (p.depth + 1) σ, fun a ha => (Valuation.set_holds fun v => Nat.lt_succ_of_le (hp.conds a ha v)).mpr (h1 a ha), fun v => ?_⟩
  show σ v = if (if v ∈ vs then p.depth + 1 else p.names v) = p.depth + 1 then σ v else ρ v (if v ∈ vs then p.depth + 1 else p.names v)
  by_cases hv : v ∈ vs
  · rw [if_pos (if_pos hv)]
  · rw [if_neg hv, if_neg (Nat.ne_of_lt (Nat.lt_succ_of_le (hp.names v)))]
    exact h2 v

theorem Path.Reach.upd {p : Path} (hp : p.Ok) {σ : Env} {vs : List Var} (h : (p.enter vs).Reach σ) {v : Var} (hv : v ∈ vs) (a : v.ty.den) :
    (p.enter vs).Reach (σ.upd v a) := by
  obtain ⟨ρ, h1, h2⟩ := h
  refine ⟨ρ.set (p.depth + 1) (σ.upd v a),
    fun a ha => (Valuation.set_holds fun v => Nat.lt_succ_of_le (hp.conds a ha v)).mpr (h1 a ha), fun w => ?_⟩
  have h3 := h2 w
  change σ w = ρ w (if w ∈ vs then p.depth + 1 else p.names w) at h3
  show σ.upd v a w = if (if w ∈ vs then p.depth + 1 else p.names w) = p.depth + 1 then σ.upd v a w else ρ w (if w ∈ vs then p.depth + 1 else p.names w)
  by_cases hw : w ∈ vs
  · rw [if_pos (if_pos hw)]
  · rw [if_neg hw] at h3
    rw [if_neg hw, if_neg (Nat.ne_of_lt (Nat.lt_succ_of_le (hp.names w))), Env.upd_ne _ (fun h => hw (by rw [h]; exact hv))]
    exact h3

/-- What holds of the result `e'` of visiting `e`. -/
def GoodUnfold (p : Path) (fr : SubstFrame) {t : Ty} (e e' : Expr t) (c' : TyCtx) : Prop :=
  e'.NoSubst ∧ (∀ v, e'.Free v → v.id ∈ c'.decls) ∧
    ∀ σ τ : Env, p.Reach σ → (∀ v, e.Free v → τ v = fr.apply σ v) → e'.eval σ = e.eval τ

theorem GoodUnfold.grow {p : Path} {fr : SubstFrame} {t : Ty} {e e' : Expr t} {c c' : TyCtx} (h : GoodUnfold p fr e e' c)
    (hc : Grows c c') : GoodUnfold p fr e e' c' := ⟨h.1, fun v hv => hc (h.2.1 v hv), h.2.2⟩

theorem Tot.lift {α : Type} {m : PM TyCtx α} {s : UState} {Q : α → TyCtx → Prop} (h : Tot m s.1 Q) :
    Tot (liftTcx m) s fun a s' => Q a s'.1 := by
  obtain ⟨a, c, h1, h2⟩ := h
  exact ⟨a, (c, s.2), by simp [liftTcx, h1], h2⟩

/-- `with_sat`: either the callback runs under the stronger path condition, or the condition is false in all states of the path. -/
theorem withSat_spec {o : Oracle} (ho : o.Sound) {p : Path} {c : Expr .bool} {α : Type} {k : Path → PM UState α} {s : UState}
    {Q : α → UState → Prop} (hk : ∀ n, Tot (k (p.add c)) (s.1, n) Q) :
    Tot (withSat o p c k) s fun r s' => (∃ a, r = some a ∧ Q a s') ∨ (r = none ∧ s'.1 = s.1 ∧ ∀ σ, p.Reach σ → ¬ c.tv σ) := by
  unfold withSat
  refine Tot.bind (Q := fun b s' => b = o s.2 (p.add c).conds ∧ s' = (s.1, s.2 + 1)) ⟨_, _, rfl, rfl, rfl⟩ ?_
  rintro b _ ⟨rfl, rfl⟩
  split
  · next h =>
    exact Tot.pure (.inr ⟨rfl, rfl, fun σ hσ hc => ho _ _ h ((hσ.add hc).imp fun _ h => h.1)⟩)
  · exact Tot.bind (hk _) fun a s' h => Tot.pure (.inl ⟨a, rfl, h⟩)

/-- What a callback may assume: the path is a correct description of the states in which `R` holds. -/
theorem withNonbot_spec {o : Oracle} (ho : o.Sound) {p : Path} (hp : p.Ok) {α : Type} {k : Path → PM UState α} {s : UState}
    {Q : (Env → Prop) → α → UState → Prop} {t : Ty} (a : Expr t)
    (hk : ∀ p' n, p'.Ok → Tot (k p') (s.1, n) (Q p'.Reach)) (op : BinOp t) (l : Expr t) (hop : op.pruning = .nonbot l) :
    Tot (withNonbot o p k a) s fun r s' =>
      (∃ b R, r = some b ∧ Q R b s' ∧ ∀ σ, p.Reach σ → ¬ R σ → ∀ x y, op.den (a.eval σ) x = op.den (a.eval σ) y) ∨
      (r = none ∧ s'.1 = s.1 ∧ ∀ σ, p.Reach σ → ∀ x, op.den (a.eval σ) x = l.eval σ) := by
  have bot_emb : ∀ (op : BinOp .eureal) (l : Expr .eureal), op.pruning = .nonbot l → ∀ (x : ℝ≥0∞) σ, op.den (0 : ℝ≥0∞) x = l.eval σ := by
    intro op l hop x σ
    cases op with
    | mul h =>
      cases hop
      show (0 : ℝ≥0∞) * x = ((0 : ℕ) : ℝ≥0∞)
      rw [zero_mul, Nat.cast_zero]
    | impl h =>
      cases hop
      exact if_pos (zero_le (a := x))
    | compare h =>
      cases hop
      exact if_pos (zero_le (a := x))
    | _ => nomatch hop
  have sat : ∀ (c : Expr .bool) (op : BinOp .eureal) (l a : Expr .eureal), op.pruning = .nonbot l → (∀ σ, ¬ c.tv σ → a.ev σ = 0) →
      Tot (withSat o p c k) s fun r s' =>
        (∃ b R, r = some b ∧ Q R b s' ∧ ∀ σ, p.Reach σ → ¬ R σ → ∀ x y, op.den (a.eval σ) x = op.den (a.eval σ) y) ∨
        (r = none ∧ s'.1 = s.1 ∧ ∀ σ, p.Reach σ → ∀ x, op.den (a.eval σ) x = l.eval σ) := by
    intro c op l a hop ha
    refine Tot.mono (withSat_spec ho (fun n => hk (p.add c) n (hp.add c))) fun r s' h => ?_
    rcases h with ⟨b, rfl, hb⟩ | ⟨rfl, h1, h2⟩
    · refine .inl ⟨b, _, rfl, hb, fun σ hσ hn x y => ?_⟩
      have h0 : a.eval σ = (0 : ℝ≥0∞) := ha σ fun hc => hn (hσ.add hc)
      rw [h0]
      exact (bot_emb op l hop x σ).trans (bot_emb op l hop y σ).symm
    · refine .inr ⟨rfl, h1, fun σ hσ x => ?_⟩
      have h0 : a.eval σ = (0 : ℝ≥0∞) := ha σ (h2 σ hσ)
      rw [h0]
      exact bot_emb op l hop x σ
  have other : ∀ {t : Ty} (a : Expr t) (op : BinOp t) (l : Expr t), op.pruning = .nonbot l →
      Tot (do if a.isBotLit then return none else return some (← k p) : PM UState (Option α)) s fun r s' =>
        (∃ b R, r = some b ∧ Q R b s' ∧ ∀ σ, p.Reach σ → ¬ R σ → ∀ x y, op.den (a.eval σ) x = op.den (a.eval σ) y) ∨
        (r = none ∧ s'.1 = s.1 ∧ ∀ σ, p.Reach σ → ∀ x, op.den (a.eval σ) x = l.eval σ) := by
    intro t a op l hop
    split
    · next h =>
      refine Tot.pure (.inr ⟨rfl, rfl, fun σ _ x => ?_⟩)
      cases op with
      | mul hm =>
        cases t with
        | eureal =>
          rw [Expr.eval_isBotLit rfl a h]
          exact bot_emb _ l hop x σ
        | ureal =>
          cases hop
          have h0 : a.eval σ = (0 : ℝ≥0) := by
            cases a with
            | lit l =>
              cases l with
              | ufrac q =>
                have : q = 0 := by simpa [Expr.isBotLit, Lit.isBot] using h
                subst this
                exact (NNRat.cast_zero : ((0 : ℚ≥0) : ℝ≥0) = 0)
            | cast c b =>
              cases b with
              | lit l =>
                cases c with
                | uintUReal =>
                  cases l with
                  | uint n =>
                    have : n = 0 := by simpa [Expr.isBotLit, Lit.isBot] using h
                    subst this
                    exact (Nat.cast_zero : ((0 : ℕ) : ℝ≥0) = 0)
              | _ => nomatch h
            | _ => nomatch h
          rw [h0]
          exact (zero_mul (M₀ := ℝ≥0) x).trans (Nat.cast_zero : ((0 : ℕ) : ℝ≥0) = 0).symm
        | _ => nomatch hm
      | impl hl =>
        cases hop
        rw [Expr.eval_isBotLit hl a h, Expr.eval_topLit]
        exact if_pos (Ty.bot_le hl x)
      | compare hl =>
        cases hop
        rw [Expr.eval_isBotLit hl a h, Expr.eval_topLit]
        exact if_pos (Ty.bot_le hl x)
      | _ => nomatch hop
    · refine Tot.bind (hk p s.2 hp) fun b s' hb => Tot.pure (.inl ⟨b, _, rfl, hb, fun σ h h' => absurd h h'⟩)
  cases a with
  | embed c =>
    exact sat c op l _ hop fun σ hc => if_neg hc
  | iverson c =>
    exact sat c op l _ hop fun σ hc => if_neg hc
  | var x => exact other (.var x) op l hop
  | lit l' => exact other (.lit l') op l hop
  | call f args => exact other (.call f args) op l hop
  | ite c x y => exact other (.ite c x y) op l hop
  | bin o x y => exact other (.bin o x y) op l hop
  | rel o x y => exact other (.rel o x y) op l hop
  | un o x => exact other (.un o x) op l hop
  | cast o x => exact other (.cast o x) op l hop
  | quant o h vs x => exact other (.quant o h vs x) op l hop
  | subst v x y => exact other (.subst v x y) op l hop

theorem withNontop_spec {o : Oracle} (ho : o.Sound) {p : Path} (hp : p.Ok) {α : Type} {k : Path → PM UState α} {s : UState}
    {Q : (Env → Prop) → α → UState → Prop} {t : Ty} (a : Expr t)
    (hk : ∀ p' n, p'.Ok → Tot (k p') (s.1, n) (Q p'.Reach)) (op : BinOp t) (l : Expr t) (hop : op.pruning = .nontop l) :
    Tot (withNontop o p k a) s fun r s' =>
      (∃ b R, r = some b ∧ Q R b s' ∧ ∀ σ, p.Reach σ → ¬ R σ → ∀ x y, op.den (a.eval σ) x = op.den (a.eval σ) y) ∨
      (r = none ∧ s'.1 = s.1 ∧ ∀ σ, p.Reach σ → ∀ x, op.den (a.eval σ) x = l.eval σ) := by
  have hlat : ∀ {t : Ty} (op : BinOp t) (l : Expr t), op.pruning = .nontop l → ∃ hl : t.isLat = true, ∀ x σ, op.den t.top x = l.eval σ := by
    intro t op l hop
    cases op with
    | mul hm => cases t <;> nomatch hop
    | coimpl hl =>
      cases hop
      exact ⟨hl, fun x σ => (if_pos (Ty.le_top hl x)).trans (Expr.eval_botLit hl σ).symm⟩
    | cocompare hl =>
      cases hop
      exact ⟨hl, fun x σ => (if_pos (Ty.le_top hl x)).trans (Expr.eval_botLit hl σ).symm⟩
    | _ => nomatch hop
  have other : ∀ {t : Ty} (a : Expr t) (op : BinOp t) (l : Expr t), op.pruning = .nontop l →
      Tot (do if a.isTopLit then return none else return some (← k p) : PM UState (Option α)) s fun r s' =>
        (∃ b R, r = some b ∧ Q R b s' ∧ ∀ σ, p.Reach σ → ¬ R σ → ∀ x y, op.den (a.eval σ) x = op.den (a.eval σ) y) ∨
        (r = none ∧ s'.1 = s.1 ∧ ∀ σ, p.Reach σ → ∀ x, op.den (a.eval σ) x = l.eval σ) := by
    intro t a op l hop
    split
    · next h =>
      refine Tot.pure (.inr ⟨rfl, rfl, fun σ _ x => ?_⟩)
      obtain ⟨hl, h2⟩ := hlat op l hop
      rw [Expr.eval_isTopLit hl a h]
      exact h2 x σ
    · refine Tot.bind (hk p s.2 hp) fun b s' hb => Tot.pure (.inl ⟨b, _, rfl, hb, fun σ h h' => absurd h h'⟩)
  cases a with
  | embed c =>
    have h0 : ∀ σ, ¬ (negateExpr c).tv σ → (Expr.embed c).eval σ = Ty.top .eureal := by
      intro σ hc
      refine if_pos (Classical.byContradiction fun hn => hc ?_)
      have h : (negateExpr c).tv σ = True := if_pos (eq_false hn)
      exact of_eq_true h
    obtain ⟨hl, h2⟩ := hlat op l hop
    refine Tot.mono (withSat_spec ho (fun n => hk (p.add (negateExpr c)) n (hp.add _))) fun r s' h => ?_
    rcases h with ⟨b, rfl, hb⟩ | ⟨rfl, h1, h3⟩
    · refine .inl ⟨b, _, rfl, hb, fun σ hσ hn x y => ?_⟩
      rw [h0 σ fun hc => hn (hσ.add hc)]
      exact (h2 x σ).trans (h2 y σ).symm
    · refine .inr ⟨rfl, h1, fun σ hσ x => ?_⟩
      rw [h0 σ (h3 σ hσ)]
      exact h2 x σ
  | var x => exact other (.var x) op l hop
  | lit l' => exact other (.lit l') op l hop
  | call f args => exact other (.call f args) op l hop
  | ite c x y => exact other (.ite c x y) op l hop
  | bin o x y => exact other (.bin o x y) op l hop
  | rel o x y => exact other (.rel o x y) op l hop
  | un o x => exact other (.un o x) op l hop
  | cast o x => exact other (.cast o x) op l hop
  | quant o h vs x => exact other (.quant o h vs x) op l hop
  | subst v x y => exact other (.subst v x y) op l hop
  | iverson c => exact other (.iverson c) op l hop

/-- Visiting an expression eliminates the substitutions and evaluates like the original under the frame, in all states of the path. -/
theorem unfold_spec {o : Oracle} (ho : o.Sound) (span : Nat) {t : Ty} (e : Expr t) : ∀ (p : Path) (fr : SubstFrame) (s : UState),
    p.Ok → FrameOk fr s.1 e.Occurs → (∀ v, e.Occurs v → v.id ∈ s.1.decls) →
    Tot (e.unfold o span p fr) s fun e' s' => Grows s.1 s'.1 ∧ GoodUnfold p fr e e' s'.1 := by
  induction e with
  | @var t x =>
    intro p fr s hp hfr hc
    unfold Expr.unfold
    cases hs : fr.substs ⟨x, t⟩ with
    | some e =>
      refine Tot.pure ⟨Grows.refl _, hfr.noSubst _ _ hs, hfr.declared _ _ hs, fun σ τ _ h => ?_⟩
      rw [Expr.eval_var, h _ rfl, SubstFrame.apply, hs]
    | none =>
      refine Tot.pure ⟨Grows.refl _, trivial, ?_, fun σ τ _ h => ?_⟩
      · rintro v rfl; exact hc _ rfl
      · rw [Expr.eval_var, Expr.eval_var, h _ rfl, SubstFrame.apply, hs]
  | lit l =>
    intro p fr s hp hfr hc
    exact Tot.pure ⟨Grows.refl _, trivial, fun v hv => hv.elim, fun σ τ _ h => rfl⟩
  | call f args ih =>
    intro p fr s hp hfr hc
    unfold Expr.unfold
    refine Tot.bind (Tot.traverse (fun s s' : UState => Grows s.1 s'.1) (fun s => Grows.refl s.1) (fun _ _ _ => Grows.trans) _
      (fun i e' s' => GoodUnfold p fr (args i) e' s'.1) (fun i b s s' h1 h2 => h1.grow h2) s
      fun i s' hs' => ih i p fr s' hp (hfr.mono hs' fun w hw => ⟨i, hw⟩) fun v hv => hs' (hc v ⟨i, hv⟩))
      fun args' s' h => Tot.pure ⟨h.1, fun i => (h.2 i).1, ?_, fun σ τ hσ hst => ?_⟩
    · rintro v ⟨i, hi⟩; exact (h.2 i).2.1 v hi
    · rw [Expr.eval_call, Expr.eval_call]
      congr 1
      funext i
      exact (h.2 i).2.2 σ τ hσ fun v hv => hst v ⟨i, hv⟩
  | ite x a b ih1 ih2 ih3 =>
    intro p fr s hp hfr hc
    unfold Expr.unfold
    refine Tot.bind (ih1 p fr s hp (hfr.mono (Grows.refl _) fun w => Or.inl) fun v hv => hc v (Or.inl hv)) fun x' s1 h1 => ?_
    have ha : ∀ n, Tot (a.unfold o span (p.add x') fr) (s1.1, n) fun a' s' => Grows s1.1 s'.1 ∧ GoodUnfold (p.add x') fr a a' s'.1 :=
      fun n => ih2 (p.add x') fr (s1.1, n) (hp.add x') (hfr.mono h1.1 fun w hw => Or.inr (Or.inl hw)) fun v hv => h1.1 (hc v (Or.inr (Or.inl hv)))
    refine Tot.bind (withSat_spec ho ha) fun r s2 h2 => ?_
    rcases h2 with ⟨a', rfl, h2⟩ | ⟨rfl, h2, h3⟩
    · have h12 := h1.1.trans h2.1
      have hb : ∀ n, Tot (b.unfold o span (p.add (negateExpr x')) fr) (s2.1, n) fun b' s' =>
          Grows s2.1 s'.1 ∧ GoodUnfold (p.add (negateExpr x')) fr b b' s'.1 :=
        fun n => ih3 _ fr (s2.1, n) (hp.add _) (hfr.mono h12 fun w hw => Or.inr (Or.inr hw)) fun v hv => h12 (hc v (Or.inr (Or.inr hv)))
      refine Tot.bind (withSat_spec ho hb) fun r s3 h3 => ?_
      rcases h3 with ⟨b', rfl, h3⟩ | ⟨rfl, h3, h4⟩
      · have g1 := h1.2.grow (h2.1.trans h3.1)
        have g2 := h2.2.grow h3.1
        refine Tot.pure ⟨h12.trans h3.1, ⟨g1.1, g2.1, h3.2.1⟩, ?_, fun σ τ hσ hst => ?_⟩
        · rintro v (hv | hv | hv)
          · exact g1.2.1 v hv
          · exact g2.2.1 v hv
          · exact h3.2.2.1 v hv
        · rw [Expr.eval_ite, Expr.eval_ite, ← g1.2.2 σ τ hσ fun v hv => hst v (Or.inl hv)]
          rcases Classical.em (x'.tv σ) with hx | hx
          · have e1 := g2.2.2 σ τ (hσ.add hx) fun v hv => hst v (Or.inr (Or.inl hv))
            rw [e1]
            exact (if_pos hx).trans (if_pos hx).symm
          · have e1 := h3.2.2.2 σ τ (hσ.add (c := negateExpr x') (of_eq_true (if_pos (eq_false hx)))) fun v hv => hst v (Or.inr (Or.inr hv))
            rw [e1]
            exact (if_neg hx).trans (if_neg hx).symm
      · have hs3 : s3.1 = s2.1 := h3
        refine Tot.pure ⟨by rw [hs3]; exact h12, h2.2.1, by rw [hs3]; exact h2.2.2.1, fun σ τ hσ hst => ?_⟩
        have hx : x'.tv σ := Classical.byContradiction fun hx => h4 σ hσ (of_eq_true (if_pos (eq_false hx)))
        rw [Expr.eval_ite, ← h1.2.2.2 σ τ hσ fun v hv => hst v (Or.inl hv)]
        exact (h2.2.2.2 σ τ (hσ.add hx) fun v hv => hst v (Or.inr (Or.inl hv))).trans (if_pos hx).symm
    · have hs2 : s2.1 = s1.1 := h2
      have hg : Grows s.1 s2.1 := by rw [hs2]; exact h1.1
      refine Tot.mono (ih3 p fr s2 hp (hfr.mono hg fun w hw => Or.inr (Or.inr hw)) fun v hv => hg (hc v (Or.inr (Or.inr hv)))) fun b' s4 h4 => ?_
      refine ⟨hg.trans h4.1, h4.2.1, h4.2.2.1, fun σ τ hσ hst => ?_⟩
      rw [Expr.eval_ite, ← h1.2.2.2 σ τ hσ fun v hv => hst v (Or.inl hv)]
      exact (h4.2.2.2 σ τ hσ fun v hv => hst v (Or.inr (Or.inr hv))).trans (if_neg (h3 σ hσ)).symm
  | @bin t op a b ih1 ih2 =>
    intro p fr s hp hfr hc
    unfold Expr.unfold
    refine Tot.bind (ih1 p fr s hp (hfr.mono (Grows.refl _) fun w => Or.inl) fun v hv => hc v (Or.inl hv)) fun a' s1 h1 => ?_
    have hb : ∀ p' n, p'.Ok → Tot (b.unfold o span p' fr) (s1.1, n) fun b' s' => Grows s1.1 s'.1 ∧ b'.NoSubst ∧
        (∀ v, b'.Free v → v.id ∈ s'.1.decls) ∧ ∀ σ τ : Env, p'.Reach σ → (∀ v, b.Free v → τ v = fr.apply σ v) → b'.eval σ = b.eval τ :=
      fun p' n hp' => ih2 p' fr (s1.1, n) hp' (hfr.mono h1.1 fun w hw => Or.inr hw) fun v hv => h1.1 (hc v (Or.inr hv))
    have keep : ∀ (b' : Expr t) (s2 : UState) (R : Env → Prop), (Grows s1.1 s2.1 ∧ b'.NoSubst ∧ (∀ v, b'.Free v → v.id ∈ s2.1.decls) ∧
        ∀ σ τ : Env, R σ → (∀ v, b.Free v → τ v = fr.apply σ v) → b'.eval σ = b.eval τ) →
        (∀ σ, p.Reach σ → ¬ R σ → ∀ x y, op.den (a'.eval σ) x = op.den (a'.eval σ) y) →
        Grows s.1 s2.1 ∧ GoodUnfold p fr (.bin op a b) (.bin op a' b') s2.1 := by
      intro b' s2 R h2 h3
      have g1 := h1.2.grow h2.1
      refine ⟨h1.1.trans h2.1, ⟨g1.1, h2.2.1⟩, ?_, fun σ τ hσ hst => ?_⟩
      · rintro v (hv | hv)
        · exact g1.2.1 v hv
        · exact h2.2.2.1 v hv
      · rw [Expr.eval_bin, Expr.eval_bin, ← g1.2.2 σ τ hσ fun v hv => hst v (Or.inl hv)]
        rcases Classical.em (R σ) with hR | hR
        · rw [h2.2.2.2 σ τ hR fun v hv => hst v (Or.inr hv)]
        · exact h3 σ hσ hR _ _
    have cut : ∀ (l : Expr t) (s2 : UState), l.NoSubst → (∀ v, ¬ l.Free v) → s2.1 = s1.1 →
        (∀ σ, p.Reach σ → ∀ x, op.den (a'.eval σ) x = l.eval σ) → Grows s.1 s2.1 ∧ GoodUnfold p fr (.bin op a b) l s2.1 := by
      intro l s2 hn hl hs h3
      refine ⟨by rw [hs]; exact h1.1, hn, fun v hv => absurd hv (hl v), fun σ τ hσ hst => ?_⟩
      rw [Expr.eval_bin, ← h1.2.2.2 σ τ hσ fun v hv => hst v (Or.inl hv)]
      exact (h3 σ hσ _).symm
    have hlit : ∀ l, op.pruning = .nonbot l ∨ op.pruning = .nontop l → l.NoSubst ∧ ∀ v, ¬ l.Free v := by
      have lat : ∀ (t : Ty) (h : t.isLat = true), ((Expr.topLit t h).NoSubst ∧ ∀ v, ¬ (Expr.topLit t h).Free v) ∧
          ((Expr.botLit t h).NoSubst ∧ ∀ v, ¬ (Expr.botLit t h).Free v) := by
        intro t h
        cases t <;> first | (exact absurd h Bool.false_ne_true) | exact ⟨⟨trivial, fun _ h => h⟩, ⟨trivial, fun _ h => h⟩⟩
      intro l hl
      cases op with
      | mul hm =>
        cases t <;> rcases hl with hl | hl <;> first | (exact absurd hm Bool.false_ne_true) | (cases hl; done) | (cases hl; exact ⟨trivial, fun _ h => h⟩)
      | impl h => rcases hl with hl | hl <;> cases hl; exact (lat t h).1
      | compare h => rcases hl with hl | hl <;> cases hl; exact (lat t h).1
      | coimpl h => rcases hl with hl | hl <;> cases hl; exact (lat t h).2
      | cocompare h => rcases hl with hl | hl <;> cases hl; exact (lat t h).2
      | _ => rcases hl with hl | hl <;> nomatch hl
    cases hop : op.pruning with
    | none =>
      refine Tot.bind (hb p s1.2 hp) fun b' s2 h2 => Tot.pure (keep b' s2 _ h2 fun σ h h' => absurd h h')
    | nonbot l =>
      have hQ := withNonbot_spec ho hp (Q := fun R (b' : Expr t) s' => Grows s1.1 s'.1 ∧ b'.NoSubst ∧ (∀ v, b'.Free v → v.id ∈ s'.1.decls) ∧
        ∀ σ τ : Env, R σ → (∀ v, b.Free v → τ v = fr.apply σ v) → b'.eval σ = b.eval τ) a' hb op l hop
      refine Tot.bind hQ fun r s2 h2 => ?_
      rcases h2 with ⟨b', R, rfl, h2, h3⟩ | ⟨rfl, h2, h3⟩
      · exact Tot.pure (keep b' s2 R h2 h3)
      · exact Tot.pure (cut l s2 (hlit l (.inl hop)).1 (hlit l (.inl hop)).2 h2 h3)
    | nontop l =>
      have hQ := withNontop_spec ho hp (Q := fun R (b' : Expr t) s' => Grows s1.1 s'.1 ∧ b'.NoSubst ∧ (∀ v, b'.Free v → v.id ∈ s'.1.decls) ∧
        ∀ σ τ : Env, R σ → (∀ v, b.Free v → τ v = fr.apply σ v) → b'.eval σ = b.eval τ) a' hb op l hop
      refine Tot.bind hQ fun r s2 h2 => ?_
      rcases h2 with ⟨b', R, rfl, h2, h3⟩ | ⟨rfl, h2, h3⟩
      · exact Tot.pure (keep b' s2 R h2 h3)
      · exact Tot.pure (cut l s2 (hlit l (.inr hop)).1 (hlit l (.inr hop)).2 h2 h3)
  | rel op a b ih1 ih2 =>
    intro p fr s hp hfr hc
    unfold Expr.unfold
    refine Tot.bind (ih1 p fr s hp (hfr.mono (Grows.refl _) fun w => Or.inl) fun v hv => hc v (Or.inl hv)) fun x' c1 h1 => ?_
    refine Tot.bind (ih2 p fr c1 hp (hfr.mono h1.1 fun w hw => Or.inr hw) fun v hv => h1.1 (hc v (Or.inr hv))) fun a' c2 h2 => ?_
    have g1 := h1.2.grow h2.1
    refine Tot.pure ⟨h1.1.trans h2.1, ⟨g1.1, h2.2.1⟩, ?_, fun σ τ hσ hst => ?_⟩
    · rintro v (hv | hv)
      · exact g1.2.1 v hv
      · exact h2.2.2.1 v hv
    · rw [Expr.eval_rel, Expr.eval_rel, g1.2.2 σ τ hσ fun v hv => hst v (Or.inl hv), h2.2.2.2 σ τ hσ fun v hv => hst v (Or.inr hv)]
  | un op a ih =>
    intro p fr s hp hfr hc
    unfold Expr.unfold
    refine Tot.bind (ih p fr s hp hfr hc) fun x' c1 h1 => Tot.pure ⟨h1.1, h1.2.1, h1.2.2.1, fun σ τ hσ hst => ?_⟩
    rw [Expr.eval_un, Expr.eval_un, h1.2.2.2 σ τ hσ hst]
  | embed a ih =>
    intro p fr s hp hfr hc
    unfold Expr.unfold
    refine Tot.bind (ih p fr s hp hfr hc) fun x' c1 h1 => Tot.pure ⟨h1.1, h1.2.1, h1.2.2.1, fun σ τ hσ hst => ?_⟩
    rw [Expr.eval_embed, Expr.eval_embed, h1.2.2.2 σ τ hσ hst]
  | iverson a ih =>
    intro p fr s hp hfr hc
    unfold Expr.unfold
    refine Tot.bind (ih p fr s hp hfr hc) fun x' c1 h1 => Tot.pure ⟨h1.1, h1.2.1, h1.2.2.1, fun σ τ hσ hst => ?_⟩
    rw [Expr.eval_iverson, Expr.eval_iverson, h1.2.2.2 σ τ hσ hst]
  | cast op a ih =>
    intro p fr s hp hfr hc
    unfold Expr.unfold
    refine Tot.bind (ih p fr s hp hfr hc) fun x' c1 h1 => Tot.pure ⟨h1.1, h1.2.1, h1.2.2.1, fun σ τ hσ hst => ?_⟩
    rw [Expr.eval_cast, Expr.eval_cast, h1.2.2.2 σ τ hσ hst]
  | @quant t op hl vs a ih =>
    intro p fr s hp hfr hc
    unfold Expr.unfold
    refine Tot.bind (Tot.lift (pushQuant_spec span (Expr.Occurs · (.quant op hl vs a)) (Expr.Free · a)
      (fun v hv => Or.inl hv.occurs) vs fr s.1 hfr hc fun v hv => Or.inr hv)) fun r s1 h1 => ?_
    obtain ⟨hg1, hfr1, hdecl, hsem⟩ := h1
    refine Tot.bind (ih (p.enter (r.1.map QVar.var)) r.2 s1 (hp.enter _) (hfr1.mono (Grows.refl _) fun w hw => Or.inl hw)
      fun v hv => hg1 (hc v (Or.inl hv))) fun a' s2 h2 => ?_
    refine Tot.pure ⟨hg1.trans h2.1, h2.2.1, fun v hv => h2.2.2.1 v hv.1, fun σ τ hσ hst => ?_⟩
    rw [Expr.eval_quant, Expr.eval_quant]
    exact hsem op t (p.enter (r.1.map QVar.var)).Reach _ _ (fun σ' h v hv x => h.upd hp hv x)
      (fun σ' τ' hσ' h => h2.2.2.2 σ' τ' hσ' h) σ τ (hσ.enter hp _) fun v hv hn => hst v ⟨hv, hn⟩
  | subst x e a ih1 ih2 =>
    intro p fr s hp hfr hc
    unfold Expr.unfold
    refine Tot.bind (ih1 p fr s hp (hfr.mono (Grows.refl _) fun w => Or.inl) fun v hv => hc v (Or.inl hv)) fun e' s1 h1 => ?_
    obtain ⟨fr', h2, h3, h4⟩ := pushSubst_spec (hfr.mono h1.1 fun _ h => h) x e' h1.2.1 h1.2.2.1
    refine Tot.bind (Q := fun f s => f = fr' ∧ s1 = s) ⟨fr', s1, by simp [h2, liftTcx], rfl, rfl⟩ ?_
    rintro _ _ ⟨rfl, rfl⟩
    refine Tot.mono (ih2 p _ _ hp (h4.mono (Grows.refl _) fun w hw => Or.inr (Or.inl hw))
      fun v hv => h1.1 (hc v (Or.inr (Or.inl hv)))) fun a' c2 h5 => ?_
    refine ⟨h1.1.trans h5.1, h5.2.1, h5.2.2.1, fun σ τ hσ hst => ?_⟩
    rw [Expr.eval_subst]
    apply h5.2.2.2 _ _ hσ
    intro v hv
    by_cases hvx : v = x
    · subst hvx
      rw [Env.upd_same, SubstFrame.apply, h3, insert_same]
      exact (h1.2.2.2 σ τ hσ fun v hv => hst v (Or.inl hv)).symm
    · rw [Env.upd_ne _ hvx, hst v (Or.inr ⟨hv, hvx⟩)]
      simp only [SubstFrame.apply, h3, insert_ne _ _ hvx]

end
end Caesar
