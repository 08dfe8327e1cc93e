import Verif.DistLemmas

/-!
# Verification condition generation computes the documented semantics (proofs)
-/

open scoped ENNReal NNReal

namespace Caesar
set_option linter.unusedSectionVars false

/-- All distributions sampled in the statement are ones for which the code uses the documented weights
(see `C44`). -/
def Stmt.GoodDists : Stmt → Prop
  | .sample _ _ d => d.Good
  | .seq a b => a.GoodDists ∧ b.GoodDists
  | .demonic a b => a.GoodDists ∧ b.GoodDists
  | .angelic a b => a.GoodDists ∧ b.GoodDists
  | .additive a b => a.GoodDists ∧ b.GoodDists
  | .ite _ a b => a.GoodDists ∧ b.GoodDists
  | .while _ s => s.GoodDists
  | .annot _ s => s.GoodDists
  | _ => True

/-- No `negate`/`conegate` in the statement. -/
def Stmt.NoNeg : Stmt → Prop
  | .negate _ => False
  | .seq a b => a.NoNeg ∧ b.NoNeg
  | .demonic a b => a.NoNeg ∧ b.NoNeg
  | .angelic a b => a.NoNeg ∧ b.NoNeg
  | .additive a b => a.NoNeg ∧ b.NoNeg
  | .ite _ a b => a.NoNeg ∧ b.NoNeg
  | .while _ s => s.NoNeg
  | .annot _ s => s.NoNeg
  | _ => True

/-- No `validate`/`covalidate` in the statement. -/
def Stmt.NoValidate : Stmt → Prop
  | .validate _ => False
  | .seq a b => a.NoValidate ∧ b.NoValidate
  | .demonic a b => a.NoValidate ∧ b.NoValidate
  | .angelic a b => a.NoValidate ∧ b.NoValidate
  | .additive a b => a.NoValidate ∧ b.NoValidate
  | .ite _ a b => a.NoValidate ∧ b.NoValidate
  | .while _ s => s.NoValidate
  | .annot _ s => s.NoValidate
  | _ => True

section
variable [Doms] [Interp]

/-- The post of every `validate` is an implication (`covalidate`: co-implication), or takes only the values
`0` and `∞`. -/
def ValidateOk : Stmt → Expr .eureal → Prop
  | .validate .down, post => (∃ l r, post = .bin (.impl rfl) l r) ∨ ∀ σ, post.ev σ = 0 ∨ post.ev σ = ⊤
  | .validate .up, post => (∃ l r, post = .bin (.coimpl rfl) l r) ∨ ∀ σ, post.ev σ = 0 ∨ post.ev σ = ⊤
  | .seq a b, post => ValidateOk b post ∧ ∀ post', vcgen b post = .ok post' → ValidateOk a post'
  | .demonic a b, post => ValidateOk a post ∧ ValidateOk b post
  | .angelic a b, post => ValidateOk a post ∧ ValidateOk b post
  | .additive a b, post => ValidateOk a post ∧ ValidateOk b post
  | .ite _ a b, post => ValidateOk a post ∧ ValidateOk b post
  | .annot _ s, post => ValidateOk s post
  | _, _ => True

theorem validateOk_of_noValidate {S : Stmt} (h : S.NoValidate) (post : Expr .eureal) : ValidateOk S post := by
  induction S generalizing post with
  | seq a b iha ihb => exact ⟨ihb h.2 _, fun _ _ => iha h.1 _⟩
  | demonic a b iha ihb => exact ⟨iha h.1 _, ihb h.2 _⟩
  | angelic a b iha ihb => exact ⟨iha h.1 _, ihb h.2 _⟩
  | additive a b iha ihb => exact ⟨iha h.1 _, ihb h.2 _⟩
  | ite c a b iha ihb => exact ⟨iha h.1 _, ihb h.2 _⟩
  | annot an s ih => exact ih h _
  | validate d => exact h.elim
  | _ => trivial

omit [Doms] [Interp] in
/-- Splitting a successful `do` block. -/
theorem bind_ok {ε α β : Type} {m : Except ε α} {f : α → Except ε β} {b : β} (h : (m >>= f) = .ok b) :
    ∃ a, m = .ok a ∧ f a = .ok b := by
  cases m with
  | error e => cases h
  | ok a => exact ⟨a, rfl, h⟩

/-- The verification condition of `validate`. -/
theorem validate_down_ev (post : Expr .eureal) {e : Expr .eureal} (h : vcgen (.validate .down) post = .ok e)
    (σ : Env) : ((∃ l r, post = .bin (.impl rfl) l r) ∧ e.ev σ = open Classical in if post.ev σ = ⊤ then ⊤ else 0) ∨
      (e.ev σ = open Classical in if post.ev σ = 0 then 0 else ⊤) := by
  classical
  by_cases hp : ∃ l r, post = .bin (.impl rfl) l r
  · obtain ⟨l, r, rfl⟩ := hp
    left
    refine ⟨⟨_, _, rfl⟩, ?_⟩
    cases h
    rw [Expr.ev_compare, Expr.ev_impl]
    by_cases hl : l.ev σ ≤ r.ev σ
    · simp [hl]
    · have : r.ev σ ≠ ⊤ := fun ht => hl (ht ▸ le_top)
      simp [hl, this]
  · right
    have : e = .un (.not rfl) (.un (.not rfl) post) := by
      simp only [vcgen] at h
      split at h
      next l r => exact absurd ⟨l, r, rfl⟩ hp
      next => cases h; rfl
    subst this
    rw [Expr.ev_not, Expr.ev_not]
    by_cases h0 : post.ev σ = 0 <;> simp [h0]

theorem validate_up_ev (post : Expr .eureal) {e : Expr .eureal} (h : vcgen (.validate .up) post = .ok e)
    (σ : Env) : ((∃ l r, post = .bin (.coimpl rfl) l r) ∧ e.ev σ = open Classical in if post.ev σ = 0 then 0 else ⊤) ∨
      (e.ev σ = open Classical in if post.ev σ = ⊤ then ⊤ else 0) := by
  classical
  by_cases hp : ∃ l r, post = .bin (.coimpl rfl) l r
  · obtain ⟨l, r, rfl⟩ := hp
    left
    refine ⟨⟨_, _, rfl⟩, ?_⟩
    cases h
    rw [Expr.ev_cocompare, Expr.ev_coimpl]
    by_cases hl : r.ev σ ≤ l.ev σ
    · simp [hl]
    · have : r.ev σ ≠ 0 := fun ht => hl (ht ▸ zero_le)
      simp [hl, this]
  · right
    have : e = .un (.non rfl) (.un (.non rfl) post) := by
      simp only [vcgen] at h
      split at h
      next l r => exact absurd ⟨l, r, rfl⟩ hp
      next => cases h; rfl
    subst this
    rw [Expr.ev_non, Expr.ev_non]
    by_cases h0 : post.ev σ = ⊤ <;> simp [h0]

theorem validate_down_ok {post e : Expr .eureal} (h : vcgen (.validate .down) post = .ok e)
    (hv : ValidateOk (.validate .down) post) (σ : Env) :
    e.ev σ = open Classical in if post.ev σ = ⊤ then ⊤ else 0 := by
  classical
  simp only [ValidateOk] at hv
  rcases hv with ⟨l, r, rfl⟩ | hv
  · cases h
    rw [Expr.ev_compare, Expr.ev_impl]
    by_cases hl : l.ev σ ≤ r.ev σ
    · simp [hl]
    · have : r.ev σ ≠ ⊤ := fun ht => hl (ht ▸ le_top)
      simp [hl, this]
  · rcases validate_down_ev post h σ with h1 | h1
    · exact h1.2
    · rw [h1]; rcases hv σ with h2 | h2 <;> simp [h2]

theorem validate_up_ok {post e : Expr .eureal} (h : vcgen (.validate .up) post = .ok e)
    (hv : ValidateOk (.validate .up) post) (σ : Env) :
    e.ev σ = open Classical in if post.ev σ = 0 then 0 else ⊤ := by
  classical
  simp only [ValidateOk] at hv
  rcases hv with ⟨l, r, rfl⟩ | hv
  · cases h
    rw [Expr.ev_cocompare, Expr.ev_coimpl]
    by_cases hl : r.ev σ ≤ l.ev σ
    · simp [hl]
    · have : r.ev σ ≠ 0 := fun ht => hl (ht ▸ zero_le)
      simp [hl, this]
  · rcases validate_up_ev post h σ with h1 | h1
    · exact h1.2
    · rw [h1]; rcases hv σ with h2 | h2 <;> simp [h2]

theorem map_qvar_false (xs : List Var) : (xs.map (QVar.mk false)).map QVar.var = xs := by
  simp [Function.comp_def]

/-- Generated conditions evaluate to the documented semantics. -/
theorem vcgen_sound (C : SemCtx) {S : Stmt} : ∀ {post e : Expr .eureal}, vcgen S post = .ok e →
    ValidateOk S post → S.GoodDists → e.ev = vcSem C S post.ev := by
  classical
  induction S with
  | skip => intro post e h _ _; cases h; rfl
  | varDecl => intro post e h _ _; cases h; rfl
  | label => intro post e h _ _; cases h; rfl
  | varInit => intro post e h _ _; cases h; rfl
  | assign => intro post e h _ _; cases h; rfl
  | call => intro post e h _ _; cases h
  | «while» => intro post e h _ _; cases h
  | sample b x d => intro post e h _ hg; funext σ; exact sample_ev hg h σ
  | seq a b iha ihb =>
    intro post e h hv hg
    obtain ⟨p', h1, h2⟩ := bind_ok h
    rw [iha h2 (hv.2 _ h1) hg.1, ihb h1 hv.1 hg.2]
    rfl
  | havoc d xs =>
    intro post e h _ _
    funext σ
    cases d <;> cases h
    · exact (congrArg (fun l => quantVars .inf .eureal l post.eval σ) (map_qvar_false xs)).trans
        (quantVars_inf xs post.ev σ .inf (Or.inl rfl))
    · exact (congrArg (fun l => quantVars .sup .eureal l post.eval σ) (map_qvar_false xs)).trans
        (quantVars_sup xs post.ev σ .sup (Or.inl rfl))
  | assert d x =>
    intro post e h _ _
    funext σ
    cases d <;> cases h
    · exact Expr.ev_inf _ _ _ _
    · exact Expr.ev_sup _ _ _ _
  | assume d x =>
    intro post e h _ _
    funext σ
    cases d <;> cases h
    · exact (Expr.ev_impl _ _ _ _).trans ite_inst
    · exact (Expr.ev_coimpl _ _ _ _).trans ite_inst
  | compare d x =>
    intro post e h _ _
    funext σ
    cases d <;> cases h
    · exact (Expr.ev_compare _ _ _ _).trans ite_inst
    · exact (Expr.ev_cocompare _ _ _ _).trans ite_inst
  | negate d =>
    intro post e h _ _
    funext σ
    cases d <;> cases h
    · exact (Expr.ev_not _ _ _).trans ite_inst
    · exact (Expr.ev_non _ _ _).trans ite_inst
  | validate d =>
    intro post e h hv _
    funext σ
    cases d
    · exact (validate_down_ok h hv σ).trans ite_inst
    · exact (validate_up_ok h hv σ).trans ite_inst
  | tick x =>
    intro post e h _ _
    funext σ
    cases h
    exact (Expr.ev_add _ _ _ _).trans (add_comm _ _)
  | weigh x => intro post e h _ _; cases h; rfl
  | demonic a b iha ihb =>
    intro post e h hv hg
    obtain ⟨p1, h1, h⟩ := bind_ok h
    obtain ⟨p2, h2, h⟩ := bind_ok h
    cases h
    funext σ
    rw [Expr.ev_inf, iha h1 hv.1 hg.1, ihb h2 hv.2 hg.2]; rfl
  | angelic a b iha ihb =>
    intro post e h hv hg
    obtain ⟨p1, h1, h⟩ := bind_ok h
    obtain ⟨p2, h2, h⟩ := bind_ok h
    cases h
    funext σ
    rw [Expr.ev_sup, iha h1 hv.1 hg.1, ihb h2 hv.2 hg.2]; rfl
  | additive a b iha ihb =>
    intro post e h hv hg
    obtain ⟨p1, h1, h⟩ := bind_ok h
    obtain ⟨p2, h2, h⟩ := bind_ok h
    cases h
    funext σ
    rw [Expr.ev_add, iha h1 hv.1 hg.1, ihb h2 hv.2 hg.2]; rfl
  | ite c a b iha ihb =>
    intro post e h hv hg
    obtain ⟨p1, h1, h⟩ := bind_ok h
    obtain ⟨p2, h2, h⟩ := bind_ok h
    cases h
    funext σ
    rw [Expr.ev_ite, iha h1 hv.1 hg.1, ihb h2 hv.2 hg.2]; rfl
  | annot an s ih =>
    intro post e h hv hg
    cases an with
    | slicing k => exact ih h hv hg
    | _ => cases h

/-! ## Monotonicity -/

theorem fixpoint_mono {k : LoopSem} {Φ Ψ : Exp → Exp} (h : ∀ X, Φ X ≤ Ψ X) :
    fixpoint k Φ ≤ fixpoint k Ψ := by
  cases k with
  | lfp => exact sInf_le_sInf fun X (hX : Ψ X ≤ X) => (h X).trans hX
  | gfp => exact sSup_le_sSup fun X (hX : X ≤ Φ X) => hX.trans (h X)

theorem impl_mono_right {e a b : ℝ≥0∞} (h : a ≤ b) :
    (if e ≤ a then ⊤ else a) ≤ (if e ≤ b then ⊤ else b) := by
  split
  next h1 => simp [h1.trans h]
  · split
    · exact le_top
    · exact h

theorem coimpl_mono_right {e a b : ℝ≥0∞} (h : a ≤ b) :
    (if e ≥ a then 0 else a) ≤ (if e ≥ b then 0 else b) := by
  split
  · exact zero_le
  next h1 =>
    have : ¬ e ≥ b := fun h2 => h1 (h.trans h2)
    rw [if_neg this]; exact h

theorem expect_mono {t : Ty} (d : DistCall t) (σ : Env) {f g : t.den → ℝ≥0∞} (h : ∀ a, f a ≤ g a) :
    d.expect σ f ≤ d.expect σ g :=
  ENNReal.tsum_le_tsum fun a => mul_le_mul_right (h a) _

/-- The documented semantics is monotone for statements without negations. -/
theorem vcSem_mono (C : SemCtx) (hC : ∀ l f a, Monotone (C.call l f a)) {S : Stmt} (hS : S.NoNeg) :
    Monotone (vcSem C S) := by
  classical
  induction S with
  | skip => exact fun _ _ h => h
  | varDecl => exact fun _ _ h => h
  | label => exact fun _ _ h => h
  | varInit => exact fun _ _ h σ => h _
  | assign => exact fun _ _ h σ => h _
  | call => exact hC _ _ _
  | sample b x d => exact fun _ _ h σ => expect_mono d σ fun a => h _
  | seq a b iha ihb => exact fun _ _ h => iha hS.1 (ihb hS.2 h)
  | havoc d xs =>
    cases d
    · exact fun _ _ h σ => iInf₂_mono fun σ' _ => h σ'
    · exact fun _ _ h σ => iSup₂_mono fun σ' _ => h σ'
  | assert d x =>
    cases d
    · exact fun _ _ h σ => min_le_min le_rfl (h σ)
    · exact fun _ _ h σ => max_le_max le_rfl (h σ)
  | assume d x =>
    cases d
    · intro φ ψ h σ
      have := impl_mono_right (e := x.ev σ) (h σ)
      simp only [vcSem]
      convert this
    · intro φ ψ h σ
      have := coimpl_mono_right (e := x.ev σ) (h σ)
      simp only [vcSem]
      convert this
  | compare d x =>
    cases d
    · intro φ ψ h σ
      simp only [vcSem]
      split
      next h1 => rw [if_pos (h1.trans (h σ))]
      · exact zero_le
    · intro φ ψ h σ
      simp only [vcSem]
      split
      · exact zero_le
      next h1 => rw [if_neg (fun h2 => h1 ((h σ).trans h2))]
  | negate d => exact hS.elim
  | validate d =>
    cases d
    · intro φ ψ h σ
      simp only [vcSem]
      split
      next h1 => rw [if_pos (top_le_iff.1 (h1 ▸ h σ))]
      · exact zero_le
    · intro φ ψ h σ
      simp only [vcSem]
      split
      · exact zero_le
      next h1 => rw [if_neg (fun h2 : ψ σ = 0 => h1 (le_zero_iff.1 (h2 ▸ h σ)))]
  | tick x => exact fun _ _ h σ => add_le_add (h σ) le_rfl
  | weigh x => exact fun _ _ h σ => mul_le_mul_right (h σ) _
  | demonic a b iha ihb => exact fun _ _ h σ => min_le_min (iha hS.1 h σ) (ihb hS.2 h σ)
  | angelic a b iha ihb => exact fun _ _ h σ => max_le_max (iha hS.1 h σ) (ihb hS.2 h σ)
  | additive a b iha ihb => exact fun _ _ h σ => add_le_add (iha hS.1 h σ) (ihb hS.2 h σ)
  | ite c a b iha ihb =>
    intro φ ψ h σ
    simp only [vcSem]
    split
    · exact iha hS.1 h σ
    · exact ihb hS.2 h σ
  | «while» c s ih =>
    intro φ ψ h
    apply fixpoint_mono
    intro X σ
    dsimp only
    split
    · exact le_rfl
    · exact h σ
  | annot an s ih => exact ih hS

end
end Caesar
