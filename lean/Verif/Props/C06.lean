import Verif.Opt.QelimSpec
import Verif.Witness

/-!
# C06: quantifier elimination preserves the verdict
-/

open scoped ENNReal NNReal

namespace Caesar
set_option linter.unusedSectionVars false

/-- The verification condition holds in all states: it is `⊤` everywhere for `proc` and `⊥` everywhere for `coproc`. -/
def VcHolds [Doms] [Interp] (d : Dir) {t : Ty} (e : Expr t) : Prop :=
  match d with
  | .down => ∀ σ : Env, e.eval σ = t.top
  | .up => ∀ σ : Env, e.eval σ = t.bot

/-- The pass as called by the driver: quantifier elimination followed by the elimination of the substitutions it introduces
(`src/driver/quant_proof.rs:46-53`, `QuantVcUnit::qelim`). -/
def qelimPass (span span' : Nat) {t : Ty} (e : Expr t) (d : Dir) : PM TyCtx (Expr t) := do
  let e ← e.qelim span d
  (fun c => applySubstTop span' e c : PM TyCtx (Expr t))

/-- The full property: for every expression over declared variables and without explicit substitutions, the pass does
not panic and preserves the verdict. -/
def C06_full : Prop := ∀ (_ : Doms) (_ : Interp) (span span' : Nat) (t : Ty) (e : Expr t) (d : Dir) (c : TyCtx),
  t.isLat = true → (∀ v, e.Occurs v → v.id ∈ c.decls) → e.NoSubst →
    ∃ e' c', qelimPass span span' e d c = some (e', c') ∧ (VcHolds d e' ↔ VcHolds d e)

section
variable [Doms] [Interp]

theorem extr_self_down {t : Ty} (ht : t.isLat = true) (e : Expr t) (W : Var → Prop) (σ : Env) :
    t.le (Dir.down.extr t (fun τ : Ext W σ => e.eval τ.1)) (e.eval σ) :=
  (Ty.le_iInf_iff ht).1 (Ty.le_refl t _) (⟨σ, fun _ _ => rfl⟩ : Ext W σ)

theorem extr_self_up {t : Ty} (ht : t.isLat = true) (e : Expr t) (W : Var → Prop) (σ : Env) :
    t.le (e.eval σ) (Dir.up.extr t (fun τ : Ext W σ => e.eval τ.1)) :=
  (Ty.iSup_le_iff ht (f := fun τ : Ext W σ => e.eval τ.1)).1 (Ty.le_refl t _) (⟨σ, fun _ _ => rfl⟩ : Ext W σ)

/-- If every variable which is bound by a `Fresh` quantifier is used once (`FreshOk`), the pass preserves the verdict; moreover the
result has no substitutions, and is a bound on the original in every state.
Missing: expressions in which a quantifier over a `Fresh` variable occurs twice, for which the claim is false (`C06_not_full`). -/
theorem C06_qelim_preserves_verdict_partial (span span' : Nat) {t : Ty} (e : Expr t) (d : Dir) (c : TyCtx) (ht : t.isLat = true)
    (hc : ∀ v, e.Occurs v → v.id ∈ c.decls) (hn : e.NoSubst) (hf : e.FreshOk d) :
    ∃ e' c', qelimPass span span' e d c = some (e', c') ∧ (VcHolds d e' ↔ VcHolds d e) ∧ e'.NoSubst ∧
      c.decls ⊆ c'.decls ∧ (∀ v, e'.Free v → v.id ∈ c'.decls) ∧
      (∀ σ : Env, match d with | .down => t.le (e.eval σ) (e'.eval σ) | .up => t.le (e'.eval σ) (e.eval σ)) := by
  obtain ⟨e1, c1, h1, W, hW⟩ := qelim_spec span ht e d c hc hn hf
  obtain ⟨e2, c2, h2, h3, h4, h5, h6⟩ := applySubst_spec span' e1 .empty c1 (FrameOk.empty _ _) hW.occurs
  have hv : ∀ σ, e2.eval σ = e1.eval σ := fun σ => h6 σ σ fun v _ => rfl
  refine ⟨e2, c2, ?_, ?_, h4, hW.grows.trans h3, h5, ?_⟩
  · show (e.qelim span d c).bind _ = _
    rw [h1]
    exact h2
  · cases d with
    | down =>
      refine ⟨fun h σ => ?_, fun h σ => ?_⟩
      · rw [hW.value σ, ← Ty.top_le_iff ht]
        refine (Ty.le_iInf_iff ht).2 fun τ => ?_
        rw [← hv, h]
        exact Ty.le_refl _ _
      · rw [hv, ← Ty.top_le_iff ht, ← h σ, hW.value σ]
        exact extr_self_down ht e1 W σ
    | up =>
      refine ⟨fun h σ => ?_, fun h σ => ?_⟩
      · rw [hW.value σ, ← Ty.le_bot_iff ht]
        refine (Ty.iSup_le_iff ht).2 fun τ => ?_
        rw [← hv, h]
        exact Ty.le_refl _ _
      · rw [hv, ← Ty.le_bot_iff ht, ← h σ, hW.value σ]
        exact extr_self_up ht e1 W σ
  · intro σ
    cases d with
    | down =>
      show t.le _ _
      rw [hv, hW.value σ]
      exact extr_self_down ht e1 W σ
    | up =>
      show t.le _ _
      rw [hv, hW.value σ]
      exact extr_self_up ht e1 W σ

theorem freshOk_of_nil {t : Ty} (e : Expr t) (h : e.freshVars = []) : ∀ d, e.FreshOk d := by
  have apart : ∀ {s t : Ty} {a : Expr s} {b : Expr t}, a.freshVars = [] → b.freshVars = [] → Apart a b := by
    intro s t a b ha hb
    constructor
    · rw [ha]; intro v hv; cases hv
    · rw [hb]; intro v hv; cases hv
  induction e with
  | ite c a b _ iha ihb =>
    intro d
    obtain ⟨h1, h2⟩ := List.append_eq_nil_iff.1 h
    obtain ⟨h2, h3⟩ := List.append_eq_nil_iff.1 h2
    exact ⟨apart h2 h3, apart h1 h2, apart h1 h3, iha h2 d, ihb h3 d⟩
  | bin op a b iha ihb =>
    intro d
    obtain ⟨h1, h2⟩ := List.append_eq_nil_iff.1 h
    have ha := iha h1
    have hb := ihb h2
    have hnc : NoCommon a b := by
      intro v hv
      rw [h1] at hv
      cases hv
    refine ⟨apart h1 h2, ?_⟩
    cases op <;> cases d <;>
      first | exact trivial | exact ⟨hnc, ha _, hb _⟩ | exact ⟨ha _, hb _⟩
  | un op a ih =>
    intro d
    have ha := ih h
    cases op <;> cases d <;> first | exact trivial | exact ha _
  | quant op ht vs a ih => exact fun d _ => ih (List.append_eq_nil_iff.1 h).2 d
  | _ => exact fun _ => trivial

/-- In particular, the verdict is preserved for all expressions in which all quantified variables are `Shadow` variables, such as those generated
for `havoc` statements. -/
theorem C06_qelim_shadow (span span' : Nat) {t : Ty} (e : Expr t) (d : Dir) (c : TyCtx) (ht : t.isLat = true)
    (hc : ∀ v, e.Occurs v → v.id ∈ c.decls) (hn : e.NoSubst) (hf : e.freshVars = []) :
    ∃ e' c', qelimPass span span' e d c = some (e', c') ∧ (VcHolds d e' ↔ VcHolds d e) := by
  obtain ⟨e', c', h1, h2, -⟩ := C06_qelim_preserves_verdict_partial span span' e d c ht hc hn (freshOk_of_nil e hf d)
  exact ⟨e', c', h1, h2⟩

end

/-- The variable `x` of the witness. -/
def c06X : Var := ⟨⟨"x", 0⟩, .bool⟩

/-- `(inf x. ?(x)) + (inf x. ?(!x))`, where both quantifiers bind the same `Fresh` variable. -/
def c06W : Expr .eureal :=
  .bin (.add rfl) (.quant .inf rfl [⟨true, c06X⟩] (.embed (.var ⟨"x", 0⟩)))
    (.quant .inf rfl [⟨true, c06X⟩] (.embed (.un (.not rfl) (.var ⟨"x", 0⟩))))

/-- The result of the pass: `?(x) + ?(!x)`. -/
def c06W' : Expr .eureal :=
  .bin (.add rfl) (.embed (.var ⟨"x", 0⟩)) (.embed (.un (.not rfl) (.var ⟨"x", 0⟩)))

theorem c06_result : qelimPass 1 1 c06W .down ⟨[⟨"x", 0⟩], fun _ => none⟩ = some (c06W', ⟨[⟨"x", 0⟩], fun _ => none⟩) := rfl

theorem c06_new [Doms] [Interp] : VcHolds .down c06W' := by
  intro σ
  show (c06W'.ev σ : ℝ≥0∞) = ⊤
  unfold c06W'
  rw [Expr.ev_add, Expr.ev_embed, Expr.ev_embed]
  rcases Classical.em ((Expr.var ⟨"x", 0⟩ : Expr .bool).tv σ) with h | h
  · rw [if_pos h, top_add]
  · rw [if_pos ((Expr.tv_not σ _ rfl).2 h), add_top]

theorem c06_old : ¬ @VcHolds unitDoms unitInterp .down _ c06W := by
  let _ := unitDoms
  let _ := unitInterp
  intro h
  have h0 : c06W.ev zeroEnv = ⊤ := h zeroEnv
  have h1 : (Expr.quant .inf rfl [⟨true, c06X⟩] (.embed (.var ⟨"x", 0⟩)) : Expr .eureal).ev zeroEnv ≤ 0 := by
    refine le_trans (iInf_le (α := ℝ≥0∞) _ (False : Prop)) ?_
    have hx : (zeroEnv.upd c06X (False : Prop)) c06X = (False : Prop) := Env.upd_same _ _ _
    show (Expr.embed (.var ⟨"x", 0⟩)).ev (zeroEnv.upd c06X (False : Prop)) ≤ 0
    have hx' : ¬ (Expr.var ⟨"x", 0⟩ : Expr .bool).tv (zeroEnv.upd c06X (False : Prop)) := fun hh => hx.mp hh
    exact le_of_eq (if_neg hx')
  have h2 : (Expr.quant .inf rfl [⟨true, c06X⟩] (.embed (.un (.not rfl) (.var ⟨"x", 0⟩))) : Expr .eureal).ev zeroEnv ≤ 0 := by
    refine le_trans (iInf_le (α := ℝ≥0∞) _ (True : Prop)) ?_
    have hx : (zeroEnv.upd c06X (True : Prop)) c06X = (True : Prop) := Env.upd_same _ _ _
    show (Expr.embed (.un (.not rfl) (.var ⟨"x", 0⟩))).ev (zeroEnv.upd c06X (True : Prop)) ≤ 0
    have hx' : ¬ (Expr.un (.not rfl) (.var ⟨"x", 0⟩) : Expr .bool).tv (zeroEnv.upd c06X (True : Prop)) := fun hh =>
      (Expr.tv_not _ _ rfl).1 hh (hx.mpr trivial)
    exact le_of_eq (if_neg hx')
  unfold c06W at h0
  rw [Expr.ev_add, nonpos_iff_eq_zero.1 h1, nonpos_iff_eq_zero.1 h2] at h0
  simp at h0

/-- The full property is false: two copies of the quantifier share the eliminated variable. A verification condition which is `0`
everywhere is turned into one which is `∞` everywhere. -/
theorem C06_not_full : ¬ C06_full := by
  intro h
  obtain ⟨e', c', h1, h2⟩ := h unitDoms unitInterp 1 1 .eureal c06W .down ⟨[⟨"x", 0⟩], fun _ => none⟩ rfl
    (by
      rintro v ((rfl | hv) | (rfl | hv))
      · exact List.mem_singleton.2 rfl
      · rw [List.mem_singleton.1 hv]; exact List.mem_singleton.2 rfl
      · exact List.mem_singleton.2 rfl
      · rw [List.mem_singleton.1 hv]; exact List.mem_singleton.2 rfl)
    ⟨trivial, trivial⟩
  rw [c06_result] at h1
  cases h1
  exact c06_old (h2.1 (@c06_new unitDoms unitInterp))

/-- `(sup x. ?(x)) → (inf y. y + (inf z. z))` with `Fresh` `x`, and `Shadow` `y` and `z`. -/
def c06E : Expr .eureal :=
  .bin (.impl rfl) (.quant .sup rfl [⟨true, c06X⟩] (.embed (.var ⟨"x", 0⟩)))
    (.quant .inf rfl [⟨false, ⟨⟨"y", 0⟩, .eureal⟩⟩] (.bin (.add rfl) (.var ⟨"y", 0⟩)
      (.quant .inf rfl [⟨false, ⟨⟨"z", 0⟩, .eureal⟩⟩] (.var ⟨"z", 0⟩))))

/-- Non-vacuity: the hypotheses hold for an expression with nested quantifiers of both kinds. -/
example : c06E.NoSubst ∧ c06E.FreshOk .down ∧ ∀ v, c06E.Occurs v → v.id ∈ [(⟨"x", 0⟩ : Ident), ⟨"y", 0⟩, ⟨"z", 0⟩] := by
  refine ⟨⟨trivial, trivial, trivial⟩, ⟨⟨?_, ?_⟩, ?_, fun _ => trivial, fun _ => ?_⟩, ?_⟩
  · intro v hv
    rw [List.mem_singleton.1 hv]
    rintro ⟨hf | ⟨hf, -⟩, -⟩ <;> exact absurd (congrArg Var.ty hf) (by decide)
  · intro v hv
    cases hv
  · intro v _ hv
    cases hv
  · exact ⟨⟨(fun v hv => by cases hv), (fun v hv => by cases hv)⟩, (fun v hv => by cases hv), trivial, fun _ => trivial⟩
  · intro v hv
    simp only [c06E, Expr.Occurs, List.map_cons, List.map_nil, List.mem_singleton] at hv
    rcases hv with (rfl | rfl) | (rfl | rfl | rfl) | rfl <;> simp [c06X]

/-- The pass on it: all quantifiers are gone. -/
example : (qelimPass 7 8 c06E .down ⟨[⟨"x", 0⟩, ⟨"y", 0⟩, ⟨"z", 0⟩], fun _ => none⟩).map Prod.fst =
    some (.bin (.impl rfl) (.embed (.var ⟨"x", 0⟩)) (.bin (.add rfl) (.var ⟨"y_0", 7⟩) (.var ⟨"z_0", 7⟩))) := rfl

end Caesar
