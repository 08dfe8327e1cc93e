import Verif.Vc.ExplainSound
import Verif.Witness

/-!
# C66: explanations show the expectations of the program and do not change what is verified

Specification: `Verif/Vc/ExplainSpec.lean`.
-/

namespace Caesar
open Explain

/-- With explanations the same condition is computed as without, and what is shown at a place is the expectation at this place. -/
def C66_full : Prop := ∀ (_ : Doms) (_ : Interp) (C : SemCtx) (P : ProcTable) (o : Oracle) (_ : o.Sound) (span : Nat) (d : Dir) (S : Stmt) (post e : Expr .eureal) (c : TyCtx),
  vcgen S post = .ok e → (∀ v, e.Occurs v → v.id ∈ c.decls) →
  ∃ e' shown, explainVc P o span d S post c = .ok (e', shown) ∧ e'.ev = e.ev ∧ ∀ x ∈ shown, x.2.ev = expAt C S post.ev x.1

section
variable [Doms] [Interp]

theorem explainVc_out {C : SemCtx} {P : ProcTable} {o : Oracle} (ho : o.Sound) (N : Prop) (span : Nat) (d : Dir) {S : Stmt} {post e : Expr .eureal} {c : TyCtx} (h : vcgen S post = .ok e)
    (hgu : S.Guarded) (hg : S.GoodDists) (hn : S.NoNeg ∨ N) (ht : S.Tame c.decls) (hp : post.Tame c.decls) :
    (∃ e' shown, explainVc P o span d S post c = .ok (e', shown) ∧ e'.ev = e.ev ∧ (∀ x ∈ shown, x.2.ev = expAt C S post.ev x.1) ∧
      ([.fin], post) ∈ shown ∧ ∀ p ∈ places S, ∃ e, (p, e) ∈ shown) ∨ (N ∧ explainVc P o span d S post c = .error .negation) := by
  have hv : e.ev = vcSem C S post.ev := vcgen_sound C h (hgu.validateOk post) hg
  have h' : Out N (do addExpr [.fin] post; vcgenX P o span S [] post : M (Expr .eureal)) ⟨d, (c, 0), []⟩
      fun e' s => e'.ev = e.ev ∧ (∀ x ∈ s.shown, x.2.ev = expAt C S post.ev x.1) ∧ ([.fin], post) ∈ s.shown ∧ ∀ p ∈ places S, ∃ e, (p, e) ∈ s.shown := by
    refine .bind (.show' _ _ (Q := fun _ s => s = ⟨d, (c, 0), [([.fin], post)]⟩) rfl) fun _ s hs => ?_
    subst hs
    refine (vcgenX_out (C := C) (P := P) ho span [] post _ (CanX.core ⟨_, _, h⟩) hgu hg hn ht hp).imp fun e' s r =>
      ⟨(r.val.trans (told_core ⟨_, _, h⟩ _)).trans hv.symm, fun x hx => ?_, r.keep (by simp), r.all⟩
    rcases r.right x hx with hx | ⟨q, hq, he⟩
    · rw [List.mem_singleton.1 hx, expAt_fin]
    · rw [he, hq, toldAt_core ⟨_, _, h⟩]; rfl
  unfold explainVc
  rcases h' with ⟨e', s, h1, h2⟩ | ⟨h0, h1⟩
  · left
    rw [h1]
    exact ⟨e', s.shown, rfl, h2⟩
  · right
    rw [h1]
    exact ⟨h0, rfl⟩

/-- For programs without negations in the safe fragment of constant folding: with explanations there is a condition if there is one without, it has the same value
in all states, what is shown at a place is the expectation there, and something is shown at the end and at every place. What is missing are programs with negations (see
`C66_result_partial`), with subtractions and divisions from anything but a literal, with `validate` elsewhere than in the encodings: there the property fails. Procedure
calls and loops, for which explanations can only be shown, are covered by `C84_partial`. -/
theorem C66_partial (C : SemCtx) (P : ProcTable) {o : Oracle} (ho : o.Sound) (span : Nat) (d : Dir) {S : Stmt} {post e : Expr .eureal} {c : TyCtx} (h : vcgen S post = .ok e)
    (hgu : S.Guarded) (hg : S.GoodDists) (hn : S.NoNeg) (ht : S.Tame c.decls) (hp : post.Tame c.decls) :
    ∃ e' shown, explainVc P o span d S post c = .ok (e', shown) ∧ e'.ev = e.ev ∧ (∀ x ∈ shown, x.2.ev = expAt C S post.ev x.1) ∧
      ([.fin], post) ∈ shown ∧ ∀ p ∈ places S, ∃ e, (p, e) ∈ shown :=
  (explainVc_out ho False span d h hgu hg (.inl hn) ht hp).elim id fun h => h.1.elim

/-- The same for programs with negations, if there is a condition with explanations; otherwise there is an error message about a negation. -/
theorem C66_result_partial (C : SemCtx) (P : ProcTable) {o : Oracle} (ho : o.Sound) (span : Nat) (d : Dir) {S : Stmt} {post e : Expr .eureal} {c : TyCtx} (h : vcgen S post = .ok e)
    (hgu : S.Guarded) (hg : S.GoodDists) (ht : S.Tame c.decls) (hp : post.Tame c.decls) :
    explainVc P o span d S post c = .error .negation ∨
    ∃ e' shown, explainVc P o span d S post c = .ok (e', shown) ∧ e'.ev = e.ev ∧ (∀ x ∈ shown, x.2.ev = expAt C S post.ev x.1) ∧
      ([.fin], post) ∈ shown ∧ ∀ p ∈ places S, ∃ e, (p, e) ∈ shown :=
  (explainVc_out ho True span d h hgu hg (.inr trivial) ht hp).elim .inr fun h => .inl h.2

end

/-! ## Programs for which explanations change the result -/

section Refutations

abbrev C66_y : Var := ⟨⟨"y", 0⟩, .uint⟩

/-- `y = 0; assert ?(y - 1 = 1)` -/
def C66_prog : Stmt := .seq (.assign C66_y (.lit (.uint 0)))
  (.assert .down (.embed (.rel .eq (.bin (.sub rfl) (.var C66_y.id) (.lit (.uint 1))) (.lit (.uint 1)))))

def C66_ctx : TyCtx := ⟨[C66_y.id], fun _ => none⟩

/-- There are no procedures. -/
def noProcs : ProcTable := fun _ => none

/-- The solver never finds that something is unsatisfiable. -/
def C66_oracle : Oracle := fun _ _ => false

theorem C66_prog_x : ∃ shown, explainVc noProcs C66_oracle 0 .down C66_prog Expr.inftyLit C66_ctx =
    .ok (.embed (.rel .eq (.lit (.uint 1)) (.lit (.uint 1))), shown) := ⟨_, rfl⟩

theorem C66_oracle_sound [Doms] [Interp] : C66_oracle.Sound := fun _ _ h => nomatch h

/-- `y = 0; assert ?(y - 1 = 1)` does not verify without explanations, but with explanations. -/
theorem C66_not_full_verified [Doms] [Interp] : ∃ e e' shown, vcgen C66_prog Expr.inftyLit = .ok e ∧ (∀ v, e.Occurs v → v.id ∈ C66_ctx.decls) ∧
    explainVc noProcs C66_oracle 0 .down C66_prog Expr.inftyLit C66_ctx = .ok (e', shown) ∧ (∀ σ, e'.ev σ = ⊤) ∧ ∀ σ, e.ev σ = 0 := by
  classical
  obtain ⟨shown, h⟩ := C66_prog_x
  refine ⟨_, _, shown, rfl, ?_, h, fun σ => ?_, fun σ => ?_⟩
  · intro v hv
    have : v = C66_y := by simpa [Expr.Occurs, Expr.inftyLit] using hv
    rw [this]
    exact List.mem_cons_self
  · rw [Expr.ev_embed]
    exact if_pos rfl
  · rw [Expr.ev_subst, Expr.ev_inf, Expr.ev_embed, if_neg, zero_min]
    intro h
    have h0 : (σ.upd C66_y (0 : ℕ)) C66_y = (0 : ℕ) := Env.upd_same _ _ _
    have h1 : (fun n : ℕ => n - 1) ((σ.upd C66_y (0 : ℕ)) C66_y) = (1 : ℕ) := h
    have h2 : (0 - 1 : ℕ) = 1 := (congrArg (fun n : ℕ => n - 1) h0).symm.trans h1
    cases h2

theorem C66_not_full : ¬ C66_full := by
  intro h
  let _ := unitDoms
  let _ := unitInterp
  obtain ⟨e, e', shown, h1, h2, h3, h4, h5⟩ := C66_not_full_verified
  obtain ⟨e'', shown', h6, h7, -⟩ := h unitDoms unitInterp ⟨.lfp, fun _ _ _ φ => φ⟩ noProcs C66_oracle C66_oracle_sound 0 .down C66_prog Expr.inftyLit e C66_ctx h1 h2
  cases h3.symm.trans h6
  have := (h4 zeroEnv).symm.trans ((congrFun h7 zeroEnv).trans (h5 zeroEnv))
  exact ENNReal.top_ne_zero this

/-- There is no condition with explanations for `negate; conegate` in a procedure. Without explanations there is one, and the front end accepts the directions. -/
theorem C66_not_full_negation (P : ProcTable) (o : Oracle) (span : Nat) (post : Expr .eureal) (c : TyCtx) :
    (∃ e, vcgen (.seq (.negate .down) (.negate .up)) post = .ok e) ∧
    (handleNegationForwards .down (.negate .down) >>= fun d => handleNegationForwards d (.negate .up)) = .ok .down ∧
    explainVc P o span .down (.seq (.negate .down) (.negate .up)) post c = .error .negation :=
  ⟨⟨_, rfl⟩, rfl, rfl⟩

/-- `validate; y = 0; assume 2; assert 1` -/
def C66_prog' : Stmt := .seq (.validate .down) (.seq (.assign C66_y (.lit (.uint 0))) (.seq (.assume .down (.lit (.efrac 2))) (.assert .down (.lit (.efrac 1)))))

/-- `validate; y = 0; assume 2; assert 1` verifies without explanations, but not with explanations, since the simplified expectation after `validate` is an implication. -/
theorem C66_not_full_validate [Doms] [Interp] : ∃ e e' shown, vcgen C66_prog' Expr.inftyLit = .ok e ∧
    explainVc noProcs C66_oracle 0 .down C66_prog' Expr.inftyLit C66_ctx = .ok (e', shown) ∧ (∀ σ, e.ev σ = ⊤) ∧ ∀ σ, e'.ev σ = 0 := by
  classical
  have hx : ∃ shown, explainVc noProcs C66_oracle 0 .down C66_prog' Expr.inftyLit C66_ctx =
      .ok (.bin (.compare rfl) (.lit (.efrac 2)) (.lit (.efrac 1)), shown) := ⟨_, rfl⟩
  obtain ⟨shown, h⟩ := hx
  have h1 : ∀ σ : Env, (Expr.lit (.efrac 1)).ev σ = 1 := fun σ => by simp [Expr.ev, Expr.eval, Lit.den]
  have h2 : ∀ σ : Env, (Expr.lit (.efrac 2)).ev σ = 2 := fun σ => by simp [Expr.ev, Expr.eval, Lit.den]
  have h3 : ∀ σ : Env, Expr.inftyLit.ev σ = ⊤ := fun σ => rfl
  have h4 : ¬ (2 : ENNReal) ≤ 1 := by simp
  refine ⟨_, _, shown, rfl, h, fun σ => ?_, fun σ => ?_⟩
  · rw [Expr.ev_not, Expr.ev_not, Expr.ev_subst, Expr.ev_impl, Expr.ev_inf, h1, h2, h3]
    simp
  · rw [Expr.ev_compare, h1, h2, if_neg h4]

/-- Non-vacuity: a program with sampling, a conditional and a subtraction from a literal. -/
def C66_good : Stmt :=
  .seq (.sample false ⟨"b", 0⟩ (.flip (.lit (.ufrac (1 / 2)))))
  (.seq (.ite (.var ⟨"b", 0⟩) (.assign C66_y (.lit (.uint 1))) (.assign C66_y (.bin (.sub rfl) (.lit (.uint 2)) (.var C66_y.id))))
  (.seq (.annot (.slicing 0) (.assume .down (.cast .uintEUReal (.var C66_y.id)))) (.assert .down (.cast .uintEUReal (.var C66_y.id)))))

example : (∃ e, vcgen C66_good Expr.inftyLit = .ok e) ∧ C66_good.Guarded ∧ C66_good.GoodDists ∧ C66_good.NoNeg ∧
    C66_good.Tame [C66_y.id, ⟨"b", 0⟩] ∧ (Expr.inftyLit).Tame [C66_y.id, ⟨"b", 0⟩] ∧ places C66_good ≠ [] := by
  refine ⟨⟨_, rfl⟩, ?_, ?_, ?_, ?_, trivial, by decide⟩
  · simp [C66_good, Stmt.Guarded]
  · simp [C66_good, Stmt.GoodDists, DistCall.Good]
  · simp [C66_good, Stmt.NoNeg]
  · simp [C66_good, Stmt.Tame, Annot.Tame, DistCall.Tame, Expr.Tame, BinOp.Fit, Expr.NonZeroLit, Expr.derefLit, Lit.kind, LitKind.NonZero]

end Refutations
end Caesar
