import Verif.VcgenSound
import Verif.FreeVars

/-!
# Modified variables, and which variables a statement reads and writes

Models `ModifiedVariableCollector` (`src/ast/util.rs:68-110`). Specification side: `Stmt.Touched`,
`Stmt.Reads`, `Stmt.Inits`, with the semantic meaning of each (`vcSem_frame`, `vcSem_ignores`).
-/

open scoped ENNReal NNReal

namespace Caesar
set_option linter.unusedSectionVars false

/-- `modified_variables` of `ModifiedVariableCollector` (`src/ast/util.rs:87-99`) after visiting a statement:
only `Assign` adds variables; `walk_stmt` (`src/ast/visit.rs:224-291`) visits the children. In the model
assignments of samples and calls are `sample false`/`call false`. The insertion-ordered set is a list (with
repetitions); identifiers are paired with their type. -/
def Stmt.modified : Stmt → List Var
  | .assign x _ => [x]
  | .sample isDecl x (t := t) _ => if isDecl then [] else [⟨x, t⟩]
  | .call isDecl lhs _ _ => if isDecl then [] else lhs
  | .seq a b => a.modified ++ b.modified
  | .demonic a b => a.modified ++ b.modified
  | .angelic a b => a.modified ++ b.modified
  | .additive a b => a.modified ++ b.modified
  | .ite _ a b => a.modified ++ b.modified
  | .while _ s => s.modified
  | .annot _ s => s.modified
  | _ => []

/-- `declared_variables` of `ModifiedVariableCollector` (`src/ast/util.rs:92-94`). -/
def Stmt.declared : Stmt → List Var
  | .varDecl x => [x]
  | .varInit x _ => [x]
  | .sample isDecl x (t := t) _ => if isDecl then [⟨x, t⟩] else []
  | .call isDecl lhs _ _ => if isDecl then lhs else []
  | .seq a b => a.declared ++ b.declared
  | .demonic a b => a.declared ++ b.declared
  | .angelic a b => a.declared ++ b.declared
  | .additive a b => a.declared ++ b.declared
  | .ite _ a b => a.declared ++ b.declared
  | .while _ s => s.declared
  | .annot _ s => s.declared
  | _ => []

/-! ## Specification: reads and writes -/

/-- Variables that occur in a `havoc`/`cohavoc`. -/
def Stmt.Havocs (v : Var) : Stmt → Prop
  | .havoc _ xs => v ∈ xs
  | .seq a b => a.Havocs v ∨ b.Havocs v
  | .demonic a b => a.Havocs v ∨ b.Havocs v
  | .angelic a b => a.Havocs v ∨ b.Havocs v
  | .additive a b => a.Havocs v ∨ b.Havocs v
  | .ite _ a b => a.Havocs v ∨ b.Havocs v
  | .while _ s => s.Havocs v
  | .annot _ s => s.Havocs v
  | _ => False

/-- Variables whose value the statement may change. -/
def Stmt.Touched (v : Var) : Stmt → Prop
  | .varInit x _ => v = x
  | .assign x _ => v = x
  | .sample _ x (t := t) _ => v = ⟨x, t⟩
  | .call _ lhs _ _ => v ∈ lhs
  | .havoc _ xs => v ∈ xs
  | .seq a b => a.Touched v ∨ b.Touched v
  | .demonic a b => a.Touched v ∨ b.Touched v
  | .angelic a b => a.Touched v ∨ b.Touched v
  | .additive a b => a.Touched v ∨ b.Touched v
  | .ite _ a b => a.Touched v ∨ b.Touched v
  | .while _ s => s.Touched v
  | .annot _ s => s.Touched v
  | _ => False

/-- Variables that certainly get a new value, on every path through the statement. -/
def Stmt.Inits (v : Var) : Stmt → Prop
  | .varInit x _ => v = x
  | .assign x _ => v = x
  | .sample _ x (t := t) _ => v = ⟨x, t⟩
  | .call _ lhs _ _ => v ∈ lhs
  | .havoc _ xs => v ∈ xs
  | .seq a b => a.Inits v ∨ b.Inits v
  | .demonic a b => a.Inits v ∧ b.Inits v
  | .angelic a b => a.Inits v ∧ b.Inits v
  | .additive a b => a.Inits v ∧ b.Inits v
  | .ite _ a b => a.Inits v ∧ b.Inits v
  | .annot _ s => s.Inits v
  | _ => False

/-- Variables occurring in the parameters of a distribution. -/
def DistCall.Reads (v : Var) : {t : Ty} → DistCall t → Prop
  | _, .flip p => p.Free v
  | _, _ => False

/-- Variables occurring free in the arguments of a loop annotation. -/
def Annot.Reads (v : Var) : Annot → Prop
  | .invariant I => I.Free v
  | .kInduction _ I => I.Free v
  | .unroll _ t => t.Free v
  | .omegaInvariant n I => I.Free v ∧ v ≠ ⟨n, .uint⟩
  | .past I e k => I.Free v ∨ e.Free v ∨ k.Free v
  | .ost I p c q => I.Free v ∨ p.Free v ∨ c.Free v ∨ q.Free v
  | .ast I V x p d => I.Free v ∨ V.Free v ∨ (p.Free v ∨ d.Free v) ∧ v.id ≠ x
  | .slicing _ => False

/-- Variables whose initial value the statement (or the annotations in it) may read: those that are used
before they are certainly overwritten. -/
def Stmt.Reads (v : Var) : Stmt → Prop
  | .varInit _ e => e.Free v
  | .assign _ e => e.Free v
  | .sample _ _ d => d.Reads v
  | .call _ _ _ args => ∃ a ∈ args, a.2.Free v
  | .assert _ e => e.Free v
  | .assume _ e => e.Free v
  | .compare _ e => e.Free v
  | .tick e => e.Free v
  | .weigh e => e.Free v
  | .seq a b => a.Reads v ∨ (¬ a.Inits v ∧ b.Reads v)
  | .demonic a b => a.Reads v ∨ b.Reads v
  | .angelic a b => a.Reads v ∨ b.Reads v
  | .additive a b => a.Reads v ∨ b.Reads v
  | .ite c a b => c.Free v ∨ a.Reads v ∨ b.Reads v
  | .while c s => c.Free v ∨ s.Reads v
  | .annot an s => an.Reads v ∨ s.Reads v
  | _ => False

section
variable [Doms]

/-- The states differ at most in variables in `D`. -/
def AgreeOff (D : Var → Prop) (σ σ' : Env) : Prop := ∀ v, ¬ D v → σ' v = σ v

theorem AgreeOff.refl (D : Var → Prop) (σ : Env) : AgreeOff D σ σ := fun _ _ => rfl

theorem AgreeOff.symm {D : Var → Prop} {σ σ' : Env} (h : AgreeOff D σ σ') : AgreeOff D σ' σ :=
  fun v hv => (h v hv).symm

theorem AgreeOff.trans {D : Var → Prop} {σ σ' σ'' : Env} (h : AgreeOff D σ σ') (h' : AgreeOff D σ' σ'') :
    AgreeOff D σ σ'' := fun v hv => (h' v hv).trans (h v hv)

theorem AgreeOff.mono {D D' : Var → Prop} (hD : ∀ v, D v → D' v) {σ σ' : Env} (h : AgreeOff D σ σ') :
    AgreeOff D' σ σ' := fun v hv => h v fun hd => hv (hD v hd)

theorem agreeOff_mem {xs : List Var} {σ σ' : Env} : AgreeOff (· ∈ xs) σ σ' ↔ Agree xs σ σ' := Iff.rfl

theorem AgreeOff.upd {D : Var → Prop} (σ : Env) {x : Var} (hx : D x) (a : x.ty.den) :
    AgreeOff D σ (σ.upd x a) := fun v hv =>
  Env.upd_ne _ (fun (h : v = x) => hv (h ▸ hx)) _

/-- The expectation does not depend on the variables in `D`. -/
def Ignores (D : Var → Prop) (φ : Exp) : Prop := ∀ σ σ', AgreeOff D σ σ' → φ σ' = φ σ

theorem Ignores.anti {D D' : Var → Prop} (hD : ∀ v, D v → D' v) {φ : Exp} (h : Ignores D' φ) : Ignores D φ :=
  fun _ _ hs => h _ _ (hs.mono hD)

theorem eval_agreeOff [Interp] {t : Ty} {e : Expr t} {D : Var → Prop} (hD : ∀ v, D v → ¬ e.Free v) {σ σ' : Env}
    (h : AgreeOff D σ σ') : e.eval σ' = e.eval σ :=
  Expr.eval_congr e fun v hv => h v fun hd => hD v hd hv

theorem ev_agreeOff [Interp] {e : Expr .eureal} {D : Var → Prop} (hD : ∀ v, D v → ¬ e.Free v) {σ σ' : Env}
    (h : AgreeOff D σ σ') : e.ev σ' = e.ev σ := eval_agreeOff hD h

theorem tv_agreeOff [Interp] {e : Expr .bool} {D : Var → Prop} (hD : ∀ v, D v → ¬ e.Free v) {σ σ' : Env}
    (h : AgreeOff D σ σ') : e.tv σ' ↔ e.tv σ := iff_of_eq (eval_agreeOff hD h)

theorem upd_agreeOff {A D : Var → Prop} {x : Var} (hD : ∀ v, D v → A v ∨ v = x) {σ σ' : Env}
    (h : AgreeOff D σ σ') (a : x.ty.den) : AgreeOff A (σ.upd x a) (σ'.upd x a) := by
  intro v hv
  by_cases hx : v = x
  · subst hx; simp
  · rw [Env.upd_ne _ hx, Env.upd_ne _ hx]
    exact h v fun hd => (hD v hd).elim hv hx

end

section
variable [Doms] [Interp]

/-- What is assumed about procedure calls: they are monotone, only change their left-hand sides, and only read
their arguments. -/
structure SemCtx.Regular (C : SemCtx) : Prop where
  mono : ∀ l f a, Monotone (C.call l f a)
  frame : ∀ l f a φ ψ σ, (∀ σ', Agree l σ σ' → φ σ' = ψ σ') → C.call l f a φ σ = C.call l f a ψ σ
  reads : ∀ l f (a : List ((t : Ty) × Expr t)) φ (D A : Var → Prop), (∀ v, D v → ∀ e ∈ a, ¬ e.2.Free v) →
    (∀ v, D v → A v ∨ v ∈ l) → Ignores A φ → Ignores D (C.call l f a φ)

/-- A regular context: calls havoc their left-hand sides. -/
theorem regular_havoc (k : LoopSem) :
    SemCtx.Regular ⟨k, fun l _ _ φ σ => ⨅ σ' ∈ {σ' | Agree l σ σ'}, φ σ'⟩ where
  mono l f a φ ψ h σ := iInf₂_mono fun σ' _ => h σ'
  frame l f a φ ψ σ h := iInf_congr fun σ' => iInf_congr fun hs => h σ' hs
  reads l f a φ D A _ hA hφ := by
    have key : ∀ σ σ', AgreeOff D σ σ' →
        (⨅ τ ∈ {τ | Agree l σ τ}, φ τ) ≤ ⨅ τ ∈ {τ | Agree l σ' τ}, φ τ := by
      classical
      intro σ σ' h
      refine le_iInf₂ fun τ' hτ' => ?_
      let τ : Env := fun v => if v ∈ l then τ' v else σ v
      have h1 : Agree l σ τ := fun v hv => if_neg hv
      have h2 : AgreeOff A τ τ' := by
        intro v hv
        show τ' v = if v ∈ l then τ' v else σ v
        by_cases hl : v ∈ l
        · rw [if_pos hl]
        · rw [if_neg hl, hτ' v hl]; exact h v fun hd => (hA v hd).elim hv hl
      rw [hφ _ _ h2]
      exact iInf₂_le (f := fun σ' (_ : σ' ∈ {σ' | Agree l σ σ'}) => φ σ') τ h1
    intro σ σ' h
    exact le_antisymm (key σ' σ h.symm) (key σ σ' h)

/-- `iInf`/`iSup` over the states reachable by a `havoc` do not depend on the havocked variables. -/
theorem havoc_reads {l : List Var} {A D : Var → Prop} (hA : ∀ v, D v → A v ∨ v ∈ l) {φ : Exp}
    (hφ : Ignores A φ) {σ σ' : Env} (h : AgreeOff D σ σ') {τ' : Env} (hτ' : Agree l σ' τ') :
    ∃ τ, Agree l σ τ ∧ φ τ' = φ τ := by
  classical
  let τ : Env := fun v => if v ∈ l then τ' v else σ v
  have h1 : Agree l σ τ := fun v hv => if_neg hv
  have h2 : AgreeOff A τ τ' := by
    intro v hv
    show τ' v = if v ∈ l then τ' v else σ v
    by_cases hl : v ∈ l
    · rw [if_pos hl]
    · rw [if_neg hl, hτ' v hl]; exact h v fun hd => (hA v hd).elim hv hl
  exact ⟨τ, h1, hφ _ _ h2⟩

/-! ## Loops -/

theorem lfp_prefixed {Φ : Exp → Exp} (hΦ : Monotone Φ) : Φ (fixpoint .lfp Φ) ≤ fixpoint .lfp Φ :=
  le_sInf fun _ hX => (hΦ (sInf_le hX)).trans hX

theorem gfp_postfixed {Φ : Exp → Exp} (hΦ : Monotone Φ) : fixpoint .gfp Φ ≤ Φ (fixpoint .gfp Φ) :=
  sSup_le fun _ hX => le_trans hX (hΦ (le_sSup hX))

theorem fixpoint_ignores {k : LoopSem} {Φ : Exp → Exp} (hΦ : Monotone Φ) {D : Var → Prop}
    (hD : ∀ X, Ignores D X → Ignores D (Φ X)) : Ignores D (fixpoint k Φ) := by
  cases k with
  | lfp =>
    let F := fixpoint .lfp Φ
    let F' : Exp := fun σ => ⨅ σ' ∈ {σ' | AgreeOff D σ σ'}, F σ'
    have hF' : Ignores D F' := by
      intro σ σ' h
      apply le_antisymm
      · exact le_iInf₂ fun τ ht => iInf₂_le (f := fun σ' (_ : AgreeOff D _ σ') => F σ') τ (h.symm.trans ht)
      · exact le_iInf₂ fun τ ht => iInf₂_le (f := fun σ' (_ : AgreeOff D _ σ') => F σ') τ (h.trans ht)
    have h1 : F' ≤ F := fun σ => iInf₂_le (f := fun σ' (_ : AgreeOff D _ σ') => F σ') σ (AgreeOff.refl D σ)
    have h2 : F ≤ F' := sInf_le (show Φ F' ≤ F' from fun σ => le_iInf₂ fun σ' (h : AgreeOff D σ σ') => by
      rw [← hD F' hF' σ σ' h]
      exact ((hΦ h1).trans (lfp_prefixed hΦ)) σ')
    show Ignores D F
    rw [le_antisymm h2 h1]
    exact hF'
  | gfp =>
    let F := fixpoint .gfp Φ
    let F' : Exp := fun σ => ⨆ σ' ∈ {σ' | AgreeOff D σ σ'}, F σ'
    have hF' : Ignores D F' := by
      intro σ σ' h
      apply le_antisymm
      · exact iSup₂_le fun τ ht => le_iSup₂ (f := fun σ' (_ : AgreeOff D _ σ') => F σ') τ (h.trans ht)
      · exact iSup₂_le fun τ ht => le_iSup₂ (f := fun σ' (_ : AgreeOff D _ σ') => F σ') τ (h.symm.trans ht)
    have h1 : F ≤ F' := fun σ => le_iSup₂ (f := fun σ' (_ : AgreeOff D _ σ') => F σ') σ (AgreeOff.refl D σ)
    have h2 : F' ≤ F := le_sSup (show F' ≤ Φ F' from fun σ => iSup₂_le fun σ' (h : AgreeOff D σ σ') => by
      rw [← hD F' hF' σ σ' h]
      exact ((gfp_postfixed hΦ).trans (hΦ h1)) σ')
    show Ignores D F
    rw [le_antisymm h1 h2]
    exact hF'

theorem fixpoint_frame_le {k : LoopSem} {Φ Ψ : Exp → Exp} {M : Var → Prop}
    {σ : Env} (h : ∀ X Y, (∀ σ', AgreeOff M σ σ' → X σ' = Y σ') → ∀ σ', AgreeOff M σ σ' → Φ X σ' = Ψ Y σ') :
    fixpoint k Φ σ ≤ fixpoint k Ψ σ := by
  classical
  cases k with
  | lfp =>
    have key : ∀ G, Ψ G ≤ G → fixpoint .lfp Φ σ ≤ G σ := by
      intro G hG
      let X : Exp := fun σ' => if AgreeOff M σ σ' then G σ' else ⊤
      have hX : ∀ σ', AgreeOff M σ σ' → X σ' = G σ' := fun σ' hs => if_pos hs
      have h1 : Φ X ≤ X := by
        intro σ'
        by_cases hs : AgreeOff M σ σ'
        · rw [hX σ' hs, h X G hX σ' hs]; exact hG σ'
        · show _ ≤ (if AgreeOff M σ σ' then G σ' else ⊤)
          rw [if_neg hs]; exact le_top
      exact ((sInf_le (a := X) (s := {X | Φ X ≤ X}) h1 : fixpoint .lfp Φ ≤ X) σ).trans (hX σ (AgreeOff.refl M σ)).le
    show _ ≤ (sInf {X | Ψ X ≤ X} : Exp) σ
    rw [sInf_apply]
    exact le_iInf fun G => key G.1 G.2
  | gfp =>
    have key : ∀ F, F ≤ Φ F → F σ ≤ fixpoint .gfp Ψ σ := by
      intro F hF
      let X : Exp := fun σ' => if AgreeOff M σ σ' then F σ' else 0
      have hX : ∀ σ', AgreeOff M σ σ' → X σ' = F σ' := fun σ' hs => if_pos hs
      have h1 : X ≤ Ψ X := by
        intro σ'
        by_cases hs : AgreeOff M σ σ'
        · rw [hX σ' hs, ← h F X (fun s hs => (hX s hs).symm) σ' hs]; exact hF σ'
        · show (if AgreeOff M σ σ' then F σ' else 0) ≤ _
          rw [if_neg hs]; exact zero_le
      exact (hX σ (AgreeOff.refl M σ)).ge.trans ((le_sSup (a := X) (s := {X | X ≤ Ψ X}) h1 : X ≤ fixpoint .gfp Ψ) σ)
    show (sSup {X | X ≤ Φ X} : Exp) σ ≤ _
    rw [sSup_apply]
    exact iSup_le fun F => key F.1 F.2

/-- The characteristic function of a loop (`website/docs/proof-rules/README.md`). -/
noncomputable def loopFun (C : SemCtx) (c : Expr .bool) (body : Stmt) (φ : Exp) (X : Exp) : Exp :=
  fun σ => open Classical in if c.tv σ then vcSem C body X σ else φ σ

theorem vcSem_while (C : SemCtx) (c : Expr .bool) (body : Stmt) (φ : Exp) :
    vcSem C (.while c body) φ = fixpoint C.loop (loopFun C c body φ) := rfl

theorem loopFun_mono {C : SemCtx} {body : Stmt} (h : Monotone (vcSem C body)) (c : Expr .bool) (φ : Exp) :
    Monotone (loopFun C c body φ) := by
  classical
  intro X Y hXY σ
  unfold loopFun
  split
  · exact h hXY σ
  · exact le_rfl

/-! ## Statements -/

theorem pmf_agreeOff {t : Ty} {d : DistCall t} {D : Var → Prop} (hD : ∀ v, D v → ¬ d.Reads v) {σ σ' : Env}
    (h : AgreeOff D σ σ') : d.pmf σ' = d.pmf σ := by
  classical
  cases d with
  | flip p =>
    have : p.eval σ' = p.eval σ := eval_agreeOff (e := p) hD h
    exact congrArg (fun q : ℝ≥0 => fun r : Prop =>
      if r then ENNReal.ofNNReal q else 1 - ENNReal.ofNNReal q) this
  | _ => rfl

/-- A statement without negations depends only on those variables of the initial state that it reads, or that its
postexpectation depends on and that it does not overwrite. -/
theorem vcSem_ignores {C : SemCtx} (hC : C.Regular) {S : Stmt} (hS : S.NoNeg) {A : Var → Prop} {φ : Exp}
    (hφ : Ignores A φ) : Ignores (fun v => ¬ S.Reads v ∧ (A v ∨ S.Inits v)) (vcSem C S φ) := by
  classical
  induction S generalizing A φ with
  | skip | varDecl | label => exact hφ.anti fun v h => h.2.elim id False.elim
  | varInit x e | assign x e =>
    intro σ σ' h
    show φ _ = φ _
    rw [eval_agreeOff (e := e) (fun v hv => hv.1) h]
    exact hφ _ _ (upd_agreeOff (fun v hv => hv.2) h _)
  | sample b x d =>
    intro σ σ' h
    show d.expect σ' _ = d.expect σ _
    unfold DistCall.expect
    rw [pmf_agreeOff (d := d) (fun v hv => hv.1) h]
    congr 1
    funext a
    exact congrArg (d.pmf σ a * ·) (hφ _ _ (upd_agreeOff (x := ⟨x, _⟩) (fun v hv => hv.2) h a))
  | call b l f a =>
    exact hC.reads l f a φ _ A (fun v hv e he hf => hv.1 ⟨e, he, hf⟩) (fun v hv => hv.2) hφ
  | havoc d xs =>
    intro σ σ' h
    have k1 := fun τ' (hτ : Agree xs σ' τ') => havoc_reads (l := xs) (fun v hv => hv.2) hφ h hτ
    have k2 := fun τ' (hτ : Agree xs σ τ') => havoc_reads (l := xs) (fun v hv => hv.2) hφ h.symm hτ
    cases d
    · show (⨅ τ ∈ {τ | Agree xs σ' τ}, φ τ) = ⨅ τ ∈ {τ | Agree xs σ τ}, φ τ
      apply le_antisymm
      · refine le_iInf₂ fun τ ht => ?_
        obtain ⟨τ', h1, h2⟩ := k2 τ ht
        rw [h2]; exact iInf₂_le (f := fun τ (_ : Agree xs σ' τ) => φ τ) τ' h1
      · refine le_iInf₂ fun τ ht => ?_
        obtain ⟨τ', h1, h2⟩ := k1 τ ht
        rw [h2]; exact iInf₂_le (f := fun τ (_ : Agree xs σ τ) => φ τ) τ' h1
    · show (⨆ τ ∈ {τ | Agree xs σ' τ}, φ τ) = ⨆ τ ∈ {τ | Agree xs σ τ}, φ τ
      apply le_antisymm
      · refine iSup₂_le fun τ ht => ?_
        obtain ⟨τ', h1, h2⟩ := k1 τ ht
        rw [h2]; exact le_iSup₂ (f := fun τ (_ : Agree xs σ τ) => φ τ) τ' h1
      · refine iSup₂_le fun τ ht => ?_
        obtain ⟨τ', h1, h2⟩ := k2 τ ht
        rw [h2]; exact le_iSup₂ (f := fun τ (_ : Agree xs σ' τ) => φ τ) τ' h1
  | assert d e =>
    intro σ σ' h
    have h1 := ev_agreeOff (e := e) (fun v hv => hv.1) h
    have h2 := hφ _ _ (h.mono fun v hv => hv.2.elim id False.elim)
    cases d <;> simp only [vcSem, h1, h2]
  | assume d e =>
    intro σ σ' h
    have h1 := ev_agreeOff (e := e) (fun v hv => hv.1) h
    have h2 := hφ _ _ (h.mono fun v hv => hv.2.elim id False.elim)
    cases d <;> simp only [vcSem, h1, h2]
  | compare d e =>
    intro σ σ' h
    have h1 := ev_agreeOff (e := e) (fun v hv => hv.1) h
    have h2 := hφ _ _ (h.mono fun v hv => hv.2.elim id False.elim)
    cases d <;> simp only [vcSem, h1, h2]
  | tick e =>
    intro σ σ' h
    have h1 := ev_agreeOff (e := e) (fun v hv => hv.1) h
    have h2 := hφ _ _ (h.mono fun v hv => hv.2.elim id False.elim)
    simp only [vcSem, h1, h2]
  | weigh e =>
    intro σ σ' h
    have h1 := ev_agreeOff (e := e) (fun v hv => hv.1) h
    have h2 := hφ _ _ (h.mono fun v hv => hv.2.elim id False.elim)
    simp only [vcSem, h1, h2]
  | negate d => exact hS.elim
  | validate d =>
    intro σ σ' h
    have h2 := hφ _ _ (h.mono fun v hv => hv.2.elim id False.elim)
    cases d <;> simp only [vcSem, h2]
  | seq a b iha ihb =>
    refine (iha hS.1 (ihb hS.2 hφ)).anti fun v hv => ⟨fun h => hv.1 (Or.inl h), ?_⟩
    by_cases hi : a.Inits v
    · exact Or.inr hi
    · exact Or.inl ⟨fun h => hv.1 (Or.inr ⟨hi, h⟩), hv.2.imp id fun h => h.resolve_left hi⟩
  | demonic a b iha ihb =>
    intro σ σ' h
    have h1 := iha hS.1 hφ σ σ' (h.mono fun v hv => ⟨fun h => hv.1 (Or.inl h), hv.2.imp id And.left⟩)
    have h2 := ihb hS.2 hφ σ σ' (h.mono fun v hv => ⟨fun h => hv.1 (Or.inr h), hv.2.imp id And.right⟩)
    simp only [vcSem, h1, h2]
  | angelic a b iha ihb =>
    intro σ σ' h
    have h1 := iha hS.1 hφ σ σ' (h.mono fun v hv => ⟨fun h => hv.1 (Or.inl h), hv.2.imp id And.left⟩)
    have h2 := ihb hS.2 hφ σ σ' (h.mono fun v hv => ⟨fun h => hv.1 (Or.inr h), hv.2.imp id And.right⟩)
    simp only [vcSem, h1, h2]
  | additive a b iha ihb =>
    intro σ σ' h
    have h1 := iha hS.1 hφ σ σ' (h.mono fun v hv => ⟨fun h => hv.1 (Or.inl h), hv.2.imp id And.left⟩)
    have h2 := ihb hS.2 hφ σ σ' (h.mono fun v hv => ⟨fun h => hv.1 (Or.inr h), hv.2.imp id And.right⟩)
    simp only [vcSem, h1, h2]
  | ite c a b iha ihb =>
    intro σ σ' h
    have h0 := tv_agreeOff (e := c) (fun v hv hf => hv.1 (Or.inl hf)) h
    have h1 := iha hS.1 hφ σ σ'
      (h.mono fun v hv => ⟨fun h => hv.1 (Or.inr (Or.inl h)), hv.2.imp id And.left⟩)
    have h2 := ihb hS.2 hφ σ σ'
      (h.mono fun v hv => ⟨fun h => hv.1 (Or.inr (Or.inr h)), hv.2.imp id And.right⟩)
    simp only [vcSem, h0, h1, h2]
  | «while» c s ih =>
    rw [vcSem_while]
    refine fixpoint_ignores (loopFun_mono (vcSem_mono C hC.mono (S := s) hS) c φ) fun X hX σ σ' h => ?_
    have h0 := tv_agreeOff (e := c) (fun v hv hf => hv.1 (Or.inl hf)) h
    have h1 := ih hS hX σ σ' (h.mono fun v hv => ⟨fun h => hv.1 (Or.inr h), Or.inl hv⟩)
    have h2 := hφ _ _ (h.mono fun v hv => hv.2.elim id False.elim)
    simp only [loopFun, h0, h1, h2]
  | annot an s ih =>
    exact (ih hS hφ).anti fun v hv => ⟨fun h => hv.1 (Or.inr h), hv.2⟩

/-- A statement only looks at its postexpectation in states that differ from the initial state in variables it
touches. -/
theorem vcSem_frame_of {C : SemCtx}
    (hC : ∀ l f a φ ψ σ, (∀ σ', Agree l σ σ' → φ σ' = ψ σ') → C.call l f a φ σ = C.call l f a ψ σ) {S : Stmt} {M : Var → Prop}
    (hM : ∀ v, S.Touched v → M v) {φ ψ : Exp} {σ : Env} (h : ∀ σ', AgreeOff M σ σ' → φ σ' = ψ σ') :
    vcSem C S φ σ = vcSem C S ψ σ := by
  classical
  induction S generalizing φ ψ σ with
  | skip | varDecl | label => exact h σ (AgreeOff.refl M σ)
  | varInit x e | assign x e => exact h _ (AgreeOff.upd σ (hM x rfl) _)
  | sample b x d =>
    show d.expect σ _ = d.expect σ _
    congr 1
    funext a
    exact h _ (AgreeOff.upd σ (x := ⟨x, _⟩) (hM _ rfl) a)
  | call b l f a => exact hC l f a φ ψ σ fun σ' hs => h σ' (AgreeOff.mono hM hs)
  | havoc d xs =>
    have h' : ∀ σ', Agree xs σ σ' → φ σ' = ψ σ' := fun σ' hs => h σ' (AgreeOff.mono hM hs)
    cases d
    · exact iInf_congr fun σ' => iInf_congr fun hs => h' σ' hs
    · exact iSup_congr fun σ' => iSup_congr fun hs => h' σ' hs
  | assert d e | assume d e | compare d e | validate d | negate d =>
    have h1 := h σ (AgreeOff.refl M σ)
    cases d <;> simp only [vcSem, h1]
  | tick e | weigh e =>
    have h1 := h σ (AgreeOff.refl M σ)
    simp only [vcSem, h1]
  | seq a b iha ihb =>
    exact iha (fun v hv => hM v (Or.inl hv)) fun σ' hs =>
      ihb (fun v hv => hM v (Or.inr hv)) fun σ'' hs' => h σ'' (hs.trans hs')
  | demonic a b iha ihb | angelic a b iha ihb | additive a b iha ihb | ite c a b iha ihb =>
    have h1 := iha (fun v hv => hM v (Or.inl hv)) h
    have h2 := ihb (fun v hv => hM v (Or.inr hv)) h
    simp only [vcSem, h1, h2]
  | «while» c s ih =>
    rw [vcSem_while, vcSem_while]
    have key : ∀ {φ ψ : Exp}, (∀ σ', AgreeOff M σ σ' → φ σ' = ψ σ') → ∀ X Y,
        (∀ σ', AgreeOff M σ σ' → X σ' = Y σ') → ∀ σ', AgreeOff M σ σ' →
          loopFun C c s φ X σ' = loopFun C c s ψ Y σ' := by
      intro φ ψ h X Y hXY σ' hs
      unfold loopFun
      split
      · exact ih hM fun σ'' hs' => hXY σ'' (hs.trans hs')
      · exact h σ' hs
    exact le_antisymm
      (fixpoint_frame_le (key h))
      (fixpoint_frame_le (key fun s hs => (h s hs).symm))
  | annot an s ih => exact ih hM h

theorem vcSem_frame {C : SemCtx} (hC : C.Regular) {S : Stmt} {M : Var → Prop}
    (hM : ∀ v, S.Touched v → M v) {φ ψ : Exp} {σ : Env} (h : ∀ σ', AgreeOff M σ σ' → φ σ' = ψ σ') :
    vcSem C S φ σ = vcSem C S ψ σ := vcSem_frame_of hC.frame hM h

end

/-- What the collector reports, together with the havocked variables, is everything that is touched. -/
theorem Stmt.touched_cases {S : Stmt} {v : Var} (h : S.Touched v) :
    v ∈ S.modified ∨ v ∈ S.declared ∨ S.Havocs v := by
  induction S with
  | varInit x e => exact Or.inr (Or.inl (List.mem_singleton.2 h))
  | assign x e => exact Or.inl (List.mem_singleton.2 h)
  | sample b x d =>
    cases b
    · exact Or.inl (List.mem_singleton.2 h)
    · exact Or.inr (Or.inl (List.mem_singleton.2 h))
  | call b l f a =>
    cases b
    · exact Or.inl h
    · exact Or.inr (Or.inl h)
  | havoc d xs => exact Or.inr (Or.inr h)
  | seq a b iha ihb | demonic a b iha ihb | angelic a b iha ihb | additive a b iha ihb | ite c a b iha ihb =>
    simp only [Stmt.modified, Stmt.declared, Stmt.Havocs, List.mem_append]
    rcases h with h | h
    · rcases iha h with h | h | h <;> simp [h]
    · rcases ihb h with h | h | h <;> simp [h]
  | «while» c s ih => exact ih h
  | annot an s ih => exact ih h
  | _ => exact h.elim

end Caesar
