import Verif.TyCtx
import Verif.FreeVars
import Verif.Tot

/-!
# Model of substitution elimination

Models `src/vc/subst.rs`.
-/

namespace Caesar

/-- `SubstFrame` (`src/vc/subst.rs:25-29`). Maps are functions, sets are lists. Keys are identifiers with their
type (an identifier has exactly one type, see `Var`). -/
structure SubstFrame where
  substs : (v : Var) → Option (Expr v.ty)
  freeVars : List Var

/-- `SubstFrame::default()`. (`src/vc/subst.rs:44`) -/
def SubstFrame.empty : SubstFrame := ⟨fun _ => none, []⟩

/-- `HashMap::insert`. (`src/vc/subst.rs:56,90`) -/
def SubstFrame.insert (fr : SubstFrame) (x : Var) (e : Expr x.ty) : SubstFrame :=
  { fr with substs := fun v => if h : v = x then some (h ▸ e) else fr.substs v }

/-- `HashMap::remove`. (`src/vc/subst.rs:69`) -/
def SubstFrame.remove (fr : SubstFrame) (x : Var) : SubstFrame :=
  { fr with substs := fun v => if v = x then none else fr.substs v }

/-- `Subst::push_subst` (`src/vc/subst.rs:51-57`): the new current frame. The stack of frames is the call stack of
the model: `pop` (`src/vc/subst.rs:96-98`) restores the frame of the caller. -/
def pushSubst (fr : SubstFrame) (x : Var) (e : Expr x.ty) : Option SubstFrame := do
  let vars ← e.collect []
  return { fr.insert x e with freeVars := fr.freeVars ++ vars }

/-- The loop of `Subst::push_quant` (`src/vc/subst.rs:65-93`): returns the new quantified variables and the new
current frame. `span` is the span of the new identifiers. -/
def pushQuant (span : Nat) : List QVar → SubstFrame → PM TyCtx (List QVar × SubstFrame)
  | [], fr => pure ([], fr)
  | q :: qs, fr => do
      let fr1 := fr.remove q.var
      if q.var ∈ fr.freeVars then
        let new ← (fun c => c.cloneVar q.var span : PM TyCtx Var)
        let (qs', fr') ← pushQuant span qs (fr1.insert q.var (.var new.id))
        return (⟨false, new⟩ :: qs', fr')
      else
        let (qs', fr') ← pushQuant span qs fr1
        return (q :: qs', fr')

/-- `Subst::visit_expr` (`src/vc/subst.rs:109-136`) without resource limits. -/
def Expr.applySubst (span : Nat) : {t : Ty} → Expr t → SubstFrame → PM TyCtx (Expr t)
  | t, .var x, fr =>
      match fr.substs ⟨x, t⟩ with
      | some e => pure e
      | none => pure (.var x)
  | _, .lit l, _ => pure (.lit l)
  | _, .call f args, fr => do
      let args' ← traverseFin f.args.length fun i => (args i).applySubst span fr
      return .call f args'
  | _, .ite c a b, fr => do
      let c ← c.applySubst span fr
      let a ← a.applySubst span fr
      let b ← b.applySubst span fr
      return .ite c a b
  | _, .bin op a b, fr => do
      let a ← a.applySubst span fr
      let b ← b.applySubst span fr
      return .bin op a b
  | _, .rel op a b, fr => do
      let a ← a.applySubst span fr
      let b ← b.applySubst span fr
      return .rel op a b
  | _, .un op a, fr => do return .un op (← a.applySubst span fr)
  | _, .embed a, fr => do return .embed (← a.applySubst span fr)
  | _, .iverson a, fr => do return .iverson (← a.applySubst span fr)
  | _, .cast c a, fr => do return .cast c (← a.applySubst span fr)
  | _, .quant op h vs a, fr => do
      let (vs', fr') ← pushQuant span vs fr
      let a ← a.applySubst span fr'
      return .quant op h vs' a
  | _, .subst x e a, fr => do
      let e ← e.applySubst span fr
      let fr' ← (fun c => (pushSubst fr x e).map (·, c) : PM TyCtx SubstFrame)
      a.applySubst span fr'

/-- `apply_subst` (`src/vc/subst.rs:144-148`). -/
def applySubstTop (span : Nat) {t : Ty} (e : Expr t) : PM TyCtx (Expr t) := e.applySubst span .empty

/-! ## Correctness -/

/-- Symbol tables only grow. -/
def Grows (c c' : TyCtx) : Prop := c.decls ⊆ c'.decls

theorem Grows.refl (c : TyCtx) : Grows c c := fun _ h => h
theorem Grows.trans {c c' c'' : TyCtx} (h : Grows c c') (h' : Grows c' c'') : Grows c c'' := fun _ hx => h' (h hx)

/-- Invariant of the frame: the substituted expressions contain no substitutions, only declared variables, and
all of their variables which may be captured (`B`: the variables occurring in the expression still to
be visited) are recorded in `free_vars`. -/
structure FrameOk (fr : SubstFrame) (c : TyCtx) (B : Var → Prop) : Prop where
  noSubst : ∀ v e, fr.substs v = some e → e.NoSubst
  declared : ∀ v e, fr.substs v = some e → ∀ w, e.Free w → w.id ∈ c.decls
  capture : ∀ v e, fr.substs v = some e → ∀ w, e.Free w → w ∈ fr.freeVars ∨ ¬ B w

theorem FrameOk.mono {fr : SubstFrame} {c c' : TyCtx} {B B' : Var → Prop} (h : FrameOk fr c B)
    (hc : Grows c c') (hB : ∀ w, B' w → B w) : FrameOk fr c' B' :=
  ⟨h.noSubst, fun v e he w hw => hc (h.declared v e he w hw),
    fun v e he w hw => (h.capture v e he w hw).imp_right fun hn hb => hn (hB w hb)⟩

theorem FrameOk.empty (c : TyCtx) (B : Var → Prop) : FrameOk .empty c B :=
  ⟨fun _ _ h => (nomatch h), fun _ _ h => (nomatch h), fun _ _ h => (nomatch h)⟩

section
variable [Doms] [Interp]
set_option linter.unusedSectionVars false

/-- The state seen by an expression under the substitutions of a frame. -/
noncomputable def SubstFrame.apply (fr : SubstFrame) (σ : Env) : Env := fun v =>
  match fr.substs v with
  | some e => e.eval σ
  | none => σ v

/-- What holds of the result `e'` of visiting `e`. -/
def GoodSubst (fr : SubstFrame) {t : Ty} (e e' : Expr t) (c' : TyCtx) : Prop :=
  e'.NoSubst ∧ (∀ v, e'.Free v → v.id ∈ c'.decls) ∧
    ∀ σ τ : Env, (∀ v, e.Free v → τ v = fr.apply σ v) → e'.eval σ = e.eval τ

theorem GoodSubst.grow {fr : SubstFrame} {t : Ty} {e e' : Expr t} {c c' : TyCtx} (h : GoodSubst fr e e' c)
    (hc : Grows c c') : GoodSubst fr e e' c' := ⟨h.1, fun v hv => hc (h.2.1 v hv), h.2.2⟩

theorem insert_same (fr : SubstFrame) (x : Var) (e : Expr x.ty) : (fr.insert x e).substs x = some e := by
  simp [SubstFrame.insert]
theorem insert_ne (fr : SubstFrame) {x v : Var} (e : Expr x.ty) (h : v ≠ x) : (fr.insert x e).substs v = fr.substs v := by
  simp [SubstFrame.insert, h]
theorem remove_same (fr : SubstFrame) (x : Var) : (fr.remove x).substs x = none := by simp [SubstFrame.remove]
theorem remove_ne (fr : SubstFrame) {x v : Var} (h : v ≠ x) : (fr.remove x).substs v = fr.substs v := by
  simp [SubstFrame.remove, h]

/-- `push_quant`: the frame invariant is kept, and quantifying over the new variables under the new frame corresponds
to quantifying over the old variables under the old frame. -/
theorem pushQuant_spec (span : Nat) (B F : Var → Prop) (hFB : ∀ v, F v → B v) (qs : List QVar) :
    ∀ (fr : SubstFrame) (c : TyCtx), FrameOk fr c B → (∀ v, B v → v.id ∈ c.decls) →
      (∀ v ∈ qs.map QVar.var, B v) →
    Tot (pushQuant span qs fr) c fun r c' => Grows c c' ∧ FrameOk r.2 c' B ∧
      (∀ v ∈ r.1.map QVar.var, v.id ∈ c'.decls) ∧
      (∀ (op : QOp) (t : Ty) (P : Env → Prop) (f g : Env → t.den),
        (∀ σ, P σ → ∀ v ∈ r.1.map QVar.var, ∀ a, P (σ.upd v a)) →
        (∀ σ τ : Env, P σ → (∀ v, F v → τ v = r.2.apply σ v) → f σ = g τ) →
        ∀ σ τ : Env, P σ → (∀ v, F v → v ∉ qs.map QVar.var → τ v = fr.apply σ v) →
          quantVars op t (r.1.map QVar.var) f σ = quantVars op t (qs.map QVar.var) g τ) := by
  induction qs with
  | nil =>
    intro fr c hfr _ _
    refine Tot.pure ⟨Grows.refl c, hfr, by simp, fun op t P f g _ h σ τ hP hst => ?_⟩
    exact h σ τ hP fun v hv => hst v hv (by simp)
  | cons q qs ih =>
    intro fr c hfr hB hqs
    have hq : B q.var := hqs _ (by simp)
    have hqs' : ∀ v ∈ qs.map QVar.var, B v := fun v hv => hqs v (by simp at hv ⊢; exact Or.inr hv)
    unfold pushQuant
    by_cases hm : q.var ∈ fr.freeVars
    · rw [if_pos hm]
      obtain ⟨w, c1, h1, hw, hd⟩ := c.cloneVar_some q.var span (hB _ hq)
      have hg1 : Grows c c1 := fun x hx => by rw [hd]; exact List.mem_cons_of_mem _ hx
      have hwB : ∀ u : Var, u.id = w → ¬ B u := fun u hu hb => hw (hu ▸ hB u hb)
      refine Tot.bind (Q := fun a s' => a = ⟨w, q.var.ty⟩ ∧ c1 = s') ⟨_, _, h1, rfl, rfl⟩ ?_
      rintro _ _ ⟨rfl, rfl⟩
      have hfr2 : FrameOk ((fr.remove q.var).insert q.var (.var w)) c1 B := by
        refine ⟨fun v e he => ?_, fun v e he u hu => ?_, fun v e he u hu => ?_⟩
        · by_cases hv : v = q.var
          · subst hv
            rw [insert_same] at he; cases he; trivial
          · rw [insert_ne _ _ hv] at he
            rw [remove_ne _ hv] at he
            exact hfr.noSubst v e he
        · by_cases hv : v = q.var
          · subst hv
            rw [insert_same] at he; cases he
            have : u = ⟨w, q.var.ty⟩ := hu
            rw [this, hd]; exact List.mem_cons_self
          · rw [insert_ne _ _ hv] at he
            rw [remove_ne _ hv] at he
            exact hg1 (hfr.declared v e he u hu)
        · by_cases hv : v = q.var
          · subst hv
            rw [insert_same] at he; cases he
            have : u = ⟨w, q.var.ty⟩ := hu
            exact Or.inr (hwB u (by rw [this]))
          · rw [insert_ne _ _ hv] at he
            rw [remove_ne _ hv] at he
            exact hfr.capture v e he u hu
      refine Tot.bind (ih _ c1 hfr2 (fun v hv => hg1 (hB v hv)) hqs') fun r c2 h2 => ?_
      obtain ⟨hg2, hfr3, hdecl, hsem⟩ := h2
      refine Tot.pure ⟨hg1.trans hg2, hfr3, ?_, fun op t P f g hPu hfg σ τ hP hst => ?_⟩
      · intro v hv
        simp only [List.map_cons, List.mem_cons] at hv
        rcases hv with rfl | hv
        · exact hg2 (by rw [hd]; exact List.mem_cons_self)
        · exact hdecl v hv
      · show op.den t _ = op.den t _
        congr 1
        funext a
        refine hsem op t P f g (fun σ h v hv a => hPu σ h v (List.mem_cons_of_mem _ hv) a) hfg _ _
          (hPu σ hP _ List.mem_cons_self a) fun v hv hn => ?_
        by_cases hvq : v = q.var
        · subst hvq
          simp only [SubstFrame.apply, insert_same, Env.upd_same]
          exact (Env.upd_same σ ⟨w, q.var.ty⟩ a).symm
        · rw [Env.upd_ne _ hvq, hst v hv (by simp only [List.map_cons, List.mem_cons, not_or]; exact ⟨hvq, hn⟩)]
          simp only [SubstFrame.apply, insert_ne _ _ hvq]
          rw [remove_ne _ hvq]
          have hvw : v ≠ ⟨w, q.var.ty⟩ := fun h => hwB v (by rw [h]) (hFB v hv)
          cases hs : fr.substs v with
          | none => exact (Env.upd_ne σ hvw a).symm
          | some e =>
            apply Expr.eval_congr
            intro u hu
            have : u ≠ ⟨w, q.var.ty⟩ := fun h => hw (by have := hfr.declared v e hs u hu; rwa [h] at this)
            exact (Env.upd_ne σ this a).symm
    · rw [if_neg hm]
      have hfr2 : FrameOk (fr.remove q.var) c B := by
        refine ⟨fun v e he => ?_, fun v e he u hu => ?_, fun v e he u hu => ?_⟩
        all_goals
          by_cases hv : v = q.var
          · subst hv
            rw [remove_same] at he; cases he
          · rw [remove_ne _ hv] at he
            first
            | exact hfr.noSubst v e he
            | exact hfr.declared v e he u hu
            | exact hfr.capture v e he u hu
      refine Tot.bind (ih _ c hfr2 hB hqs') fun r c2 h2 => ?_
      obtain ⟨hg2, hfr3, hdecl, hsem⟩ := h2
      refine Tot.pure ⟨hg2, hfr3, ?_, fun op t P f g hPu hfg σ τ hP hst => ?_⟩
      · intro v hv
        simp only [List.map_cons, List.mem_cons] at hv
        rcases hv with rfl | hv
        · exact hg2 (hB _ hq)
        · exact hdecl v hv
      · show op.den t _ = op.den t _
        congr 1
        funext a
        refine hsem op t P f g (fun σ h v hv a => hPu σ h v (List.mem_cons_of_mem _ hv) a) hfg _ _
          (hPu σ hP _ List.mem_cons_self a) fun v hv hn => ?_
        by_cases hvq : v = q.var
        · subst hvq
          simp only [SubstFrame.apply, remove_same, Env.upd_same]
        · rw [Env.upd_ne _ hvq, hst v hv (by simp only [List.map_cons, List.mem_cons, not_or]; exact ⟨hvq, hn⟩)]
          simp only [SubstFrame.apply]
          rw [remove_ne _ hvq]
          cases hs : fr.substs v with
          | none => exact (Env.upd_ne σ hvq a).symm
          | some e =>
            apply Expr.eval_congr
            intro u hu
            have : u ≠ q.var := fun h => by
              rcases hfr.capture v e hs u hu with h1 | h1
              · exact hm (h ▸ h1)
              · exact h1 (h ▸ hq)
            exact (Env.upd_ne σ this a).symm

/-- `push_subst` keeps the invariant. -/
theorem pushSubst_spec {fr : SubstFrame} {c : TyCtx} {B : Var → Prop} (hfr : FrameOk fr c B) (x : Var)
    (e : Expr x.ty) (hn : e.NoSubst) (hd : ∀ v, e.Free v → v.id ∈ c.decls) :
    ∃ fr', pushSubst fr x e = some fr' ∧ fr'.substs = (fr.insert x e).substs ∧ FrameOk fr' c B := by
  obtain ⟨vars, h1, h2⟩ := e.collect_spec hn []
  refine ⟨{ fr.insert x e with freeVars := fr.freeVars ++ vars }, by simp [pushSubst, h1], rfl, ?_⟩
  refine ⟨fun v e' he => ?_, fun v e' he u hu => ?_, fun v e' he u hu => ?_⟩
  all_goals
    by_cases hv : v = x
    · subst hv
      change (fr.insert v e).substs v = some e' at he
      rw [insert_same] at he
      cases he
      first
      | exact hn
      | exact hd u hu
      | exact Or.inl (List.mem_append_right _ ((h2 u).2 (Or.inr hu)))
    · change (fr.insert x e).substs v = some e' at he
      rw [insert_ne _ _ hv] at he
      first
      | exact hfr.noSubst v e' he
      | exact hfr.declared v e' he u hu
      | exact (hfr.capture v e' he u hu).imp_left (List.mem_append_left _)

/-- Visiting an expression eliminates the substitutions and evaluates like the original under the frame. -/
theorem applySubst_spec (span : Nat) {t : Ty} (e : Expr t) : ∀ (fr : SubstFrame) (c : TyCtx),
    FrameOk fr c e.Occurs → (∀ v, e.Occurs v → v.id ∈ c.decls) →
    Tot (e.applySubst span fr) c fun e' c' => Grows c c' ∧ GoodSubst fr e e' c' := by
  induction e with
  | @var t x =>
    intro fr c hfr hc
    unfold Expr.applySubst
    cases hs : fr.substs ⟨x, t⟩ with
    | some e =>
      refine Tot.pure ⟨Grows.refl c, hfr.noSubst _ _ hs, hfr.declared _ _ hs, fun σ τ h => ?_⟩
      rw [Expr.eval_var, h _ rfl, SubstFrame.apply, hs]
    | none =>
      refine Tot.pure ⟨Grows.refl c, trivial, ?_, fun σ τ h => ?_⟩
      · rintro v rfl; exact hc _ rfl
      · rw [Expr.eval_var, Expr.eval_var, h _ rfl, SubstFrame.apply, hs]
  | lit l =>
    intro fr c hfr hc
    exact Tot.pure ⟨Grows.refl c, trivial, fun v hv => hv.elim, fun σ τ h => rfl⟩
  | call f args ih =>
    intro fr c hfr hc
    unfold Expr.applySubst
    refine Tot.bind (Tot.traverse Grows Grows.refl (fun _ _ _ => Grows.trans) _
      (fun i e' c' => GoodSubst fr (args i) e' c') (fun i b s s' h1 h2 => h1.grow h2) c
      fun i c' hc' => ih i fr c' (hfr.mono hc' fun w hw => ⟨i, hw⟩) fun v hv => hc' (hc v ⟨i, hv⟩))
      fun args' c' h => Tot.pure ⟨h.1, fun i => (h.2 i).1, ?_, fun σ τ hst => ?_⟩
    · rintro v ⟨i, hi⟩; exact (h.2 i).2.1 v hi
    · rw [Expr.eval_call, Expr.eval_call]
      congr 1
      funext i
      exact (h.2 i).2.2 σ τ fun v hv => hst v ⟨i, hv⟩
  | ite x a b ih1 ih2 ih3 =>
    intro fr c hfr hc
    unfold Expr.applySubst
    refine Tot.bind (ih1 fr c (hfr.mono (Grows.refl c) fun w => Or.inl) fun v hv => hc v (Or.inl hv))
      fun x' c1 h1 => ?_
    refine Tot.bind (ih2 fr c1 (hfr.mono h1.1 fun w hw => Or.inr (Or.inl hw))
      fun v hv => h1.1 (hc v (Or.inr (Or.inl hv)))) fun a' c2 h2 => ?_
    have h12 := h1.1.trans h2.1
    refine Tot.bind (ih3 fr c2 (hfr.mono h12 fun w hw => Or.inr (Or.inr hw))
      fun v hv => h12 (hc v (Or.inr (Or.inr hv)))) fun b' c3 h3 => ?_
    have g1 := h1.2.grow (h2.1.trans h3.1)
    have g2 := h2.2.grow h3.1
    refine Tot.pure ⟨h12.trans h3.1, ⟨g1.1, g2.1, h3.2.1⟩, ?_, fun σ τ hst => ?_⟩
    · rintro v (hv | hv | hv)
      · exact g1.2.1 v hv
      · exact g2.2.1 v hv
      · exact h3.2.2.1 v hv
    · rw [Expr.eval_ite, Expr.eval_ite, g1.2.2 σ τ fun v hv => hst v (Or.inl hv),
        g2.2.2 σ τ fun v hv => hst v (Or.inr (Or.inl hv)), h3.2.2.2 σ τ fun v hv => hst v (Or.inr (Or.inr hv))]
  | bin op a b ih1 ih2 =>
    intro fr c hfr hc
    unfold Expr.applySubst
    refine Tot.bind (ih1 fr c (hfr.mono (Grows.refl c) fun w => Or.inl) fun v hv => hc v (Or.inl hv))
      fun x' c1 h1 => ?_
    refine Tot.bind (ih2 fr c1 (hfr.mono h1.1 fun w hw => Or.inr hw)
      fun v hv => h1.1 (hc v (Or.inr hv))) fun a' c2 h2 => ?_
    have g1 := h1.2.grow h2.1
    refine Tot.pure ⟨h1.1.trans h2.1, ⟨g1.1, h2.2.1⟩, ?_, fun σ τ hst => ?_⟩
    · rintro v (hv | hv)
      · exact g1.2.1 v hv
      · exact h2.2.2.1 v hv
    · rw [Expr.eval_bin, Expr.eval_bin, g1.2.2 σ τ fun v hv => hst v (Or.inl hv),
        h2.2.2.2 σ τ fun v hv => hst v (Or.inr hv)]
  | rel op a b ih1 ih2 =>
    intro fr c hfr hc
    unfold Expr.applySubst
    refine Tot.bind (ih1 fr c (hfr.mono (Grows.refl c) fun w => Or.inl) fun v hv => hc v (Or.inl hv))
      fun x' c1 h1 => ?_
    refine Tot.bind (ih2 fr c1 (hfr.mono h1.1 fun w hw => Or.inr hw)
      fun v hv => h1.1 (hc v (Or.inr hv))) fun a' c2 h2 => ?_
    have g1 := h1.2.grow h2.1
    refine Tot.pure ⟨h1.1.trans h2.1, ⟨g1.1, h2.2.1⟩, ?_, fun σ τ hst => ?_⟩
    · rintro v (hv | hv)
      · exact g1.2.1 v hv
      · exact h2.2.2.1 v hv
    · rw [Expr.eval_rel, Expr.eval_rel, g1.2.2 σ τ fun v hv => hst v (Or.inl hv),
        h2.2.2.2 σ τ fun v hv => hst v (Or.inr hv)]
  | un op a ih =>
    intro fr c hfr hc
    unfold Expr.applySubst
    refine Tot.bind (ih fr c hfr hc) fun x' c1 h1 => Tot.pure ⟨h1.1, h1.2.1, h1.2.2.1, fun σ τ hst => ?_⟩
    rw [Expr.eval_un, Expr.eval_un, h1.2.2.2 σ τ hst]
  | embed a ih =>
    intro fr c hfr hc
    unfold Expr.applySubst
    refine Tot.bind (ih fr c hfr hc) fun x' c1 h1 => Tot.pure ⟨h1.1, h1.2.1, h1.2.2.1, fun σ τ hst => ?_⟩
    rw [Expr.eval_embed, Expr.eval_embed, h1.2.2.2 σ τ hst]
  | iverson a ih =>
    intro fr c hfr hc
    unfold Expr.applySubst
    refine Tot.bind (ih fr c hfr hc) fun x' c1 h1 => Tot.pure ⟨h1.1, h1.2.1, h1.2.2.1, fun σ τ hst => ?_⟩
    rw [Expr.eval_iverson, Expr.eval_iverson, h1.2.2.2 σ τ hst]
  | cast op a ih =>
    intro fr c hfr hc
    unfold Expr.applySubst
    refine Tot.bind (ih fr c hfr hc) fun x' c1 h1 => Tot.pure ⟨h1.1, h1.2.1, h1.2.2.1, fun σ τ hst => ?_⟩
    rw [Expr.eval_cast, Expr.eval_cast, h1.2.2.2 σ τ hst]
  | @quant t op hl vs a ih =>
    intro fr c hfr hc
    unfold Expr.applySubst
    refine Tot.bind (pushQuant_spec span (Expr.Occurs · (.quant op hl vs a)) (Expr.Free · a)
      (fun v hv => Or.inl hv.occurs) vs fr c hfr hc fun v hv => Or.inr hv) fun r c1 h1 => ?_
    obtain ⟨hg1, hfr1, hdecl, hsem⟩ := h1
    refine Tot.bind (ih r.2 c1 (hfr1.mono (Grows.refl _) fun w hw => Or.inl hw)
      fun v hv => hg1 (hc v (Or.inl hv))) fun a' c2 h2 => ?_
    refine Tot.pure ⟨hg1.trans h2.1, h2.2.1, fun v hv => h2.2.2.1 v hv.1, fun σ τ hst => ?_⟩
    rw [Expr.eval_quant, Expr.eval_quant]
    exact hsem op t (fun _ => True) _ _ (fun _ _ _ _ _ => trivial) (fun σ' τ' _ h => h2.2.2.2 σ' τ' h) σ τ trivial fun v hv hn => hst v ⟨hv, hn⟩
  | subst x e a ih1 ih2 =>
    intro fr c hfr hc
    unfold Expr.applySubst
    refine Tot.bind (ih1 fr c (hfr.mono (Grows.refl c) fun w => Or.inl) fun v hv => hc v (Or.inl hv))
      fun e' c1 h1 => ?_
    obtain ⟨fr', h2, h3, h4⟩ := pushSubst_spec (hfr.mono h1.1 fun _ h => h) x e' h1.2.1 h1.2.2.1
    refine Tot.bind (Q := fun f s => f = fr' ∧ c1 = s) ⟨fr', c1, by simp [h2], rfl, rfl⟩ ?_
    rintro _ _ ⟨rfl, rfl⟩
    refine Tot.mono (ih2 _ _ (h4.mono (Grows.refl _) fun w hw => Or.inr (Or.inl hw))
      fun v hv => h1.1 (hc v (Or.inr (Or.inl hv)))) fun a' c2 h5 => ?_
    refine ⟨h1.1.trans h5.1, h5.2.1, h5.2.2.1, fun σ τ hst => ?_⟩
    rw [Expr.eval_subst]
    apply h5.2.2.2
    intro v hv
    by_cases hvx : v = x
    · subst hvx
      rw [Env.upd_same, SubstFrame.apply, h3, insert_same]
      exact (h1.2.2.2 σ τ fun v hv => hst v (Or.inl hv)).symm
    · rw [Env.upd_ne _ hvx, hst v (Or.inr ⟨hv, hvx⟩)]
      simp only [SubstFrame.apply, h3, insert_ne _ _ hvx]

end
end Caesar
