import Verif.Driver.RunUnit
import Verif.Props.C50

/-!
# What the SMT query of a unit says
-/

namespace Caesar.Smt
set_option linter.unusedSectionVars false
open Slicing

section
variable [Doms] [Interp] [SmtInterp]

/-- Only new locals of type `Bool`, and no new constraints. -/
structure AddsBools (st st' : TState) : Prop where
  inv : Inv st'
  step : Step (fun v => v.ty = .bool) st st'
  global : st'.global = st.global

theorem AddsBools.refl {st : TState} (h : Inv st) : AddsBools st st := ⟨h, .refl _ _, rfl⟩

theorem AddsBools.trans {a b c : TState} (h : AddsBools a b) (h' : AddsBools b c) : AddsBools a c :=
  ⟨h'.inv, h.step.trans h'.step (fun _ h => h) fun _ h => h, h'.global.trans h.global⟩

theorem remember_global {t : Ty} (e : Expr t) (r : Term t) (st : TState) : (TState.remember e r st).global = st.global := by
  unfold TState.remember
  split <;> rfl

theorem getLocal_keeps_global {v : Var} {st st' : TState} {n : Nat} (h : TState.getLocal v st = some (n, st')) : st'.global = st.global := by
  unfold TState.getLocal at h
  split at h
  · cases h; rfl
  · split at h
    · cases h
    · obtain ⟨l, -, h⟩ := Option.bind_eq_some_iff.1 h
      cases h; rfl

theorem cached_keeps_global {O : Oracle} {t : Ty} {e : Expr t} {act : TState → Option (Term t × TState)}
    (ha : ∀ st r st', act st = some (r, st') → st'.global = st.global) {st st' : TState} {r : Term t}
    (h : TState.cached O e act st = some (r, st')) : st'.global = st.global := by
  unfold TState.cached at h
  split at h
  · exact ha _ _ _ h
  · split at h
    · cases h; rfl
    · obtain ⟨⟨r1, st1⟩, h1, h⟩ := Option.bind_eq_some_iff.1 h
      cases h
      split
      · exact (remember_global _ _ _).trans (ha _ _ _ h1)
      · exact ha _ _ _ h1

theorem trans_var_global {O : Oracle} {i : Ident} {st st' : TState} {r : Term .bool}
    (h : trans O (.var i : Expr .bool) st = some (r, st')) : st'.global = st.global := by
  unfold trans at h
  refine cached_keeps_global (fun st r st' h => ?_) h
  obtain ⟨⟨n, st1⟩, h1, h⟩ := Option.bind_eq_some_iff.1 h
  cases h
  exact getLocal_keeps_global h1

theorem trans_or_global {O : Oracle} {i j : Ident} {st st' : TState} {r : Term .bool}
    (h : trans O (.bin .or (.var i) (.var j) : Expr .bool) st = some (r, st')) : st'.global = st.global := by
  rw [trans] at h
  refine cached_keeps_global (fun st r st' h => ?_) h
  obtain ⟨⟨a, st1⟩, h1, h⟩ := Option.bind_eq_some_iff.1 h
  obtain ⟨⟨b, st2⟩, h2, h⟩ := Option.bind_eq_some_iff.1 h
  obtain ⟨f, -, h⟩ := Option.bind_eq_some_iff.1 h
  cases h
  exact (trans_var_global h2).trans (trans_var_global h1)

theorem transVars_spec (F : Faithful) (O : Oracle) : ∀ (stmts : List SliceStmt) {st st' : TState} {xs : List (SliceStmt × Term .bool)}, Inv st →
    transVars O stmts st = some (xs, st') → AddsBools st st' ∧ xs.map Prod.fst = stmts ∧ ∀ x ∈ xs, Good st' (.var x.1.ident : Expr .bool) x.2
  | [], st, st', xs, hI, h => by
    cases h
    exact ⟨.refl hI, rfl, fun x hx => nomatch hx⟩
  | s :: ss, st, st', xs, hI, h => by
    obtain ⟨⟨x, st1⟩, h1, h⟩ := Option.bind_eq_some_iff.1 h
    obtain ⟨⟨xs, st2⟩, h2, h⟩ := Option.bind_eq_some_iff.1 h
    cases h
    have hP := trans_post F O (.var s.ident : Expr .bool) trivial hI h1
    obtain ⟨ha, hm, hg⟩ := transVars_spec F O ss hP.inv h2
    have h0 : AddsBools st st1 := ⟨hP.inv, hP.step.mono fun v hv => (by cases hv; rfl), trans_var_global h1⟩
    refine ⟨h0.trans ha, congrArg (s :: ·) hm, fun x hx => ?_⟩
    rcases List.mem_cons.1 hx with rfl | hx
    · exact hP.good.mono ha.step
    · exact hg x hx

theorem transAll_spec (F : Faithful) (O : Oracle) : ∀ (cs : List (Expr .bool)) {st st' : TState} {xs : List (Term .bool)}, Inv st →
    (∀ c ∈ cs, ∃ i j : Ident, c = .bin .or (.var i) (.var j)) → transAll O cs st = some (xs, st') →
    AddsBools st st' ∧ List.Forall₂ (fun c x => Good st' c x) cs xs
  | [], st, st', xs, hI, hc, h => by
    cases h
    exact ⟨.refl hI, .nil⟩
  | c :: cs, st, st', xs, hI, hc, h => by
    obtain ⟨⟨x, st1⟩, h1, h⟩ := Option.bind_eq_some_iff.1 h
    obtain ⟨⟨xs, st2⟩, h2, h⟩ := Option.bind_eq_some_iff.1 h
    cases h
    obtain ⟨i, j, rfl⟩ := hc c (List.mem_cons_self ..)
    have hP := trans_post F O (.bin .or (.var i) (.var j) : Expr .bool) ⟨trivial, trivial, fun _ => trivial⟩ hI h1
    obtain ⟨ha, hg⟩ := transAll_spec F O cs hP.inv (fun c h => hc c (List.mem_cons_of_mem _ h)) h2
    have h0 : AddsBools st st1 := ⟨hP.inv, hP.step.mono fun v hv => (by
      rcases hv with hv | hv <;> (cases hv; rfl)), trans_or_global h1⟩
    exact ⟨h0.trans ha, .cons (hP.good.mono ha.step) hg⟩

/-- An SMT model and a state agree on the formula, the slice variables, and the constraints. -/
structure SliceQuery.Matches (q : SliceQuery) (b : Expr .bool) (cs : List (Expr .bool)) (M : Model) (σ : Env) : Prop where
  vc : (show Prop from q.vc M) ↔ b.tv σ
  vars : ∀ x ∈ q.vars, (show Prop from x.2 M) ↔ (.var x.1.ident : Expr .bool).tv σ
  constraints : (∀ x ∈ q.constraints, (show Prop from x M)) ↔ ∀ c ∈ cs, c.tv σ

theorem forall₂_good {st : TState} {cs : List (Expr .bool)} {xs : List (Term .bool)} {M : Model} {σ : Env}
    (h : List.Forall₂ (fun c x => Good st c x) cs xs) (hg : ∀ (c : Expr .bool) (x : Term .bool), Good st c x → ((show Prop from x M) ↔ c.tv σ)) :
    (∀ x ∈ xs, (show Prop from x M)) ↔ ∀ c ∈ cs, c.tv σ := by
  induction h with
  | nil => exact ⟨fun _ c hc => (nomatch hc), fun _ c hc => (nomatch hc)⟩
  | cons h _ ih => rw [List.forall_mem_cons, List.forall_mem_cons, ih, hg _ _ h]

/-- Each state is given by an SMT model, and each SMT model which satisfies the constraints of the prover gives a state. -/
theorem mkQuery_spec (F : Faithful) (O : Oracle) {b : Expr .bool} (hfin : FinSub b) {stmts : List SliceStmt} {cs : List (Expr .bool)}
    (hcs : ∀ c ∈ cs, ∃ i j : Ident, c = .bin .or (.var i) (.var j)) {q : SliceQuery} (h : mkQuery O b stmts cs = some q) :
    q.vars.map Prod.fst = stmts ∧ (∀ σ, ∃ M, Respects q.st M ∧ q.Matches b cs M σ) ∧ ∀ M, Respects q.st M → ∃ σ, q.Matches b cs M σ := by
  obtain ⟨⟨vc, st1⟩, h1, h⟩ := Option.bind_eq_some_iff.1 h
  obtain ⟨⟨vars, st2⟩, h2, h⟩ := Option.bind_eq_some_iff.1 h
  obtain ⟨⟨xs, st3⟩, h3, h⟩ := Option.bind_eq_some_iff.1 h
  cases h
  have hP := trans_post F O b hfin inv_new h1
  obtain ⟨a2, hm, g2⟩ := transVars_spec F O stmts hP.inv h2
  obtain ⟨a3, g3⟩ := transAll_spec F O cs a2.inv hcs h3
  have a := a2.trans a3
  have hq : st3.quants.flatten = [] := by rw [a.step.quants, hP.step.quants]; rfl
  have key : ∀ M σ, Sat st3 M → Rel st3 M σ → SliceQuery.Matches ⟨vc, st1, vars, xs⟩ b cs M σ := by
    intro M σ hS hR
    have hg : ∀ (c : Expr .bool) x, Good st3 c x → ((show Prop from x M) ↔ c.tv σ) := fun c x h =>
      h.2.2 M σ hS hR fun s hs => by rw [hq] at hs; cases hs
    exact ⟨hg _ _ (hP.good.mono a.step), fun x hx => hg _ _ ((g2 x hx).mono a3.step), forall₂_good g3 hg⟩
  refine ⟨hm, fun σ => ?_, fun M hM => ?_⟩
  · have hex : ∀ n t, ∃ x : SVal t, inv t x ∧ ∀ v, st3.locals.get v = some n → ∀ h : v.ty = t, Rep t x (h ▸ σ v) := by
      intro n t
      by_cases h : ∃ v, st3.locals.get v = some n ∧ v.ty = t
      · obtain ⟨v, hn, rfl⟩ := h
        obtain ⟨x, hx, hr⟩ := rep_inv (a.inv.noList v n hn) (σ v)
        refine ⟨x, hx, fun w hwn h => ?_⟩
        obtain rfl := a.inv.inj v w n hn hwn
        exact hr
      · obtain ⟨x, hx⟩ := inv_exists t
        exact ⟨x, hx, fun v hn ht => absurd ⟨v, hn, ht⟩ h⟩
    choose f hf hr using hex
    obtain ⟨M, hv, _, hS⟩ := hP.cons ⟨f, fun _ _ => Pair.zero⟩ (fun n t => hf n t) fun A hA => by cases hA
    have hi : ∀ n t, inv t (M.val n t) := fun n t => by rw [hv]; exact hf n t
    refine ⟨M, ⟨hS, fun v n _ => hi n v.ty⟩, key M σ (fun A hA => hS A (a.global ▸ hA)) fun v n hn => ⟨hi n v.ty, ?_⟩⟩
    rw [hv]
    exact hr n v.ty v hn rfl
  · obtain ⟨σ, hσ⟩ := a.inv.exists_rel (M := M) fun v n hn => by
      rcases a.step.dom v n hn with h | h
      · exact hM.2 v n h
      · obtain ⟨i, t⟩ := v
        cases h
        trivial
    exact ⟨σ, key M σ (fun A hA => hM.1 A (a.global ▸ hA)) hσ⟩

end

end Caesar.Smt
