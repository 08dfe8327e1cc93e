import Verif.Mc.Value
import Verif.Mc.Enc
import Verif.Mc.ExprSound
import Verif.DistLemmas
import Verif.VcgenSound

/-!
# The value of the translated statement is its expectation
-/

open scoped ENNReal NNReal

namespace Caesar.Mc
set_option linter.unusedSectionVars false

variable [Fns]

/-- Variables declared with a constant initial value, with this value. -/
def pend : Stmt → List ((x : Var) × Expr x.ty)
  | .varInit x e => if isConstant e then [⟨x, e⟩] else []
  | .seq a b => pend a ++ pend b
  | .demonic a b => pend a ++ pend b
  | .angelic a b => pend a ++ pend b
  | .additive a b => pend a ++ pend b
  | .ite _ a b => pend a ++ pend b
  | .while _ s => pend s
  | .annot _ s => pend s
  | _ => []

/-- The variables in scope after a statement. -/
def scope (V : Var → Prop) : Stmt → Var → Prop
  | .varInit x _ => fun v => v = x ∨ V v
  | .sample true x (t := t) _ => fun v => v = ⟨x, t⟩ ∨ V v
  | .seq a b => scope (scope V a) b
  | .annot _ s => scope V s
  | _ => V

/-- A JANI variable with the name of `x` can be written: the name belongs to no other variable. `Q` are the variables which will
be declared with a constant initial value. -/
structure Writable (V : Var → Prop) (Q : List ((x : Var) × Expr x.ty)) (x : Var) : Prop where
  inj : ∀ v, V v → v.id.name = x.id.name → v = x
  fresh : ∀ q ∈ Q, q.1.id.name ≠ x.id.name
  reward : x.id.name ≠ rewardVar
  ty : isJaniTy x.ty = true

/-- The variables in the argument of a distribution are in `V`. -/
def distOk (V : Var → Prop) : {t : Ty} → DistCall t → Prop
  | _, .flip p => ExprOk V p
  | _, _ => True

/-- Variables are declared before use and have the types of JANI; names are unique. -/
def Scoped : Stmt → (Var → Prop) → List ((x : Var) × Expr x.ty) → Prop
  | .seq a b, V, Q => Scoped a V (pend b ++ Q) ∧ Scoped b (scope V a) Q
  | .varInit x e, V, Q => if isConstant e then isJaniTy x.ty = true else ExprOk V e ∧ Writable V Q x
  | .assign x e, V, Q => ExprOk V e ∧ Writable V Q x
  | .sample _ x (t := t) d, V, Q => Writable V Q ⟨x, t⟩ ∧ distOk V d
  | .assert _ e, V, _ => ExprOk V e
  | .assume _ e, V, _ => ExprOk V e
  | .tick e, V, _ => ExprOk V e
  | .demonic a b, V, Q => Scoped a V Q ∧ Scoped b V Q
  | .angelic a b, V, Q => Scoped a V Q ∧ Scoped b V Q
  | .ite c a b, V, Q => ExprOk V c ∧ Scoped a V Q ∧ Scoped b V Q
  | .while c s, V, Q => ExprOk V c ∧ Scoped s V Q
  | .annot _ s, V, Q => Scoped s V Q
  | _, _, _ => True

/-- No loop declares a variable with a constant initial value; no Boolean `coassert`; the distributions are the documented
ones (see C06). -/
def Supported : Stmt → Prop
  | .seq a b => Supported a ∧ Supported b
  | .sample _ _ d => d.Good ∧ d.apply ≠ .ok []
  | .assert d e => d = .up → extractEmbed e = none
  | .demonic a b => Supported a ∧ Supported b
  | .angelic a b => Supported a ∧ Supported b
  | .ite _ a b => Supported a ∧ Supported b
  | .while _ s => pend s = [] ∧ Supported s
  | .annot _ s => Supported s
  | _ => True

section
variable [Doms] [Interp] [JOps]

/-- The JANI state has the values of the variables in scope, and the initial values of those declared later on. -/
structure Rel (V : Var → Prop) (Q : List ((x : Var) × Expr x.ty)) (σ : Env) (s : JState) : Prop where
  vars : Rep V σ s
  pend : ∀ q ∈ Q, s q.1.id.name = toJ q.1.ty (q.2.eval σ)

theorem Rel.mono {V V' : Var → Prop} {Q Q' : List ((x : Var) × Expr x.ty)} {σ : Env} {s : JState} (h : Rel V Q σ s)
    (hV : ∀ v, V' v → V v) (hQ : ∀ q ∈ Q', q ∈ Q) : Rel V' Q' σ s :=
  ⟨fun v hv => h.vars v (hV v hv), fun q hq => h.pend q (hQ q hq)⟩

theorem le_scope (V : Var → Prop) (S : Stmt) : ∀ v, V v → scope V S v := by
  induction S generalizing V with
  | varInit => exact fun _ hv => .inr hv
  | sample b => cases b with
    | true => exact fun _ hv => .inr hv
    | false => exact fun _ hv => hv
  | seq a b iha ihb => exact fun v hv => ihb _ v (iha _ v hv)
  | annot _ s ih => exact ih V
  | _ => exact fun _ hv => hv

theorem pend_const (S : Stmt) : ∀ q ∈ pend S, isConstant q.2 = true := by
  induction S with
  | varInit x e =>
    intro q hq
    rw [pend] at hq
    split at hq
    next h => rw [List.mem_singleton.1 hq]; exact h
    next => cases hq
  | seq a b iha ihb | demonic a b iha ihb | angelic a b iha ihb | additive a b iha ihb | ite _ a b iha ihb =>
    exact fun q hq => (List.mem_append.1 hq).elim (iha q) (ihb q)
  | «while» _ s ih | annot _ s ih => exact ih
  | _ => intro q hq; cases hq

theorem eval_const {t : Ty} {e : Expr t} (h : isConstant e = true) (σ τ : Env) : e.eval σ = e.eval τ := by
  cases e with
  | lit l => rfl
  | _ => cases h

/-! ## One step of the automaton -/

theorem enabled_at {A : JAutomaton} {l : Loc} {es : List JEdge} (h : edgesAt A.edges l = es) (s : JState) :
    A.enabled l s = es.filter fun e => @decide (e.enabled s) (Classical.propDecidable _) := by
  classical
  rw [← h]
  unfold JAutomaton.enabled edgesAt
  rw [List.filter_filter]
  refine List.filter_congr fun e _ => ?_
  by_cases h1 : e.loc = l <;> by_cases h2 : e.enabled s <;> simp [h1, h2]

theorem expect_goto (X : Loc → JState → ℝ≥0∞) (a b : Loc) (g : Option JExpr) (s : JState) :
    JEdge.expect X ⟨a, g, [.goto b]⟩ s = X b s := by
  have h : (JDest.goto b).next s = s := by
    funext x
    unfold JDest.next
    split
    · rfl
    · rfl
  unfold JEdge.expect
  rw [List.map_singleton, List.sum_singleton, h]
  show 1 * (0 + X b s) = _
  rw [one_mul, zero_add]

theorem bellman_single {A : JAutomaton} {l : Loc} {ds : List JDest} (h : At A l [⟨l, none, ds⟩]) (d : Dir)
    (X : Loc → JState → ℝ≥0∞) (s : JState) : A.bellman d X l s = JEdge.expect X ⟨l, none, ds⟩ s := by
  have he : A.enabled l s = [⟨l, none, ds⟩] := by
    rw [enabled_at h.1]
    exact List.filter_eq_self.2 fun e he => by
      rw [List.mem_singleton.1 he]
      exact @decide_eq_true (JEdge.enabled _ s) (Classical.propDecidable _) trivial
  unfold JAutomaton.bellman
  rw [he, if_neg (by simp), JAutomaton.exitReward, h.2]
  cases d <;> simp [best]

theorem bellman_if {A : JAutomaton} {c : JExpr} {l a b : Loc} (h : EncIf A c l a b) (d : Dir)
    (X : Loc → JState → ℝ≥0∞) (s : JState) [Decidable (c.eval s).holds] :
    A.bellman d X l s = if (c.eval s).holds then X a s else X b s := by
  unfold JAutomaton.bellman
  rw [enabled_at h.1, JAutomaton.exitReward, h.2]
  by_cases hc : (c.eval s).holds
  · have h1 : (JEdge.fromToIf l a c).enabled s := hc
    have h2 : ¬ (JEdge.fromToIf l b (.not c)).enabled s := fun hn => hn hc
    rw [List.filter_cons_of_pos (by simpa using h1), List.filter_cons_of_neg (by simpa using h2), List.filter_nil,
      if_neg (by simp), if_pos hc]
    have := expect_goto X l a (some c) s
    cases d <;> simpa [best, JEdge.fromToIf] using this
  · have h1 : ¬ (JEdge.fromToIf l a c).enabled s := hc
    have h2 : (JEdge.fromToIf l b (.not c)).enabled s := hc
    rw [List.filter_cons_of_neg (by simpa using h1), List.filter_cons_of_pos (by simpa using h2), List.filter_nil,
      if_neg (by simp), if_neg hc]
    have := expect_goto X l b (some (.not c)) s
    cases d <;> simpa [best, JEdge.fromToIf] using this

theorem bellman_choice {A : JAutomaton} {l a b : Loc} (h : At A l [.fromTo l a, .fromTo l b]) (d : Dir)
    (X : Loc → JState → ℝ≥0∞) (s : JState) : A.bellman d X l s = match d with
      | .down => min (X a s) (X b s)
      | .up => max (X a s) (X b s) := by
  have he : A.enabled l s = [.fromTo l a, .fromTo l b] := by
    rw [enabled_at h.1]
    refine List.filter_eq_self.2 fun e he => ?_
    rcases List.mem_cons.1 he with h | h
    · rw [h]; exact @decide_eq_true (JEdge.enabled _ s) (Classical.propDecidable _) trivial
    · rw [List.mem_singleton.1 h]; exact @decide_eq_true (JEdge.enabled _ s) (Classical.propDecidable _) trivial
  unfold JAutomaton.bellman
  rw [he, if_neg (by simp), JAutomaton.exitReward, h.2]
  have ea := expect_goto X l a none s
  have eb := expect_goto X l b none s
  cases d
  · show 0 + min (JEdge.expect X _ s) (min (JEdge.expect X _ s) ⊤) = _
    rw [zero_add, min_top_right]
    exact congrArg₂ min ea eb
  · show 0 + max (JEdge.expect X _ s) (max (JEdge.expect X _ s) 0) = _
    rw [zero_add, max_eq_left zero_le]
    exact congrArg₂ max ea eb

/-! ## States -/

/-- The JANI state after writing one variable. -/
noncomputable def JState.set (s : JState) (x : String) (v : JVal) : JState := fun y => if y = x then v else s y

theorem next_assign {x : String} (hx : x ≠ rewardVar) (n : Loc) (p : Option JExpr) (e : JExpr) (s : JState) :
    JDest.next ⟨n, p, [(x, e)]⟩ s = s.set x (e.eval s) ∧ JDest.reward ⟨n, p, [(x, e)]⟩ s = 0 := by
  constructor
  · funext y
    unfold JDest.next JState.set
    by_cases hy : y = x
    · subst hy
      rw [if_neg hx, if_pos rfl]
      simp
    · rw [if_neg hy]
      split
      · rfl
      · have : (y == x) = false := by simpa using hy
        simp [List.lookup, this]
  · unfold JDest.reward
    have : (rewardVar == x) = false := by simpa using fun h => hx h.symm
    simp [List.lookup, this]

theorem next_reward (n : Loc) (p : Option JExpr) (e : JExpr) (s : JState) :
    JDest.next ⟨n, p, [(rewardVar, e)]⟩ s = s ∧ JDest.reward ⟨n, p, [(rewardVar, e)]⟩ s = e.weight s := by
  constructor
  · funext y
    unfold JDest.next
    by_cases hy : y = rewardVar
    · rw [if_pos hy]
    · rw [if_neg hy]
      have : (y == rewardVar) = false := by simpa using hy
      simp [List.lookup, this]
  · unfold JDest.reward
    simp [List.lookup]

theorem Rel.set {V : Var → Prop} {Q : List ((x : Var) × Expr x.ty)} {σ : Env} {s : JState} (h : Rel V Q σ s) {x : Var}
    (hw : Writable V Q x) (hQ : ∀ q ∈ Q, isConstant q.2 = true) (a : x.ty.den) :
    Rel (fun v => v = x ∨ V v) Q (σ.upd x a) (s.set x.id.name (toJ x.ty a)) := by
  constructor
  · intro v hv
    by_cases hx : v = x
    · subst hx
      show JState.set s _ _ _ = _
      rw [JState.set, if_pos rfl, Env.upd_same]
    · rw [JState.set, if_neg (fun hn => hx (hw.inj v (hv.resolve_left hx) hn)), Env.upd_ne _ hx]
      exact h.vars v (hv.resolve_left hx)
  · intro q hq
    rw [JState.set, if_neg (hw.fresh q hq), h.pend q hq, eval_const (hQ q hq) σ]

/-! ## Expressions -/

theorem weight_eq (hd : SameOps) {V : Var → Prop} (hV : ∀ v, V v → isJaniTy v.ty = true) {σ : Env} {s : JState}
    (hr : Rep V σ s) {e : Expr .eureal} {j : JExpr} (h : translate e = some j) (hok : ExprOk V e) : j.weight s = e.ev σ := by
  have := translate_eval hd hV hr e h hok
  rw [JExpr.weight, this.2.1]
  exact ENNReal.ofReal_toReal this.2.2

theorem cond_eq (hd : SameOps) {V : Var → Prop} (hV : ∀ v, V v → isJaniTy v.ty = true) {σ : Env} {s : JState}
    (hr : Rep V σ s) {c : Expr .bool} {j : JExpr} (h : translate c = some j) (hok : ExprOk V c) :
    (j.eval s).holds ↔ c.tv σ := by
  have := translate_eval hd hV hr c h hok
  rw [this.2.1]
  exact Iff.rfl

theorem embed_spec {e : Expr .eureal} {c : Expr .bool} (h : extractEmbed e = some c) :
    (∀ V, ExprOk V e → ExprOk V c) ∧ ∀ σ : Env, (c.tv σ → e.ev σ = ⊤) ∧ (¬ c.tv σ → e.ev σ = 0) := by
  unfold extractEmbed at h
  split at h
  next a =>
    cases h
    refine ⟨fun V hV => hV, fun σ => ?_⟩
    rw [Expr.ev_embed]
    exact ⟨fun hc => if_pos hc, fun hc => if_neg hc⟩
  next hp a =>
    cases h
    refine ⟨fun V hV => hV, fun σ => ?_⟩
    rw [Expr.tv_not, Expr.ev_not, Expr.ev_embed]
    by_cases hc : a.tv σ
    · exact ⟨fun hn => absurd hc hn, fun _ => by simp [hc]⟩
    · exact ⟨fun _ => by simp [hc], fun hn => absurd hc hn⟩
  next =>
    split at h
    next hb =>
      cases h
      refine ⟨fun _ _ => trivial, fun σ => ⟨fun hc => ?_, fun _ => Expr.eval_isBotLit rfl _ hb σ⟩⟩
      exact absurd hc (by rw [Expr.boolLit, Expr.tv_lit]; exact Bool.false_ne_true)
    next =>
      split at h
      next ht =>
        cases h
        refine ⟨fun _ _ => trivial, fun σ => ⟨fun _ => Expr.eval_isTopLit rfl _ ht σ, fun hc => ?_⟩⟩
        exact absurd (by rw [Expr.boolLit, Expr.tv_lit]) hc
      next => cases h

theorem assign_step (hd : SameOps) {V : Var → Prop} (hV : ∀ v, V v → isJaniTy v.ty = true) {σ : Env} {s : JState}
    (hr : Rep V σ s) {A : JAutomaton} {x : Var} (hx : x.id.name ≠ rewardVar) {e : Expr x.ty} {a b : Loc}
    (h : EncAssign A x.id.name e a b) (hok : ExprOk V e) (d : Dir) (X : Loc → JState → ℝ≥0∞) :
    A.bellman d X a s = X b (s.set x.id.name (toJ x.ty (e.eval σ))) := by
  obtain ⟨j, hj, hA⟩ := h
  rw [bellman_single hA]
  unfold JEdge.expect
  rw [List.map_singleton, List.sum_singleton, (next_assign hx b none j s).1, (next_assign hx b none j s).2,
    (translate_eval hd hV hr e hj hok).2.1]
  show 1 * (0 + _) = _
  rw [one_mul, zero_add]

theorem reward_step (hd : SameOps) {V : Var → Prop} (hV : ∀ v, V v → isJaniTy v.ty = true) {σ : Env} {s : JState}
    (hr : Rep V σ s) {A : JAutomaton} {e : Expr .eureal} {a b : Loc}
    (h : EncAssign A rewardVar e a b) (hok : ExprOk V e) (d : Dir) (X : Loc → JState → ℝ≥0∞) :
    A.bellman d X a s = e.ev σ + X b s := by
  obtain ⟨j, hj, hA⟩ := h
  rw [bellman_single hA]
  unfold JEdge.expect
  rw [List.map_singleton, List.sum_singleton, (next_reward b none j s).1, (next_reward b none j s).2, weight_eq hd hV hr hj hok]
  show 1 * _ = _
  rw [one_mul]

theorem fromOdds_ok {V : Var → Prop} {t : Ty} {ps : List (ℕ × Expr t)} (h : ∀ p ∈ ps, ExprOk V p.2) {tbl : Dist t}
    (ht : Dist.fromOdds ps = .ok tbl) : ∀ p ∈ tbl, ExprOk V p.1 ∧ ExprOk V p.2 := by
  unfold Dist.fromOdds at ht
  dsimp only at ht
  split at ht
  · cases ht
  · cases ht
    intro p hp
    obtain ⟨q, hq, rfl⟩ := List.mem_map.1 hp
    exact ⟨trivial, h q hq⟩

theorem apply_ok {V : Var → Prop} {t : Ty} {d : DistCall t} (h : distOk V d) {tbl : Dist t} (ht : d.apply = .ok tbl) :
    ∀ p ∈ tbl, ExprOk V p.1 ∧ ExprOk V p.2 := by
  have hmap : ∀ {β : Type} (l : List β) (f : β → ℕ) (g : β → ℕ), ∀ p ∈ l.map (fun k => (f k, Expr.uintLit (g k))), ExprOk V p.2 := by
    intro β l f g p hp
    obtain ⟨k, _, rfl⟩ := List.mem_map.1 hp
    trivial
  cases d with
  | ber => exact fromOdds_ok (by intro p hp; simp at hp; rcases hp with rfl | rfl <;> trivial) ht
  | flip p =>
    cases ht
    intro q hq
    rcases List.mem_cons.1 hq with rfl | hq
    · exact ⟨h, trivial⟩
    · rw [List.mem_singleton.1 hq]
      exact ⟨⟨trivial, trivial, h⟩, trivial⟩
  | unif => exact fromOdds_ok (hmap _ _ _) ht
  | binom =>
    rw [DistCall.apply] at ht
    split at ht
    · cases ht
    · exact fromOdds_ok (hmap _ _ _) ht
  | hyper =>
    rw [DistCall.apply] at ht
    split at ht
    · cases ht
    · exact fromOdds_ok (hmap _ _ _) ht

theorem sample_step (hd : SameOps) {V : Var → Prop} (hV : ∀ v, V v → isJaniTy v.ty = true) {σ : Env} {s : JState}
    (hr : Rep V σ s) {A : JAutomaton} {x : Ident} {t : Ty} (hx : x.name ≠ rewardVar) {a b : Loc} {tbl : Dist t}
    {dests : List JDest} (hok : ∀ p ∈ tbl, ExprOk V p.1 ∧ ExprOk V p.2) (hm : (tbl.mapM fun (p, v) => do
      let p ← translate p
      let v ← translate v
      return (⟨b, some p, [(x.name, v)]⟩ : JDest)) = some dests) (hA : At A a [⟨a, none, dests⟩]) (d : Dir)
    (X : Loc → JState → ℝ≥0∞) :
    A.bellman d X a s = tbl.mean σ fun v => X b (s.set x.name (toJ t v)) := by
  rw [bellman_single hA]
  unfold JEdge.expect Dist.mean
  clear hA
  show (dests.map _).sum = _
  induction tbl generalizing dests with
  | nil =>
    cases hm
    rfl
  | cons p tbl ih =>
    obtain ⟨p, v⟩ := p
    rw [List.mapM_cons] at hm
    dsimp only at hm
    cases hp : translate p with
    | none => rw [hp] at hm; cases hm
    | some jp =>
      cases hv : translate v with
      | none => rw [hp, hv] at hm; cases hm
      | some jv =>
        rw [hp, hv] at hm
        dsimp only [bind, Option.bind, pure] at hm
        split at hm
        next => cases hm
        next ds hds =>
          cases hm
          rw [List.map_cons, List.sum_cons, List.map_cons, List.sum_cons, ih (fun q hq => hok q (List.mem_cons_of_mem _ hq)) hds]
          congr 1
          have h1 := hok _ List.mem_cons_self
          rw [(next_assign hx b (some jp) jv s).1, (next_assign hx b (some jp) jv s).2, zero_add,
            (translate_eval hd hV hr v hv h1.2).2.1]
          congr 1
          exact weight_eq hd hV hr hp h1.1

theorem mean_mono {t : Ty} (tbl : Dist t) (σ : Env) {f g : t.den → ℝ≥0∞} (h : ∀ v, f v ≤ g v) : tbl.mean σ f ≤ tbl.mean σ g := by
  unfold Dist.mean
  exact List.sum_le_sum fun p _ => mul_le_mul_right (h _) _

theorem scope_ty {S : Stmt} {V : Var → Prop} {Q : List ((x : Var) × Expr x.ty)} (h : Scoped S V Q)
    (hV : ∀ v, V v → isJaniTy v.ty = true) : ∀ v, scope V S v → isJaniTy v.ty = true := by
  induction S generalizing V Q with
  | varInit x e =>
    rintro v (rfl | hv)
    · rw [Scoped] at h
      split at h
      · exact h
      · exact h.2.ty
    · exact hV v hv
  | sample b x d => cases b with
    | true =>
      rintro v (rfl | hv)
      · exact h.1.ty
      · exact hV v hv
    | false => exact hV
  | seq a b iha ihb => exact ihb h.2 (iha h.1 hV)
  | annot _ s ih => exact ih h hV
  | _ => exact hV

theorem enc_noNeg {A : JAutomaton} {dir : Dir} {S : Stmt} {a b : Loc} (h : Enc A dir S a b) : S.NoNeg := by
  induction S generalizing a b with
  | seq s t ihs iht => obtain ⟨m, h1, h2⟩ := h; exact ⟨ihs h2, iht h1⟩
  | demonic s t ihs iht | angelic s t ihs iht => obtain ⟨_, _, _, h1, h2, _⟩ := h; exact ⟨ihs h1, iht h2⟩
  | ite _ s t ihs iht => obtain ⟨_, _, _, _, h1, h2, _⟩ := h; exact ⟨ihs h1, iht h2⟩
  | «while» _ s ih => obtain ⟨_, _, _, h1, _⟩ := h; exact ih h1
  | annot _ s ih => exact ih h
  | negate _ => exact h.elim
  | additive _ _ => exact h.elim
  | _ => trivial

theorem contCond_iff (d : Dir) (j : JExpr) (s : JState) {p : Prop} (h : (j.eval s).holds ↔ p) :
    ((contCond d j).eval s).holds ↔ match d with
      | .down => p
      | .up => ¬ p := by
  cases d
  · exact h
  · exact not_congr h

/-- The loop semantics is a fixed point. -/
theorem while_unfold (C : SemCtx) (hC : C.loop = .lfp) (hcall : ∀ l f a, Monotone (C.call l f a)) {c : Expr .bool} {body : Stmt}
    (hn : body.NoNeg) (φ : Exp) (σ : Env) : (c.tv σ → vcSem C body (vcSem C (.while c body) φ) σ ≤ vcSem C (.while c body) φ σ) ∧
      (¬ c.tv σ → φ σ ≤ vcSem C (.while c body) φ σ) := by
  classical
  have hm := vcSem_mono C hcall hn
  let Φ : Exp → Exp := fun X σ => if c.tv σ then vcSem C body X σ else φ σ
  have hΦ : ∀ X, Φ X ≤ X → Φ (vcSem C (.while c body) φ) ≤ X := fun X hX => by
    refine le_trans (fun τ => ?_) hX
    have hle : vcSem C (.while c body) φ ≤ X := by
      show fixpoint C.loop _ ≤ X
      rw [hC]
      exact sInf_le hX
    show (if c.tv τ then _ else _) ≤ (if c.tv τ then _ else _)
    split
    · exact hm hle τ
    · exact le_rfl
  have key : Φ (vcSem C (.while c body) φ) ≤ vcSem C (.while c body) φ := by
    show _ ≤ fixpoint C.loop _
    rw [hC]
    exact le_sInf fun X hX => hΦ X hX
  have hk := key σ
  exact ⟨fun hc => (le_of_eq (if_pos hc).symm).trans hk, fun hc => (le_of_eq (if_neg hc).symm).trans hk⟩

/-- The rewards collected in any number of steps are at most the expectation. -/
theorem steps_le_vcSem (hd : SameOps) (C : SemCtx) (hC : C.loop = .lfp) (hcall : ∀ l f a, Monotone (C.call l f a))
    (A : JAutomaton) (dir : Dir) (herr : ∀ n s, A.steps dir n .err s = 0) (S : Stmt) {V : Var → Prop}
    {Q : List ((x : Var) × Expr x.ty)} {start next : Loc} {φ : Exp} {n : ℕ} (hV : ∀ v, V v → isJaniTy v.ty = true)
    (hQ : ∀ q ∈ Q, isConstant q.2 = true) (henc : Enc A dir S start next) (hsc : Scoped S V Q) (hsup : Supported S)
    (hφ : ∀ m ≤ n, ∀ τ t, Rel (scope V S) Q τ t → A.steps dir m next t ≤ φ τ) :
    ∀ m ≤ n, ∀ σ s, Rel V (pend S ++ Q) σ s → A.steps dir m start s ≤ vcSem C S φ σ := by
  classical
  induction S generalizing V Q start next φ n with
  | skip =>
    cases henc
    exact hφ
  | label _ =>
    cases henc
    exact hφ
  | seq a b iha ihb =>
    obtain ⟨mid, h1, h2⟩ := henc
    intro m hm σ s hr
    have hb := ihb (scope_ty hsc.1 hV) hQ h1 hsc.2 hsup.2 hφ
    refine iha hV (fun q hq => (List.mem_append.1 hq).elim (pend_const b q) (hQ q)) h2 hsc.1 hsup.1 hb m hm σ s ?_
    rw [pend, List.append_assoc] at hr
    exact hr
  | varInit x e =>
    intro m hm σ s hr
    rw [Enc] at henc
    rw [Scoped] at hsc
    rw [pend] at hr
    split at henc
    next hc =>
      subst henc
      rw [if_pos hc] at hr
      refine hφ m hm (σ.upd x (e.eval σ)) s ⟨fun v hv => ?_, fun q hq => ?_⟩
      · by_cases hx : v = x
        · subst hx
          rw [Env.upd_same]
          exact hr.pend ⟨v, e⟩ List.mem_cons_self
        · rw [Env.upd_ne _ hx]
          exact hr.vars v (hv.resolve_left hx)
      · rw [hr.pend q (List.mem_cons_of_mem _ hq), eval_const (hQ q hq) σ]
    next hc =>
      rw [if_neg hc] at hsc hr
      cases m with
      | zero => exact zero_le
      | succ m =>
        show A.bellman dir (A.steps dir m) start s ≤ _
        rw [assign_step hd hV hr.vars hsc.2.reward henc hsc.1]
        exact hφ m (Nat.le_of_succ_le hm) _ _ (hr.set hsc.2 hQ _)
  | assign x e =>
    intro m hm σ s hr
    cases m with
    | zero => exact zero_le
    | succ m =>
      show A.bellman dir (A.steps dir m) start s ≤ _
      rw [assign_step hd hV hr.vars hsc.2.reward henc hsc.1]
      exact hφ m (Nat.le_of_succ_le hm) _ _ ((hr.set hsc.2 hQ _).mono (fun v hv => .inr hv) fun q hq => hq)
  | sample bb x d =>
    intro m hm σ s hr
    obtain ⟨tbl, dests, h1, h2, h3⟩ := henc
    obtain ⟨hw, hdist⟩ := hsc
    obtain ⟨hgood, hne⟩ := hsup
    cases m with
    | zero => exact zero_le
    | succ m =>
      show A.bellman dir (A.steps dir m) start s ≤ DistCall.expect d σ _
      rw [sample_step hd hV hr.vars hw.reward (apply_ok hdist h1) h2 h3, ← apply_mean hgood h1 (fun h => hne (h ▸ h1))]
      refine mean_mono _ _ fun v => hφ m (Nat.le_of_succ_le hm) _ _ ((hr.set hw hQ v).mono (fun w hw' => ?_) fun q hq => hq)
      cases bb with
      | true => exact hw'
      | false => exact .inr hw'
  | assert d e =>
    intro m hm σ s hr
    obtain ⟨rfl, henc⟩ := henc
    cases m with
    | zero => exact zero_le
    | succ m =>
      show A.bellman d (A.steps d m) start s ≤ _
      have hn := hφ m (Nat.le_of_succ_le hm) σ s hr
      rcases henc with ⟨c, j, h1, h2, h3⟩ | ⟨_, ret, h2, h3⟩
      · cases d with
        | up => rw [hsup rfl] at h1; cases h1
        | down =>
          have hc := cond_eq hd hV hr.vars h2 ((embed_spec h1).1 V hsc)
          rw [bellman_if h3]
          show (if (j.eval s).holds then _ else _) ≤ min (e.ev σ) (φ σ)
          split
          next hh => rw [((embed_spec h1).2 σ).1 (hc.1 hh), min_top_left]; exact hn
          next => rw [herr]; exact zero_le
      · rw [bellman_choice h2]
        have hret : A.steps d m ret s ≤ e.ev σ := by
          cases m with
          | zero => exact zero_le
          | succ m =>
            show A.bellman d (A.steps d m) ret s ≤ _
            rw [reward_step hd hV hr.vars h3 hsc, herr, add_zero]
        cases d with
        | down => exact le_min (min_le_right _ _ |>.trans hret) (min_le_left _ _ |>.trans hn)
        | up => exact max_le (hn.trans (le_max_right _ _)) (hret.trans (le_max_left _ _))
  | assume d e =>
    intro m hm σ s hr
    obtain ⟨c, j, mir, h1, h2, h3, h4⟩ := henc
    cases m with
    | zero => exact zero_le
    | succ m =>
      show A.bellman dir (A.steps dir m) start s ≤ _
      have hn := hφ m (Nat.le_of_succ_le hm) σ s hr
      have hc := contCond_iff d j s (cond_eq hd hV hr.vars h2 ((embed_spec h1).1 V hsc))
      rw [bellman_if h3]
      cases d with
      | down =>
        show _ ≤ if e.ev σ ≤ φ σ then ⊤ else φ σ
        split
        next hh =>
          split
          · exact le_top
          · exact hn
        next hh => rw [((embed_spec h1).2 σ).2 fun h => hh (hc.2 h), if_pos zero_le]; exact le_top
      | up =>
        show _ ≤ if e.ev σ ≥ φ σ then 0 else φ σ
        split
        next hh =>
          rw [((embed_spec h1).2 σ).2 (hc.1 hh)]
          split
          next h0 => exact hn.trans h0
          next => exact hn
        next hh =>
          have hz : ∀ k, A.steps dir k mir s = 0 := by
            intro k
            induction k with
            | zero => rfl
            | succ k ih =>
              show A.bellman dir (A.steps dir k) mir s = 0
              rw [bellman_single h4]
              exact (expect_goto _ mir mir none s).trans ih
          rw [hz]
          exact zero_le
  | tick e =>
    intro m hm σ s hr
    cases m with
    | zero => exact zero_le
    | succ m =>
      show A.bellman dir (A.steps dir m) start s ≤ φ σ + e.ev σ
      rw [reward_step hd hV hr.vars henc hsc, add_comm]
      exact add_le_add_left (hφ m (Nat.le_of_succ_le hm) σ s hr) _
  | demonic a b iha ihb =>
    intro m hm σ s hr
    obtain ⟨rfl, la, lb, h1, h2, h3⟩ := henc
    cases m with
    | zero => exact zero_le
    | succ m =>
      show A.bellman .down (A.steps .down m) start s ≤ _
      rw [bellman_choice h3]
      have hm' := Nat.le_of_succ_le hm
      refine min_le_min (iha hV hQ h1 hsc.1 hsup.1 (fun k hk τ t hr => hφ k hk τ t (hr.mono (le_scope V a) fun q hq => hq)) m hm' σ s
        (hr.mono (fun _ h => h) fun q hq => ?_)) (ihb hV hQ h2 hsc.2 hsup.2 (fun k hk τ t hr => hφ k hk τ t
          (hr.mono (le_scope V b) fun q hq => hq)) m hm' σ s (hr.mono (fun _ h => h) fun q hq => ?_))
      · simp only [pend, List.mem_append] at hq ⊢; tauto
      · simp only [pend, List.mem_append] at hq ⊢; tauto
  | angelic a b iha ihb =>
    intro m hm σ s hr
    obtain ⟨rfl, la, lb, h1, h2, h3⟩ := henc
    cases m with
    | zero => exact zero_le
    | succ m =>
      show A.bellman .up (A.steps .up m) start s ≤ _
      rw [bellman_choice h3]
      have hm' := Nat.le_of_succ_le hm
      refine max_le_max (iha hV hQ h1 hsc.1 hsup.1 (fun k hk τ t hr => hφ k hk τ t (hr.mono (le_scope V a) fun q hq => hq)) m hm' σ s
        (hr.mono (fun _ h => h) fun q hq => ?_)) (ihb hV hQ h2 hsc.2 hsup.2 (fun k hk τ t hr => hφ k hk τ t
          (hr.mono (le_scope V b) fun q hq => hq)) m hm' σ s (hr.mono (fun _ h => h) fun q hq => ?_))
      · simp only [pend, List.mem_append] at hq ⊢; tauto
      · simp only [pend, List.mem_append] at hq ⊢; tauto
  | ite c a b iha ihb =>
    intro m hm σ s hr
    obtain ⟨j, la, lb, h0, h1, h2, h3⟩ := henc
    cases m with
    | zero => exact zero_le
    | succ m =>
      show A.bellman dir (A.steps dir m) start s ≤ if c.tv σ then vcSem C a φ σ else vcSem C b φ σ
      rw [bellman_if h3]
      have hm' := Nat.le_of_succ_le hm
      have hc := cond_eq hd hV hr.vars h0 hsc.1
      by_cases hh : c.tv σ
      · rw [if_pos hh, if_pos (hc.2 hh)]
        refine iha hV hQ h1 hsc.2.1 hsup.1 (fun k hk τ t hr => hφ k hk τ t (hr.mono (le_scope V a) fun q hq => hq)) m hm' σ s
          (hr.mono (fun _ h => h) fun q hq => ?_)
        simp only [pend, List.mem_append] at hq ⊢; tauto
      · rw [if_neg hh, if_neg (fun h => hh (hc.1 h))]
        refine ihb hV hQ h2 hsc.2.2 hsup.2 (fun k hk τ t hr => hφ k hk τ t (hr.mono (le_scope V b) fun q hq => hq)) m hm' σ s
          (hr.mono (fun _ h => h) fun q hq => ?_)
        simp only [pend, List.mem_append] at hq ⊢; tauto
  | «while» c body ih =>
    obtain ⟨j, la, h0, h1, h3⟩ := henc
    obtain ⟨hc, hsc⟩ := hsc
    obtain ⟨hp, hsup⟩ := hsup
    have hpe : pend (.while c body) = [] := hp
    rw [hpe, List.nil_append]
    intro m
    induction m using Nat.strong_induction_on with
    | _ m ihm =>
      intro hm σ s hr
      cases m with
      | zero => exact zero_le
      | succ m =>
        show A.bellman dir (A.steps dir m) start s ≤ _
        rw [bellman_if h3]
        have hm' := Nat.le_of_succ_le hm
        have hcc := cond_eq hd hV hr.vars h0 hc
        have hu := while_unfold C hC hcall (c := c) (enc_noNeg h1) φ σ
        by_cases hh : c.tv σ
        · rw [if_pos (hcc.2 hh)]
          refine le_trans ?_ (hu.1 hh)
          refine ih (n := m) hV hQ h1 hsc hsup (fun k hk τ t hr => ihm k (Nat.lt_succ_of_le hk) (hk.trans hm') τ t
            (hr.mono (le_scope V body) fun q hq => hq)) m le_rfl σ s ?_
          rw [hp]
          exact hr
        · rw [if_neg (fun h => hh (hcc.1 h))]
          exact (hφ m hm' σ s hr).trans (hu.2 hh)
  | annot _ s ih => exact ih hV hQ henc hsc hsup hφ
  | varDecl _ => exact henc.elim
  | call _ _ _ _ => exact henc.elim
  | havoc _ _ => exact henc.elim
  | compare _ _ => exact henc.elim
  | negate _ => exact henc.elim
  | validate _ => exact henc.elim
  | weigh _ => exact henc.elim
  | additive _ _ _ _ => exact henc.elim

/-- A value that does not grow in a step is at least the expectation. -/
theorem vcSem_le_value (hd : SameOps) (C : SemCtx) (hC : C.loop = .lfp)
    (A : JAutomaton) (dir : Dir) (X : Loc → JState → ℝ≥0∞) (hX : ∀ l s, A.bellman dir X l s ≤ X l s) (S : Stmt) {V : Var → Prop}
    {Q : List ((x : Var) × Expr x.ty)} {start next : Loc} {φ : Exp} (hV : ∀ v, V v → isJaniTy v.ty = true)
    (hQ : ∀ q ∈ Q, isConstant q.2 = true) (henc : Enc A dir S start next) (hsc : Scoped S V Q) (hsup : Supported S)
    (hφ : ∀ τ t, Rel (scope V S) Q τ t → φ τ ≤ X next t) :
    ∀ σ s, Rel V (pend S ++ Q) σ s → vcSem C S φ σ ≤ X start s := by
  classical
  induction S generalizing V Q start next φ with
  | skip =>
    cases henc
    exact hφ
  | label _ =>
    cases henc
    exact hφ
  | seq a b iha ihb =>
    obtain ⟨mid, h1, h2⟩ := henc
    intro σ s hr
    have hb := ihb (scope_ty hsc.1 hV) hQ h1 hsc.2 hsup.2 hφ
    refine iha hV (fun q hq => (List.mem_append.1 hq).elim (pend_const b q) (hQ q)) h2 hsc.1 hsup.1 hb σ s ?_
    rw [pend, List.append_assoc] at hr
    exact hr
  | varInit x e =>
    intro σ s hr
    rw [Enc] at henc
    rw [Scoped] at hsc
    rw [pend] at hr
    split at henc
    next hc =>
      subst henc
      rw [if_pos hc] at hr
      refine hφ (σ.upd x (e.eval σ)) s ⟨fun v hv => ?_, fun q hq => ?_⟩
      · by_cases hx : v = x
        · subst hx
          rw [Env.upd_same]
          exact hr.pend ⟨v, e⟩ List.mem_cons_self
        · rw [Env.upd_ne _ hx]
          exact hr.vars v (hv.resolve_left hx)
      · rw [hr.pend q (List.mem_cons_of_mem _ hq), eval_const (hQ q hq) σ]
    next hc =>
      rw [if_neg hc] at hsc hr
      refine le_trans ?_ (hX start s)
      rw [assign_step hd hV hr.vars hsc.2.reward henc hsc.1]
      exact hφ _ _ (hr.set hsc.2 hQ _)
  | assign x e =>
    intro σ s hr
    refine le_trans ?_ (hX start s)
    rw [assign_step hd hV hr.vars hsc.2.reward henc hsc.1]
    exact hφ _ _ ((hr.set hsc.2 hQ _).mono (fun v hv => .inr hv) fun q hq => hq)
  | sample bb x d =>
    intro σ s hr
    obtain ⟨tbl, dests, h1, h2, h3⟩ := henc
    obtain ⟨hw, hdist⟩ := hsc
    obtain ⟨hgood, hne⟩ := hsup
    refine le_trans ?_ (hX start s)
    show DistCall.expect d σ _ ≤ _
    rw [sample_step hd hV hr.vars hw.reward (apply_ok hdist h1) h2 h3, ← apply_mean hgood h1 (fun h => hne (h ▸ h1))]
    refine mean_mono _ _ fun v => hφ _ _ ((hr.set hw hQ v).mono (fun w hw' => ?_) fun q hq => hq)
    cases bb with
    | true => exact hw'
    | false => exact .inr hw'
  | assert d e =>
    intro σ s hr
    obtain ⟨rfl, henc⟩ := henc
    refine le_trans ?_ (hX start s)
    have hn := hφ σ s hr
    rcases henc with ⟨c, j, h1, h2, h3⟩ | ⟨_, ret, h2, h3⟩
    · cases d with
      | up => rw [hsup rfl] at h1; cases h1
      | down =>
        have hc := cond_eq hd hV hr.vars h2 ((embed_spec h1).1 V hsc)
        rw [bellman_if h3]
        show min (e.ev σ) (φ σ) ≤ if (j.eval s).holds then _ else _
        split
        next hh => exact (min_le_right _ _).trans hn
        next hh => rw [((embed_spec h1).2 σ).2 fun h => hh (hc.2 h), min_eq_left zero_le]; exact zero_le
    · rw [bellman_choice h2]
      have hret : e.ev σ ≤ X ret s := by
        refine le_trans ?_ (hX ret s)
        rw [reward_step hd hV hr.vars h3 hsc]
        exact le_self_add
      cases d with
      | down => exact le_min ((min_le_right _ _).trans hn) ((min_le_left _ _).trans hret)
      | up => exact max_le (hret.trans (le_max_right _ _)) (hn.trans (le_max_left _ _))
  | assume d e =>
    intro σ s hr
    obtain ⟨c, j, mir, h1, h2, h3, h4⟩ := henc
    refine le_trans ?_ (hX start s)
    have hn := hφ σ s hr
    have hc := contCond_iff d j s (cond_eq hd hV hr.vars h2 ((embed_spec h1).1 V hsc))
    rw [bellman_if h3]
    cases d with
    | down =>
      show (if e.ev σ ≤ φ σ then ⊤ else φ σ) ≤ _
      by_cases hh : c.tv σ
      · rw [if_pos (hc.2 hh), ((embed_spec h1).2 σ).1 hh]
        split
        next ht => exact ht.trans hn
        next => exact hn
      · rw [if_neg fun h => hh (hc.1 h)]
        have hm := hX mir s
        rw [bellman_single h4] at hm
        have he : JEdge.expect X ⟨mir, none, [⟨mir, none, [(rewardVar, .num 1)]⟩]⟩ s = 1 + X mir s := by
          unfold JEdge.expect
          rw [List.map_singleton, List.sum_singleton, (next_reward mir none (.num 1) s).1, (next_reward mir none (.num 1) s).2]
          show 1 * (ENNReal.ofReal ((1 : ℕ) : ℝ) + _) = _
          simp
        rw [he] at hm
        have ht : X mir s = ⊤ := by
          by_contra hne
          exact absurd (ENNReal.lt_add_right hne one_ne_zero) (not_lt.2 (by rwa [add_comm]))
        rw [ht]
        exact le_top
    | up =>
      show (if e.ev σ ≥ φ σ then 0 else φ σ) ≤ _
      by_cases hh : c.tv σ
      · rw [((embed_spec h1).2 σ).1 hh, if_pos (show φ σ ≤ ⊤ from le_top)]
        exact zero_le
      · rw [if_pos (hc.2 hh)]
        split
        · exact zero_le
        · exact hn
  | tick e =>
    intro σ s hr
    refine le_trans ?_ (hX start s)
    show φ σ + e.ev σ ≤ _
    rw [reward_step hd hV hr.vars henc hsc, add_comm]
    exact add_le_add le_rfl (hφ σ s hr)
  | demonic a b iha ihb =>
    intro σ s hr
    obtain ⟨rfl, la, lb, h1, h2, h3⟩ := henc
    refine le_trans ?_ (hX start s)
    rw [bellman_choice h3]
    refine min_le_min (iha hV hQ h1 hsc.1 hsup.1 (fun τ t hr => hφ τ t (hr.mono (le_scope V a) fun q hq => hq)) σ s
      (hr.mono (fun _ h => h) fun q hq => ?_)) (ihb hV hQ h2 hsc.2 hsup.2 (fun τ t hr => hφ τ t
        (hr.mono (le_scope V b) fun q hq => hq)) σ s (hr.mono (fun _ h => h) fun q hq => ?_))
    · simp only [pend, List.mem_append] at hq ⊢; tauto
    · simp only [pend, List.mem_append] at hq ⊢; tauto
  | angelic a b iha ihb =>
    intro σ s hr
    obtain ⟨rfl, la, lb, h1, h2, h3⟩ := henc
    refine le_trans ?_ (hX start s)
    rw [bellman_choice h3]
    refine max_le_max (iha hV hQ h1 hsc.1 hsup.1 (fun τ t hr => hφ τ t (hr.mono (le_scope V a) fun q hq => hq)) σ s
      (hr.mono (fun _ h => h) fun q hq => ?_)) (ihb hV hQ h2 hsc.2 hsup.2 (fun τ t hr => hφ τ t
        (hr.mono (le_scope V b) fun q hq => hq)) σ s (hr.mono (fun _ h => h) fun q hq => ?_))
    · simp only [pend, List.mem_append] at hq ⊢; tauto
    · simp only [pend, List.mem_append] at hq ⊢; tauto
  | ite c a b iha ihb =>
    intro σ s hr
    obtain ⟨j, la, lb, h0, h1, h2, h3⟩ := henc
    refine le_trans ?_ (hX start s)
    show (if c.tv σ then vcSem C a φ σ else vcSem C b φ σ) ≤ _
    rw [bellman_if h3]
    have hc := cond_eq hd hV hr.vars h0 hsc.1
    by_cases hh : c.tv σ
    · rw [if_pos hh, if_pos (hc.2 hh)]
      refine iha hV hQ h1 hsc.2.1 hsup.1 (fun τ t hr => hφ τ t (hr.mono (le_scope V a) fun q hq => hq)) σ s
        (hr.mono (fun _ h => h) fun q hq => ?_)
      simp only [pend, List.mem_append] at hq ⊢; tauto
    · rw [if_neg hh, if_neg (fun h => hh (hc.1 h))]
      refine ihb hV hQ h2 hsc.2.2 hsup.2 (fun τ t hr => hφ τ t (hr.mono (le_scope V b) fun q hq => hq)) σ s
        (hr.mono (fun _ h => h) fun q hq => ?_)
      simp only [pend, List.mem_append] at hq ⊢; tauto
  | «while» c body ih =>
    obtain ⟨j, la, h0, h1, h3⟩ := henc
    obtain ⟨hc, hsc⟩ := hsc
    obtain ⟨hp, hsup⟩ := hsup
    have hpe : pend (.while c body) = [] := hp
    rw [hpe, List.nil_append]
    intro σ s hr
    let ψ : Exp := fun σ => ⨅ t, ⨅ _ : Rel V Q σ t, X start t
    have hψ : ∀ τ t, Rel V Q τ t → ψ τ ≤ X start t := fun τ t h => iInf₂_le t h
    have hle : vcSem C (.while c body) φ ≤ ψ := by
      show fixpoint C.loop _ ≤ ψ
      rw [hC]
      refine sInf_le fun τ => le_iInf₂ fun t ht => ?_
      refine le_trans ?_ (hX start t)
      rw [bellman_if h3]
      have hcc := cond_eq hd hV ht.vars h0 hc
      show (if c.tv τ then vcSem C body ψ τ else φ τ) ≤ _
      by_cases hh : c.tv τ
      · rw [if_pos hh, if_pos (hcc.2 hh)]
        refine ih hV hQ h1 hsc hsup (fun τ' t' hr' => hψ τ' t' (hr'.mono (le_scope V body) fun q hq => hq)) τ t ?_
        rw [hp]
        exact ht
      · rw [if_neg hh, if_neg (fun h => hh (hcc.1 h))]
        exact hφ τ t ht
    exact (hle σ).trans (hψ σ s hr)
  | annot _ s ih => exact ih hV hQ henc hsc hsup hφ
  | varDecl _ => exact henc.elim
  | call _ _ _ _ => exact henc.elim
  | havoc _ _ => exact henc.elim
  | compare _ _ => exact henc.elim
  | negate _ => exact henc.elim
  | validate _ => exact henc.elim
  | weigh _ => exact henc.elim
  | additive _ _ _ _ => exact henc.elim

/-- The value of the automaton of a statement is the expectation of the exit reward. -/
theorem value_eq_vcSem (hd : SameOps) (C : SemCtx) (hC : C.loop = .lfp) (hcall : ∀ l f a, Monotone (C.call l f a))
    {dir : Dir} {S : Stmt} {start : Loc} {b : Build} (htr : translateStmt dir S .fin ⟨0, [], false⟩ = some (start, b))
    {V : Var → Prop} (hV : ∀ v, V v → isJaniTy v.ty = true) (hsc : Scoped S V []) (hsup : Supported S) {post : Expr .eureal} {j : JExpr}
    (hpost : translate post = some j) (hpok : ExprOk (scope V S) post) {σ : Env} {s : JState} (hr : Rel V (pend S) σ s) :
    (finish b j).value dir start s = vcSem C S (fun τ => post.ev τ) σ := by
  have hwf : b.WF := (translateStmt_good dir S htr).wf fun e he => by cases he
  have henc := translateStmt_enc htr j
  obtain ⟨hfin, herr, hsink⟩ := finish_special hwf j
  have hV' := scope_ty hsc hV
  have bsink : ∀ X t, (finish b j).bellman dir X .sink t = 0 := fun X t => by
    unfold JAutomaton.bellman
    rw [enabled_at hsink, List.filter_nil, if_pos rfl]
  have berr : ∀ X t, (finish b j).bellman dir X .err t = X .sink t := fun X t => by
    rw [bellman_single (l := .err) ⟨herr, rfl⟩]
    exact expect_goto X .err .sink none t
  have bfin : ∀ X t, (finish b j).bellman dir X .fin t = j.weight t + X .sink t := fun X t => by
    have he : (finish b j).enabled .fin t = [.fromTo .fin .sink] := by
      rw [enabled_at hfin]
      exact List.filter_eq_self.2 fun e he => by
        rw [List.mem_singleton.1 he]
        exact @decide_eq_true (JEdge.enabled _ t) (Classical.propDecidable _) trivial
    unfold JAutomaton.bellman
    rw [he, if_neg (by simp)]
    have hg := expect_goto X .fin .sink none t
    have hx : (finish b j).exitReward .fin t = j.weight t := by simp [JAutomaton.exitReward, finish]
    rw [hx]
    congr 1
    cases dir <;> simpa [best, JEdge.fromTo] using hg
  have ssink : ∀ n t, (finish b j).steps dir n .sink t = 0 := fun n t => by
    cases n with
    | zero => rfl
    | succ n => exact bsink _ t
  have serr : ∀ n t, (finish b j).steps dir n .err t = 0 := fun n t => by
    cases n with
    | zero => rfl
    | succ n => exact (berr _ t).trans (ssink n t)
  have hr' : Rel V (pend S ++ []) σ s := by rw [List.append_nil]; exact hr
  refine le_antisymm ?_ ?_
  · rw [value_eq_limit]
    refine iSup_le fun n => ?_
    refine steps_le_vcSem hd C hC hcall _ dir serr S (n := n) hV (fun q hq => by cases hq) henc hsc hsup (fun m _ τ t ht => ?_) n le_rfl σ s hr'
    cases m with
    | zero => exact zero_le
    | succ m =>
      show (finish b j).bellman dir _ .fin t ≤ _
      rw [bfin, ssink, add_zero, weight_eq hd hV' ht.vars hpost hpok]
  · refine vcSem_le_value hd C hC _ dir _ (fun l t => (bellman_value _ dir l t).le) S hV (fun q hq => by cases hq) henc hsc hsup
      (fun τ t ht => ?_) σ s hr'
    rw [← bellman_value, bfin, weight_eq hd hV' ht.vars hpost hpok]
    exact le_self_add

end

end Caesar.Mc
