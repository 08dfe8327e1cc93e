import Verif.Mc.Diverge

/-!
# Greatest fixed points of statements and divergence

Bounds for the greatest fixed points of a statement by the reward and the divergence of its automaton.
-/

open scoped ENNReal NNReal

namespace Caesar.Mc
set_option linter.unusedSectionVars false

variable [Fns] [Doms] [Interp] [JOps]

/-! ## One-bounded -/

section
variable {A : JAutomaton} {j : JExpr} (hE : Ends A j) {R : Loc → JState → Prop} (hR : ClosedOne A R)

omit [Fns] [Doms] [Interp] in
include hR in
theorem expect_avg {l : Loc} {s : JState} (h : R l s) {e : JEdge} (he : e ∈ A.enabled l s) (X : Loc → JState → ℝ≥0∞) :
    e.expect X s = e.avg X s := by
  unfold JEdge.expect JEdge.avg
  congr 1
  refine List.map_congr_left fun d hd => ?_
  rw [hR.reward l s h e he d hd, zero_add]

include hE hR

theorem bellman_avg (d : Dir) {l : Loc} {s : JState} (h : R l s) (hl : l ≠ .fin) (he : A.enabled l s ≠ []) (X : Loc → JState → ℝ≥0∞) :
    A.bellman d X l s = best d ((A.enabled l s).map fun e => e.avg X s) := by
  unfold JAutomaton.bellman
  rw [if_neg he, hE.exit_zero hl, zero_add]
  exact best_congr d fun e he => expect_avg hR h he X

theorem fin_le_one {t : JState} (h : R .fin t) : j.weight t ≤ 1 := by
  have := hR.exit _ _ h
  unfold JAutomaton.exitReward at this
  rwa [hE.exit, if_pos rfl] at this

theorem staying_fin (d : Dir) (n : ℕ) (t : JState) : A.staying R d (n + 1) .fin t = 0 := by
  by_cases h : R .fin t
  · rw [staying_step d n h (by simp) (by rw [hE.fin]; simp), hE.fin, List.map_cons, List.map_nil, best_single, avg_goto, staying_sink]
  · exact staying_out d _ fun hh => h hh.1

theorem staying_err (d : Dir) (n : ℕ) (t : JState) : A.staying R d (n + 1) .err t = 0 := by
  by_cases h : R .err t
  · rw [staying_step d n h (by simp) (by rw [hE.err]; simp), hE.err, List.map_cons, List.map_nil, best_single, avg_goto, staying_sink]
  · exact staying_out d _ fun hh => h hh.1

theorem steps_staying_le {d : Dir} (hd : d = .down ∨ ∀ l (s : JState), (A.enabled l s).length ≤ 1) (n : ℕ) (l : Loc) (s : JState)
    (hr : R l s) : A.steps d n l s + A.staying R d n l s ≤ 1 := by
  induction n generalizing l s with
  | zero =>
    rw [show A.steps d 0 l s = 0 from rfl, zero_add]
    exact staying_le_one hR.toClosed d 0 l s
  | succ n ih =>
    by_cases hl : l = .sink
    · subst hl
      rw [hE.steps_sink, staying_sink, add_zero]
      exact zero_le
    · by_cases hf : l = .fin
      · subst hf
        rw [show A.steps d (n + 1) .fin s = A.bellman d (A.steps d n) .fin s from rfl, hE.bellman_fin, hE.steps_sink,
          staying_fin hE hR, add_zero, add_zero]
        exact fin_le_one hE hR hr
      · by_cases he : A.enabled l s = []
        · rw [staying_dead d _ hr hl he, show A.steps d (n + 1) l s = A.bellman d (A.steps d n) l s from rfl]
          unfold JAutomaton.bellman
          rw [if_pos he, zero_add]
        · rw [show A.steps d (n + 1) l s = A.bellman d (A.steps d n) l s from rfl, bellman_avg hE hR d hr hf he,
            staying_step d n hr hl he]
          refine (le_best_add (hd.imp_right fun h => h l s) he _ _).trans ?_
          obtain ⟨e, h1, h2⟩ := exists_best d he fun e => e.avg (A.steps d n) s + e.avg (A.staying R d n) s
          rw [h2, ← avg_add]
          exact avg_le_one hR.toClosed hr h1 fun d hd hw => ih _ _ (hR.step l s hr e h1 d hd hw)

/-- Upper bound: the reward and the probability of divergence. -/
theorem liberal_le_sum (hd : SameOps) (C : SemCtx) (hcall : ∀ l f a, Monotone (C.call l f a)) {dir : Dir}
    (hdir : dir = .up ∨ ∀ l (s : JState), (A.enabled l s).length ≤ 1) {S : Stmt} {V : Var → Prop} {start : Loc} {φ : Exp}
    (hV : ∀ v, V v → isJaniTy v.ty = true) (henc : Enc A dir S start .fin) (hsc : Scoped S V []) (hsup : Supported S)
    (hφ : ∀ τ t, Rel (scope V S) [] τ t → j.weight t = φ τ) {σ : Env} {s : JState} (hr : R start s) (hrel : Rel V (pend S) σ s) :
    liberal 1 C S φ σ ≤ A.value dir start s + ⨅ n, A.staying R dir n start s := by
  classical
  have key : ∀ n, liberal 1 C S φ σ ≤ A.steps dir n start s + A.staying R dir n start s := by
    intro n
    let Y : ℕ → Loc → JState → ℝ≥0∞ := fun k l t => if R l t then A.steps dir k l t + A.staying R dir k l t else ⊤
    have hYR : ∀ k l t, R l t → Y k l t = A.steps dir k l t + A.staying R dir k l t := fun k l t h => if_pos h
    have hYN : ∀ k l t, ¬ R l t → Y k l t = ⊤ := fun k l t h => if_neg h
    have h1 : ∀ l t, A.enabled l t ≠ [] → 1 ≤ Y 0 l t := by
      intro l t he
      by_cases h : R l t
      · rw [hYR 0 l t h, staying_zero dir h (hE.ne_sink he)]
        exact le_add_self
      · rw [hYN 0 l t h]; exact le_top
    have h2 : ∀ l t, A.enabled l t ≠ [] → ∀ k, A.bellman dir (Y (k - 1)) l t ≤ Y k l t := by
      intro l t he k
      by_cases h : R l t
      · have hl := hE.ne_sink he
        rw [hYR k l t h]
        by_cases hf : l = .fin
        · subst hf
          have hs : R .sink t := by
            have := hR.step .fin t h (.fromTo .fin .sink) (by rw [hE.fin]; simp) (.goto .sink) (by simp [JEdge.fromTo])
              (show (1 : ℝ≥0∞) ≠ 0 from one_ne_zero)
            have hn : (JDest.goto .sink).next t = t := by funext x; simp [JDest.next, JDest.goto]
            rwa [hn] at this
          rw [hE.bellman_fin, hYR _ _ _ hs, hE.steps_sink, staying_sink, add_zero, add_zero]
          cases k with
          | zero =>
            rw [staying_zero dir h (by simp)]
            exact (fin_le_one hE hR h).trans le_add_self
          | succ k =>
            rw [show A.steps dir (k + 1) .fin t = A.bellman dir (A.steps dir k) .fin t from rfl, hE.bellman_fin, hE.steps_sink, add_zero]
            exact le_self_add
        · rw [bellman_avg hE hR dir h hf he]
          cases k with
          | zero =>
            rw [staying_zero dir h hl]
            obtain ⟨e, e1, e2⟩ := exists_best dir he fun e => e.avg (Y 0) t
            show best dir ((A.enabled l t).map fun e => e.avg (Y 0) t) ≤ _
            rw [e2]
            refine (avg_le_one hR.toClosed h e1 fun d hd' hw => ?_).trans le_add_self
            rw [hYR _ _ _ (hR.step l t h e e1 d hd' hw), show A.steps dir 0 d.loc (d.next t) = 0 from rfl, zero_add]
            exact staying_le_one hR.toClosed dir 0 _ _
          | succ k =>
            rw [Nat.add_sub_cancel, show A.steps dir (k + 1) l t = A.bellman dir (A.steps dir k) l t from rfl,
              bellman_avg hE hR dir h hf he, staying_step dir k h hl he]
            refine le_trans (best_mono dir fun e e1 => ?_) (best_add_le (hdir.imp_right fun h => h l t) he _ _)
            rw [← avg_add]
            refine avg_mono fun d hd' hw => ?_
            rw [hYR _ _ _ (hR.step l t h e e1 d hd' hw)]
      · rw [hYN k l t h]; exact le_top
    have := liberal_le hd C hcall A dir Y h1 h2 S (n := n) (φ := φ) hV (fun q hq => by cases hq) henc hsc hsup (fun m _ τ t ht => by
      by_cases h : R .fin t
      · rw [hYR m _ _ h, ← hφ τ t ht]
        cases m with
        | zero => rw [staying_zero dir h (by simp)]; exact (fin_le_one hE hR h).trans le_add_self
        | succ m =>
          rw [show A.steps dir (m + 1) .fin t = A.bellman dir (A.steps dir m) .fin t from rfl, hE.bellman_fin]
          exact le_self_add.trans le_self_add
      · rw [hYN m _ _ h]; exact le_top) n le_rfl σ s (by rw [List.append_nil]; exact hrel)
    rwa [hYR _ _ _ hr] at this
  rw [ENNReal.add_iInf]
  refine le_iInf fun n => (key n).trans (add_le_add ?_ le_rfl)
  rw [value_eq_limit]
  exact le_iSup (fun n => A.steps dir n start s) n

/-- Lower bound: the reward and the probability of divergence. -/
theorem sum_le_liberal (hd : SameOps) (C : SemCtx) {dir : Dir}
    (hdir : dir = .down ∨ ∀ l (s : JState), (A.enabled l s).length ≤ 1) {S : Stmt} {V : Var → Prop} {start : Loc} {φ : Exp}
    (hV : ∀ v, V v → isJaniTy v.ty = true) (henc : Enc A dir S start .fin) (hsc : Scoped S V []) (hsup : Supported S) (hco : NoCoassume S)
    (hφ : ∀ τ t, Rel (scope V S) [] τ t → j.weight t = φ τ) {σ : Env} {s : JState} (hr : R start s) (hrel : Rel V (pend S) σ s) :
    A.value dir start s + ⨅ n, A.staying R dir n start s ≤ liberal 1 C S φ σ := by
  classical
  let X : Loc → JState → ℝ≥0∞ := fun l t => if R l t then A.value dir l t + ⨅ n, A.staying R dir n l t else 0
  have hXR : ∀ l t, R l t → X l t = A.value dir l t + ⨅ n, A.staying R dir n l t := fun l t h => if_pos h
  have hXN : ∀ l t, ¬ R l t → X l t = 0 := fun l t h => if_neg h
  have h1 : ∀ l t, A.enabled l t ≠ [] → X l t ≤ A.bellman dir X l t := by
    intro l t he
    by_cases h : R l t
    · have hl := hE.ne_sink he
      rw [hXR l t h]
      by_cases hf : l = .fin
      · subst hf
        have h0 : ⨅ n, A.staying R dir n .fin t = 0 := le_antisymm ((iInf_le _ 1).trans (staying_fin hE hR dir 0 t).le) zero_le
        rw [h0, add_zero, ← bellman_value, hE.bellman_fin, hE.bellman_fin, hE.value_sink, add_zero]
        exact le_self_add
      · rw [← bellman_value, bellman_avg hE hR dir h hf he, bellman_avg hE hR dir h hf he, staying_limit hR.toClosed dir h hl he]
        refine (le_best_add (hdir.imp_right fun h => h l t) he _ _).trans (best_mono dir fun e e1 => ?_)
        rw [← avg_add]
        refine avg_mono fun d hd' hw => ?_
        rw [hXR _ _ (hR.step l t h e e1 d hd' hw)]
    · rw [hXN l t h]; exact zero_le
  have h2 : ∀ l t, X l t ≤ 1 := by
    intro l t
    by_cases h : R l t
    · rw [hXR l t h, value_eq_limit]
      unfold JAutomaton.limit
      rw [ENNReal.iSup_add]
      exact iSup_le fun n => (add_le_add le_rfl (iInf_le _ n)).trans (steps_staying_le hE hR hdir n l t h)
    · rw [hXN l t h]; exact zero_le
  have h3 : ∀ t, X .err t = 0 := by
    intro t
    by_cases h : R .err t
    · rw [hXR _ _ h, hE.value_err, zero_add]
      exact le_antisymm ((iInf_le _ 1).trans (staying_err hE hR dir 0 t).le) zero_le
    · exact hXN _ _ h
  have := le_liberal hd C A dir X h1 h2 h3 S (φ := φ) hV (fun q hq => by cases hq) henc hsc hsup hco (fun τ t ht => by
    by_cases h : R .fin t
    · have h0 : ⨅ n, A.staying R dir n .fin t = 0 := le_antisymm ((iInf_le _ 1).trans (staying_fin hE hR dir 0 t).le) zero_le
      rw [hXR _ _ h, h0, add_zero, ← bellman_value, hE.bellman_fin, hE.value_sink, add_zero, hφ τ t ht]
    · rw [hXN _ _ h]; exact zero_le) σ s (by rw [List.append_nil]; exact hrel)
  rwa [hXR _ _ hr] at this

end

/-! ## Unbounded -/

section
variable {A : JAutomaton}

/-- There is a path which stays outside of the sink for `n` steps. -/
def JAutomaton.Alive (A : JAutomaton) : ℕ → Loc → JState → Prop
  | 0, l, _ => l ≠ .sink
  | n + 1, l, s => l ≠ .sink ∧ (A.enabled l s = [] ∨ ∃ e ∈ A.enabled l s, ∃ d ∈ e.dests, d.weight s ≠ 0 ∧ A.Alive n d.loc (d.next s))

omit [Fns] [Doms] [Interp] in
theorem alive_pred {n : ℕ} {l : Loc} {s : JState} (h : A.Alive (n + 1) l s) : A.Alive n l s := by
  induction n generalizing l s with
  | zero => exact h.1
  | succ n ih =>
    refine ⟨h.1, h.2.imp_right ?_⟩
    rintro ⟨e, he, d, hd, hw, ha⟩
    exact ⟨e, he, d, hd, hw, ih ha⟩

omit [Fns] [Doms] [Interp] in
theorem alive_anti {m n : ℕ} (hmn : m ≤ n) {l : Loc} {s : JState} (h : A.Alive n l s) : A.Alive m l s := by
  induction n with
  | zero => cases Nat.le_zero.1 hmn; exact h
  | succ n ih =>
    rcases Nat.le_or_eq_of_le_succ hmn with hm | rfl
    · exact ih hm (alive_pred h)
    · exact h

omit [Fns] [Doms] [Interp] [JOps] in
/-- Finitely many bounds have a common one. -/
theorem common_bound {α : Type} (l : List α) {P : α → ℕ → Prop} (hP : ∀ x m n, m ≤ n → P x m → P x n) (h : ∀ x ∈ l, ∃ n, P x n) :
    ∃ n, ∀ x ∈ l, P x n := by
  induction l with
  | nil => exact ⟨0, fun x hx => nomatch hx⟩
  | cons a l ih =>
    obtain ⟨m, hm⟩ := h a List.mem_cons_self
    obtain ⟨n, hn⟩ := ih fun x hx => h x (List.mem_cons_of_mem _ hx)
    refine ⟨max m n, fun x hx => ?_⟩
    rcases List.mem_cons.1 hx with rfl | hx
    · exact hP _ _ _ (le_max_left m n) hm
    · exact hP _ _ _ (le_max_right m n) (hn x hx)

omit [Fns] [Doms] [Interp] in
/-- A state that is alive for ever has a successor that is. -/
theorem alive_next {l : Loc} {s : JState} (h : ∀ n, A.Alive n l s) : ∃ y : Loc × JState,
    (∀ n, A.Alive n y.1 y.2) ∧ (A.Step (l, s) y ∨ (A.enabled l s = [] ∧ y = (l, s))) := by
  by_cases he : A.enabled l s = []
  · exact ⟨(l, s), h, .inr ⟨he, rfl⟩⟩
  · by_contra hno
    have key : ∀ e ∈ A.enabled l s, ∃ n, ∀ d ∈ e.dests, d.weight s ≠ 0 → ¬ A.Alive n d.loc (d.next s) := by
      intro e hem
      refine common_bound e.dests (P := fun d n => d.weight s ≠ 0 → ¬ A.Alive n d.loc (d.next s))
        (fun d m n hmn hp hw ha => hp hw (alive_anti hmn ha)) fun d hd => ?_
      by_cases hw : d.weight s = 0
      · exact ⟨0, fun h => absurd hw h⟩
      · by_contra hall
        refine hno ⟨(d.loc, d.next s), fun n => ?_, .inl ⟨e, hem, d, hd, hw, rfl⟩⟩
        by_contra hn
        exact hall ⟨n, fun _ => hn⟩
    obtain ⟨n, hn⟩ := common_bound (A.enabled l s) (P := fun e n => ∀ d ∈ e.dests, d.weight s ≠ 0 → ¬ A.Alive n d.loc (d.next s))
      (fun e m n hmn hp d hd hw ha => hp d hd hw (alive_anti hmn ha)) key
    rcases (h (n + 1)).2 with h0 | ⟨e, hem, d, hd, hw, ha⟩
    · exact he h0
    · exact hn e hem d hd hw ha

omit [Fns] [Doms] [Interp] in
/-- König's lemma: there is an infinite path if there are arbitrarily long ones. -/
theorem path_of_alive {l : Loc} {s : JState} (h : ∀ n, A.Alive n l s) : ∃ ρ, A.Path (fun l _ => l ≠ .sink) ρ ∧ ρ 0 = (l, s) := by
  let T := {x : Loc × JState // ∀ n, A.Alive n x.1 x.2}
  have hnext : ∀ x : T, ∃ y : T, A.Step x.1 y.1 ∨ (A.enabled x.1.1 x.1.2 = [] ∧ y.1 = x.1) := fun x => by
    obtain ⟨y, h1, h2⟩ := alive_next x.2
    exact ⟨⟨y, h1⟩, h2⟩
  choose f hf using hnext
  let ρ : ℕ → T := fun n => Nat.rec ⟨(l, s), h⟩ (fun _ x => f x) n
  exact ⟨fun n => (ρ n).1, ⟨fun n => (ρ n).2 0, fun n => hf (ρ n)⟩, rfl⟩

omit [Fns] [Doms] [Interp] in
theorem alive_of_path {ρ : ℕ → Loc × JState} (h : A.Path (fun l _ => l ≠ .sink) ρ) (n k : ℕ) : A.Alive n (ρ k).1 (ρ k).2 := by
  induction n generalizing k with
  | zero => exact h.holds k
  | succ n ih =>
    refine ⟨h.holds k, ?_⟩
    rcases h.step k with ⟨e, he, d, hd, hw, hy⟩ | ⟨he, _⟩
    · have := ih (k + 1)
      rw [hy] at this
      exact .inr ⟨e, he, d, hd, hw, this⟩
    · exact .inl he

/-- There is a path which never reaches the sink. -/
def JAutomaton.Diverges (A : JAutomaton) (l : Loc) (s : JState) : Prop := ∃ ρ, A.Path (fun l _ => l ≠ .sink) ρ ∧ ρ 0 = (l, s)

omit [Fns] [Doms] [Interp] in
theorem diverges_iff {l : Loc} {s : JState} : A.Diverges l s ↔ ∀ n, A.Alive n l s :=
  ⟨fun ⟨_, h, h0⟩ n => by simpa [h0] using alive_of_path h n 0, path_of_alive⟩

open Classical in
/-- The optimal reward of `n` steps, or `∞` if the sink is not reached by then. -/
noncomputable def JAutomaton.cost (A : JAutomaton) (d : Dir) : ℕ → Loc → JState → ℝ≥0∞
  | 0, l, _ => if l = .sink then 0 else ⊤
  | n + 1, l, s => if l = .sink then 0 else if A.enabled l s = [] then ⊤ else A.bellman d (A.cost d n) l s

variable {j : JExpr} (hE : Ends A j)
include hE

theorem cost_sink (d : Dir) (n : ℕ) (t : JState) : A.cost d n .sink t = 0 := by
  cases n <;> exact if_pos rfl

theorem cost_steps (d : Dir) (n : ℕ) {l : Loc} {s : JState} (h : ¬ A.Alive n l s) : A.cost d n l s = A.steps d n l s := by
  induction n generalizing l s with
  | zero => rw [show l = .sink from not_not.1 h]; exact cost_sink hE d 0 s
  | succ n ih =>
    by_cases hl : l = .sink
    · subst hl
      rw [cost_sink hE, hE.steps_sink]
    · have he : A.enabled l s ≠ [] := fun he => h ⟨hl, .inl he⟩
      rw [JAutomaton.cost, if_neg hl, if_neg he]
      show A.bellman d _ l s = A.bellman d _ l s
      unfold JAutomaton.bellman
      rw [if_neg he, if_neg he]
      congr 1
      refine best_congr d fun e hem => ?_
      unfold JEdge.expect
      congr 1
      refine List.map_congr_left fun d' hd' => ?_
      by_cases hw : d'.weight s = 0
      · rw [hw, zero_mul, zero_mul]
      · rw [ih fun ha => h ⟨hl, .inr ⟨e, hem, d', hd', hw, ha⟩⟩]

/-- Upper bound: if all paths end, the reward. -/
theorem liberal_le_value (hd : SameOps) (C : SemCtx) (hcall : ∀ l f a, Monotone (C.call l f a)) {dir : Dir} {S : Stmt} {V : Var → Prop}
    {start : Loc} {φ : Exp} (hV : ∀ v, V v → isJaniTy v.ty = true) (henc : Enc A dir S start .fin) (hsc : Scoped S V [])
    (hsup : Supported S) (hφ : ∀ τ t, Rel (scope V S) [] τ t → j.weight t = φ τ) {σ : Env} {s : JState} (hrel : Rel V (pend S) σ s)
    (hdiv : ¬ A.Diverges start s) : liberal ⊤ C S φ σ ≤ A.value dir start s := by
  classical
  rw [diverges_iff] at hdiv
  obtain ⟨n, hn⟩ := not_forall.1 hdiv
  have h1 : ∀ l t, A.enabled l t ≠ [] → ⊤ ≤ A.cost dir 0 l t := fun l t he => by
    rw [JAutomaton.cost, if_neg (hE.ne_sink he)]
  have h2 : ∀ l t, A.enabled l t ≠ [] → ∀ k, A.bellman dir (A.cost dir (k - 1)) l t ≤ A.cost dir k l t := fun l t he k => by
    cases k with
    | zero => rw [JAutomaton.cost, if_neg (hE.ne_sink he)]; exact le_top
    | succ k => rw [Nat.add_sub_cancel, JAutomaton.cost, if_neg (hE.ne_sink he), if_neg he]
  have := liberal_le hd C hcall A dir (A.cost dir) h1 h2 S (n := n) (φ := φ) hV (fun q hq => by cases hq) henc hsc hsup (fun m _ τ t ht => by
    cases m with
    | zero => rw [JAutomaton.cost, if_neg (by simp)]; exact le_top
    | succ m =>
      rw [JAutomaton.cost, if_neg (by simp), if_neg (by rw [hE.fin]; simp), hE.bellman_fin, cost_sink hE, add_zero, hφ τ t ht])
    n le_rfl σ s (by rw [List.append_nil]; exact hrel)
  rw [cost_steps hE dir n hn] at this
  rw [value_eq_limit]
  exact this.trans (le_iSup (fun n => A.steps dir n start s) n)

/-- Lower bound: `∞` if there is a diverging path, and the reward otherwise. -/
theorem value_le_liberal (hd : SameOps) (C : SemCtx) {dir : Dir} (hdir : dir = .up ∨ ∀ l (s : JState), (A.enabled l s).length ≤ 1)
    {S : Stmt} {V : Var → Prop} {start : Loc} {φ : Exp} (hV : ∀ v, V v → isJaniTy v.ty = true) (henc : Enc A dir S start .fin)
    (hsc : Scoped S V []) (hsup : Supported S) (hco : NoCoassume S) (hφ : ∀ τ t, Rel (scope V S) [] τ t → j.weight t = φ τ)
    {σ : Env} {s : JState} (hrel : Rel V (pend S) σ s) (hdiv : A.Diverges start s) : liberal ⊤ C S φ σ = ⊤ := by
  classical
  let X : Loc → JState → ℝ≥0∞ := fun l t => if A.Diverges l t then ⊤ else A.value dir l t
  have hXD : ∀ l t, A.Diverges l t → X l t = ⊤ := fun l t h => if_pos h
  have hXN : ∀ l t, ¬ A.Diverges l t → X l t = A.value dir l t := fun l t h => if_neg h
  have hge : ∀ l t, A.value dir l t ≤ X l t := fun l t => by
    by_cases h : A.Diverges l t
    · rw [hXD l t h]; exact le_top
    · rw [hXN l t h]
  have hto : ∀ l t, A.enabled l t = [.fromTo l .sink] → ¬ A.Diverges l t := fun l t he hh => by
    have := (diverges_iff.1 hh 1).2
    rw [he] at this
    rcases this with h | ⟨e, h1, d, h2, _, h3⟩
    · simp at h
    · cases List.mem_singleton.1 h1
      cases List.mem_singleton.1 h2
      exact h3 rfl
  have h1 : ∀ l t, A.enabled l t ≠ [] → X l t ≤ A.bellman dir X l t := by
    intro l t he
    by_cases h : A.Diverges l t
    · obtain ⟨y, h2, h3⟩ := alive_next (diverges_iff.1 h)
      rcases h3 with ⟨e, hem, d, hd', hw, rfl⟩ | ⟨h3, _⟩
      · have hx : X d.loc (d.next t) = ⊤ := hXD _ _ (diverges_iff.2 h2)
        have hexp : e.expect X t = ⊤ := by
          refine top_le_iff.1 (le_trans ?_ (List.single_le_sum (fun _ _ => zero_le) _ (List.mem_map_of_mem hd')))
          rw [hx, add_top, ENNReal.mul_top hw]
        unfold JAutomaton.bellman
        rw [if_neg he]
        refine le_trans ?_ le_add_self
        refine le_trans ?_ (le_best (hdir.imp_right fun h => h l t) (fun e : JEdge => e.expect X t) hem)
        rw [hexp]
        exact le_top
      · exact absurd h3 he
    · rw [hXN l t h, ← bellman_value]
      exact bellman_mono A dir hge l t
  have := le_liberal (T := ⊤) hd C A dir X h1 (fun _ _ => le_top) (fun t => by rw [hXN _ _ (hto _ _ (hE.err t)), hE.value_err]) S (φ := φ) hV
    (fun q hq => by cases hq) henc hsc hsup hco (fun τ t ht => by
      rw [hXN _ _ (hto _ _ (hE.fin t)), ← bellman_value, hE.bellman_fin, hE.value_sink, add_zero, hφ τ t ht]) σ s
    (by rw [List.append_nil]; exact hrel)
  rw [hXD _ _ hdiv] at this
  exact top_le_iff.1 this

end

end Caesar.Mc
