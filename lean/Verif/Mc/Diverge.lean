import Verif.Mc.Liberal
import Verif.Mc.Det

/-!
# Probabilities of divergence

The optimal probability of not reaching the sink as a limit, and how it relates to greatest fixed points.
-/

open scoped ENNReal NNReal

namespace Caesar.Mc
set_option linter.unusedSectionVars false

variable [Fns] [Doms] [Interp] [JOps]

/-! ## Optima and sums -/

theorem best_mono (d : Dir) {α : Type} {es : List α} {f g : α → ℝ≥0∞} (h : ∀ e ∈ es, f e ≤ g e) :
    best d (es.map f) ≤ best d (es.map g) := by
  induction es with
  | nil => exact le_rfl
  | cons a es ih =>
    have h1 := h a List.mem_cons_self
    have h2 := ih fun e he => h e (List.mem_cons_of_mem _ he)
    cases d
    · exact min_le_min h1 h2
    · exact max_le_max h1 h2

theorem best_congr (d : Dir) {α : Type} {es : List α} {f g : α → ℝ≥0∞} (h : ∀ e ∈ es, f e = g e) :
    best d (es.map f) = best d (es.map g) := by
  rw [List.map_congr_left h]

theorem best_single (d : Dir) (v : ℝ≥0∞) : best d [v] = v := by cases d <;> simp [best]

theorem exists_best (d : Dir) {α : Type} {es : List α} (he : es ≠ []) (f : α → ℝ≥0∞) : ∃ e ∈ es, best d (es.map f) = f e := by
  obtain ⟨e, h1, h2⟩ := List.mem_map.1 (best_mem d (vs := es.map f) (by simpa using he))
  exact ⟨e, h1, h2.symm⟩

theorem best_le {d : Dir} {α : Type} {es : List α} (hd : d = .down ∨ es.length ≤ 1) (f : α → ℝ≥0∞) {e : α} (he : e ∈ es) :
    best d (es.map f) ≤ f e := by
  rcases hd with rfl | hd
  · exact best_down_le (List.mem_map_of_mem he)
  · match es, hd, he with
    | [a], _, he => rw [List.mem_singleton.1 he, List.map_cons, List.map_nil, best_single]

theorem le_best {d : Dir} {α : Type} {es : List α} (hd : d = .up ∨ es.length ≤ 1) (f : α → ℝ≥0∞) {e : α} (he : e ∈ es) :
    f e ≤ best d (es.map f) := by
  rcases hd with rfl | hd
  · exact le_best_up (List.mem_map_of_mem he)
  · match es, hd, he with
    | [a], _, he => rw [List.mem_singleton.1 he, List.map_cons, List.map_nil, best_single]

theorem best_add_le {d : Dir} {α : Type} {es : List α} (hd : d = .up ∨ es.length ≤ 1) (he : es ≠ []) (f g : α → ℝ≥0∞) :
    best d (es.map fun e => f e + g e) ≤ best d (es.map f) + best d (es.map g) := by
  obtain ⟨e, h1, h2⟩ := exists_best d he fun e => f e + g e
  rw [h2]
  exact add_le_add (le_best hd f h1) (le_best hd g h1)

theorem le_best_add {d : Dir} {α : Type} {es : List α} (hd : d = .down ∨ es.length ≤ 1) (he : es ≠ []) (f g : α → ℝ≥0∞) :
    best d (es.map f) + best d (es.map g) ≤ best d (es.map fun e => f e + g e) := by
  obtain ⟨e, h1, h2⟩ := exists_best d he fun e => f e + g e
  rw [h2]
  exact add_le_add (best_le hd f h1) (best_le hd g h1)

theorem best_map_iInf (d : Dir) {α : Type} (es : List α) {f : ℕ → α → ℝ≥0∞} (h : ∀ e ∈ es, Antitone fun n => f n e) :
    best d (es.map fun e => ⨅ n, f n e) = ⨅ n, best d (es.map (f n)) := by
  induction es with
  | nil => cases d <;> simp [best]
  | cons a es ih =>
    have ha := h a List.mem_cons_self
    have hes := fun e he => h e (List.mem_cons_of_mem _ he)
    have hm : Antitone fun n => best d (es.map (f n)) := fun m n hmn => best_mono d fun e he => hes e he hmn
    cases d
    · show (⨅ n, f n a) ⊓ best .down _ = ⨅ n, f n a ⊓ best .down (es.map (f n))
      rw [ih hes, iInf_inf_eq]
    · show (⨅ n, f n a) ⊔ best .up _ = ⨅ n, f n a ⊔ best .up (es.map (f n))
      rw [ih hes, iInf_sup_of_antitone ha hm]

theorem sum_mono {α : Type} {ds : List α} {f g : α → ℝ≥0∞} (h : ∀ d ∈ ds, f d ≤ g d) : (ds.map f).sum ≤ (ds.map g).sum := by
  induction ds with
  | nil => exact le_rfl
  | cons a ds ih =>
    simp only [List.map_cons, List.sum_cons]
    exact add_le_add (h a List.mem_cons_self) (ih fun d hd => h d (List.mem_cons_of_mem _ hd))

theorem list_sum_iInf {α : Type} (ds : List α) {f : ℕ → α → ℝ≥0∞} (h : ∀ e ∈ ds, Antitone fun n => f n e) :
    (ds.map fun e => ⨅ n, f n e).sum = ⨅ n, (ds.map (f n)).sum := by
  induction ds with
  | nil => simp
  | cons a ds ih =>
    have ha := h a List.mem_cons_self
    have hds := fun e he => h e (List.mem_cons_of_mem _ he)
    have hm : Antitone fun n => (ds.map (f n)).sum := fun m n hmn => sum_mono fun e he => hds e he hmn
    simp only [List.map_cons, List.sum_cons]
    rw [ih hds, ENNReal.iInf_add_iInf]
    exact fun i j => ⟨max i j, add_le_add (ha (le_max_left i j)) (hm (le_max_right i j))⟩

section

/-- The expected value after an edge, without its rewards. -/
noncomputable def JEdge.avg (X : Loc → JState → ℝ≥0∞) (e : JEdge) (s : JState) : ℝ≥0∞ :=
  (e.dests.map fun d => d.weight s * X d.loc (d.next s)).sum

theorem avg_mono {X Y : Loc → JState → ℝ≥0∞} {e : JEdge} {s : JState}
    (h : ∀ d ∈ e.dests, d.weight s ≠ 0 → X d.loc (d.next s) ≤ Y d.loc (d.next s)) : e.avg X s ≤ e.avg Y s := by
  refine sum_mono fun d hd => ?_
  by_cases hw : d.weight s = 0
  · rw [hw, zero_mul, zero_mul]
  · exact mul_le_mul_right (h d hd hw) _

theorem avg_add (X Y : Loc → JState → ℝ≥0∞) (e : JEdge) (s : JState) :
    e.avg (fun l s => X l s + Y l s) s = e.avg X s + e.avg Y s := by
  unfold JEdge.avg
  rw [← List.sum_map_add]
  congr 1
  exact List.map_congr_left fun d _ => mul_add _ _ _

theorem avg_goto (X : Loc → JState → ℝ≥0∞) (a b : Loc) (s : JState) : (JEdge.fromTo a b).avg X s = X b s := by
  have h := expect_goto X a b none s
  unfold JEdge.expect at h
  unfold JEdge.avg JEdge.fromTo
  refine Eq.trans ?_ h
  congr 1
  refine List.map_congr_left fun d hd => ?_
  cases List.mem_singleton.1 hd
  show _ = _ * (0 + _)
  rw [zero_add]

theorem avg_iInf {X : ℕ → Loc → JState → ℝ≥0∞} (h : ∀ l s, Antitone fun n => X n l s) {e : JEdge} {s : JState}
    (hw : ∀ d ∈ e.dests, d.weight s ≠ ⊤) : e.avg (fun l s => ⨅ n, X n l s) s = ⨅ n, e.avg (X n) s := by
  unfold JEdge.avg
  rw [← list_sum_iInf e.dests (f := fun n d => d.weight s * X n d.loc (d.next s))]
  · congr 1
    exact List.map_congr_left fun d hd => ENNReal.mul_iInf' (fun h => absurd h (hw d hd)) fun _ => inferInstance
  · exact fun d _ m n hmn => mul_le_mul_right (h _ _ hmn) _

/-! ## Automata of statements -/

/-- The last locations of an automaton. -/
structure Ends (A : JAutomaton) (j : JExpr) : Prop where
  sink : ∀ t : JState, A.enabled .sink t = []
  err : ∀ t : JState, A.enabled .err t = [.fromTo .err .sink]
  fin : ∀ t : JState, A.enabled .fin t = [.fromTo .fin .sink]
  exit : ∀ l, A.exit l = if l = .fin then some j else none

theorem finish_ends {b : Build} (hwf : b.WF) (j : JExpr) : Ends (finish b j) j := by
  obtain ⟨hfin, herr, hsink⟩ := finish_special hwf j
  refine ⟨fun t => by rw [enabled_at hsink, List.filter_nil], fun t => ?_, fun t => ?_, fun l => rfl⟩
  · rw [enabled_at herr]
    exact List.filter_eq_self.2 fun e he => by
      rw [List.mem_singleton.1 he]
      exact @decide_eq_true (JEdge.enabled _ t) (Classical.propDecidable _) trivial
  · rw [enabled_at hfin]
    exact List.filter_eq_self.2 fun e he => by
      rw [List.mem_singleton.1 he]
      exact @decide_eq_true (JEdge.enabled _ t) (Classical.propDecidable _) trivial

section
variable {A : JAutomaton} {j : JExpr} (hE : Ends A j)
include hE

theorem Ends.bellman_fin (d : Dir) (X : Loc → JState → ℝ≥0∞) (t : JState) : A.bellman d X .fin t = j.weight t + X .sink t := by
  unfold JAutomaton.bellman
  rw [hE.fin, if_neg (by simp), List.map_cons, List.map_nil, best_single]
  have hx : A.exitReward .fin t = j.weight t := by
    unfold JAutomaton.exitReward
    rw [hE.exit, if_pos rfl]
  rw [hx]
  congr 1
  exact expect_goto X .fin .sink none t

theorem Ends.exit_zero {l : Loc} (h : l ≠ .fin) (t : JState) : A.exitReward l t = 0 := by
  unfold JAutomaton.exitReward
  rw [hE.exit, if_neg h]

theorem Ends.bellman_err (d : Dir) (X : Loc → JState → ℝ≥0∞) (t : JState) : A.bellman d X .err t = X .sink t := by
  unfold JAutomaton.bellman
  rw [hE.err, if_neg (by simp), List.map_cons, List.map_nil, best_single, hE.exit_zero (by simp), zero_add]
  exact expect_goto X .err .sink none t

theorem Ends.steps_sink (d : Dir) (n : ℕ) (t : JState) : A.steps d n .sink t = 0 := by
  cases n with
  | zero => rfl
  | succ n =>
    show A.bellman d _ .sink t = 0
    unfold JAutomaton.bellman
    rw [hE.sink, if_pos rfl]

theorem Ends.value_sink (d : Dir) (t : JState) : A.value d .sink t = 0 := by
  rw [value_eq_limit]
  exact (iSup_congr fun n => hE.steps_sink d n t).trans (by simp)

theorem Ends.value_err (d : Dir) (t : JState) : A.value d .err t = 0 := by
  rw [← bellman_value, hE.bellman_err, hE.value_sink]

theorem Ends.ne_sink {l : Loc} {t : JState} (h : A.enabled l t ≠ []) : l ≠ .sink := fun hl => h (hl ▸ hE.sink t)

/-- The path property holds outside of the sink. -/
theorem Ends.holds_iff (l : Loc) (t : JState) : A.Holds (.not (.id sinkVar)) l t ↔ l ≠ .sink := by
  have hne : (sinkVar == rewardVar) = false := by decide
  have hne' : (sinkVar == errVar) = false := by decide
  have hne2 : sinkVar ≠ rewardVar := by decide
  have hview : A.view l t sinkVar = .bool (l = .sink) := by
    unfold JAutomaton.view JAutomaton.values
    rw [hE.exit]
    cases l with
    | sink =>
      simp [JExpr.eval]
    | err =>
      simp [List.lookup, hne', if_neg hne2]
    | fin =>
      simp [List.lookup, hne, if_neg hne2]
    | l k =>
      simp [if_neg hne2]
  show ¬ (A.view l t sinkVar).holds ↔ _
  rw [hview]
  rfl

end

/-! ## The probability of staying outside of the sink -/

/-- A set of states that is not left, in which probabilities sum up to one and there are only rewards for leaving locations, at most one. -/
structure Closed (A : JAutomaton) (R : Loc → JState → Prop) : Prop where
  step : ∀ l s, R l s → ∀ e ∈ A.enabled l s, ∀ d ∈ e.dests, d.weight s ≠ 0 → R d.loc (d.next s)
  mass : ∀ l s, R l s → ∀ e ∈ A.enabled l s, (e.dests.map fun d => d.weight s).sum = 1

/-- Besides, there are rewards only for leaving locations, at most one. -/
structure ClosedOne (A : JAutomaton) (R : Loc → JState → Prop) : Prop extends Closed A R where
  reward : ∀ l s, R l s → ∀ e ∈ A.enabled l s, ∀ d ∈ e.dests, d.reward s = 0
  exit : ∀ l s, R l s → A.exitReward l s ≤ 1

theorem closed_reach {A : JAutomaton} {l : Loc} {s : JState} (h : A.OneBounded l s) : ClosedOne A (A.Reach l s) where
  step _ _ hr e he d hd hw := hr.step ⟨e, he, d, hd, hw, rfl⟩
  mass := h.mass
  reward := h.reward
  exit := h.exit

open Classical in
/-- The optimal probability of staying in `R` and outside of the sink for `n` steps. -/
noncomputable def JAutomaton.staying (A : JAutomaton) (R : Loc → JState → Prop) (d : Dir) : ℕ → Loc → JState → ℝ≥0∞
  | 0, l, s => if R l s ∧ l ≠ .sink then 1 else 0
  | n + 1, l, s => if ¬ (R l s ∧ l ≠ .sink) then 0 else if A.enabled l s = [] then 1
    else best d ((A.enabled l s).map fun e => e.avg (A.staying R d n) s)

section
variable {A : JAutomaton} {R : Loc → JState → Prop}

theorem staying_zero (d : Dir) {l : Loc} {s : JState} (h : R l s) (hl : l ≠ .sink) : A.staying R d 0 l s = 1 := if_pos ⟨h, hl⟩

theorem staying_out (d : Dir) (n : ℕ) {l : Loc} {s : JState} (h : ¬ (R l s ∧ l ≠ .sink)) : A.staying R d n l s = 0 := by
  cases n with
  | zero => exact if_neg h
  | succ n => exact if_pos h

theorem staying_sink (d : Dir) (n : ℕ) (s : JState) : A.staying R d n .sink s = 0 := staying_out d n fun h => h.2 rfl

theorem staying_dead (d : Dir) (n : ℕ) {l : Loc} {s : JState} (h : R l s) (hl : l ≠ .sink) (he : A.enabled l s = []) :
    A.staying R d n l s = 1 := by
  cases n with
  | zero => exact if_pos ⟨h, hl⟩
  | succ n => exact (if_neg (not_not.2 ⟨h, hl⟩)).trans (if_pos he)

theorem staying_step (d : Dir) (n : ℕ) {l : Loc} {s : JState} (h : R l s) (hl : l ≠ .sink) (he : A.enabled l s ≠ []) :
    A.staying R d (n + 1) l s = best d ((A.enabled l s).map fun e => e.avg (A.staying R d n) s) :=
  (if_neg (not_not.2 ⟨h, hl⟩)).trans (if_neg he)

theorem avg_le_one (hR : Closed A R) {l : Loc} {s : JState} (h : R l s) {e : JEdge} (he : e ∈ A.enabled l s)
    {X : Loc → JState → ℝ≥0∞} (hX : ∀ d ∈ e.dests, d.weight s ≠ 0 → X d.loc (d.next s) ≤ 1) : e.avg X s ≤ 1 := by
  refine (avg_mono (Y := fun _ _ => 1) hX).trans (le_of_eq ?_)
  refine Eq.trans ?_ (hR.mass l s h e he)
  unfold JEdge.avg
  simp only [mul_one]

theorem staying_le_one (hR : Closed A R) (d : Dir) (n : ℕ) (l : Loc) (s : JState) : A.staying R d n l s ≤ 1 := by
  induction n generalizing l s with
  | zero =>
    by_cases h : R l s ∧ l ≠ .sink
    · rw [staying_zero d h.1 h.2]
    · rw [staying_out d 0 h]; exact zero_le
  | succ n ih =>
    by_cases h : R l s ∧ l ≠ .sink
    · by_cases he : A.enabled l s = []
      · rw [staying_dead d _ h.1 h.2 he]
      · rw [staying_step d n h.1 h.2 he]
        obtain ⟨e, h1, h2⟩ := exists_best d he fun e => e.avg (A.staying R d n) s
        rw [h2]
        exact avg_le_one hR h.1 h1 fun d _ _ => ih _ _
    · rw [staying_out d _ h]; exact zero_le

theorem staying_anti (hR : Closed A R) (d : Dir) (l : Loc) (s : JState) : Antitone fun n => A.staying R d n l s := by
  refine antitone_nat_of_succ_le fun n => ?_
  induction n generalizing l s with
  | zero =>
    by_cases h : R l s ∧ l ≠ .sink
    · rw [staying_zero d h.1 h.2]; exact staying_le_one hR d _ l s
    · rw [staying_out d _ h]; exact zero_le
  | succ n ih =>
    by_cases h : R l s ∧ l ≠ .sink
    · by_cases he : A.enabled l s = []
      · rw [staying_dead d _ h.1 h.2 he, staying_dead d _ h.1 h.2 he]
      · rw [staying_step d _ h.1 h.2 he, staying_step d _ h.1 h.2 he]
        exact best_mono d fun e _ => avg_mono fun d _ _ => ih _ _
    · rw [staying_out d _ h]; exact zero_le

theorem weight_ne_top (hR : Closed A R) {l : Loc} {s : JState} (h : R l s) {e : JEdge} (he : e ∈ A.enabled l s) {d : JDest}
    (hd : d ∈ e.dests) : d.weight s ≠ ⊤ := by
  intro ht
  have h1 := hR.mass l s h e he
  have h2 : d.weight s ≤ (e.dests.map fun d => d.weight s).sum := List.single_le_sum (fun _ _ => zero_le) _ (List.mem_map_of_mem hd)
  rw [h1, ht] at h2
  exact absurd h2 (by simp)

/-- The limit is a solution of its equation. -/
theorem staying_limit (hR : Closed A R) (d : Dir) {l : Loc} {s : JState} (h : R l s) (hl : l ≠ .sink) (he : A.enabled l s ≠ []) :
    ⨅ n, A.staying R d n l s = best d ((A.enabled l s).map fun e => e.avg (fun l s => ⨅ n, A.staying R d n l s) s) := by
  have h1 : ⨅ n, A.staying R d n l s = ⨅ n, A.staying R d (n + 1) l s :=
    le_antisymm (le_iInf fun n => iInf_le _ (n + 1)) (le_iInf fun n => (iInf_le _ n).trans (staying_anti hR d l s n.le_succ))
  rw [h1]
  rw [iInf_congr fun n => staying_step d n h hl he,
    best_congr d fun e he => avg_iInf (staying_anti hR d) fun d' hd' => weight_ne_top hR h he hd']
  exact (best_map_iInf d _ (f := fun n (e : JEdge) => e.avg (A.staying R d n) s) fun e _ m n hmn =>
    avg_mono fun d' _ _ => staying_anti hR d _ _ hmn).symm

/-! ### Schedulers -/

theorem scheduler_staying (hR : Closed A R) (π : Scheduler A) (n : ℕ) (h : List (Loc × JState)) (l : Loc) (s : JState) (hr : R l s) :
    A.staying R .down n l s ≤ π.stay (fun l _ => l ≠ .sink) n h l s ∧ π.stay (fun l _ => l ≠ .sink) n h l s ≤ A.staying R .up n l s := by
  induction n generalizing h l s with
  | zero =>
    by_cases hl : l = .sink <;> simp [Scheduler.stay, JAutomaton.staying, hr, hl]
  | succ n ih =>
    by_cases hl : l = .sink
    · subst hl
      rw [staying_sink, staying_sink, Scheduler.stay, if_pos (by simp)]
      exact ⟨le_rfl, le_rfl⟩
    · by_cases he : A.enabled l s = []
      · rw [staying_dead _ _ hr hl he, staying_dead _ _ hr hl he, Scheduler.stay, if_neg (not_not.2 hl), if_pos he]
        exact ⟨le_rfl, le_rfl⟩
      · have hm := π.valid h l s he
        rw [staying_step _ _ hr hl he, staying_step _ _ hr hl he, Scheduler.stay, if_neg (not_not.2 hl), if_neg he]
        constructor
        · exact (best_le (.inl rfl) _ hm).trans (avg_mono fun d hd hw => (ih _ _ _ (hR.step l s hr _ hm d hd hw)).1)
        · exact (avg_mono fun d hd hw => (ih _ _ _ (hR.step l s hr _ hm d hd hw)).2).trans (le_best (.inl rfl) _ hm)

/-- A scheduler which picks an optimal edge. -/
theorem exists_avg (A : JAutomaton) (d : Dir) (X : List (Loc × JState) → Loc → JState → ℝ≥0∞) :
    ∃ π : Scheduler A, ∀ h l s, A.enabled l s ≠ [] →
      (π.pick h l s).avg (X h) s = best d ((A.enabled l s).map fun e => e.avg (X h) s) := by
  have : ∀ (h : List (Loc × JState)) (l : Loc) (s : JState), ∃ e : JEdge, A.enabled l s ≠ [] →
      e ∈ A.enabled l s ∧ e.avg (X h) s = best d ((A.enabled l s).map fun e => e.avg (X h) s) := by
    intro h l s
    by_cases he : A.enabled l s = []
    · exact ⟨⟨.sink, none, []⟩, fun h => absurd he h⟩
    · obtain ⟨e, h1, h2⟩ := exists_best d he fun e => e.avg (X h) s
      exact ⟨e, fun _ => ⟨h1, h2.symm⟩⟩
  choose f hf using this
  exact ⟨⟨f, fun h l s he => (hf h l s he).1⟩, fun h l s he => (hf h l s he).2⟩

/-- The minimal probability is the limit. -/
theorem always_min (hR : Closed A R) {l : Loc} {s : JState} (hr : R l s) :
    ⨅ π : Scheduler A, π.always (fun l _ => l ≠ .sink) l s = ⨅ n, A.staying R .down n l s := by
  refine le_antisymm (le_iInf fun n => ?_) (le_iInf fun π => iInf_mono fun n => (scheduler_staying hR π n [] l s hr).1)
  obtain ⟨π, hπ⟩ := exists_avg A .down fun h => A.staying R .down (n - h.length - 1)
  refine (iInf_le _ π).trans ((iInf_le _ n).trans ?_)
  have key : ∀ k h l s, R l s → h.length + k = n → π.stay (fun l _ => l ≠ .sink) k h l s ≤ A.staying R .down k l s := by
    intro k
    induction k with
    | zero =>
      intro h l s hr _
      by_cases hl : l = .sink <;> simp [Scheduler.stay, JAutomaton.staying, hr, hl]
    | succ k ih =>
      intro h l s hr hk
      by_cases hl : l = .sink
      · subst hl
        rw [Scheduler.stay, if_pos (by simp)]
        exact zero_le
      · by_cases he : A.enabled l s = []
        · rw [staying_dead _ _ hr hl he, Scheduler.stay, if_neg (not_not.2 hl), if_pos he]
        · have hm := π.valid h l s he
          have h1 : n - h.length - 1 = k := by omega
          have h2 := hπ h l s he
          rw [h1] at h2
          rw [staying_step _ _ hr hl he, Scheduler.stay, if_neg (not_not.2 hl), if_neg he, ← h2]
          exact avg_mono fun d hd hw => ih _ _ _ (hR.step l s hr _ hm d hd hw) (by simp; omega)
  exact key n [] l s hr (by simp)

/-- The maximal probability is the limit. -/
theorem always_max (hR : Closed A R) {l : Loc} {s : JState} (hr : R l s) :
    ⨆ π : Scheduler A, π.always (fun l _ => l ≠ .sink) l s = ⨅ n, A.staying R .up n l s := by
  refine le_antisymm (iSup_le fun π => iInf_mono fun n => (scheduler_staying hR π n [] l s hr).2) ?_
  obtain ⟨π, hπ⟩ := exists_avg A .up fun _ l s => ⨅ n, A.staying R .up n l s
  refine le_trans (le_iInf fun n => ?_) (le_iSup (fun π : Scheduler A => π.always (fun l _ => l ≠ .sink) l s) π)
  have key : ∀ n h l s, R l s → ⨅ n, A.staying R .up n l s ≤ π.stay (fun l _ => l ≠ .sink) n h l s := by
    intro n
    induction n with
    | zero =>
      intro h l s hr
      refine (iInf_le _ 0).trans ?_
      by_cases hl : l = .sink <;> simp [Scheduler.stay, JAutomaton.staying, hr, hl]
    | succ n ih =>
      intro h l s hr
      by_cases hl : l = .sink
      · subst hl
        exact (iInf_le _ 0).trans (by rw [staying_sink]; exact zero_le)
      · by_cases he : A.enabled l s = []
        · rw [Scheduler.stay, if_neg (not_not.2 hl), if_pos he]
          exact (iInf_le _ 0).trans (staying_le_one hR _ _ _ _)
        · have hm := π.valid h l s he
          rw [staying_limit hR .up hr hl he, Scheduler.stay, if_neg (not_not.2 hl), if_neg he, ← hπ h l s he]
          exact avg_mono fun d hd hw => ih _ _ _ (hR.step l s hr _ hm d hd hw)
  exact key n [] l s hr

end

end

end Caesar.Mc
