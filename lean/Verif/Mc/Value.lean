import Verif.Mc.Jani

/-!
# Value iteration

The optimal expected reward of a JANI automaton is the least fixed point of the Bellman operator.
-/

open scoped ENNReal NNReal

namespace Caesar.Mc
set_option linter.unusedSectionVars false

variable [JOps]

/-- `Emin` for `Down` and `Emax` for `Up` (`src/mc/specs.rs:160-163`). -/
noncomputable def best : Dir → List ℝ≥0∞ → ℝ≥0∞
  | .down, vs => vs.foldr min ⊤
  | .up, vs => vs.foldr max 0

open Classical in
/-- One step of value iteration: leave the location, and take the best enabled edge. A state without enabled edges has no
further reward. -/
noncomputable def JAutomaton.bellman (A : JAutomaton) (d : Dir) (X : Loc → JState → ℝ≥0∞) : Loc → JState → ℝ≥0∞ :=
  fun l s => if A.enabled l s = [] then 0
    else A.exitReward l s + best d ((A.enabled l s).map fun e => e.expect X s)

/-- The optimal expected reward of the first `n` steps. -/
noncomputable def JAutomaton.steps (A : JAutomaton) (d : Dir) : ℕ → Loc → JState → ℝ≥0∞
  | 0 => fun _ _ => 0
  | n + 1 => A.bellman d (A.steps d n)

theorem best_down_le {vs : List ℝ≥0∞} {v : ℝ≥0∞} (h : v ∈ vs) : best .down vs ≤ v := by
  induction vs with
  | nil => cases h
  | cons a vs ih =>
    rcases List.mem_cons.1 h with rfl | h
    · exact min_le_left _ _
    · exact (min_le_right _ _).trans (ih h)

theorem le_best_up {vs : List ℝ≥0∞} {v : ℝ≥0∞} (h : v ∈ vs) : v ≤ best .up vs := by
  induction vs with
  | nil => cases h
  | cons a vs ih =>
    rcases List.mem_cons.1 h with rfl | h
    · exact le_max_left _ _
    · exact (ih h).trans (le_max_right _ _)

theorem best_mem (d : Dir) {vs : List ℝ≥0∞} (h : vs ≠ []) : best d vs ∈ vs := by
  induction vs with
  | nil => exact absurd rfl h
  | cons a vs ih =>
    by_cases hv : vs = []
    · subst hv
      cases d <;> simp [best]
    · have := ih hv
      cases d
      · show min a (best .down vs) ∈ _
        rcases min_choice a (best .down vs) with h | h <;> rw [h]
        · exact List.mem_cons_self
        · exact List.mem_cons_of_mem _ this
      · show max a (best .up vs) ∈ _
        rcases max_choice a (best .up vs) with h | h <;> rw [h]
        · exact List.mem_cons_self
        · exact List.mem_cons_of_mem _ this

theorem best_map_mono (d : Dir) {α : Type} {es : List α} {f g : α → ℝ≥0∞} (h : ∀ e, f e ≤ g e) :
    best d (es.map f) ≤ best d (es.map g) := by
  induction es with
  | nil => exact le_rfl
  | cons a es ih =>
    cases d
    · exact min_le_min (h a) ih
    · exact max_le_max (h a) ih

theorem best_map_iSup (d : Dir) {α : Type} (es : List α) {f : ℕ → α → ℝ≥0∞} (h : ∀ e, Monotone fun n => f n e) :
    best d (es.map fun e => ⨆ n, f n e) = ⨆ n, best d (es.map (f n)) := by
  have hm : ∀ es : List α, Monotone fun n => best d (es.map (f n)) := fun es m n hmn => best_map_mono d fun e => h e hmn
  induction es with
  | nil => cases d <;> simp [best]
  | cons a es ih =>
    cases d
    · show (⨆ n, f n a) ⊓ best .down _ = ⨆ n, f n a ⊓ best .down (es.map (f n))
      rw [ih, iSup_inf_of_monotone (h a) (hm es)]
    · show (⨆ n, f n a) ⊔ best .up _ = ⨆ n, f n a ⊔ best .up (es.map (f n))
      rw [ih, iSup_sup_eq]

theorem list_sum_iSup {α : Type} (ds : List α) {f : ℕ → α → ℝ≥0∞} (h : ∀ e, Monotone fun n => f n e) :
    (ds.map fun e => ⨆ n, f n e).sum = ⨆ n, (ds.map (f n)).sum := by
  have hm : ∀ ds : List α, Monotone fun n => (ds.map (f n)).sum := by
    intro ds m n hmn
    induction ds with
    | nil => exact le_rfl
    | cons a ds ih => exact add_le_add (h a hmn) ih
  induction ds with
  | nil => simp
  | cons a ds ih =>
    simp only [List.map_cons, List.sum_cons]
    rw [ih, ENNReal.iSup_add_iSup_of_monotone (h a) (hm ds)]

theorem expect_mono_jani {X Y : Loc → JState → ℝ≥0∞} (h : ∀ l s, X l s ≤ Y l s) (e : JEdge) (s : JState) :
    e.expect X s ≤ e.expect Y s := by
  unfold JEdge.expect
  induction e.dests with
  | nil => exact le_rfl
  | cons a ds ih =>
    simp only [List.map_cons, List.sum_cons]
    exact add_le_add (mul_le_mul_right (add_le_add le_rfl (h _ _)) _) ih

theorem expect_iSup {X : ℕ → Loc → JState → ℝ≥0∞} (h : ∀ l s, Monotone fun n => X n l s) (e : JEdge) (s : JState) :
    e.expect (fun l s => ⨆ n, X n l s) s = ⨆ n, e.expect (X n) s := by
  unfold JEdge.expect
  rw [← list_sum_iSup e.dests (f := fun n d => d.weight s * (d.reward s + X n d.loc (d.next s)))]
  · congr 1
    refine List.map_congr_left fun d _ => ?_
    rw [ENNReal.add_iSup, ENNReal.mul_iSup]
  · intro d m n hmn
    exact mul_le_mul_right (add_le_add le_rfl (h _ _ hmn)) _

theorem bellman_mono (A : JAutomaton) (d : Dir) {X Y : Loc → JState → ℝ≥0∞} (h : ∀ l s, X l s ≤ Y l s) (l : Loc)
    (s : JState) : A.bellman d X l s ≤ A.bellman d Y l s := by
  unfold JAutomaton.bellman
  by_cases he : A.enabled l s = []
  · rw [if_pos he, if_pos he]
  · rw [if_neg he, if_neg he]
    exact add_le_add le_rfl (best_map_mono d fun e => expect_mono_jani h e s)

theorem bellman_iSup (A : JAutomaton) (d : Dir) {X : ℕ → Loc → JState → ℝ≥0∞} (h : ∀ l s, Monotone fun n => X n l s)
    (l : Loc) (s : JState) : A.bellman d (fun l s => ⨆ n, X n l s) l s = ⨆ n, A.bellman d (X n) l s := by
  unfold JAutomaton.bellman
  by_cases he : A.enabled l s = []
  · simp only [if_pos he, ciSup_const]
  · simp only [if_neg he]
    rw [← ENNReal.add_iSup, ← best_map_iSup]
    · congr 2
      exact List.map_congr_left fun e _ => expect_iSup h e s
    · exact fun e m n hmn => expect_mono_jani (fun l s => h l s hmn) e s

theorem steps_mono (A : JAutomaton) (d : Dir) (l : Loc) (s : JState) : Monotone fun n => A.steps d n l s := by
  refine monotone_nat_of_le_succ fun n => ?_
  induction n generalizing l s with
  | zero => exact zero_le
  | succ n ih => exact bellman_mono A d (fun l s => ih l s) l s

/-- The limit of value iteration. -/
noncomputable def JAutomaton.limit (A : JAutomaton) (d : Dir) : Loc → JState → ℝ≥0∞ := fun l s => ⨆ n, A.steps d n l s

theorem bellman_limit (A : JAutomaton) (d : Dir) (l : Loc) (s : JState) :
    A.bellman d (A.limit d) l s = A.limit d l s := by
  show A.bellman d (fun l s => ⨆ n, A.steps d n l s) l s = ⨆ n, A.steps d n l s
  rw [bellman_iSup A d (steps_mono A d)]
  refine le_antisymm (iSup_le fun n => le_iSup (fun n => A.steps d n l s) (n + 1)) (iSup_le fun n => ?_)
  exact (steps_mono A d l s n.le_succ).trans (le_iSup (fun n => A.bellman d (A.steps d n) l s) n)

/-- A scheduler which picks, at every state, an optimal edge for the given values. -/
theorem exists_optimal (A : JAutomaton) (d : Dir) (X : List (Loc × JState) → Loc → JState → ℝ≥0∞) :
    ∃ π : Scheduler A, ∀ h l s, A.enabled l s ≠ [] →
      (π.pick h l s).expect (X h) s = best d ((A.enabled l s).map fun e => e.expect (X h) s) := by
  have : ∀ (h : List (Loc × JState)) (l : Loc) (s : JState), ∃ e : JEdge, A.enabled l s ≠ [] →
      e ∈ A.enabled l s ∧ e.expect (X h) s = best d ((A.enabled l s).map fun e => e.expect (X h) s) := by
    intro h l s
    by_cases he : A.enabled l s = []
    · exact ⟨⟨.sink, none, []⟩, fun h => absurd he h⟩
    · have hm := best_mem d (vs := (A.enabled l s).map fun e => e.expect (X h) s) (by simpa using he)
      obtain ⟨e, h1, h2⟩ := List.mem_map.1 hm
      exact ⟨e, fun _ => ⟨h1, h2⟩⟩
  choose f hf using this
  exact ⟨⟨f, fun h l s he => (hf h l s he).1⟩, fun h l s he => (hf h l s he).2⟩

theorem steps_le_scheduler (A : JAutomaton) (π : Scheduler A) (n : ℕ) (h : List (Loc × JState)) (l : Loc) (s : JState) :
    A.steps .down n l s ≤ π.steps n h l s ∧ π.steps n h l s ≤ A.steps .up n l s := by
  induction n generalizing h l s with
  | zero => exact ⟨le_rfl, le_rfl⟩
  | succ n ih =>
    simp only [JAutomaton.steps, Scheduler.steps, JAutomaton.bellman]
    by_cases he : A.enabled l s = []
    · simp only [if_pos he, le_refl, and_self]
    · simp only [if_neg he]
      have hm := π.valid h l s he
      constructor
      · exact add_le_add le_rfl ((best_down_le (List.mem_map.2 ⟨_, hm, rfl⟩)).trans
          (expect_mono_jani (fun l' s' => (ih ((l, s) :: h) l' s').1) _ s))
      · exact add_le_add le_rfl ((expect_mono_jani (fun l' s' => (ih ((l, s) :: h) l' s').2) _ s).trans
          (le_best_up (List.mem_map.2 ⟨_, hm, rfl⟩)))

/-- The optimal total expected reward is the limit of value iteration. -/
theorem value_eq_limit (A : JAutomaton) (d : Dir) (l : Loc) (s : JState) : A.value d l s = A.limit d l s := by
  cases d with
  | down =>
    refine le_antisymm ?_ (le_iInf fun π => iSup_mono fun n => (steps_le_scheduler A π n [] l s).1)
    obtain ⟨π, hπ⟩ := exists_optimal A .down fun _ => A.limit .down
    refine (iInf_le _ π).trans (iSup_le fun n => ?_)
    have key : ∀ n h l s, π.steps n h l s ≤ A.limit .down l s := by
      intro n
      induction n with
      | zero => exact fun _ _ _ => zero_le
      | succ n ih =>
        intro h l s
        rw [← bellman_limit]
        simp only [Scheduler.steps, JAutomaton.bellman]
        by_cases he : A.enabled l s = []
        · simp only [if_pos he, le_refl]
        · simp only [if_neg he]
          rw [← hπ h l s he]
          exact add_le_add le_rfl (expect_mono_jani (fun l' s' => ih _ l' s') _ s)
    exact key n [] l s
  | up =>
    refine le_antisymm (iSup_le fun π => iSup_mono fun n => (steps_le_scheduler A π n [] l s).2) (iSup_le fun n => ?_)
    obtain ⟨π, hπ⟩ := exists_optimal A .up fun h => A.steps .up (n - h.length - 1)
    have key : ∀ k h l s, h.length + k = n → A.steps .up k l s ≤ π.steps k h l s := by
      intro k
      induction k with
      | zero => exact fun _ _ _ _ => le_rfl
      | succ k ih =>
        intro h l s hk
        simp only [JAutomaton.steps, Scheduler.steps, JAutomaton.bellman]
        by_cases he : A.enabled l s = []
        · simp only [if_pos he, le_refl]
        · simp only [if_neg he]
          have h1 : n - h.length - 1 = k := by omega
          have h2 := hπ h l s he
          rw [h1] at h2
          rw [← h2]
          exact add_le_add le_rfl (expect_mono_jani (fun l' s' => ih _ l' s' (by simp; omega)) _ s)
    exact (key n [] l s (by simp)).trans ((le_iSup (fun n => π.steps n [] l s) n).trans (le_iSup (fun π : Scheduler A => π.total l s) π))

/-- The value is a solution of the Bellman equation. -/
theorem bellman_value (A : JAutomaton) (d : Dir) (l : Loc) (s : JState) :
    A.bellman d (A.value d) l s = A.value d l s := by
  have : A.value d = A.limit d := funext fun l => funext fun s => value_eq_limit A d l s
  rw [this, bellman_limit]

/-- The value is the least solution. -/
theorem value_le (A : JAutomaton) (d : Dir) {X : Loc → JState → ℝ≥0∞} (h : ∀ l s, A.bellman d X l s ≤ X l s) (l : Loc)
    (s : JState) : A.value d l s ≤ X l s := by
  rw [value_eq_limit]
  refine iSup_le fun n => ?_
  induction n generalizing l s with
  | zero => exact zero_le
  | succ n ih => exact (bellman_mono A d ih l s).trans (h l s)

end Caesar.Mc
