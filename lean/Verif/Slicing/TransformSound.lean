import Verif.Slicing.Transform
import Verif.Props.C29
import Verif.ProofRules.Frame

/-!
# Comparing a sliced program with the original program

Helper lemmas for C40 and C41.
-/

open scoped ENNReal NNReal

namespace Caesar.Slicing
set_option linter.unusedSectionVars false

/-! ## Bookkeeping -/

/-- What every step of the traversal does to the state. -/
structure Grows (st st' : St) : Prop where
  stmts : ∀ s ∈ st.stmts, s ∈ st'.stmts
  decls : ∀ x ∈ st.tcx.decls, x ∈ st'.tcx.decls
  fresh : ∀ s ∈ st'.stmts, s ∈ st.stmts ∨ s.ident ∉ st.tcx.decls
  constraints : ∀ c ∈ st.constraints, c ∈ st'.constraints

theorem Grows.refl (st : St) : Grows st st := ⟨fun _ h => h, fun _ h => h, fun _ h => .inl h, fun _ h => h⟩

theorem Grows.trans {a b c : St} (h : Grows a b) (h' : Grows b c) : Grows a c where
  stmts s hs := h'.stmts s (h.stmts s hs)
  decls x hx := h'.decls x (h.decls x hx)
  fresh s hs := (h'.fresh s hs).elim (h.fresh s) fun hn => .inr fun hx => hn (h.decls _ hx)
  constraints c hc := h'.constraints c (h.constraints c hc)

theorem freshToggle_spec (c : TyCtx) :
    (freshToggle c).1 ∉ c.decls ∧ (freshToggle c).2.decls = (freshToggle c).1 :: c.decls := by
  obtain ⟨i, c', h⟩ := c.freshIdent_some ⟨"slice_toggle", 0⟩ 0
  obtain ⟨_, -, -, hn, hd, -⟩ := TyCtx.freshLoop_spec h
  unfold freshToggle
  rw [h]
  exact ⟨hn, congrArg (i :: ·) hd⟩

theorem addSlice_grows (state : Selection) (eff : Effect) (st : St) : Grows st (addSlice state eff st).2 := by
  have h := freshToggle_spec st.tcx
  refine ⟨fun s hs => List.mem_append_left _ hs, fun x hx => ?_, fun s hs => ?_, fun _ h => h⟩
  · show x ∈ (freshToggle st.tcx).2.decls
    rw [h.2]; exact List.mem_cons_of_mem _ hx
  · rcases List.mem_append.mp hs with hs | hs
    · exact .inl hs
    · obtain rfl := List.mem_singleton.mp hs
      exact .inr h.1

theorem sliceLeaf_grows (f state : Selection) (st : St) (S : Stmt) : Grows st (sliceLeaf f state st S).2.1 := by
  unfold sliceLeaf
  split
  case h_8 d =>
    split
    · exact ⟨fun _ h => h, fun _ h => h, fun _ h => .inl h, fun _ h => h⟩
    · exact Grows.refl st
  case h_9 => exact Grows.refl st
  all_goals
    split
    · exact addSlice_grows _ _ _
    · exact Grows.refl st

theorem addBranches_grows (state : Selection) (eff : Effect) (g : Dir → Expr .bool → Stmt) (mk : Stmt → Stmt → Stmt) (a b : Stmt) (st : St) :
    Grows st (addBranches state eff g mk a b st).2.1 := by
  have h1 := addSlice_grows state eff st
  have h2 := addSlice_grows state eff (addSlice state eff st).2
  have h := h1.trans h2
  exact ⟨h.1, h.2, h.3, fun c hc => List.mem_append_left _ (h.4 c hc)⟩

theorem visitTwo_grows {mk : Stmt → Stmt → Stmt} {ra : Res} {b : Stmt} {vb : St → Res} {k : Stmt → Stmt → St → Res} {st : St}
    (ha : Grows st ra.2.1) (hb : ∀ st, Grows st (vb st).2.1) (hk : ∀ a b st, Grows st (k a b st).2.1) :
    Grows st (visitTwo mk ra b vb k).2.1 := by
  obtain ⟨a', st1, ok⟩ := ra
  cases ok with
  | false => exact ha
  | true =>
    have hb := hb st1
    unfold visitTwo
    dsimp only
    generalize vb st1 = rb at hb
    obtain ⟨b', st2, ok⟩ := rb
    cases ok with
    | false => exact ha.trans hb
    | true => exact (ha.trans hb).trans (hk _ _ _)

theorem visit_grows (f : Selection) (S : Stmt) : ∀ (state : Selection) (st : St), Grows st (visit f state st S).2.1 := by
  induction S with
  | seq a b iha ihb | additive a b iha ihb | ite c a b iha ihb =>
    intro state st
    exact visitTwo_grows (iha state st) (fun st => ihb state st) fun _ _ st => Grows.refl st
  | demonic a b iha ihb | angelic a b iha ihb =>
    intro state st
    refine visitTwo_grows (iha state st) (fun st => ihb state st) fun _ _ st => ?_
    split
    · exact addBranches_grows _ _ _ _ _ _ _
    · exact Grows.refl st
  | «while» c s ih => exact fun state st => ih state st
  | annot an s ih =>
    intro state st
    cases an with
    | slicing n => exact ih _ st
    | _ => exact ih state st
  | _ => exact fun state st => sliceLeaf_grows f state st _

/-- The traversal tracks the direction in the same way as the monotonicity check. -/
theorem visit_dir (f : Selection) (S : Stmt) : ∀ (state : Selection) (st : St) (d' : Dir), monoVisit st.dir S = some d' →
    (visit f state st S).2.2 = true ∧ (visit f state st S).2.1.dir = d' := by
  have two : ∀ {mk : Stmt → Stmt → Stmt} {a b : Stmt} {k : Stmt → Stmt → St → Res} {state : Selection} {st : St} {d' : Dir}
      (_ : ∀ (state : Selection) (st : St) (d' : Dir), monoVisit st.dir a = some d' →
        (visit f state st a).2.2 = true ∧ (visit f state st a).2.1.dir = d')
      (_ : ∀ (state : Selection) (st : St) (d' : Dir), monoVisit st.dir b = some d' →
        (visit f state st b).2.2 = true ∧ (visit f state st b).2.1.dir = d')
      (_ : ∀ a b st, (k a b st).2.2 = true ∧ (k a b st).2.1.dir = st.dir)
      (_ : (monoVisit st.dir a).bind (fun d1 => monoVisit d1 b) = some d'),
      (visitTwo mk (visit f state st a) b (fun st => visit f state st b) k).2.2 = true ∧
        (visitTwo mk (visit f state st a) b (fun st => visit f state st b) k).2.1.dir = d' := by
    intro mk a b k state st d' iha ihb hk h
    obtain ⟨d1, h1, h2⟩ := Option.bind_eq_some_iff.mp h
    have ha := iha state st d1 h1
    generalize visit f state st a = ra at ha
    obtain ⟨a', st1, ok⟩ := ra
    obtain ⟨rfl, rfl⟩ : ok = true ∧ st1.dir = d1 := ha
    have hb := ihb state st1 d' h2
    unfold visitTwo
    dsimp only
    generalize visit f state st1 b = rb at hb
    obtain ⟨b', st2, ok⟩ := rb
    obtain ⟨rfl, rfl⟩ : ok = true ∧ st2.dir = d' := hb
    exact hk _ _ _
  induction S with
  | seq a b iha ihb | additive a b iha ihb | ite c a b iha ihb =>
    exact fun state st d' h => two iha ihb (fun _ _ _ => ⟨rfl, rfl⟩) h
  | demonic a b iha ihb | angelic a b iha ihb =>
    refine fun state st d' h => two iha ihb (fun _ _ st => ?_) h
    split
    · exact ⟨rfl, rfl⟩
    · exact ⟨rfl, rfl⟩
  | «while» c s ih => exact fun state st => ih state st
  | annot an s ih =>
    intro state st
    cases an with
    | slicing n => exact ih _ st
    | _ => exact ih state st
  | negate d =>
    intro state st d' h
    have h : (if st.dir ≠ d then none else some st.dir.toggle) = some d' := h
    split at h
    · exact nomatch h
    · next hd =>
      have hd : st.dir = d := not_not.mp hd
      obtain rfl := Option.some.inj h
      show (sliceLeaf f state st (.negate d)).2.2 = true ∧ (sliceLeaf f state st (.negate d)).2.1.dir = _
      simp only [sliceLeaf, handleNegationForwards]
      rw [← hd]
      cases h : st.dir <;> exact ⟨rfl, rfl⟩
  | _ =>
    intro state st d' h
    obtain rfl : st.dir = d' := Option.some.inj h
    show (sliceLeaf f state st _).2.2 = true ∧ (sliceLeaf f state st _).2.1.dir = _
    unfold sliceLeaf
    split <;> first | exact ⟨rfl, rfl⟩ | (split <;> exact ⟨rfl, rfl⟩) | contradiction

/-! ## Comparison -/

/-- The three ways in which two values are compared. -/
inductive Cmp where
  | eq | le | ge

def Cmp.R : Cmp → ℝ≥0∞ → ℝ≥0∞ → Prop
  | .eq, a, b => a = b
  | .le, a, b => a ≤ b
  | .ge, a, b => b ≤ a

theorem Cmp.R.refl (κ : Cmp) (a : ℝ≥0∞) : κ.R a a := by
  cases κ
  · rfl
  · exact le_refl a
  · exact le_refl a

theorem Cmp.R.trans {κ : Cmp} {a b c : ℝ≥0∞} (h : κ.R a b) (h' : κ.R b c) : κ.R a c := by
  cases κ
  · exact Eq.trans h h'
  · exact le_trans (α := ℝ≥0∞) h h'
  · exact le_trans (α := ℝ≥0∞) h' h

theorem Cmp.R.map2 {κ : Cmp} {g : ℝ≥0∞ → ℝ≥0∞ → ℝ≥0∞} (hg : ∀ {a b c d}, a ≤ b → c ≤ d → g a c ≤ g b d) {a b c d : ℝ≥0∞}
    (h : κ.R a b) (h' : κ.R c d) : κ.R (g a c) (g b d) := by
  cases κ
  · obtain rfl : a = b := h
    obtain rfl : c = d := h'
    rfl
  · exact hg h h'
  · exact hg h h'

section
variable [Doms] [Interp]

/-- The slice variables `V` have the values `m`. -/
def Good (V : List SliceStmt) (m : Ident → Prop) (σ : Env) : Prop := ∀ s ∈ V, (.var s.ident : Expr .bool).tv σ ↔ m s.ident

/-- `S'` compares to `S` as `κ` if the postexpectations compare as `κ'`, in the states where the slice variables have the values `m`. -/
def Rel (C : SemCtx) (V : List SliceStmt) (m : Ident → Prop) (κ κ' : Cmp) (S S' : Stmt) : Prop :=
  ∀ φ φ' : Exp, (∀ σ, Good V m σ → κ'.R (φ' σ) (φ σ)) → ∀ σ, Good V m σ → κ.R (vcSem C S' φ' σ) (vcSem C S φ σ)

variable {C : SemCtx} {V : List SliceStmt} {m : Ident → Prop}

theorem Good.agreeOff {M : Var → Prop} {σ σ' : Env} (hM : ∀ s ∈ V, ¬ M s.var) (h : Good V m σ) (ha : AgreeOff M σ σ') : Good V m σ' := by
  intro s hs
  have : (.var s.ident : Expr .bool).tv σ' = (.var s.ident : Expr .bool).tv σ := ha s.var (hM s hs)
  rw [this]
  exact h s hs

theorem Rel.refl (hC : C.Regular) {κ : Cmp} {S : Stmt} (ht : ∀ s ∈ V, ¬ S.Touched s.var) (hS : κ = .eq ∨ Monotone (vcSem C S)) :
    Rel C V m κ κ S S := by
  classical
  intro φ φ' h σ hσ
  have hg : ∀ σ', AgreeOff (fun v => S.Touched v) σ σ' → Good V m σ' := fun σ' h' => hσ.agreeOff ht h'
  have cut : ∀ φ : Exp, vcSem C S φ σ = vcSem C S (fun τ => if Good V m τ then φ τ else 0) σ := fun φ =>
    vcSem_frame hC (fun _ h => h) fun σ' h' => (if_pos (hg σ' h')).symm
  rw [cut φ, cut φ']
  cases κ with
  | eq =>
    have : (fun τ => if Good V m τ then φ' τ else 0) = fun τ => if Good V m τ then φ τ else 0 := by
      funext τ
      by_cases hτ : Good V m τ
      · rw [if_pos hτ, if_pos hτ]; exact h τ hτ
      · rw [if_neg hτ, if_neg hτ]
    rw [this]
    rfl
  | le =>
    refine hS.resolve_left (by simp) (fun τ => ?_) σ
    by_cases hτ : Good V m τ
    · dsimp only; rw [if_pos hτ, if_pos hτ]; exact h τ hτ
    · dsimp only; rw [if_neg hτ, if_neg hτ]
  | ge =>
    refine hS.resolve_left (by simp) (fun τ => ?_) σ
    by_cases hτ : Good V m τ
    · dsimp only; rw [if_pos hτ, if_pos hτ]; exact h τ hτ
    · dsimp only; rw [if_neg hτ, if_neg hτ]

theorem Rel.seq {κ κ₁ κ' : Cmp} {a a' b b' : Stmt} (ha : Rel C V m κ κ₁ a a') (hb : Rel C V m κ₁ κ' b b') :
    Rel C V m κ κ' (.seq a b) (.seq a' b') := fun _ _ h => ha _ _ (hb _ _ h)

theorem Rel.demonic {κ : Cmp} {a a' b b' : Stmt} (ha : Rel C V m κ κ a a') (hb : Rel C V m κ κ b b') :
    Rel C V m κ κ (.demonic a b) (.demonic a' b') := fun _ _ h σ hσ =>
  Cmp.R.map2 (g := min) min_le_min (ha _ _ h σ hσ) (hb _ _ h σ hσ)

theorem Rel.angelic {κ : Cmp} {a a' b b' : Stmt} (ha : Rel C V m κ κ a a') (hb : Rel C V m κ κ b b') :
    Rel C V m κ κ (.angelic a b) (.angelic a' b') := fun _ _ h σ hσ =>
  Cmp.R.map2 (g := max) max_le_max (ha _ _ h σ hσ) (hb _ _ h σ hσ)

theorem Rel.additive {κ : Cmp} {a a' b b' : Stmt} (ha : Rel C V m κ κ a a') (hb : Rel C V m κ κ b b') :
    Rel C V m κ κ (.additive a b) (.additive a' b') := fun _ _ h σ hσ =>
  Cmp.R.map2 (g := (· + ·)) add_le_add (ha _ _ h σ hσ) (hb _ _ h σ hσ)

theorem Rel.ite {κ : Cmp} {c : Expr .bool} {a a' b b' : Stmt} (ha : Rel C V m κ κ a a') (hb : Rel C V m κ κ b b') :
    Rel C V m κ κ (.ite c a b) (.ite c a' b') := by
  classical
  intro φ φ' h σ hσ
  show κ.R (if c.tv σ then _ else _) (if c.tv σ then _ else _)
  by_cases hc : c.tv σ
  · rw [if_pos hc, if_pos hc]; exact ha _ _ h σ hσ
  · rw [if_neg hc, if_neg hc]; exact hb _ _ h σ hσ

/-- Fixed points compare as the maps do; no monotonicity is needed. -/
theorem fixpoint_rel {κ : Cmp} {k : LoopSem} {Φ Φ' : Exp → Exp} {G : Env → Prop}
    (h : ∀ X X' : Exp, (∀ σ, G σ → κ.R (X' σ) (X σ)) → ∀ σ, G σ → κ.R (Φ' X' σ) (Φ X σ)) {σ : Env} (hσ : G σ) :
    κ.R (fixpoint k Φ' σ) (fixpoint k Φ σ) := by
  classical
  have lfpLe : ∀ {Ψ Ψ' : Exp → Exp}, (∀ X X' : Exp, (∀ σ, G σ → X' σ = X σ) → Ψ X ≤ X → ∀ σ, G σ → Ψ' X' σ ≤ Ψ X σ) →
      fixpoint .lfp Ψ' σ ≤ fixpoint .lfp Ψ σ := by
    intro Ψ Ψ' h
    show (sInf {X | Ψ' X ≤ X} : Exp) σ ≤ (sInf {X | Ψ X ≤ X} : Exp) σ
    rw [sInf_apply]
    refine le_iInf fun X => ?_
    obtain ⟨X, hX⟩ := X
    have hX' : Ψ X ≤ X := hX
    let Y : Exp := fun τ => if G τ then X τ else ⊤
    have hY : ∀ τ, G τ → Y τ = X τ := fun τ hτ => if_pos hτ
    have : (sInf {X | Ψ' X ≤ X} : Exp) ≤ Y := sInf_le (a := Y) (s := {X | Ψ' X ≤ X}) fun τ => by
      by_cases hτ : G τ
      · rw [hY τ hτ]; exact (h X Y hY hX' τ hτ).trans (hX' τ)
      · show _ ≤ if G τ then X τ else ⊤
        rw [if_neg hτ]; exact le_top
    exact (this σ).trans (hY σ hσ).le
  have gfpLe : ∀ {Ψ Ψ' : Exp → Exp}, (∀ X X' : Exp, (∀ σ, G σ → X' σ = X σ) → X' ≤ Ψ' X' → ∀ σ, G σ → Ψ' X' σ ≤ Ψ X σ) →
      fixpoint .gfp Ψ' σ ≤ fixpoint .gfp Ψ σ := by
    intro Ψ Ψ' h
    show (sSup {X | X ≤ Ψ' X} : Exp) σ ≤ (sSup {X | X ≤ Ψ X} : Exp) σ
    rw [sSup_apply]
    refine iSup_le fun X => ?_
    obtain ⟨X, hX⟩ := X
    have hX' : X ≤ Ψ' X := hX
    let Y : Exp := fun τ => if G τ then X τ else 0
    have hY : ∀ τ, G τ → Y τ = X τ := fun τ hτ => if_pos hτ
    have : Y ≤ (sSup {X | X ≤ Ψ X} : Exp) := le_sSup (a := Y) (s := {X | X ≤ Ψ X}) fun τ => by
      by_cases hτ : G τ
      · rw [hY τ hτ]; exact (hX' τ).trans (h Y X (fun σ hσ => (hY σ hσ).symm) hX' τ hτ)
      · show (if G τ then X τ else 0) ≤ _
        rw [if_neg hτ]; exact zero_le
    exact (hY σ hσ).symm.le.trans (this σ)
  have le : (∀ X X' : Exp, (∀ σ, G σ → X' σ = X σ) → ∀ σ, G σ → Φ' X' σ ≤ Φ X σ) → fixpoint k Φ' σ ≤ fixpoint k Φ σ := fun h => by
    cases k
    · exact lfpLe fun X X' hX _ => h X X' hX
    · exact gfpLe fun X X' hX _ => h X X' hX
  have ge : (∀ X X' : Exp, (∀ σ, G σ → X' σ = X σ) → ∀ σ, G σ → Φ X σ ≤ Φ' X' σ) → fixpoint k Φ σ ≤ fixpoint k Φ' σ := fun h => by
    cases k
    · exact lfpLe fun X X' hX _ => h X' X fun σ hσ => (hX σ hσ).symm
    · exact gfpLe fun X X' hX _ => h X' X fun σ hσ => (hX σ hσ).symm
  cases κ with
  | eq => exact le_antisymm (le fun X X' hX σ hσ => (h X X' hX σ hσ).le) (ge fun X X' hX σ hσ => (h X X' hX σ hσ).symm.le)
  | le => exact le fun X X' hX σ hσ => h X X' (fun σ hσ => (hX σ hσ).le) σ hσ
  | ge => exact ge fun X X' hX σ hσ => h X X' (fun σ hσ => (hX σ hσ).symm.le) σ hσ

theorem Rel.while {κ : Cmp} {c : Expr .bool} {a a' : Stmt} (ha : Rel C V m κ κ a a') : Rel C V m κ κ (.while c a) (.while c a') := by
  classical
  intro φ φ' h σ hσ
  refine fixpoint_rel (G := Good V m) (fun X X' hX τ hτ => ?_) hσ
  show κ.R (if c.tv τ then _ else _) (if c.tv τ then _ else _)
  by_cases hc : c.tv τ
  · rw [if_pos hc, if_pos hc]; exact ha _ _ hX τ hτ
  · rw [if_neg hc, if_neg hc]; exact h τ hτ

open Classical in
/-- `S'` is `S` with a toggle `v`: it is `S` if `v` holds and `skip` otherwise. -/
def Toggles (C : SemCtx) (v : Expr .bool) (S S' : Stmt) : Prop :=
  ∀ (φ : Exp) (σ : Env), vcSem C S' φ σ = if v.tv σ then vcSem C S φ σ else φ σ

theorem Rel.toggle {κ : Cmp} {v : Expr .bool} {S S' : Stmt} (hv : Toggles C v S S') (hS : Rel C V m κ κ S S)
    (hdis : ∀ σ, Good V m σ → ¬ v.tv σ → ∀ φ : Exp, κ.R (φ σ) (vcSem C S φ σ)) : Rel C V m κ κ S S' := by
  classical
  intro φ φ' h σ hσ
  rw [hv]
  by_cases hc : v.tv σ
  · rw [if_pos hc]; exact hS _ _ h σ hσ
  · rw [if_neg hc]; exact Cmp.R.trans (h σ hσ) (hdis σ hσ hc φ)

open Classical in
theorem topToggle_ev (e : Expr .eureal) (d : Dir) (v : Expr .bool) (σ : Env) :
    (topToggle e d v).ev σ = if v.tv σ then e.ev σ else (match d with | .down => ⊤ | .up => 0) := by
  cases d with
  | down =>
    show (if v.tv σ then e.ev σ else (Expr.topLit .eureal rfl).ev σ) = _
    rfl
  | up =>
    show (if v.tv σ then e.ev σ else (Expr.botLit .eureal rfl).ev σ) = _
    rw [show (Expr.botLit .eureal rfl).ev σ = 0 from Expr.eval_botLit _ σ]

theorem toggles_assume (d : Dir) (e : Expr .eureal) (v : Expr .bool) : Toggles C v (.assume d e) (.assume d (topToggle e d v)) := by
  classical
  intro φ σ
  cases d with
  | down =>
    show (if (topToggle e .down v).ev σ ≤ φ σ then ⊤ else φ σ) = _
    rw [topToggle_ev]
    by_cases hc : v.tv σ
    · rw [if_pos hc, if_pos hc]; rfl
    · rw [if_neg hc, if_neg hc]
      by_cases h : (⊤ : ℝ≥0∞) ≤ φ σ
      · rw [if_pos h]; exact (top_le_iff.mp h).symm
      · rw [if_neg h]
  | up =>
    show (if (topToggle e .up v).ev σ ≥ φ σ then 0 else φ σ) = _
    rw [topToggle_ev]
    by_cases hc : v.tv σ
    · rw [if_pos hc, if_pos hc]; rfl
    · rw [if_neg hc, if_neg hc]
      by_cases h : (0 : ℝ≥0∞) ≥ φ σ
      · rw [if_pos h]; exact (le_zero_iff.mp h).symm
      · rw [if_neg h]

theorem toggles_assert (d : Dir) (e : Expr .eureal) (v : Expr .bool) : Toggles C v (.assert d e) (.assert d (topToggle e d v)) := by
  classical
  intro φ σ
  cases d with
  | down =>
    show min ((topToggle e .down v).ev σ) (φ σ) = _
    rw [topToggle_ev]
    by_cases hc : v.tv σ
    · rw [if_pos hc, if_pos hc]; rfl
    · rw [if_neg hc, if_neg hc]; exact min_top_left _
  | up =>
    show max ((topToggle e .up v).ev σ) (φ σ) = _
    rw [topToggle_ev]
    by_cases hc : v.tv σ
    · rw [if_pos hc, if_pos hc]; rfl
    · rw [if_neg hc, if_neg hc]; exact max_eq_right zero_le

theorem toggles_tick (e : Expr .eureal) (v : Expr .bool) : Toggles C v (.tick e) (.tick (topToggle e .up v)) := by
  classical
  intro φ σ
  show φ σ + (topToggle e .up v).ev σ = _
  rw [topToggle_ev]
  by_cases hc : v.tv σ
  · rw [if_pos hc, if_pos hc]; rfl
  · rw [if_neg hc, if_neg hc]; exact add_zero _

theorem oneE_ev (σ : Env) : oneE.ev σ = 1 := by
  show ((1 : ℕ) : ℝ≥0∞) = 1
  exact Nat.cast_one

theorem toggles_weigh (e : Expr .eureal) (v : Expr .bool) : Toggles C v (.weigh e) (.weigh (.ite v e oneE)) := by
  classical
  intro φ σ
  show (if v.tv σ then e.ev σ else oneE.ev σ) * φ σ = _
  rw [oneE_ev]
  by_cases hc : v.tv σ
  · rw [if_pos hc, if_pos hc]; rfl
  · rw [if_neg hc, if_neg hc]; exact one_mul _

theorem toggles_ite (S : Stmt) (v : Expr .bool) : Toggles C v S (.ite v (Stmt.block [S]) (Stmt.block [])) := fun _ _ => rfl

theorem toggles_assign (x : Var) (e : Expr x.ty) (v : Expr .bool) : Toggles C v (.assign x e) (.assign x (.ite v e (.var x.id))) := by
  classical
  intro φ σ
  show φ (σ.upd x (if v.tv σ then e.eval σ else σ x)) = _
  by_cases hc : v.tv σ
  · rw [if_pos hc, if_pos hc]; rfl
  · rw [if_neg hc, if_neg hc]
    congr 1
    funext y
    by_cases hy : y = x
    · subst hy; exact Env.upd_same _ _ _
    · exact Env.upd_ne _ hy _

open Classical in
theorem demonicGuard_sem (d : Dir) (v : Expr .bool) (φ : Exp) (σ : Env) :
    vcSem C (demonicGuard d v) φ σ = if v.tv σ then φ σ else ⊤ := by
  have hb : (Expr.botLit .eureal rfl).ev σ = 0 := Expr.eval_botLit _ σ
  have ht : (Expr.topLit .eureal rfl).ev σ = ⊤ := Expr.eval_topLit _ σ
  cases d with
  | down =>
    show (if (if v.tv σ then (Expr.topLit .eureal rfl).ev σ else (Expr.botLit .eureal rfl).ev σ) ≤ φ σ then ⊤ else φ σ) = _
    rw [hb, ht]
    by_cases hc : v.tv σ
    · rw [if_pos hc, if_pos hc]
      by_cases h : (⊤ : ℝ≥0∞) ≤ φ σ
      · rw [if_pos h]; exact (top_le_iff.mp h).symm
      · rw [if_neg h]
    · rw [if_neg hc, if_neg hc, if_pos zero_le]
  | up =>
    show max (if v.tv σ then (Expr.botLit .eureal rfl).ev σ else (Expr.topLit .eureal rfl).ev σ) (φ σ) = _
    rw [hb, ht]
    by_cases hc : v.tv σ
    · rw [if_pos hc, if_pos hc]; exact max_eq_right zero_le
    · rw [if_neg hc, if_neg hc]; exact max_eq_left le_top

open Classical in
theorem angelicGuard_sem (d : Dir) (v : Expr .bool) (φ : Exp) (σ : Env) :
    vcSem C (angelicGuard d v) φ σ = if v.tv σ then φ σ else 0 := by
  have hb : (Expr.botLit .eureal rfl).ev σ = 0 := Expr.eval_botLit _ σ
  have ht : (Expr.topLit .eureal rfl).ev σ = ⊤ := Expr.eval_topLit _ σ
  cases d with
  | down =>
    show min (if v.tv σ then (Expr.topLit .eureal rfl).ev σ else (Expr.botLit .eureal rfl).ev σ) (φ σ) = _
    rw [hb, ht]
    by_cases hc : v.tv σ
    · rw [if_pos hc, if_pos hc]; exact min_top_left _
    · rw [if_neg hc, if_neg hc]; exact min_eq_left zero_le
  | up =>
    show (if (if v.tv σ then (Expr.botLit .eureal rfl).ev σ else (Expr.topLit .eureal rfl).ev σ) ≥ φ σ then 0 else φ σ) = _
    rw [hb, ht]
    by_cases hc : v.tv σ
    · rw [if_pos hc, if_pos hc]
      by_cases h : (0 : ℝ≥0∞) ≥ φ σ
      · rw [if_pos h]; exact (le_zero_iff.mp h).symm
      · rw [if_neg h]
    · rw [if_neg hc, if_neg hc, if_pos le_top]

/-! ## The traversal -/

/-- How the sliced program compares to the original one in a context of direction `d`: equal if nothing is disabled (`none`), on the safe side
if only concordant statements are disabled (`some true`), on the other side if only discordant ones are (`some false`). -/
def kind : Option Bool → Dir → Cmp
  | none, _ => .eq
  | some true, .down => .le
  | some true, .up => .ge
  | some false, .down => .ge
  | some false, .up => .le

/-- The effects that may be disabled. -/
def Allowed (mode : Option Bool) (concordant discordant : Bool) : Prop :=
  (mode = some true ∧ concordant = true) ∨ (mode = some false ∧ discordant = true)

theorem addSlice_disabled {mode : Option Bool} (hV : ∀ s ∈ V, ¬ m s.ident → Allowed mode s.selection.concordant s.selection.discordant)
    {state : Selection} {eff : Effect} {st : St} (hs : ∀ s ∈ (addSlice state eff st).2.stmts, s ∈ V) {σ : Env} (hσ : Good V m σ)
    (h : ¬ (addSlice state eff st).1.tv σ) : Allowed mode (eff == .concordant) (eff == .discordant) := by
  have hmem : (⟨(freshToggle st.tcx).1, makeSelection state eff⟩ : SliceStmt) ∈ V :=
    hs _ (List.mem_append_right _ (List.mem_singleton_self _))
  exact hV _ hmem fun hm => h ((hσ _ hmem).mpr hm)

theorem not_allowed_ambiguous {mode : Option Bool} : ¬ Allowed mode (Effect.ambiguous == .concordant) (Effect.ambiguous == .discordant) := by
  rintro (⟨-, h⟩ | ⟨-, h⟩) <;> exact nomatch h

theorem le_assume_down (e : Expr .eureal) (φ : Exp) (σ : Env) : φ σ ≤ vcSem C (.assume .down e) φ σ := by
  classical
  show φ σ ≤ if e.ev σ ≤ φ σ then ⊤ else φ σ
  split
  · exact le_top
  · exact le_rfl

theorem assume_up_le (e : Expr .eureal) (φ : Exp) (σ : Env) : vcSem C (.assume .up e) φ σ ≤ φ σ := by
  classical
  show (if e.ev σ ≥ φ σ then 0 else φ σ) ≤ φ σ
  split
  · exact zero_le
  · exact le_rfl

theorem assume_disabled {mode : Option Bool} {cur d : Dir} (e : Expr .eureal)
    (h : Allowed mode (assumeEffect cur d == .concordant) (assumeEffect cur d == .discordant)) (φ : Exp) (σ : Env) :
    (kind mode cur).R (φ σ) (vcSem C (.assume d e) φ σ) := by
  rcases h with ⟨rfl, h⟩ | ⟨rfl, h⟩ <;> cases cur <;> cases d <;>
    first | exact absurd h (by decide) | exact le_assume_down e φ σ | exact assume_up_le e φ σ

theorem assert_disabled {mode : Option Bool} {cur d : Dir} (e : Expr .eureal)
    (h : Allowed mode (assertEffect cur d == .concordant) (assertEffect cur d == .discordant)) (φ : Exp) (σ : Env) :
    (kind mode cur).R (φ σ) (vcSem C (.assert d e) φ σ) := by
  have h1 : vcSem C (.assert .down e) φ σ ≤ φ σ := min_le_right (e.ev σ) (φ σ)
  have h2 : φ σ ≤ vcSem C (.assert .up e) φ σ := le_max_right (e.ev σ) (φ σ)
  rcases h with ⟨rfl, h⟩ | ⟨rfl, h⟩ <;> cases cur <;> cases d <;>
    first | exact absurd h (by decide) | exact h1 | exact h2

theorem extensive_disabled {mode : Option Bool} {cur : Dir}
    (h : Allowed mode (extensiveEffect cur == .concordant) (extensiveEffect cur == .discordant)) : kind mode cur = .le := by
  rcases h with ⟨rfl, h⟩ | ⟨rfl, h⟩ <;> cases cur <;> first | exact absurd h (by decide) | rfl

theorem reductive_disabled {mode : Option Bool} {cur : Dir}
    (h : Allowed mode (reductiveEffect cur == .concordant) (reductiveEffect cur == .discordant)) : kind mode cur = .ge := by
  rcases h with ⟨rfl, h⟩ | ⟨rfl, h⟩ <;> cases cur <;> first | exact absurd h (by decide) | rfl

theorem weigh_disabled {mode : Option Bool} {cur : Dir} (e : Expr .eureal)
    (h : Allowed mode (weighEffect cur e == .concordant) (weighEffect cur e == .discordant)) (φ : Exp) (σ : Env) :
    (kind mode cur).R (φ σ) (vcSem C (.weigh e) φ σ) := by
  unfold weighEffect at h
  split at h
  · next q =>
    have hq : (.lit (.efrac q) : Expr .eureal).ev σ = ((q : ℝ≥0) : ℝ≥0∞) := rfl
    split at h
    · next h1 =>
      rw [extensive_disabled h]
      show φ σ ≤ (.lit (.efrac q) : Expr .eureal).ev σ * φ σ
      rw [hq]
      have : (1 : ℝ≥0∞) ≤ ((q : ℝ≥0) : ℝ≥0∞) := by exact_mod_cast h1
      calc φ σ = 1 * φ σ := (one_mul _).symm
        _ ≤ _ := mul_le_mul_left this _
    · next h1 =>
      rw [reductive_disabled h]
      show (.lit (.efrac q) : Expr .eureal).ev σ * φ σ ≤ φ σ
      rw [hq]
      have : ((q : ℝ≥0) : ℝ≥0∞) ≤ 1 := by exact_mod_cast (not_le.mp h1).le
      calc _ ≤ 1 * φ σ := mul_le_mul_left this _
        _ = φ σ := one_mul _
  · rw [extensive_disabled h]
    show φ σ ≤ (⊤ : ℝ≥0∞) * φ σ
    calc φ σ = 1 * φ σ := (one_mul _).symm
      _ ≤ _ := mul_le_mul_left le_top _
  · exact absurd h not_allowed_ambiguous

theorem kind_toggle_negate {mode : Option Bool} {d : Dir} : Rel C V m (kind mode d) (kind mode d.toggle) (.negate d) (.negate d) := by
  classical
  intro φ φ' h σ hσ
  have h := h σ hσ
  have hdown : ∀ {a b : ℝ≥0∞}, a ≤ b → (if b = 0 then (⊤ : ℝ≥0∞) else 0) ≤ if a = 0 then ⊤ else 0 := by
    intro a b hab
    by_cases hb : b = 0
    · subst hb; rw [if_pos (le_zero_iff.mp hab)]; exact le_top
    · rw [if_neg hb]; exact zero_le
  have hup : ∀ {a b : ℝ≥0∞}, a ≤ b → (if b = ⊤ then (0 : ℝ≥0∞) else ⊤) ≤ if a = ⊤ then 0 else ⊤ := by
    intro a b hab
    by_cases ha : a = ⊤
    · subst ha; rw [if_pos (top_le_iff.mp hab)]; exact zero_le
    · rw [if_neg ha]; exact le_top
  rcases mode with _ | _ | _ <;> cases d
  · exact congrArg (fun a : ℝ≥0∞ => if a = 0 then (⊤ : ℝ≥0∞) else 0) h
  · exact congrArg (fun a : ℝ≥0∞ => if a = ⊤ then (0 : ℝ≥0∞) else ⊤) h
  · exact hdown h
  · exact hup h
  · exact hdown h
  · exact hup h

theorem sliceLeaf_rel (hC : C.Regular) {mode : Option Bool}
    (hV : ∀ s ∈ V, ¬ m s.ident → Allowed mode s.selection.concordant s.selection.discordant) (f state : Selection) (st : St) (S : Stmt)
    (hs : ∀ s ∈ (sliceLeaf f state st S).2.1.stmts, s ∈ V) (ht : ∀ s ∈ V, ¬ S.Touched s.var) (hN : S.NoNeg) :
    Rel C V m (kind mode st.dir) (kind mode st.dir) S (sliceLeaf f state st S).1 := by
  have hr : Rel C V m (kind mode st.dir) (kind mode st.dir) S S := Rel.refl hC ht (.inr (vcSem_mono C hC.mono hN))
  revert hs
  unfold sliceLeaf
  split <;> (try split) <;> intro hs
  · exact Rel.toggle (toggles_assign _ _ _) hr fun σ hσ hv => absurd (addSlice_disabled hV hs hσ hv) not_allowed_ambiguous
  · exact hr
  · exact Rel.toggle (toggles_ite _ _) hr fun σ hσ hv => absurd (addSlice_disabled hV hs hσ hv) not_allowed_ambiguous
  · exact hr
  · exact Rel.toggle (toggles_ite _ _) hr fun σ hσ hv => absurd (addSlice_disabled hV hs hσ hv) not_allowed_ambiguous
  · exact hr
  · exact Rel.toggle (toggles_assume _ _ _) hr fun σ hσ hv φ => assume_disabled _ (addSlice_disabled hV hs hσ hv) φ σ
  · exact hr
  · exact Rel.toggle (toggles_assert _ _ _) hr fun σ hσ hv φ => assert_disabled _ (addSlice_disabled hV hs hσ hv) φ σ
  · exact hr
  · next e _ =>
    refine Rel.toggle (toggles_tick _ _) hr fun σ hσ hv φ => ?_
    rw [extensive_disabled (addSlice_disabled hV hs hσ hv)]
    exact le_add_of_nonneg_right (α := ℝ≥0∞) (a := φ σ) (b := e.ev σ) zero_le
  · exact hr
  · exact Rel.toggle (toggles_weigh _ _) hr fun σ hσ hv φ => weigh_disabled _ (addSlice_disabled hV hs hσ hv) φ σ
  · exact hr
  · exact hN.elim
  · exact hN.elim
  · exact hr

/-- The two branches of a choice with toggles. -/
theorem addBranches_demonic {mode : Option Bool}
    (hV : ∀ s ∈ V, ¬ m s.ident → Allowed mode s.selection.concordant s.selection.discordant) (state : Selection) (st : St) {a b a' b' : Stmt}
    (hs : ∀ s ∈ (addBranches state (reductiveEffect st.dir) demonicGuard .demonic a' b' st).2.1.stmts, s ∈ V)
    (ha : Rel C V m (kind mode st.dir) (kind mode st.dir) a a') (hb : Rel C V m (kind mode st.dir) (kind mode st.dir) b b') :
    Rel C V m (kind mode st.dir) (kind mode st.dir) (.demonic a b)
      (addBranches state (reductiveEffect st.dir) demonicGuard .demonic a' b' st).1 := by
  classical
  have key : ∀ {v : Expr .bool} {a a' : Stmt}, (∀ σ, Good V m σ → ¬ v.tv σ → kind mode st.dir = .ge) →
      Rel C V m (kind mode st.dir) (kind mode st.dir) a a' →
      Rel C V m (kind mode st.dir) (kind mode st.dir) a (.seq (demonicGuard st.dir v) a') := by
    intro v a a' hv ha φ φ' h σ hσ
    show (kind mode st.dir).R (vcSem C (demonicGuard st.dir v) (vcSem C a' φ') σ) _
    rw [demonicGuard_sem]
    by_cases hc : v.tv σ
    · rw [if_pos hc]; exact ha _ _ h σ hσ
    · rw [if_neg hc, hv σ hσ hc]; exact le_top (α := ℝ≥0∞)
  have hs1 : ∀ s ∈ (addSlice state (reductiveEffect st.dir) st).2.stmts, s ∈ V := fun s h => hs s (List.mem_append_left _ h)
  exact Rel.demonic (key (fun σ hσ hv => reductive_disabled (addSlice_disabled hV hs1 hσ hv)) ha)
    (key (fun σ hσ hv => reductive_disabled (addSlice_disabled hV hs hσ hv)) hb)

theorem addBranches_angelic {mode : Option Bool}
    (hV : ∀ s ∈ V, ¬ m s.ident → Allowed mode s.selection.concordant s.selection.discordant) (state : Selection) (st : St) {a b a' b' : Stmt}
    (hs : ∀ s ∈ (addBranches state (extensiveEffect st.dir) angelicGuard .angelic a' b' st).2.1.stmts, s ∈ V)
    (ha : Rel C V m (kind mode st.dir) (kind mode st.dir) a a') (hb : Rel C V m (kind mode st.dir) (kind mode st.dir) b b') :
    Rel C V m (kind mode st.dir) (kind mode st.dir) (.angelic a b)
      (addBranches state (extensiveEffect st.dir) angelicGuard .angelic a' b' st).1 := by
  classical
  have key : ∀ {v : Expr .bool} {a a' : Stmt}, (∀ σ, Good V m σ → ¬ v.tv σ → kind mode st.dir = .le) →
      Rel C V m (kind mode st.dir) (kind mode st.dir) a a' →
      Rel C V m (kind mode st.dir) (kind mode st.dir) a (.seq (angelicGuard st.dir v) a') := by
    intro v a a' hv ha φ φ' h σ hσ
    show (kind mode st.dir).R (vcSem C (angelicGuard st.dir v) (vcSem C a' φ') σ) _
    rw [angelicGuard_sem]
    by_cases hc : v.tv σ
    · rw [if_pos hc]; exact ha _ _ h σ hσ
    · rw [if_neg hc, hv σ hσ hc]; exact zero_le (α := ℝ≥0∞)
  have hs1 : ∀ s ∈ (addSlice state (extensiveEffect st.dir) st).2.stmts, s ∈ V := fun s h => hs s (List.mem_append_left _ h)
  exact Rel.angelic (key (fun σ hσ hv => extensive_disabled (addSlice_disabled hV hs1 hσ hv)) ha)
    (key (fun σ hσ hv => extensive_disabled (addSlice_disabled hV hs hσ hv)) hb)

/-- What has to hold for a comparison that is not an equality: the direction is tracked, and branches restore it. -/
def Tracked (mode : Option Bool) (d : Dir) (S : Stmt) : Prop := mode = none ∨ ∃ d', monoVisit d S = some d' ∧ S.BranchesReturn d

/-- Two substatements with a continuation. `branch` tells that the direction is the same before and after each of them. -/
theorem visitTwo_rel (hC : C.Regular) {mode : Option Bool} {f state : Selection} {st : St} {a b : Stmt} {mk : Stmt → Stmt → Stmt}
    {k : Stmt → Stmt → St → Res}
    (iha : ∀ (state : Selection) (st : St), (∀ s ∈ (visit f state st a).2.1.stmts, s ∈ V) → Tracked mode st.dir a →
      Rel C V m (kind mode st.dir) (kind mode (visit f state st a).2.1.dir) a (visit f state st a).1)
    (ihb : ∀ (state : Selection) (st : St), (∀ s ∈ (visit f state st b).2.1.stmts, s ∈ V) → Tracked mode st.dir b →
      Rel C V m (kind mode st.dir) (kind mode (visit f state st b).2.1.dir) b (visit f state st b).1)
    (hb : ∀ s ∈ V, ¬ b.Touched s.var)
    (htr : mode = none ∨ ∃ d1 d', monoVisit st.dir a = some d1 ∧ monoVisit d1 b = some d' ∧ a.BranchesReturn st.dir ∧ b.BranchesReturn d1)
    (hmk : ∀ d' {a' b'}, Rel C V m .eq .eq a a' → Rel C V m .eq .eq b b' → mode = none → Rel C V m (kind mode st.dir) (kind mode d') (mk a b) (mk a' b'))
    (hkg : ∀ a b st, Grows st (k a b st).2.1)
    (hk : ∀ (st1 st2 : St) (a' b' : Stmt), monoVisit st.dir a = some st1.dir ∧ monoVisit st1.dir b = some st2.dir ∨ mode = none →
      Rel C V m (kind mode st.dir) (kind mode st1.dir) a a' → Rel C V m (kind mode st1.dir) (kind mode st2.dir) b b' →
      (∀ s ∈ (k a' b' st2).2.1.stmts, s ∈ V) →
      Rel C V m (kind mode st.dir) (kind mode (k a' b' st2).2.1.dir) (mk a b) (k a' b' st2).1)
    (hs : ∀ s ∈ (visitTwo mk (visit f state st a) b (fun st => visit f state st b) k).2.1.stmts, s ∈ V) :
    Rel C V m (kind mode st.dir) (kind mode (visitTwo mk (visit f state st a) b (fun st => visit f state st b) k).2.1.dir) (mk a b)
      (visitTwo mk (visit f state st a) b (fun st => visit f state st b) k).1 := by
  have ha : (∀ s ∈ (visit f state st a).2.1.stmts, s ∈ V) →
      Rel C V m (kind mode st.dir) (kind mode (visit f state st a).2.1.dir) a (visit f state st a).1 := fun hs =>
    iha state st hs (htr.imp_right fun ⟨d1, _, h1, _, h2, _⟩ => ⟨d1, h1, h2⟩)
  have hda : ∀ d1, monoVisit st.dir a = some d1 → (visit f state st a).2.2 = true ∧ (visit f state st a).2.1.dir = d1 :=
    fun d1 => visit_dir f a state st d1
  revert hs
  generalize visit f state st a = ra at ha hda
  obtain ⟨a', st1, ok⟩ := ra
  cases ok with
  | false =>
    intro hs
    rcases htr with rfl | ⟨d1, _, h1, _⟩
    · exact hmk _ (ha hs) (Rel.refl hC hb (.inl rfl)) rfl
    · exact nomatch (hda d1 h1).1
  | true =>
    have hdir : mode = none ∨ ∃ d', monoVisit st.dir a = some st1.dir ∧ monoVisit st1.dir b = some d' ∧ b.BranchesReturn st1.dir :=
      htr.imp_right fun ⟨d1, d', h1, h2, _, h3⟩ => by
        obtain rfl : st1.dir = d1 := (hda d1 h1).2
        exact ⟨d', h1, h2, h3⟩
    have hbr : (∀ s ∈ (visit f state st1 b).2.1.stmts, s ∈ V) →
        Rel C V m (kind mode st1.dir) (kind mode (visit f state st1 b).2.1.dir) b (visit f state st1 b).1 := fun hs =>
      ihb state st1 hs (hdir.imp_right fun ⟨d', _, h1, h2⟩ => ⟨d', h1, h2⟩)
    have hdb : ∀ d', monoVisit st1.dir b = some d' → (visit f state st1 b).2.2 = true ∧ (visit f state st1 b).2.1.dir = d' :=
      fun d' => visit_dir f b state st1 d'
    have hgb := visit_grows f b state st1
    unfold visitTwo
    dsimp only
    generalize visit f state st1 b = rb at hbr hdb hgb
    obtain ⟨b', st2, ok⟩ := rb
    cases ok with
    | false =>
      intro hs
      rcases hdir with rfl | ⟨d', _, h1, _⟩
      · exact hmk _ (ha fun s h => hs s (hgb.stmts s h)) (hbr hs) rfl
      · exact nomatch (hdb d' h1).1
    | true =>
      intro hs
      have hg := hkg a' b' st2
      have hs2 : ∀ s ∈ st2.stmts, s ∈ V := fun s h => hs s (hg.stmts s h)
      refine hk st1 st2 a' b' ?_ (ha fun s h => hs2 s (hgb.stmts s h)) (hbr hs2) hs
      rcases hdir with h | ⟨d', h1, h2, _⟩
      · exact .inr h
      · obtain rfl : st2.dir = d' := (hdb d' h2).2
        exact .inl ⟨h1, h2⟩

theorem leaf_case (hC : C.Regular) {mode : Option Bool}
    (hV : ∀ s ∈ V, ¬ m s.ident → Allowed mode s.selection.concordant s.selection.discordant) {f : Selection} {S : Stmt}
    (ht : ∀ s ∈ V, ¬ S.Touched s.var) (hd : ∀ d, monoVisit d S = some d) (hN : S.NoNeg)
    (hv : ∀ state st, visit f state st S = sliceLeaf f state st S) (state : Selection) (st : St)
    (hs : ∀ s ∈ (visit f state st S).2.1.stmts, s ∈ V) :
    Rel C V m (kind mode st.dir) (kind mode (visit f state st S).2.1.dir) S (visit f state st S).1 := by
  rw [(visit_dir f S state st st.dir (hd st.dir)).2, hv]
  rw [hv] at hs
  exact sliceLeaf_rel hC hV f state st S hs ht hN

theorem visit_rel (hC : C.Regular) {mode : Option Bool}
    (hV : ∀ s ∈ V, ¬ m s.ident → Allowed mode s.selection.concordant s.selection.discordant) (f : Selection) (S : Stmt)
    (ht : ∀ s ∈ V, ¬ S.Touched s.var) : ∀ (state : Selection) (st : St), (∀ s ∈ (visit f state st S).2.1.stmts, s ∈ V) →
    Tracked mode st.dir S → Rel C V m (kind mode st.dir) (kind mode (visit f state st S).2.1.dir) S (visit f state st S).1 := by
  have tseq : ∀ {d : Dir} {a b : Stmt}, Tracked mode d (.seq a b) → mode = none ∨ ∃ d1 d', monoVisit d a = some d1 ∧ monoVisit d1 b = some d' ∧
      a.BranchesReturn d ∧ b.BranchesReturn d1 := fun h => h.imp_right fun ⟨d', h, hb⟩ => by
    obtain ⟨d1, h1, h2⟩ := Option.bind_eq_some_iff.mp h
    exact ⟨d1, d', h1, h2, hb.1, hb.2 d1 h1⟩
  have tbr : ∀ {d : Dir} {a b : Stmt}, (a.BranchesReturn d ∧ b.BranchesReturn d ∧ monoVisit d a = some d ∧ monoVisit d b = some d) →
      ∃ d1 d', monoVisit d a = some d1 ∧ monoVisit d1 b = some d' ∧ a.BranchesReturn d ∧ b.BranchesReturn d1 :=
    fun ⟨h1, h2, h3, h4⟩ => ⟨_, _, h3, h4, h1, h2⟩
  have kb : ∀ {d : Dir} {a b : Stmt} {st1 st2 : St},
      (mode = none ∨ (a.BranchesReturn d ∧ b.BranchesReturn d ∧ monoVisit d a = some d ∧ monoVisit d b = some d)) →
      (monoVisit d a = some st1.dir ∧ monoVisit st1.dir b = some st2.dir ∨ mode = none) →
      kind mode st1.dir = kind mode d ∧ kind mode st2.dir = kind mode d := by
    intro d a b st1 st2 h h'
    rcases h with rfl | ⟨-, -, h1, h2⟩
    · exact ⟨rfl, rfl⟩
    · rcases h' with ⟨h3, h4⟩ | rfl
      · have e1 : d = st1.dir := Option.some.inj (h1.symm.trans h3)
        rw [← e1] at h4
        have e2 : d = st2.dir := Option.some.inj (h2.symm.trans h4)
        rw [← e1, ← e2]
        exact ⟨rfl, rfl⟩
      · exact ⟨rfl, rfl⟩
  induction S with
  | seq a b iha ihb =>
    intro state st hs htr
    refine visitTwo_rel hC (iha fun s h h' => ht s h (.inl h')) (ihb fun s h h' => ht s h (.inr h')) (fun s h h' => ht s h (.inr h')) (tseq htr)
      (fun d' a' b' h1 h2 hm => ?_) (fun _ _ st => Grows.refl st) (fun st1 st2 a' b' _ h1 h2 _ => h1.seq h2) hs
    subst hm
    exact Rel.seq h1 h2
  | additive a b iha ihb =>
    intro state st hs htr
    have htr : mode = none ∨ (a.BranchesReturn st.dir ∧ b.BranchesReturn st.dir ∧ monoVisit st.dir a = some st.dir ∧
      monoVisit st.dir b = some st.dir) := htr.imp_right fun ⟨_, _, h⟩ => h
    refine visitTwo_rel hC (iha fun s h h' => ht s h (.inl h')) (ihb fun s h h' => ht s h (.inr h')) (fun s h h' => ht s h (.inr h'))
      (htr.imp_right tbr)
      (fun d' a' b' h1 h2 hm => ?_) (fun _ _ st => Grows.refl st) (fun st1 st2 a' b' hd h1 h2 hs' => ?_) hs
    · subst hm
      exact Rel.additive h1 h2
    · obtain ⟨k1, k2⟩ := kb htr hd
      rw [k1, ← k2] at h1
      rw [k1, ← k2] at h2
      rw [← k2]
      exact Rel.additive h1 h2
  | ite c a b iha ihb =>
    intro state st hs htr
    have htr : mode = none ∨ (a.BranchesReturn st.dir ∧ b.BranchesReturn st.dir ∧ monoVisit st.dir a = some st.dir ∧
      monoVisit st.dir b = some st.dir) := htr.imp_right fun ⟨_, _, h⟩ => h
    refine visitTwo_rel hC (iha fun s h h' => ht s h (.inl h')) (ihb fun s h h' => ht s h (.inr h')) (fun s h h' => ht s h (.inr h'))
      (htr.imp_right tbr)
      (fun d' a' b' h1 h2 hm => ?_) (fun _ _ st => Grows.refl st) (fun st1 st2 a' b' hd h1 h2 hs' => ?_) hs
    · subst hm
      exact Rel.ite h1 h2
    · obtain ⟨k1, k2⟩ := kb htr hd
      rw [k1, ← k2] at h1
      rw [k1, ← k2] at h2
      rw [← k2]
      exact Rel.ite h1 h2
  | demonic a b iha ihb =>
    intro state st hs htr
    have htr : mode = none ∨ (a.BranchesReturn st.dir ∧ b.BranchesReturn st.dir ∧ monoVisit st.dir a = some st.dir ∧
      monoVisit st.dir b = some st.dir) := htr.imp_right fun ⟨_, _, h⟩ => h
    refine visitTwo_rel hC (iha fun s h h' => ht s h (.inl h')) (ihb fun s h h' => ht s h (.inr h')) (fun s h h' => ht s h (.inr h'))
      (htr.imp_right tbr)
      (fun d' a' b' h1 h2 hm => ?_) (fun _ _ st => by split; exacts [addBranches_grows _ _ _ _ _ _ _, Grows.refl st]) (fun st1 st2 a' b' hd h1 h2 hs' => ?_) hs
    · subst hm
      exact Rel.demonic h1 h2
    · obtain ⟨k1, k2⟩ := kb htr hd
      rw [k1, ← k2] at h1
      rw [k1, ← k2] at h2
      rw [← k2]
      revert hs'
      split
      · exact fun hs' => addBranches_demonic hV state st2 hs' h1 h2
      · exact fun _ => Rel.demonic h1 h2
  | angelic a b iha ihb =>
    intro state st hs htr
    have htr : mode = none ∨ (a.BranchesReturn st.dir ∧ b.BranchesReturn st.dir ∧ monoVisit st.dir a = some st.dir ∧
      monoVisit st.dir b = some st.dir) := htr.imp_right fun ⟨_, _, h⟩ => h
    refine visitTwo_rel hC (iha fun s h h' => ht s h (.inl h')) (ihb fun s h h' => ht s h (.inr h')) (fun s h h' => ht s h (.inr h'))
      (htr.imp_right tbr)
      (fun d' a' b' h1 h2 hm => ?_) (fun _ _ st => by split; exacts [addBranches_grows _ _ _ _ _ _ _, Grows.refl st]) (fun st1 st2 a' b' hd h1 h2 hs' => ?_) hs
    · subst hm
      exact Rel.angelic h1 h2
    · obtain ⟨k1, k2⟩ := kb htr hd
      rw [k1, ← k2] at h1
      rw [k1, ← k2] at h2
      rw [← k2]
      revert hs'
      split
      · exact fun hs' => addBranches_angelic hV state st2 hs' h1 h2
      · exact fun _ => Rel.angelic h1 h2
  | «while» c s ih =>
    intro state st hs htr
    have h := ih ht state st hs (htr.imp_right fun ⟨d', h1, h2⟩ => ⟨d', h1, h2.1⟩)
    have hk : kind mode (visit f state st s).2.1.dir = kind mode st.dir := by
      rcases htr with rfl | ⟨d', h1, h2⟩
      · rfl
      · rw [(visit_dir f s state st _ h2.2).2]
    show Rel C V m (kind mode st.dir) (kind mode (visit f state st s).2.1.dir) (.while c s) (.while c (visit f state st s).1)
    rw [hk] at h ⊢
    exact Rel.while h
  | annot an s ih =>
    intro state st hs htr
    cases an with
    | slicing n => exact ih ht (pushAnnotation state n) st hs htr
    | _ => exact ih ht state st hs htr
  | negate d =>
    intro state st hs htr
    show Rel C V m (kind mode st.dir) (kind mode (sliceLeaf f state st (.negate d)).2.1.dir) (.negate d) (sliceLeaf f state st (.negate d)).1
    have h1 : (sliceLeaf f state st (.negate d)).1 = .negate d := by
      unfold sliceLeaf
      dsimp only
      split <;> rfl
    rw [h1]
    rcases htr with rfl | ⟨d', h, -⟩
    · exact kind_toggle_negate (mode := none) (d := d)
    · have hd := (visit_dir f (.negate d) state st d' h).2
      have hd : (sliceLeaf f state st (.negate d)).2.1.dir = d' := hd
      rw [hd]
      have h : (if st.dir ≠ d then none else some st.dir.toggle) = some d' := h
      split at h
      · exact nomatch h
      · next he =>
        have he : st.dir = d := not_not.mp he
        obtain rfl := Option.some.inj h
        rw [he]
        exact kind_toggle_negate
  | _ =>
    intro state st hs htr
    exact leaf_case hC hV ht (fun _ => rfl) trivial (fun _ _ => rfl) state st hs

end

end Caesar.Slicing
