import Verif.Slicing.FailingSound
import Verif.Props.C40
import Verif.Props.C41
import Verif.Props.C54

/-!
# C67: the verdict of the search for failing slices is right, and the reported slice fails and is smallest
-/

open scoped ENNReal NNReal

namespace Caesar
set_option linter.unusedSectionVars false
open Slicing

section
variable [Doms] [Interp]

/-- The expectation after the program (`src/driver/core_verify.rs:173,188-201`): `∞` for procs, `0` for coprocs. -/
def postExp : Dir → Exp
  | .down => fun _ => ⊤
  | .up => fun _ => 0

/-- Specification: the slice of the program `S` in which exactly the statements with `A` are enabled fails in some state. It is one of the slices that
are considered: all statements which are not selected for failing slices are enabled, and the constraints on the branches of choices hold. -/
def SliceFails (C : SemCtx) (filter : Selection) (tcx : TyCtx) (d : Dir) (S : Stmt) (A : Ident → Prop) : Prop :=
  ∃ σ : Env, (∀ s ∈ (transform filter tcx d S).2.stmts, (.var s.ident : Expr .bool).tv σ ↔ A s.ident) ∧
    (∀ c ∈ (transform filter tcx d S).2.constraints, c.tv σ) ∧
    (∀ s ∈ (transform filter tcx d S).2.stmts, Selection.failure.enables s.selection = false → A s.ident) ∧
    ¬ Succeeds d (vcSem C (transform filter tcx d S).1 (postExp d) σ)

/-- The statements that stay in the reported slice: all but those which are selected for slicing and not reported as part of the error. -/
def Kept (stmts : List SliceStmt) (sm : SliceModel) (i : Ident) : Prop :=
  ∀ s ∈ stmts, s.ident = i → Selection.failure.enables s.selection = true → (s, SliceResult.partOfError) ∈ sm.results

/-- The solver answers truthfully about the slices of `S`. -/
def TruthfulFor (C : SemCtx) (filter : Selection) (tcx : TyCtx) (d : Dir) (S : Stmt) (ask : Nat → Nat → Reply) : Prop :=
  TruthfulReplies (fun A => SliceFails C filter tcx d S fun i => A i = true) (activeVars .failure (transform filter tcx d S).2.stmts) ask

/-- Specification of a good report. If the program is reported to verify, it does (in all states in which the slice variables, which are not part of it,
are true). If a counterexample is reported, the reported slice fails, and if the solver was always sure and the smallest slice was asked for, no
failing slice has fewer statements. An unknown result is only reported if an answer of the solver was unknown. -/
def GoodReport (C : SemCtx) (filter : Selection) (tcx : TyCtx) (d : Dir) (S : Stmt) (o : SliceOptions) (ask : Nat → Nat → Reply)
    (out : ProveResult × Option SliceModel) : Prop :=
  match out.1 with
  | .proof => ∀ σ, (∀ s ∈ (transform filter tcx d S).2.stmts, (.var s.ident : Expr .bool).tv σ) → Succeeds d (vcSem C S (postExp d) σ)
  | .counterexample => ∃ sm, out.2 = some sm ∧ SliceFails C filter tcx d S (Kept (transform filter tcx d S).2.stmts sm) ∧
      ((∀ step n M, ask step n ≠ .unknown M) → o.minimality = .size → ∀ A : Ident → Bool, SliceFails C filter tcx d S (fun i => A i = true) →
        sm.results.length ≤ enabledCount (activeVars .failure (transform filter tcx d S).2.stmts) A)
  | .unknown => ∃ step n M, ask step n = .unknown M

end

/-- C67: for all programs, options and truthful answers of the solver, the search ends without a failed assertion, and the report is good. -/
def C67_full : Prop :=
  ∀ (_ : Doms) (_ : Interp) (C : SemCtx), C.Regular → ∀ (sliceTicks sliceSampling sliceVerify sliceErrorFirst sliceErrorInconsistent : Bool)
    (tcx : TyCtx) (d : Dir) (S : Stmt), (∀ v, S.Touched v → v.id ∈ tcx.decls) → ∀ ask : Nat → Nat → Reply,
    TruthfulFor C (prepareSelection false sliceTicks sliceSampling sliceVerify) tcx d S ask →
    ∃ fuel out, sliceFailing (failingOptions sliceErrorFirst sliceErrorInconsistent)
      (transform (prepareSelection false sliceTicks sliceSampling sliceVerify) tcx d S).2.stmts ask fuel = some (some out) ∧
      GoodReport C (prepareSelection false sliceTicks sliceSampling sliceVerify) tcx d S
        (failingOptions sliceErrorFirst sliceErrorInconsistent) ask out

section
variable [Doms] [Interp] {C : SemCtx}

/-! ## Helper lemmas -/

theorem sliceFailing_some {o : SliceOptions} {stmts : List SliceStmt} {ask : Nat → Nat → Reply} {fuel : Nat} {out}
    (h : sliceFailing o stmts ask fuel = some (some out)) :
    ∃ r, searchFinal o (activeVars .failure stmts) ask fuel = some (some r) ∧
      out = (r.proveResult, r.getModel.map fun (c, M) => SliceModel.fromModel .error stmts Selection.failure c M) := by
  obtain ⟨r, h1, h2⟩ := Option.map_eq_some_iff.mp h
  cases r with
  | none => cases h2
  | some r => exact ⟨r, h1, (Option.some.inj h2).symm⟩

theorem fromModel_results (stmts : List SliceStmt) (sel : Selection) (b : Bool) (M : PModel) :
    (SliceModel.fromModel .error stmts sel b M).results =
      (stmts.filter fun s => sel.enables s.selection && (M s.ident).getD true).map fun s => (s, SliceResult.partOfError) := by
  unfold SliceModel.fromModel SliceModel.results
  simp only []
  induction stmts with
  | nil => rfl
  | cons s l ih =>
    simp only [List.map_cons, List.filter_cons]
    cases hs : sel.enables s.selection <;> cases hM : (M s.ident).getD true <;> simp [ih]

/-- The reported slice is the completion of the model with all undefined variables enabled. -/
theorem kept_iff {stmts : List SliceStmt} {M : PModel} {b : Bool}
    (hin : ∀ s ∈ stmts, Selection.failure.enables s.selection = false → (M s.ident).getD true = true) :
    ∀ s ∈ stmts, (Kept stmts (SliceModel.fromModel .error stmts .failure b M) s.ident ↔ (M s.ident).getD true = true) := by
  intro s hs
  unfold Kept
  rw [fromModel_results]
  constructor
  · intro h
    cases he : Selection.failure.enables s.selection with
    | false => exact hin s hs he
    | true =>
      obtain ⟨s', h1, h2⟩ := List.mem_map.mp (h s hs rfl he)
      cases h2
      have := (List.mem_filter.mp h1).2
      rw [he, Bool.true_and] at this
      exact this
  · intro h s' hs' hi he
    refine List.mem_map.mpr ⟨s', List.mem_filter.mpr ⟨hs', ?_⟩, rfl⟩
    rw [he, hi, h]
    rfl

theorem SliceFails.congr {filter : Selection} {tcx : TyCtx} {d : Dir} {S : Stmt} {A B : Ident → Prop}
    (h : ∀ s ∈ (transform filter tcx d S).2.stmts, A s.ident ↔ B s.ident) (hA : SliceFails C filter tcx d S A) :
    SliceFails C filter tcx d S B := by
  obtain ⟨σ, h1, h2, h3, h4⟩ := hA
  exact ⟨σ, fun s hs => (h1 s hs).trans (h s hs), h2, fun s hs he => (h s hs).mp (h3 s hs he), h4⟩

/-- The constraints are disjunctions of two slice variables. -/
theorem visit_constraint_form (f : Selection) (S : Stmt) : ∀ (state : Selection) (st : St),
    ∀ c ∈ (visit f state st S).2.1.constraints, c ∈ st.constraints ∨
      ∃ s ∈ (visit f state st S).2.1.stmts, ∃ s' ∈ (visit f state st S).2.1.stmts, c = .bin .or (.var s.ident) (.var s'.ident) := by
  have two : ∀ {mk : Stmt → Stmt → Stmt} {a b : Stmt} {k : Stmt → Stmt → St → Res} {state : Selection} {st : St}
      (_ : ∀ (state : Selection) (st : St), ∀ c ∈ (visit f state st a).2.1.constraints, c ∈ st.constraints ∨
        ∃ s ∈ (visit f state st a).2.1.stmts, ∃ s' ∈ (visit f state st a).2.1.stmts, c = .bin .or (.var s.ident) (.var s'.ident))
      (_ : ∀ (state : Selection) (st : St), ∀ c ∈ (visit f state st b).2.1.constraints, c ∈ st.constraints ∨
        ∃ s ∈ (visit f state st b).2.1.stmts, ∃ s' ∈ (visit f state st b).2.1.stmts, c = .bin .or (.var s.ident) (.var s'.ident))
      (_ : ∀ a b st, (∀ s ∈ st.stmts, s ∈ (k a b st).2.1.stmts) ∧ ∀ c ∈ (k a b st).2.1.constraints, c ∈ st.constraints ∨
        ∃ s ∈ (k a b st).2.1.stmts, ∃ s' ∈ (k a b st).2.1.stmts, c = .bin .or (.var s.ident) (.var s'.ident)),
      ∀ c ∈ (visitTwo mk (visit f state st a) b (fun st => visit f state st b) k).2.1.constraints, c ∈ st.constraints ∨
        ∃ s ∈ (visitTwo mk (visit f state st a) b (fun st => visit f state st b) k).2.1.stmts,
        ∃ s' ∈ (visitTwo mk (visit f state st a) b (fun st => visit f state st b) k).2.1.stmts, c = .bin .or (.var s.ident) (.var s'.ident) := by
    intro mk a b k state st iha ihb hk
    have ha := iha state st
    generalize visit f state st a = ra at ha
    obtain ⟨a', st1, ok⟩ := ra
    cases ok with
    | false => exact ha
    | true =>
      have hb := ihb state st1
      have hg := visit_grows f b state st1
      unfold visitTwo
      dsimp only
      generalize visit f state st1 b = rb at hb hg
      obtain ⟨b', st2, ok⟩ := rb
      have lift : ∀ c ∈ st2.constraints, c ∈ st.constraints ∨
          ∃ s ∈ st2.stmts, ∃ s' ∈ st2.stmts, c = .bin .or (.var s.ident) (.var s'.ident) := by
        intro c hc
        rcases hb c hc with h | h
        · rcases ha c h with h | ⟨s, hs, s', hs', e⟩
          · exact .inl h
          · exact .inr ⟨s, hg.stmts s hs, s', hg.stmts s' hs', e⟩
        · exact .inr h
      cases ok with
      | false => exact lift
      | true =>
        intro c hc
        have := hk a' b' st2
        rcases this.2 c hc with h | h
        · rcases lift c h with h | ⟨s, hs, s', hs', e⟩
          · exact .inl h
          · exact .inr ⟨s, this.1 s hs, s', this.1 s' hs', e⟩
        · exact .inr h
  have leafC : ∀ (S : Stmt), (∀ state st, visit f state st S = sliceLeaf f state st S) → ∀ (state : Selection) (st : St),
      ∀ c ∈ (visit f state st S).2.1.constraints, c ∈ st.constraints ∨
      ∃ s ∈ (visit f state st S).2.1.stmts, ∃ s' ∈ (visit f state st S).2.1.stmts, c = .bin .or (.var s.ident) (.var s'.ident) := by
    intro S hv state st c hc
    rw [hv] at hc
    left
    revert hc
    unfold sliceLeaf
    split <;> (try split) <;> exact fun h => h
  induction S with
  | seq a b iha ihb | additive a b iha ihb | ite c a b iha ihb =>
    exact fun state st => two iha ihb fun _ _ _ => ⟨fun _ h => h, fun _ h => .inl h⟩
  | demonic a b iha ihb | angelic a b iha ihb =>
    refine fun state st => two iha ihb fun a b st => ?_
    split
    · refine ⟨(addBranches_grows _ _ _ _ _ _ _).stmts, fun c hc => ?_⟩
      rcases List.mem_append.mp hc with hc | hc
      · exact .inl hc
      · obtain rfl := List.mem_singleton.mp hc
        exact .inr ⟨⟨_, _⟩, List.mem_append_left _ (List.mem_append_right _ (List.mem_singleton_self _)), ⟨_, _⟩,
          List.mem_append_right _ (List.mem_singleton_self _), rfl⟩
    · exact ⟨fun _ h => h, fun _ h => .inl h⟩
  | «while» c s ih => exact fun state st => ih state st
  | annot an s ih =>
    intro state st
    cases an with
    | slicing n => exact ih _ st
    | _ => exact ih state st
  | _ => exact leafC _ fun _ _ => rfl

/-- The constraints only depend on the slice variables. -/
theorem constraints_congr {filter : Selection} {tcx : TyCtx} {d : Dir} {S : Stmt} {σ τ : Env}
    (h : ∀ s ∈ (transform filter tcx d S).2.stmts, ((.var s.ident : Expr .bool).tv σ ↔ (.var s.ident : Expr .bool).tv τ))
    {c : Expr .bool} (hc : c ∈ (transform filter tcx d S).2.constraints) : c.tv σ ↔ c.tv τ := by
  rcases visit_constraint_form filter S {} { tcx := tcx, dir := d } c hc with h' | ⟨s, hs, s', hs', rfl⟩
  · cases h'
  · exact or_congr (h s hs) (h s' hs')

/-! ## What holds -/

/-- The verdict that the program verifies only rests on the answers `unsat`. -/
theorem proof_of_unsat (hC : C.Regular) (filter : Selection) (tcx : TyCtx) (d : Dir) (S : Stmt)
    (hdecl : ∀ v, S.Touched v → v.id ∈ tcx.decls) (ask : Nat → Nat → Reply)
    (ht : ∀ step n, ask step n = .unsat → ∀ A : Ident → Bool, SliceFails C filter tcx d S (fun i => A i = true) →
      n < enabledCount (activeVars .failure (transform filter tcx d S).2.stmts) A) (sliceErrorFirst : Bool)
    (fuel : Nat) (sm : Option SliceModel)
    (h : sliceFailing (failingOptions sliceErrorFirst false) (transform filter tcx d S).2.stmts ask fuel = some (some (.proof, sm))) (σ : Env)
    (hσ : ∀ s ∈ (transform filter tcx d S).2.stmts, (.var s.ident : Expr .bool).tv σ) : Succeeds d (vcSem C S (postExp d) σ) := by
  obtain ⟨r, h1, h2⟩ := sliceFailing_some h
  have hr : r = .unsat := by
    cases r with
    | unsat => rfl
    | sat M => cases h2
    | unknown M => cases h2
  subst hr
  obtain ⟨step, h3⟩ := stop_unsat (o := failingOptions sliceErrorFirst false) rfl h1
  have := ht step _ h3
  by_contra hf
  have h4 := this (fun _ => true) ⟨σ, fun s hs => ⟨fun _ => rfl, fun _ => hσ s hs⟩, C40_constraints filter tcx d S σ hσ, fun _ _ _ => rfl, by
    rw [C40_enabled C hC filter tcx d S hdecl _ σ hσ]; exact hf⟩
  have := enabledCount_le (activeVars .failure (transform filter tcx d S).2.stmts) fun _ => true
  omega

/-- C67, without `--slice-error-inconsistent`: if the program is reported to verify, then it does. This holds for all unknown answers, and for all
programs and directions. -/
theorem C67_proof_partial (hC : C.Regular) (filter : Selection) (tcx : TyCtx) (d : Dir) (S : Stmt)
    (hdecl : ∀ v, S.Touched v → v.id ∈ tcx.decls) (ask : Nat → Nat → Reply) (ht : TruthfulFor C filter tcx d S ask) (sliceErrorFirst : Bool)
    (fuel : Nat) (sm : Option SliceModel)
    (h : sliceFailing (failingOptions sliceErrorFirst false) (transform filter tcx d S).2.stmts ask fuel = some (some (.proof, sm))) (σ : Env)
    (hσ : ∀ s ∈ (transform filter tcx d S).2.stmts, (.var s.ident : Expr .bool).tv σ) : Succeeds d (vcSem C S (postExp d) σ) :=
  proof_of_unsat hC filter tcx d S hdecl ask (fun step n hu => by have := ht step n; rw [hu] at this; exact this) sliceErrorFirst fuel sm h σ hσ

/-- C67, for programs without negations that do not mention the slice variables: if the program is reported to verify, then it does, in all
states. -/
theorem C67_verified_partial (hC : C.Regular) (filter : Selection) (tcx : TyCtx) (d : Dir) (S : Stmt)
    (hdecl : ∀ v, S.Touched v → v.id ∈ tcx.decls) (hN : S.NoNeg) (hr : ∀ s ∈ (transform filter tcx d S).2.stmts, ¬ S.Reads s.var)
    (ask : Nat → Nat → Reply) (ht : TruthfulFor C filter tcx d S ask) (sliceErrorFirst : Bool) (fuel : Nat) (sm : Option SliceModel)
    (h : sliceFailing (failingOptions sliceErrorFirst false) (transform filter tcx d S).2.stmts ask fuel = some (some (.proof, sm))) (σ : Env) :
    Succeeds d (vcSem C S (postExp d) σ) := by
  refine C41_verified C hC filter tcx d S hdecl hN (postExp d) (fun _ => True) (fun s hs h => absurd trivial h) hr ?_ ?_ σ
  · intro σ σ' _
    cases d <;> rfl
  · intro σ hσ
    rw [C40_enabled C hC filter tcx d S hdecl _ σ fun s hs => (hσ s hs).mpr trivial]
    exact C67_proof_partial hC filter tcx d S hdecl ask ht sliceErrorFirst fuel sm h σ fun s hs => (hσ s hs).mpr trivial

/-- C67: if a counterexample is reported, then the reported slice fails, for all options and all unknown answers. -/
theorem C67_slice (filter : Selection) (tcx : TyCtx) (d : Dir) (S : Stmt) (ask : Nat → Nat → Reply) (ht : TruthfulFor C filter tcx d S ask)
    (o : SliceOptions) (fuel : Nat) (sm : Option SliceModel)
    (h : sliceFailing o (transform filter tcx d S).2.stmts ask fuel = some (some (.counterexample, sm))) :
    ∃ sm', sm = some sm' ∧ SliceFails C filter tcx d S (Kept (transform filter tcx d S).2.stmts sm') := by
  obtain ⟨r, h1, h2⟩ := sliceFailing_some h
  cases r with
  | unsat => cases h2
  | unknown M => cases h2
  | sat M =>
    cases h2
    obtain ⟨step, n, h3⟩ := searchFinal_reply h1
    have := ht step n
    rw [← h3] at this
    have hA := (this _ (completes_true M)).1
    exact ⟨_, rfl, hA.congr fun s hs => (kept_iff (fun s hs he => hA.choose_spec.2.2.1 s hs he) s hs).symm⟩

/-- C67: if a counterexample is reported, there is a program `T` that means the same as the reported slice and is obtained by deleting statements and
branches of `S`, and `T` fails in some state. -/
theorem C67_program (hC : C.Regular) (filter : Selection) (tcx : TyCtx) (d : Dir) (S : Stmt)
    (hdecl : ∀ v, S.Touched v → v.id ∈ tcx.decls) (ask : Nat → Nat → Reply) (ht : TruthfulFor C filter tcx d S ask)
    (o : SliceOptions) (fuel : Nat) (sm : SliceModel)
    (h : sliceFailing o (transform filter tcx d S).2.stmts ask fuel = some (some (.counterexample, some sm))) :
    ∃ T, Cut S T ∧ (∀ φ σ, (∀ s ∈ (transform filter tcx d S).2.stmts,
        ((.var s.ident : Expr .bool).tv σ ↔ Kept (transform filter tcx d S).2.stmts sm s.ident)) →
      vcSem C (transform filter tcx d S).1 φ σ = vcSem C T φ σ) ∧ ∃ σ, ¬ Succeeds d (vcSem C T (postExp d) σ) := by
  obtain ⟨sm', e, σ, h1, h2, h3, h4⟩ := C67_slice filter tcx d S ask ht o fuel (some sm) h
  cases e
  obtain ⟨T, hT, hv⟩ := C54_slice C hC filter tcx d S hdecl (Kept (transform filter tcx d S).2.stmts sm) fun c hc τ hτ =>
    (constraints_congr (fun s hs => (h1 s hs).trans (hτ s hs).symm) hc).mp (h2 c hc)
  exact ⟨T, hT, hv, σ, by rw [← hv _ σ h1]; exact h4⟩

/-- C67: if a counterexample is reported for a program without `@slice_error` in which branches restore the direction, the program itself fails. -/
theorem C67_original_partial (hC : C.Regular) (filter : Selection) (tcx : TyCtx) (d d' : Dir) (S : Stmt)
    (hdecl : ∀ v, S.Touched v → v.id ∈ tcx.decls) (hdir : monoVisit d S = some d') (hbr : S.BranchesReturn d)
    (hann : ∀ s ∈ (transform filter tcx d S).2.stmts, s.selection.inError = false) (ask : Nat → Nat → Reply)
    (ht : TruthfulFor C filter tcx d S ask) (o : SliceOptions) (fuel : Nat) (sm : Option SliceModel)
    (h : sliceFailing o (transform filter tcx d S).2.stmts ask fuel = some (some (.counterexample, sm))) :
    ∃ σ, ¬ Succeeds d (vcSem C S (postExp d) σ) := by
  obtain ⟨sm', e, σ, h1, h2, h3, h4⟩ := C67_slice filter tcx d S ask ht o fuel sm h
  refine ⟨σ, C41_counterexample C hC filter tcx d d' S hdecl hdir hbr _ σ (fun s hs hv => ?_) h4⟩
  cases he : Selection.failure.enables s.selection with
  | false => exact absurd ((h1 s hs).mpr (h3 s hs he)) hv
  | true =>
    have := hann s hs
    unfold Selection.enables Selection.failure at he
    simpa [this] using he

/-- C67: if the solver is always sure, the search ends without a failed assertion, its verdict is right, and, if all models have values for all active slice
variables and the smallest slice is asked for, no failing slice has fewer statements than the reported one. -/
theorem C67_sure_partial (hC : C.Regular) (filter : Selection) (tcx : TyCtx) (d : Dir) (S : Stmt)
    (hdecl : ∀ v, S.Touched v → v.id ∈ tcx.decls) (ask : Nat → Nat → Reply) (ht : TruthfulFor C filter tcx d S ask)
    (hu : ∀ step n M, ask step n ≠ .unknown M)
    (hM : ∀ step n M, ask step n = .sat M → ∀ i ∈ activeVars .failure (transform filter tcx d S).2.stmts, M i ≠ none)
    (o : SliceOptions) :
    ∃ fuel out, sliceFailing o (transform filter tcx d S).2.stmts ask fuel = some (some out) ∧ GoodReport C filter tcx d S o ask out := by
  obtain ⟨fuel, r, hr⟩ := searchFinal_sure (o := o) ht hu
  have hfin : sliceFailing o (transform filter tcx d S).2.stmts ask fuel = some (some (r.proveResult,
      r.getModel.map fun (c, M) => SliceModel.fromModel .error (transform filter tcx d S).2.stmts Selection.failure c M)) := by
    unfold sliceFailing
    rw [hr]
    rfl
  refine ⟨fuel, _, hfin, ?_⟩
  cases r with
  | unsat =>
    intro σ hσ
    by_contra hf
    exact sure_unsat ht hu hr (fun _ => true) ⟨σ, fun s hs => ⟨fun _ => rfl, fun _ => hσ s hs⟩, C40_constraints filter tcx d S σ hσ,
      fun _ _ _ => rfl, by rw [C40_enabled C hC filter tcx d S hdecl _ σ hσ]; exact hf⟩
  | unknown M =>
    obtain ⟨step, n, h⟩ := searchFinal_reply hr
    exact ⟨step, n, M, h.symm⟩
  | sat M =>
    refine ⟨_, rfl, ?_, fun _ hmin A hA => ?_⟩
    · obtain ⟨sm', e, h⟩ := C67_slice filter tcx d S ask ht o fuel _ hfin
      cases e
      exact h
    · have h1 := sure_minimal ht hu (by rw [hmin]; exact fun h => by cases h) hr A hA
      refine Nat.le_trans (Nat.le_of_eq ?_) h1
      obtain ⟨step, n, h⟩ := searchFinal_reply hr
      have hM := hM step n M h.symm
      rw [fromModel_results, List.length_map]
      unfold countTrue activeVars at *
      rw [List.filter_map, List.length_map, List.filter_filter]
      refine congrArg List.length (List.filter_congr fun s hs => ?_)
      cases he : Selection.failure.enables s.selection with
      | false => simp
      | true =>
        have := hM s.ident (List.mem_map.mpr ⟨s, List.mem_filter.mpr ⟨hs, he⟩, rfl⟩)
        cases hm : M s.ident with
        | none => exact absurd hm this
        | some b => simp [hm]

end

/-! ## Counterexamples -/

/-- More fuel does not change the result. -/
theorem satSearch_mono {o : SliceOptions} {active : List Ident} {ask : Nat → Nat → Reply} :
    ∀ (fuel k : Nat) (s : SearchSt) {x}, satSearch o active ask fuel s = some x → satSearch o active ask (fuel + k) s = some x := by
  intro fuel
  induction fuel with
  | zero => intro k s x h; cases h
  | succ fuel ih =>
    intro k s x h
    rw [Nat.add_right_comm]
    unfold satSearch at h ⊢
    split at h
    · rename_i h1
      exact h
    · rename_i n h1
      split at h
      · exact h
      · exact h
      · exact ih k _ h

theorem sliceFailing_unique {o : SliceOptions} {stmts : List SliceStmt} {ask : Nat → Nat → Reply} {f g : Nat} {x y}
    (hx : sliceFailing o stmts ask f = some x) (hy : sliceFailing o stmts ask g = some y) : x = y := by
  have key : ∀ {f x} (k : Nat), sliceFailing o stmts ask f = some x → sliceFailing o stmts ask (f + k) = some x := by
    intro f x k h
    unfold sliceFailing searchFinal at h ⊢
    rw [Option.map_map] at h ⊢
    obtain ⟨z, h1, h2⟩ := Option.map_eq_some_iff.mp h
    rw [satSearch_mono f k _ h1, Option.map_some, h2]
  have h1 := key g hx
  have h2 := key f hy
  rw [Nat.add_comm] at h2
  exact Option.some.inj (h1.symm.trans h2)

/-- The default selection. -/
def c67F : Selection := prepareSelection false false false false

/-- The first two slice variables. -/
def c67v0 : Ident := ⟨"slice_toggle_0", 0⟩
def c67v1 : Ident := ⟨"slice_toggle_1", 0⟩

/-- `assert 0`. -/
def c67A : Stmt := .assert .down (Expr.botLit .eureal rfl)

/-- `assert a; weigh 0`. -/
def c67V : Stmt := .seq (.assert .down (.var ⟨"a", 0⟩)) (.weigh (Expr.botLit .eureal rfl))

/-- `assert a; assert a; weigh 0`. -/
def c67W : Stmt := .seq (.assert .down (.var ⟨"a", 0⟩)) (.seq (.assert .down (.var ⟨"a", 0⟩)) (.weigh (Expr.botLit .eureal rfl)))

section
variable [Doms] [Interp] (C : SemCtx)

/-- A state in which the boolean variables have the values given by `A`. -/
def sliceEnv (A : Ident → Bool) (σ : Env) : Env := fun v => match v with
  | ⟨i, .bool⟩ => (A i = true : Prop)
  | v => σ v

/-- `assert 0` fails iff it is enabled. -/
theorem c67A_fails (σ : Env) (A : Ident → Bool) : SliceFails C c67F TyCtx.new .down c67A (fun i => A i = true) ↔ A c67v0 = true := by
  classical
  have hv : ∀ σ : Env, vcSem C (transform c67F TyCtx.new .down c67A).1 (postExp .down) σ =
      if (.var c67v0 : Expr .bool).tv σ then vcSem C c67A (postExp .down) σ else ⊤ := fun σ =>
    toggles_assert (C := C) .down (Expr.botLit .eureal rfl) (.var c67v0) (postExp .down) σ
  have h0 : ∀ σ : Env, vcSem C c67A (postExp .down) σ = 0 := fun σ => by
    show min ((Expr.botLit .eureal rfl).ev σ) ⊤ = (0 : ℝ≥0∞)
    rw [show (Expr.botLit .eureal rfl).ev σ = 0 from Expr.eval_botLit _ _]; exact min_eq_left zero_le
  constructor
  · rintro ⟨τ, h1, _, _, h4⟩
    refine (h1 ⟨c67v0, _⟩ (List.mem_singleton_self _)).mp ?_
    by_contra hn
    exact h4 ((hv τ).trans (if_neg hn))
  · intro hA
    have hs : ∀ s ∈ (transform c67F TyCtx.new .down c67A).2.stmts, s.ident = c67v0 := by
      intro s hs
      obtain rfl := List.mem_singleton.mp hs
      rfl
    refine ⟨sliceEnv A σ, fun s _ => Iff.rfl, (fun c hc => by cases hc), fun s hs' _ => (by rw [hs s hs']; exact hA), ?_⟩
    intro h
    have h' : vcSem C (transform c67F TyCtx.new .down c67A).1 (postExp .down) (sliceEnv A σ) = ⊤ := h
    rw [hv, if_pos (show (.var c67v0 : Expr .bool).tv (sliceEnv A σ) from hA), h0] at h'
    exact absurd h' (by simp)

/-- All slices of `assert a; weigh 0` fail. -/
theorem c67V_fails (σ : Env) (A : Ident → Bool) : SliceFails C c67F TyCtx.new .down c67V (fun i => A i = true) := by
  refine ⟨sliceEnv A σ, fun s _ => Iff.rfl, (fun c hc => by cases hc), fun s hs he => ?_, ?_⟩
  · obtain rfl := List.mem_singleton.mp hs
    cases he
  · intro h
    have h' : min _ ((Expr.botLit .eureal rfl).ev _ * (⊤ : ℝ≥0∞)) = (⊤ : ℝ≥0∞) := h
    rw [show (Expr.botLit .eureal rfl).ev (sliceEnv A σ) = 0 from Expr.eval_botLit _ _, zero_mul] at h'
    exact absurd (le_of_eq h'.symm |>.trans (min_le_right _ _)) (by simp)

/-- All slices of `assert a; assert a; weigh 0` fail. -/
theorem c67W_fails (σ : Env) (A : Ident → Bool) : SliceFails C c67F TyCtx.new .down c67W (fun i => A i = true) := by
  refine ⟨sliceEnv A σ, fun s _ => Iff.rfl, (fun c hc => by cases hc), fun s hs he => ?_, ?_⟩
  · rcases List.mem_cons.mp hs with rfl | hs
    · cases he
    · obtain rfl := List.mem_singleton.mp hs
      cases he
  · intro h
    have h' : min _ (min _ ((Expr.botLit .eureal rfl).ev _ * (⊤ : ℝ≥0∞))) = (⊤ : ℝ≥0∞) := h
    rw [show (Expr.botLit .eureal rfl).ev (sliceEnv A σ) = 0 from Expr.eval_botLit _ _, zero_mul] at h'
    exact absurd (le_of_eq h'.symm |>.trans ((min_le_right _ _).trans (min_le_right _ _))) (by simp)

/-- C67 is violated with `--slice-error-inconsistent`: if the solver does not know about `assert 0` and proves that the empty slice verifies, then
`assert 0` is reported to verify, although it fails in all states. -/
theorem C67_wrong_proof (σ : Env) : ∃ ask, TruthfulFor C c67F TyCtx.new .down c67A ask ∧
    sliceFailing (failingOptions false true) (transform c67F TyCtx.new .down c67A).2.stmts ask 3 = some (some (.proof, none)) ∧
    ∀ σ : Env, ¬ Succeeds .down (vcSem C c67A (postExp .down) σ) := by
  refine ⟨fun _ n => match n with | 0 => .unsat | _ => .unknown none, ?_, rfl, fun σ h => ?_⟩
  · intro step n
    cases n with
    | succ n => trivial
    | zero =>
      intro A hA
      have := (c67A_fails C σ A).mp hA
      show 0 < (List.filter A [c67v0]).length
      rw [List.filter_cons, this]
      exact Nat.one_pos
  · have h' : min ((Expr.botLit .eureal rfl).ev σ) ⊤ = (⊤ : ℝ≥0∞) := h
    rw [show (Expr.botLit .eureal rfl).ev σ = 0 from Expr.eval_botLit _ _] at h'
    exact absurd (le_of_eq h'.symm |>.trans (min_le_left _ _)) (by simp)

/-- C67 is violated with the default options: unknown answers are recorded like `unsat`, so a later model with fewer statements makes the assertion in
`add_result` fail. -/
theorem C67_panic (σ : Env) : ∃ ask, TruthfulFor C c67F TyCtx.new .down c67W ask ∧
    sliceFailing (failingOptions false false) (transform c67F TyCtx.new .down c67W).2.stmts ask 4 = some none := by
  refine ⟨fun step n => match step, n with
    | 0, 2 => .sat fun _ => some true
    | 1, _ => .unknown none
    | _, _ => .sat fun _ => some false, ?_, rfl⟩
  intro step n
  dsimp only
  split
  · rename_i h
    split at h
    · cases h
      intro A _
      exact ⟨c67W_fails C σ A, enabledCount_le _ A⟩
    · cases h
    · cases h
      intro A hA
      refine ⟨c67W_fails C σ A, ?_⟩
      have : A = fun _ => false := funext fun i => hA i false rfl
      subst this
      exact Nat.zero_le _
  · rename_i h
    split at h <;> cases h
  · trivial

/-- C67 is violated with `--slice-error-inconsistent`: a model of an unknown answer need not respect the bound on the number of statements, and then the
assertion in `slice_sat_binary_search` fails. -/
theorem C67_panic_inconsistent (σ : Env) : ∃ ask, TruthfulFor C c67F TyCtx.new .down c67V ask ∧
    sliceFailing (failingOptions false true) (transform c67F TyCtx.new .down c67V).2.stmts ask 3 = some none := by
  refine ⟨fun _ n => match n with
    | 0 => .unknown (some fun _ => some true)
    | _ => .sat fun _ => some true, ?_, rfl⟩
  intro step n
  cases n with
  | zero => trivial
  | succ n => exact fun A _ => ⟨c67V_fails C σ A, (enabledCount_le _ A).trans (Nat.succ_le_succ (Nat.zero_le _))⟩

/-- C67 is violated with the default options, also if the solver is always sure: a slice variable without a value in the model is not counted by the
search, but reported as part of the error. Here `assert a` is reported although the rest of the program fails without it. -/
theorem C67_not_minimal (σ : Env) : ∃ ask s sm, TruthfulFor C c67F TyCtx.new .down c67V ask ∧ (∀ step n M, ask step n ≠ .unknown M) ∧
    sliceFailing (failingOptions false false) (transform c67F TyCtx.new .down c67V).2.stmts ask 2 = some (some (.counterexample, some sm)) ∧
    s.ident = c67v0 ∧ sm.results = [(s, .partOfError)] ∧ SliceFails C c67F TyCtx.new .down c67V (fun _ => False) := by
  refine ⟨fun _ n => match n with
    | 0 => .sat fun _ => some false
    | _ => .sat fun _ => none, _, _, ?_, ?_, rfl, ?_, rfl, (c67V_fails C σ fun _ => false).congr fun _ _ => by simp⟩
  · intro step n
    cases n with
    | zero =>
      intro A hA
      have : A = fun _ => false := funext fun i => hA i false rfl
      subst this
      exact ⟨c67V_fails C σ _, Nat.zero_le _⟩
    | succ n => exact fun A _ => ⟨c67V_fails C σ A, (enabledCount_le _ A).trans (Nat.succ_le_succ (Nat.zero_le _))⟩
  · intro step n M h
    cases n <;> cases h
  · rfl

/-- A counterexample that was found can get lost: the solver finds a counterexample to `assert 0`, but does not know an answer when it is asked again at the end
of the search. The result is unknown. -/
theorem C67_lost (σ : Env) : ∃ ask M, TruthfulFor C c67F TyCtx.new .down c67A ask ∧ ask 0 1 = .sat M ∧
    sliceFailing (failingOptions false false) (transform c67F TyCtx.new .down c67A).2.stmts ask 3 = some (some (.unknown, none)) := by
  refine ⟨fun step n => match step, n with
    | 0, 1 => .sat fun _ => some true
    | _, 0 => .unsat
    | _, _ => .unknown none, _, ?_, rfl, rfl⟩
  intro step n
  dsimp only
  split
  · rename_i h
    split at h <;> cases h
    intro A hA
    exact ⟨(c67A_fails C σ A).mpr (hA c67v0 true rfl), enabledCount_le _ A⟩
  · rename_i h
    split at h <;> cases h
    intro A hA
    have := (c67A_fails C σ A).mp hA
    show 0 < (List.filter A [c67v0]).length
    rw [List.filter_cons, this]
    exact Nat.one_pos
  · trivial

end

/-- C67 is violated. -/
theorem C67_not_full : ¬ C67_full := by
  intro h
  let _ := unitDoms
  let _ := unitInterp
  obtain ⟨ask, h1, h2, h3⟩ := C67_wrong_proof ⟨.lfp, fun l _ _ φ σ => ⨅ σ' ∈ {σ' | Agree l σ σ'}, φ σ'⟩ zeroEnv
  obtain ⟨fuel, out, h4, h5⟩ := h unitDoms unitInterp _ (regular_havoc .lfp) false false false false true TyCtx.new .down c67A
    (fun v hv => hv.elim) ask h1
  cases sliceFailing_unique h2 h4
  refine h3 (sliceEnv (fun _ => true) zeroEnv) (h5 _ fun s _ => ?_)
  exact (rfl : true = true)

/-! ## Non-vacuity -/

/-- A sure and truthful solver for `assert 0`: the statement is reported as part of the error. -/
example [Doms] [Interp] (C : SemCtx) (σ : Env) : ∃ ask s, TruthfulFor C c67F TyCtx.new .down c67A ask ∧ (∀ step n M, ask step n ≠ .unknown M) ∧
    sliceFailing (failingOptions false false) (transform c67F TyCtx.new .down c67A).2.stmts ask 3 =
      some (some (.counterexample, some ⟨true, .error, [(s, true)]⟩)) ∧ s.ident = c67v0 := by
  refine ⟨fun _ n => match n with
    | 0 => .unsat
    | _ => .sat fun _ => some true, _, ?_, ?_, rfl, rfl⟩
  · intro step n
    cases n with
    | zero =>
      intro A hA
      have := (c67A_fails C σ A).mp hA
      show 0 < (List.filter A [c67v0]).length
      rw [List.filter_cons, this]
      exact Nat.one_pos
    | succ n =>
      exact fun A hA => ⟨(c67A_fails C σ A).mpr (hA c67v0 true rfl), (enabledCount_le _ A).trans (Nat.succ_le_succ (Nat.zero_le _))⟩
  · intro step n M h
    cases n <;> cases h

/-- A program that verifies: `assume 0`. -/
example [Doms] [Interp] (C : SemCtx) : ∃ ask, TruthfulFor C c67F TyCtx.new .down (.assume .down (Expr.botLit .eureal rfl)) ask ∧
    sliceFailing (failingOptions false false) (transform c67F TyCtx.new .down (.assume .down (Expr.botLit .eureal rfl))).2.stmts ask 3 =
      some (some (.proof, none)) := by
  refine ⟨fun _ _ => .unsat, fun step n A hA => ?_, rfl⟩
  obtain ⟨τ, _, _, _, h⟩ := hA
  refine absurd ?_ h
  show himp ((Expr.botLit .eureal rfl).ev τ) ⊤ = (⊤ : ℝ≥0∞)
  simp

end Caesar
