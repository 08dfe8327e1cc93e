import Verif.Slicing.TransformSound
import Verif.Witness

/-!
# C40: slicing with all statements enabled is the identity
-/

open scoped ENNReal NNReal

namespace Caesar
set_option linter.unusedSectionVars false
open Slicing

section
variable [Doms] [Interp]

/-- C40: in every state where all slice variables are true, the transformed program has the verification condition of the original program. This
holds for all selections and also if the transformation has stopped with a direction error. All variables of the program are declared
(`hdecl`); procedure calls only change their left-hand sides (`C.Regular`). -/
theorem C40_enabled (C : SemCtx) (hC : C.Regular) (filter : Selection) (tcx : TyCtx) (d : Dir) (S : Stmt)
    (hdecl : ∀ v, S.Touched v → v.id ∈ tcx.decls) (φ : Exp) (σ : Env)
    (hσ : ∀ s ∈ (transform filter tcx d S).2.stmts, (.var s.ident : Expr .bool).tv σ) :
    vcSem C (transform filter tcx d S).1 φ σ = vcSem C S φ σ := by
  have hg := visit_grows filter S {} { tcx := tcx, dir := d }
  exact visit_rel (C := C) (V := (transform filter tcx d S).2.stmts) (m := fun _ => True) hC (mode := none) (fun s _ h => absurd trivial h)
    filter S (fun s hs ht => (hg.fresh s hs).elim (fun h => nomatch h) fun h => h (hdecl _ ht)) {} { tcx := tcx, dir := d } (fun s hs => hs)
    (.inl rfl) φ φ (fun _ _ => rfl) σ fun s hs => ⟨fun _ => trivial, fun _ => hσ s hs⟩

theorem addSlice_constraints (state : Selection) (eff : Effect) (st : St) : (addSlice state eff st).2.constraints = st.constraints := rfl

theorem visit_constraints (f : Selection) (σ : Env) (S : Stmt) : ∀ (state : Selection) (st : St),
    (∀ s ∈ (visit f state st S).2.1.stmts, (.var s.ident : Expr .bool).tv σ) → (∀ c ∈ st.constraints, c.tv σ) →
    ∀ c ∈ (visit f state st S).2.1.constraints, c.tv σ := by
  have two : ∀ {mk : Stmt → Stmt → Stmt} {a b : Stmt} {k : Stmt → Stmt → St → Res} {state : Selection} {st : St}
      (_ : ∀ (state : Selection) (st : St), (∀ s ∈ (visit f state st a).2.1.stmts, (.var s.ident : Expr .bool).tv σ) →
        (∀ c ∈ st.constraints, c.tv σ) → ∀ c ∈ (visit f state st a).2.1.constraints, c.tv σ)
      (_ : ∀ (state : Selection) (st : St), (∀ s ∈ (visit f state st b).2.1.stmts, (.var s.ident : Expr .bool).tv σ) →
        (∀ c ∈ st.constraints, c.tv σ) → ∀ c ∈ (visit f state st b).2.1.constraints, c.tv σ)
      (_ : ∀ a b st, (∀ s ∈ st.stmts, s ∈ (k a b st).2.1.stmts) ∧
        ((∀ s ∈ (k a b st).2.1.stmts, (.var s.ident : Expr .bool).tv σ) → (∀ c ∈ st.constraints, c.tv σ) →
          ∀ c ∈ (k a b st).2.1.constraints, c.tv σ))
      (_ : ∀ s ∈ (visitTwo mk (visit f state st a) b (fun st => visit f state st b) k).2.1.stmts, (.var s.ident : Expr .bool).tv σ)
      (_ : ∀ c ∈ st.constraints, c.tv σ),
      ∀ c ∈ (visitTwo mk (visit f state st a) b (fun st => visit f state st b) k).2.1.constraints, c.tv σ := by
    intro mk a b k state st iha ihb hk hs hc
    have ha := fun h => iha state st h hc
    revert hs
    generalize visit f state st a = ra at ha
    obtain ⟨a', st1, ok⟩ := ra
    cases ok with
    | false => exact ha
    | true =>
      have hb := ihb state st1
      have hg := visit_grows f b state st1
      unfold visitTwo
      dsimp only
      generalize visit f state st1 b = rb at hb hg
      obtain ⟨b', st2, ok⟩ := rb
      cases ok with
      | false => exact fun hs => hb hs (ha fun s h => hs s (hg.stmts s h))
      | true =>
        intro hs
        have hs2 := fun s h => hs s ((hk a' b' st2).1 s h)
        exact (hk a' b' st2).2 hs (hb hs2 (ha fun s h => hs2 s (hg.stmts s h)))
  have leaf : ∀ (state : Selection) (st : St) (S : Stmt), (sliceLeaf f state st S).2.1.constraints = st.constraints := by
    intro state st S
    unfold sliceLeaf
    split <;> (try split) <;> rfl
  have leafC : ∀ (S : Stmt), (∀ state st, visit f state st S = sliceLeaf f state st S) → ∀ (state : Selection) (st : St),
      (∀ s ∈ (visit f state st S).2.1.stmts, (.var s.ident : Expr .bool).tv σ) → (∀ c ∈ st.constraints, c.tv σ) →
      ∀ c ∈ (visit f state st S).2.1.constraints, c.tv σ := by
    intro S hv state st _ hc c hcm
    rw [hv, leaf state st S] at hcm
    exact hc c hcm
  induction S with
  | seq a b iha ihb | additive a b iha ihb | ite c a b iha ihb =>
    exact fun state st hs hc => two iha ihb (fun _ _ _ => ⟨fun _ h => h, fun _ h => h⟩) hs hc
  | demonic a b iha ihb | angelic a b iha ihb =>
    refine fun state st hs hc => two iha ihb (fun a b st => ?_) hs hc
    split
    · refine ⟨(addBranches_grows _ _ _ _ _ _ _).stmts, fun hs hc c hcm => ?_⟩
      rcases List.mem_append.mp hcm with hcm | hcm
      · exact hc c hcm
      · obtain rfl := List.mem_singleton.mp hcm
        exact Or.inl (hs ⟨_, _⟩ (List.mem_append_left _ (List.mem_append_right _ (List.mem_singleton_self _))))
    · exact ⟨fun _ h => h, fun _ h => h⟩
  | «while» c s ih => exact fun state st => ih state st
  | annot an s ih =>
    intro state st
    cases an with
    | slicing n => exact ih _ st
    | _ => exact ih state st
  | _ => exact leafC _ fun _ _ => rfl

/-- Enabling everything is allowed: it satisfies the constraints handed to the slice solver. -/
theorem C40_constraints (filter : Selection) (tcx : TyCtx) (d : Dir) (S : Stmt) (σ : Env)
    (hσ : ∀ s ∈ (transform filter tcx d S).2.stmts, (.var s.ident : Expr .bool).tv σ) :
    ∀ c ∈ (transform filter tcx d S).2.constraints, c.tv σ :=
  visit_constraints filter σ S {} { tcx := tcx, dir := d } hσ fun _ h => nomatch h

end

/-! ## Non-vacuity -/

/-- `@slice_verify x = 1; { assume a } ⊓ { assert b }`. -/
def c40S : Stmt :=
  .seq (.annot (.slicing 2) (.assign ⟨⟨"x", 0⟩, .uint⟩ (Expr.uintLit 1)))
    (.demonic (.assume .down (.var ⟨"a", 0⟩)) (.assert .down (.var ⟨"b", 0⟩)))

/-- With slicing for verification and errors, five variables are created in this program, and there is one constraint. -/
example : ((transform (prepareSelection false false false true) ⟨[⟨"x", 0⟩, ⟨"a", 0⟩, ⟨"b", 0⟩], fun _ => none⟩ .down c40S).2.stmts.map
      fun s => (s.ident.name, s.selection.concordant, s.selection.discordant)) =
    [("slice_toggle_0", false, false), ("slice_toggle_1", true, false), ("slice_toggle_2", false, true), ("slice_toggle_3", false, true),
      ("slice_toggle_4", false, true)] ∧
    (transform (prepareSelection false false false true) ⟨[⟨"x", 0⟩, ⟨"a", 0⟩, ⟨"b", 0⟩], fun _ => none⟩ .down c40S).2.constraints.length = 1 ∧
    ∀ v, c40S.Touched v → v.id ∈ [(⟨"x", 0⟩ : Ident), ⟨"a", 0⟩, ⟨"b", 0⟩] := by
  refine ⟨by decide, by decide, fun v hv => ?_⟩
  rcases hv with rfl | hv | hv
  · exact List.mem_cons_self
  · exact hv.elim
  · exact hv.elim

end Caesar
