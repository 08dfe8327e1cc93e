import Verif.Slicing.TransformSound

/-!
# The slice variables of different statements are different
-/

namespace Caesar.Slicing

/-- A property of the traversal's state that is kept by all its steps is kept by the traversal. -/
theorem visit_inv {P : St → Prop} (hadd : ∀ state eff st, P st → P (addSlice state eff st).2)
    (hdir : ∀ st d, P st → P { st with dir := d }) (hcon : ∀ st c, P st → P { st with constraints := c }) (f : Selection) (S : Stmt) :
    ∀ (state : Selection) (st : St), P st → P (visit f state st S).2.1 := by
  have two : ∀ {mk : Stmt → Stmt → Stmt} {a b : Stmt} {k : Stmt → Stmt → St → Res} {state : Selection} {st : St}
      (_ : ∀ (state : Selection) (st : St), P st → P (visit f state st a).2.1)
      (_ : ∀ (state : Selection) (st : St), P st → P (visit f state st b).2.1)
      (_ : ∀ a b st, P st → P (k a b st).2.1), P st →
      P (visitTwo mk (visit f state st a) b (fun st => visit f state st b) k).2.1 := by
    intro mk a b k state st iha ihb hk h
    have ha := iha state st h
    generalize visit f state st a = ra at ha
    obtain ⟨a', st1, ok⟩ := ra
    cases ok with
    | false => exact ha
    | true =>
      have hb := ihb state st1 ha
      unfold visitTwo
      dsimp only
      generalize visit f state st1 b = rb at hb
      obtain ⟨b', st2, ok⟩ := rb
      cases ok with
      | false => exact hb
      | true => exact hk _ _ _ hb
  have leaf : ∀ (S : Stmt) (state : Selection) (st : St), P st → P (sliceLeaf f state st S).2.1 := by
    intro S state st h
    unfold sliceLeaf
    split
    case h_8 d =>
      split
      · exact hdir _ _ h
      · exact h
    case h_9 => exact h
    all_goals
      split
      · exact hadd _ _ _ h
      · exact h
  induction S with
  | seq a b iha ihb | additive a b iha ihb | ite c a b iha ihb => exact fun state st => two iha ihb fun _ _ _ h => h
  | demonic a b iha ihb | angelic a b iha ihb =>
    refine fun state st => two iha ihb fun _ _ st h => ?_
    split
    · exact hcon _ _ (hadd _ _ _ (hadd _ _ _ h))
    · exact h
  | «while» c s ih => exact fun state st => ih state st
  | annot an s ih =>
    intro state st
    cases an with
    | slicing n => exact ih _ st
    | _ => exact ih state st
  | _ => exact fun state st => leaf _ state st

/-- The slice variables of the transformed program are pairwise different. -/
theorem transform_nodup (filter : Selection) (tcx : TyCtx) (d : Dir) (S : Stmt) : ((transform filter tcx d S).2.stmts.map (·.ident)).Nodup := by
  refine (visit_inv (P := fun st => (st.stmts.map SliceStmt.ident).Nodup ∧ ∀ s ∈ st.stmts, s.ident ∈ st.tcx.decls) ?_
    (fun _ _ h => h) (fun _ _ h => h) filter S {} { tcx := tcx, dir := d } ⟨List.nodup_nil, fun _ h => nomatch h⟩).1
  intro state eff st ⟨h1, h2⟩
  obtain ⟨h3, h4⟩ := freshToggle_spec st.tcx
  have hs : (addSlice state eff st).2.stmts = st.stmts ++ [⟨(freshToggle st.tcx).1, makeSelection state eff⟩] := rfl
  have ht : (addSlice state eff st).2.tcx = (freshToggle st.tcx).2 := rfl
  rw [hs, ht]
  constructor
  · rw [List.map_append, List.nodup_append]
    refine ⟨h1, List.nodup_singleton _, fun a ha b hb => ?_⟩
    obtain ⟨s, hs, rfl⟩ := List.mem_map.mp ha
    obtain rfl := List.mem_singleton.mp hb
    exact fun e => h3 (show (freshToggle st.tcx).1 ∈ _ from (show s.ident = (freshToggle st.tcx).1 from e) ▸ h2 s hs)
  · intro s hs
    rw [h4]
    rcases List.mem_append.mp hs with hs | hs
    · exact List.mem_cons_of_mem _ (h2 s hs)
    · obtain rfl := List.mem_singleton.mp hs
      exact List.mem_cons_self

/-- Statements with the same slice variable are the same. -/
theorem transform_inj {filter : Selection} {tcx : TyCtx} {d : Dir} {S : Stmt} {s s' : SliceStmt} (hs : s ∈ (transform filter tcx d S).2.stmts)
    (hs' : s' ∈ (transform filter tcx d S).2.stmts) (h : s.ident = s'.ident) : s = s' :=
  List.inj_on_of_nodup_map (transform_nodup filter tcx d S) hs hs' h

end Caesar.Slicing
