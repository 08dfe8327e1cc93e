import Verif.Mc.ProcSound

/-!
# Models of type `DTMC` are deterministic
-/

open scoped ENNReal NNReal

namespace Caesar.Mc
set_option linter.unusedSectionVars false

variable [Fns]

section
variable [Doms] [Interp] [JOps]

/-- If no nondeterminism was reported, the new locations have at most one enabled edge. -/
def DetOn (b b' : Build) (A : JAutomaton) : Prop :=
  b'.nondet = false → b.nondet = false ∧ ∀ k, b.nlocs ≤ k → k < b'.nlocs → ∀ s : JState, (A.enabled (.l k) s).length ≤ 1

theorem length_single {A : JAutomaton} {l : Loc} {e : JEdge} (h : edgesAt A.edges l = [e]) (s : JState) :
    (A.enabled l s).length ≤ 1 := by
  rw [enabled_at h]
  exact List.length_filter_le _ [e]

theorem length_if {A : JAutomaton} {c : JExpr} {l a b : Loc} (h : EncIf A c l a b) (s : JState) :
    (A.enabled l s).length ≤ 1 := by
  rw [enabled_at h.1]
  by_cases hc : (c.eval s).holds
  · have h2 : ¬ (JEdge.fromToIf l b (.not c)).enabled s := fun hn => hn hc
    rw [List.filter_cons, List.filter_cons_of_neg (by simpa using h2), List.filter_nil]
    split <;> simp
  · have h1 : ¬ (JEdge.fromToIf l a c).enabled s := hc
    rw [List.filter_cons_of_neg (by simpa using h1)]
    exact List.length_filter_le _ [_]

theorem detOn_refl (b : Build) (A : JAutomaton) : DetOn b b A :=
  fun h => ⟨h, fun _ h1 h2 => absurd h1 (Nat.not_le.2 h2)⟩

theorem translateAssign_det {x : String} {t : Ty} {e : Expr t} {next start : Loc} {b b' : Build}
    (h : translateAssign x e next b = some (start, b')) : Good (DetOn b b') b b' := by
  have hg := translateAssign_good h
  have hb : b'.nlocs = b.nlocs + 1 ∧ b'.nondet = b.nondet := by
    unfold translateAssign at h
    cases he : translate e with
    | none => rw [he] at h; cases h
    | some j => rw [he] at h; cases h; exact ⟨rfl, rfl⟩
  refine hg.2.mono fun A hA hn => ⟨hb.2 ▸ hn, fun k h1 h2 s => ?_⟩
  have : k = b.nlocs := by omega
  rw [this, ← hg.1]
  obtain ⟨j, _, hat⟩ := hA
  exact length_single hat.1 s

theorem branch_det {b b2 b3 : Build} {e1 e2 : JEdge}
    (h1 : e1.loc = .l b.nlocs) (h2 : e2.loc = .l b.nlocs) (hl : Good (DetOn b.newLoc.2 b2) b.newLoc.2 b2)
    (hr : Good (DetOn (b2.push e1) b3) (b2.push e1) b3)
    (hat : ∀ A, At A (.l b.nlocs) [e1, e2] → b.nondet = false → ∀ s : JState, (A.enabled (.l b.nlocs) s).length ≤ 1) :
    Good (DetOn b (b3.push e2)) b (b3.push e2) := by
  refine (branch_good h1 h2 hl hr).mono fun A hA hn => ?_
  obtain ⟨ha, hb, hc⟩ := hA
  obtain ⟨hb1, hb2⟩ := hb hn
  obtain ⟨ha1, ha2⟩ := ha hb1
  refine ⟨ha1, fun k hk1 hk2 => ?_⟩
  by_cases he : k = b.nlocs
  · rw [he]; exact hat A hc ha1
  · by_cases hlt : k < b2.nlocs
    · exact ha2 k (Nat.lt_of_le_of_ne hk1 (Ne.symm he)) hlt
    · exact hb2 k (Nat.not_lt.1 hlt) hk2

theorem good_detNondet {b b' : Build} (h : Good (DetOn b.setNondet b') b.setNondet b') : Good (DetOn b b') b b' :=
  (good_setNondet h).mono fun _ hA hn => absurd (hA hn).1 (by simp [Build.setNondet])

theorem translateMiracle_det (d : Dir) (b : Build) : Good (DetOn b (translateMiracle d b).2) b (translateMiracle d b).2 := by
  refine (translateMiracle_good d b).2.mono fun A hA hn => ⟨hn, fun k h1 h2 s => ?_⟩
  have hk : k = b.nlocs := by
    have h2 : k < b.nlocs + 1 := h2
    omega
  rw [hk]
  exact length_single hA.1 s

theorem translateStmt_det (dir : Dir) (S : Stmt) {next start : Loc} {b b' : Build}
    (h : translateStmt dir S next b = some (start, b')) : Good (DetOn b b') b b' := by
  induction S generalizing next start b b' with
  | skip => cases h; exact good_refl (detOn_refl _) _
  | label _ => cases h; exact good_refl (detOn_refl _) _
  | seq s t ihs iht =>
    rw [translateStmt] at h
    cases h1 : translateStmt dir t next b with
    | none => rw [h1] at h; cases h
    | some r =>
      obtain ⟨mid, b1⟩ := r
      rw [h1] at h
      refine ((iht h1).seq (ihs h)).mono fun A hA hn => ?_
      obtain ⟨h2, h3⟩ := hA.2 hn
      obtain ⟨h4, h5⟩ := hA.1 h2
      refine ⟨h4, fun k hk1 hk2 => ?_⟩
      by_cases hlt : k < b1.nlocs
      · exact h5 k hk1 hlt
      · exact h3 k (Nat.not_lt.1 hlt) hk2
  | varInit x e =>
    rw [translateStmt] at h
    split at h
    next hc =>
      cases h
      exact good_refl (detOn_refl _) _
    next hc => exact translateAssign_det h
  | assign x e => exact translateAssign_det h
  | sample bb x d =>
    have hg := translateStmt_good dir (.sample bb x d) h
    have hb : b'.nlocs = b.nlocs + 1 ∧ b'.nondet = b.nondet ∧ start = .l b.nlocs := by
      rw [translateStmt, translateSample] at h
      cases hd : d.apply with
      | error _ => rw [hd] at h; cases h
      | ok tbl =>
        rw [hd] at h
        dsimp only [bind, Option.bind] at h
        split at h
        next => cases h
        next dests hm => cases h; exact ⟨rfl, rfl, rfl⟩
    refine hg.mono fun A hA hn => ⟨hb.2.1 ▸ hn, fun k h1 h2 s => ?_⟩
    have : k = b.nlocs := by omega
    rw [this, ← hb.2.2]
    obtain ⟨_, _, _, _, hat⟩ := hA
    exact length_single hat.1 s
  | assert d e =>
    rw [translateStmt] at h
    split at h
    next => cases h
    next hd =>
      split at h
      next c hc =>
        rw [translateBoolAssert] at h
        cases hj : translate c with
        | none => rw [hj] at h; cases h
        | some j =>
          rw [hj] at h
          cases h
          exact branch_det (b := b)
            (e1 := .fromToIf (.l b.nlocs) next (contCond d j)) (e2 := .fromToIf (.l b.nlocs) .err (.not (contCond d j)))
            rfl rfl (good_refl (detOn_refl _) _) (good_refl (detOn_refl _) _) fun A hat _ s => length_if hat s
      next hc =>
        rw [translateQuantAssert] at h
        dsimp only [bind, Option.bind] at h
        split at h
        next => cases h
        next r hr =>
          cases h
          obtain ⟨ret, b1⟩ := r
          exact good_detNondet (branch_det (b := b.setNondet)
            (e1 := .fromTo (.l b.nlocs) next) (e2 := .fromTo (.l b.nlocs) ret) rfl rfl (good_refl (detOn_refl _) _)
            (translateAssign_det hr) fun A _ hn => absurd hn (by simp [Build.setNondet]))
  | assume d e =>
    rw [translateStmt, translateAssume] at h
    cases hc : extractEmbed e with
    | none => rw [hc] at h; cases h
    | some c =>
      rw [hc] at h
      dsimp only [bind, Option.bind] at h
      cases hj : translate c with
      | none => rw [hj] at h; cases h
      | some j =>
        rw [hj] at h
        cases h
        exact branch_det (b := b)
            (e1 := .fromToIf (.l b.nlocs) next (contCond d j))
            (e2 := .fromToIf (.l b.nlocs) (.l (b.nlocs + 1)) (.not (contCond d j))) rfl rfl (good_refl (detOn_refl _) _)
            (translateMiracle_det d ((b.newLoc).2.push (.fromToIf (.l b.nlocs) next (contCond d j)))) fun A hat _ s => length_if hat s
  | tick e => exact translateAssign_det h
  | demonic l r ihl ihr =>
    rw [translateStmt] at h
    split at h
    next hd =>
      rw [translateChoice] at h
      dsimp only [bind, Option.bind] at h
      split at h
      next => cases h
      next q hq =>
        obtain ⟨ls, b1⟩ := q
        dsimp only at h
        split at h
        next => cases h
        next q hq' =>
          obtain ⟨rs, b2⟩ := q
          cases h
          exact good_detNondet (branch_det (b := b.setNondet) (e1 := .fromTo (.l b.nlocs) ls) (e2 := .fromTo (.l b.nlocs) rs) rfl rfl
            (ihl hq) (ihr hq') fun A _ hn => absurd hn (by simp [Build.setNondet]))
    next => cases h
  | angelic l r ihl ihr =>
    rw [translateStmt] at h
    split at h
    next hd =>
      rw [translateChoice] at h
      dsimp only [bind, Option.bind] at h
      split at h
      next => cases h
      next q hq =>
        obtain ⟨ls, b1⟩ := q
        dsimp only at h
        split at h
        next => cases h
        next q hq' =>
          obtain ⟨rs, b2⟩ := q
          cases h
          exact good_detNondet (branch_det (b := b.setNondet) (e1 := .fromTo (.l b.nlocs) ls) (e2 := .fromTo (.l b.nlocs) rs) rfl rfl
            (ihl hq) (ihr hq') fun A _ hn => absurd hn (by simp [Build.setNondet]))
    next => cases h
  | ite c l r ihl ihr =>
    rw [translateStmt] at h
    dsimp only [bind, Option.bind] at h
    cases hj : translate c with
    | none => rw [hj] at h; cases h
    | some j =>
      rw [hj] at h
      dsimp only at h
      split at h
      next => cases h
      next q hq =>
        obtain ⟨ls, b1⟩ := q
        dsimp only at h
        split at h
        next => cases h
        next q hq' =>
          obtain ⟨rs, b2⟩ := q
          cases h
          exact branch_det (b := b) (e1 := .fromToIf (.l b.nlocs) ls j) (e2 := .fromToIf (.l b.nlocs) rs (.not j)) rfl rfl
            (ihl hq) (ihr hq') fun A hat _ s => length_if hat s
  | «while» c body ih =>
    rw [translateStmt] at h
    dsimp only [bind, Option.bind] at h
    cases hj : translate c with
    | none => rw [hj] at h; cases h
    | some j =>
      rw [hj] at h
      dsimp only at h
      split at h
      next => cases h
      next q hq =>
        obtain ⟨ls, b1⟩ := q
        cases h
        exact branch_det (b := b) (e1 := .fromToIf (.l b.nlocs) ls j)
          (e2 := .fromToIf (.l b.nlocs) next (.not j)) rfl rfl (ih hq) (good_refl (detOn_refl _) _) fun A hat _ s => length_if hat s
  | annot k s ih => exact ih h
  | varDecl _ => cases h
  | call _ _ _ _ => cases h
  | havoc _ _ => cases h
  | compare _ _ => cases h
  | negate _ => cases h
  | validate _ => cases h
  | weigh _ => cases h
  | additive _ _ _ _ => cases h

/-- In a model of type `DTMC`, at most one edge is enabled. -/
theorem model_det {o : McOptions} {p : Proc} {M : JModel} (h : procToModel o p = some M) (hm : M.mdp = false) (l : Loc)
    (s : JState) : (M.automaton.enabled l s).length ≤ 1 := by
  have hb : ∃ body, p.body = some body := by
    cases hb : p.body with
    | none => unfold procToModel at h; rw [hb] at h; cases h
    | some body => exact ⟨body, rfl⟩
  obtain ⟨body, hb⟩ := hb
  obtain ⟨pres, stmts, posts, rest, start, b, j, locals, ins, outs, fns, h1, h2, h3, h4, h5, h6, h7, hfn, rfl⟩ := procToModel_some hb h
  have hg := translateStmt_det p.dir _ h7
  have hwf : b.WF := hg.wf fun e he => by cases he
  have hd := hg.enc (fun e he => by cases he) (finish b j) (fun k _ _ => ⟨by
    show edgesAt (b.edges ++ _) _ = _
    unfold edgesAt
    rw [List.filter_append]
    simp [JEdge.fromTo], by simp [finish]⟩) hm
  obtain ⟨hf, he, hs⟩ := finish_special hwf j
  cases l with
  | l k =>
    by_cases hk : k < b.nlocs
    · exact hd.2 k (Nat.zero_le _) hk s
    · have : edgesAt (finish b j).edges (.l k) = [] := by
        show edgesAt (b.edges ++ _) _ = _
        have h0 := edgesAt_fresh hwf (Nat.not_lt.1 hk)
        unfold edgesAt at h0 ⊢
        rw [List.filter_append, h0]
        simp [JEdge.fromTo]
      rw [show (JModel.automaton _) = finish b j from rfl, enabled_at this]
      exact Nat.zero_le _
  | fin => exact length_single hf s
  | err => exact length_single he s
  | sink =>
    rw [show (JModel.automaton _) = finish b j from rfl, enabled_at hs]
    exact Nat.zero_le _

/-- Hence the minimal and maximal rewards agree. -/
theorem value_det {A : JAutomaton} (h : ∀ l (s : JState), (A.enabled l s).length ≤ 1) (l : Loc) (s : JState) :
    A.value .down l s = A.value .up l s := by
  have hb : ∀ X l s, A.bellman .down X l s = A.bellman .up X l s := fun X l s => by
    unfold JAutomaton.bellman
    have := h l s
    match hen : A.enabled l s with
    | [] => rfl
    | [e] => simp [best]
    | e :: e' :: es => rw [hen] at this; simp at this
  have hs : ∀ n, A.steps .down n = A.steps .up n := fun n => by
    induction n with
    | zero => rfl
    | succ n ih =>
      funext l s
      show A.bellman .down (A.steps .down n) l s = A.bellman .up (A.steps .up n) l s
      rw [ih, hb]
  rw [value_eq_limit, value_eq_limit]
  unfold JAutomaton.limit
  simp only [hs]

end

end Caesar.Mc
