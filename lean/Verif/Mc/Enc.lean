import Verif.Mc.Translate

/-!
# The edges made for a statement

`Enc A dir S start next` lists the edges which the automaton `A` has at the locations of `S`. The translation of statements
produces such an automaton (`translateStmt_enc`).
-/

namespace Caesar.Mc
set_option linter.unusedSectionVars false

variable [Fns]

/-- The edges of a location. -/
def edgesAt (es : List JEdge) (l : Loc) : List JEdge := es.filter fun e => decide (e.loc = l)

/-- The edges of `A` at `l` are `es`, and there is no reward for leaving `l`. -/
def At (A : JAutomaton) (l : Loc) (es : List JEdge) : Prop := edgesAt A.edges l = es ∧ A.exit l = none

/-- The edge of an assignment. -/
def EncAssign (A : JAutomaton) (x : String) {t : Ty} (e : Expr t) (s n : Loc) : Prop :=
  ∃ j, translate e = some j ∧ At A s [⟨s, none, [⟨n, none, [(x, j)]⟩]⟩]

/-- The edges of a case distinction. -/
def EncIf (A : JAutomaton) (c : JExpr) (s a b : Loc) : Prop := At A s [.fromToIf s a c, .fromToIf s b (.not c)]

/-- The edges of a statement between two locations. -/
def Enc (A : JAutomaton) (dir : Dir) : Stmt → Loc → Loc → Prop
  | .skip, s, n => s = n
  | .label _, s, n => s = n
  | .seq a b, s, n => ∃ m, Enc A dir b m n ∧ Enc A dir a s m
  | .varInit x e, s, n => if isConstant e then s = n else EncAssign A x.id.name e s n
  | .assign x e, s, n => EncAssign A x.id.name e s n
  | .sample _ x d, s, n => ∃ tbl dests, d.apply = .ok tbl ∧ (tbl.mapM fun (p, v) => do
      let p ← translate p
      let v ← translate v
      return (⟨n, some p, [(x.name, v)]⟩ : JDest)) = some dests ∧ At A s [⟨s, none, dests⟩]
  | .assert d e, s, n => d = dir ∧ ((∃ c j, extractEmbed e = some c ∧ translate c = some j ∧ EncIf A (contCond d j) s n .err) ∨
      (extractEmbed e = none ∧ ∃ ret, At A s [.fromTo s n, .fromTo s ret] ∧ EncAssign A rewardVar e ret .err))
  | .assume d e, s, n => ∃ c j mir, extractEmbed e = some c ∧ translate c = some j ∧ EncIf A (contCond d j) s n mir ∧
      At A mir [⟨mir, none, [⟨mir, none, match d with
        | .down => [(rewardVar, .num 1)]
        | .up => []⟩]⟩]
  | .tick e, s, n => EncAssign A rewardVar e s n
  | .demonic l r, s, n => dir = .down ∧ ∃ a b, Enc A dir l a n ∧ Enc A dir r b n ∧ At A s [.fromTo s a, .fromTo s b]
  | .angelic l r, s, n => dir = .up ∧ ∃ a b, Enc A dir l a n ∧ Enc A dir r b n ∧ At A s [.fromTo s a, .fromTo s b]
  | .ite c l r, s, n => ∃ j a b, translate c = some j ∧ Enc A dir l a n ∧ Enc A dir r b n ∧ EncIf A j s a b
  | .while c body, s, n => ∃ j a, translate c = some j ∧ Enc A dir body a s ∧ EncIf A j s a n
  | .annot _ st, s, n => Enc A dir st s n
  | _, _, _ => False

/-- Edges start at numbered locations. -/
def Build.WF (b : Build) : Prop := ∀ e ∈ b.edges, ∃ k, e.loc = .l k ∧ k < b.nlocs

/-- New edges start at new locations. -/
structure Ext (b b' : Build) : Prop where
  le : b.nlocs ≤ b'.nlocs
  old : ∀ l, (∀ k, l = .l k → k < b.nlocs) → edgesAt b'.edges l = edgesAt b.edges l

/-- Which edges of `b` at locations from `lo` on are those of `A`. -/
def FinalOn (A : JAutomaton) (b : Build) (lo : ℕ) : Prop :=
  ∀ k, lo ≤ k → k < b.nlocs → At A (.l k) (edgesAt b.edges (.l k))

theorem Ext.refl (b : Build) : Ext b b := ⟨Nat.le_refl _, fun _ _ => rfl⟩

theorem Ext.trans {a b c : Build} (h : Ext a b) (h' : Ext b c) : Ext a c :=
  ⟨h.le.trans h'.le, fun l hl => (h'.old l fun k hk => (hl k hk).trans_le h.le).trans (h.old l hl)⟩

theorem edgesAt_push (b : Build) (e : JEdge) (l : Loc) :
    edgesAt (b.push e).edges l = edgesAt b.edges l ++ (if e.loc = l then [e] else []) := by
  show edgesAt (b.edges ++ [e]) l = _
  unfold edgesAt
  rw [List.filter_append]
  by_cases h : e.loc = l
  · simp [h]
  · simp [h]

theorem edgesAt_fresh {b : Build} (h : b.WF) {k : ℕ} (hk : b.nlocs ≤ k) : edgesAt b.edges (.l k) = [] := by
  refine List.filter_eq_nil_iff.2 fun e he hd => ?_
  obtain ⟨k', h1, h2⟩ := h e he
  have := of_decide_eq_true hd
  rw [h1] at this
  cases this
  omega

theorem wf_push {b : Build} (h : b.WF) {e : JEdge} {k : ℕ} (he : e.loc = .l k) (hk : k < b.nlocs) : (b.push e).WF := by
  intro e' he'
  rcases List.mem_append.1 he' with h' | h'
  · exact h e' h'
  · rw [List.mem_singleton.1 h']; exact ⟨k, he, hk⟩

theorem wf_grow {b b' : Build} (h : b.WF) (he : b'.edges = b.edges) (hn : b.nlocs ≤ b'.nlocs) : b'.WF := by
  intro e hm
  rw [he] at hm
  obtain ⟨k, h1, h2⟩ := h e hm
  exact ⟨k, h1, h2.trans_le hn⟩

theorem wf_newPush {b : Build} (h : b.WF) {e : JEdge} (he : e.loc = .l b.nlocs) : ((b.newLoc).2.push e).WF :=
  wf_push (b := b.newLoc.2) (wf_grow h rfl (Nat.le_succ _)) he (Nat.lt_succ_self _)

/-- What a translation step guarantees. -/
structure Good (P : JAutomaton → Prop) (b b' : Build) : Prop where
  wf : b.WF → b'.WF
  ext : Ext b b'
  enc : b.WF → ∀ A, FinalOn A b' b.nlocs → P A

/-- Pushing an edge of a location made since `b`. -/
theorem Ext.push {b b' : Build} (h : Ext b b') {e : JEdge} {k : ℕ} (he : e.loc = .l k) (hk : b.nlocs ≤ k) :
    Ext b (b'.push e) := by
  refine ⟨h.le, fun l hl => ?_⟩
  rw [edgesAt_push, if_neg, List.append_nil, h.old l hl]
  intro hh
  exact absurd (hl k (hh.symm.trans he)) (by omega)

theorem ext_newLoc (b : Build) : Ext b (b.newLoc).2 := ⟨Nat.le_succ _, fun _ _ => rfl⟩

theorem At.single {A : JAutomaton} {b : Build} (hwf : b.WF) {e : JEdge} (he : e.loc = .l b.nlocs)
    (hf : FinalOn A (((b.newLoc).2).push e) b.nlocs) : At A (.l b.nlocs) [e] := by
  have := hf b.nlocs (Nat.le_refl _) (Nat.lt_succ_self _)
  rw [edgesAt_push, if_pos he] at this
  have h0 : edgesAt (b.newLoc).2.edges (.l b.nlocs) = [] := edgesAt_fresh hwf (Nat.le_refl _)
  rwa [h0] at this

theorem translateAssign_good {x : String} {t : Ty} {e : Expr t} {next start : Loc} {b b' : Build}
    (h : translateAssign x e next b = some (start, b')) : start = .l b.nlocs ∧
      Good (fun A => EncAssign A x e start next) b b' := by
  unfold translateAssign at h
  cases he : translate e with
  | none => rw [he] at h; cases h
  | some j =>
    rw [he] at h
    cases h
    refine ⟨rfl, fun hwf => ?_, (ext_newLoc b).push rfl (Nat.le_refl _), fun hwf A hf => ⟨j, he, At.single hwf rfl hf⟩⟩
    exact wf_newPush hwf rfl

/-- The final edges of a location below the last one used. -/
theorem FinalOn.of_ext {A : JAutomaton} {b b' : Build} {lo lo' : ℕ} (h : FinalOn A b' lo) (hlo : lo ≤ lo') (hn : b.nlocs ≤ b'.nlocs)
    (hold : ∀ k, lo' ≤ k → k < b.nlocs → edgesAt b'.edges (.l k) = edgesAt b.edges (.l k)) : FinalOn A b lo' := by
  intro k h1 h2
  rw [← hold k h1 h2]
  exact h k (hlo.trans h1) (h2.trans_le hn)

/-- Two branches between which edges from a new location are made. -/
theorem branch_good {P Q : JAutomaton → Prop} {b b2 b3 : Build} {e1 e2 : JEdge}
    (h1 : e1.loc = .l b.nlocs) (h2 : e2.loc = .l b.nlocs) (hl : Good P b.newLoc.2 b2) (hr : Good Q (b2.push e1) b3) :
    Good (fun A => P A ∧ Q A ∧ At A (.l b.nlocs) [e1, e2]) b (b3.push e2) := by
  have l1 : b.nlocs + 1 ≤ b2.nlocs := hl.ext.le
  have l2 : b2.nlocs ≤ b3.nlocs := hr.ext.le
  have w1 : b.WF → b.newLoc.2.WF := fun h => wf_grow h rfl (Nat.le_succ _)
  have w2 : b.WF → (b2.push e1).WF := fun h => wf_push (hl.wf (w1 h)) h1 l1
  refine ⟨fun h => wf_push (hr.wf (w2 h)) h2 (show b.nlocs < b3.nlocs by omega), ?_, fun hwf A hf => ?_⟩
  · exact ((((ext_newLoc b).trans hl.ext).push h1 (Nat.le_refl _)).trans hr.ext).push h2 (Nat.le_refl _)
  · have hne : ∀ k, b.nlocs + 1 ≤ k → edgesAt (b3.push e2).edges (.l k) = edgesAt b3.edges (.l k) := fun k hk => by
      rw [edgesAt_push, if_neg, List.append_nil]
      intro hh
      rw [h2] at hh
      cases hh
      omega
    refine ⟨hl.enc (w1 hwf) A ?_, hr.enc (w2 hwf) A ?_, ?_⟩
    · refine hf.of_ext (Nat.le_succ _) l2 fun k hk1 hk2 => ?_
      rw [hne k hk1, hr.ext.old _ (fun k' hk' => by cases hk'; exact hk2), edgesAt_push, if_neg, List.append_nil]
      intro hh
      rw [h1] at hh
      cases hh
      exact absurd hk1 (Nat.not_succ_le_self _)
    · exact hf.of_ext (show b.nlocs ≤ b2.nlocs by omega) (Nat.le_refl _) fun k hk1 _ =>
        hne k (l1.trans hk1)
    · have := hf b.nlocs (Nat.le_refl _) (show b.nlocs < b3.nlocs by omega)
      rw [edgesAt_push, if_pos h2, hr.ext.old _ (fun k hk => by cases hk; exact l1), edgesAt_push, if_pos h1,
        hl.ext.old _ (fun k hk => by cases hk; exact Nat.lt_succ_self _)] at this
      have h0 : edgesAt (b.newLoc).2.edges (.l b.nlocs) = [] := edgesAt_fresh hwf (Nat.le_refl _)
      rwa [h0] at this

theorem good_refl {P : JAutomaton → Prop} (h : ∀ A, P A) (b : Build) : Good P b b := ⟨id, .refl b, fun _ A _ => h A⟩

theorem Good.mono {P Q : JAutomaton → Prop} {b b' : Build} (h : Good P b b') (hpq : ∀ A, P A → Q A) : Good Q b b' :=
  ⟨h.wf, h.ext, fun hwf A hf => hpq A (h.enc hwf A hf)⟩

theorem Good.seq {P Q : JAutomaton → Prop} {a b c : Build} (h : Good P a b) (h' : Good Q b c) : Good (fun A => P A ∧ Q A) a c :=
  ⟨fun hwf => h'.wf (h.wf hwf), h.ext.trans h'.ext, fun hwf A hf => ⟨h.enc hwf A (hf.of_ext (Nat.le_refl _) h'.ext.le
      fun k _ hk => h'.ext.old _ fun k' hk' => by cases hk'; exact hk),
    h'.enc (h.wf hwf) A (hf.of_ext h.ext.le (Nat.le_refl _) fun _ _ _ => rfl)⟩⟩

theorem good_setNondet {P : JAutomaton → Prop} {b b' : Build} (h : Good P b.setNondet b') : Good P b b' :=
  ⟨h.wf, ⟨h.ext.le, h.ext.old⟩, h.enc⟩

theorem translateMiracle_good (d : Dir) (b : Build) : (translateMiracle d b).1 = .l b.nlocs ∧
    Good (fun A => At A (.l b.nlocs) [⟨.l b.nlocs, none, [⟨.l b.nlocs, none, match d with
        | .down => [(rewardVar, .num 1)]
        | .up => []⟩]⟩]) b (translateMiracle d b).2 := by
  refine ⟨rfl, fun hwf => wf_newPush hwf rfl, (ext_newLoc b).push rfl (Nat.le_refl _),
    fun hwf A hf => At.single hwf rfl hf⟩

/-- The translation of a statement makes the edges of the statement, and none at other locations. -/
theorem translateStmt_good (dir : Dir) (S : Stmt) {next start : Loc} {b b' : Build}
    (h : translateStmt dir S next b = some (start, b')) : Good (fun A => Enc A dir S start next) b b' := by
  induction S generalizing next start b b' with
  | skip => cases h; exact good_refl (fun _ => rfl) _
  | label _ => cases h; exact good_refl (fun _ => rfl) _
  | seq s t ihs iht =>
    rw [translateStmt] at h
    cases h1 : translateStmt dir t next b with
    | none => rw [h1] at h; cases h
    | some r =>
      obtain ⟨mid, b1⟩ := r
      rw [h1] at h
      exact ((iht h1).seq (ihs h)).mono fun A ⟨a, b⟩ => ⟨mid, a, b⟩
  | varInit x e =>
    rw [translateStmt] at h
    split at h
    next hc =>
      cases h
      refine good_refl (fun _ => ?_) _
      rw [Enc, if_pos hc]
    next hc =>
      refine (translateAssign_good h).2.mono fun A hA => ?_
      rw [Enc, if_neg hc]
      exact hA
  | assign x e => exact (translateAssign_good h).2
  | sample bb x d =>
    rw [translateStmt, translateSample] at h
    cases hd : d.apply with
    | error _ => rw [hd] at h; cases h
    | ok tbl =>
      rw [hd] at h
      dsimp only [bind, Option.bind] at h
      split at h
      next => cases h
      next dests hm =>
        cases h
        refine ⟨fun hwf => wf_newPush hwf rfl, (ext_newLoc b).push rfl (Nat.le_refl _),
          fun hwf A hf => ⟨tbl, dests, hd, hm, At.single hwf rfl hf⟩⟩
  | assert d e =>
    rw [translateStmt] at h
    split at h
    next => cases h
    next hd =>
      have hd : d = dir := not_not.1 hd
      split at h
      next c hc =>
        rw [translateBoolAssert] at h
        cases hj : translate c with
        | none => rw [hj] at h; cases h
        | some j =>
          rw [hj] at h
          cases h
          have hb := branch_good (P := fun _ => True) (Q := fun _ => True) (b := b)
            (e1 := .fromToIf (.l b.nlocs) next (contCond d j)) (e2 := .fromToIf (.l b.nlocs) .err (.not (contCond d j)))
            rfl rfl (good_refl (fun _ => trivial) _) (good_refl (fun _ => trivial) _)
          exact hb.mono fun A hA => ⟨hd, .inl ⟨c, j, hc, hj, hA.2.2⟩⟩
      next hc =>
        rw [translateQuantAssert] at h
        dsimp only [bind, Option.bind] at h
        split at h
        next => cases h
        next r hr =>
          cases h
          obtain ⟨ret, b1⟩ := r
          have ha := (translateAssign_good hr).2
          have hb := branch_good (P := fun _ => True) (b := b.setNondet)
            (e1 := .fromTo (.l b.nlocs) next) (e2 := .fromTo (.l b.nlocs) ret) rfl rfl (good_refl (fun _ => trivial) _) ha
          exact (good_setNondet hb).mono fun A hA => ⟨hd, .inr ⟨hc, ret, hA.2.2, hA.2.1⟩⟩
  | assume d e =>
    rw [translateStmt, translateAssume] at h
    cases hc : extractEmbed e with
    | none => rw [hc] at h; cases h
    | some c =>
      rw [hc] at h
      dsimp only [bind, Option.bind] at h
      cases hj : translate c with
      | none => rw [hj] at h; cases h
      | some j =>
        rw [hj] at h
        cases h
        have hb := branch_good (P := fun _ => True) (b := b)
            (e1 := .fromToIf (.l b.nlocs) next (contCond d j))
            (e2 := .fromToIf (.l b.nlocs) (.l (b.nlocs + 1)) (.not (contCond d j))) rfl rfl (good_refl (fun _ => trivial) _)
            (translateMiracle_good d ((b.newLoc).2.push (.fromToIf (.l b.nlocs) next (contCond d j)))).2
        exact hb.mono fun A hA => ⟨c, j, _, hc, hj, hA.2.2, hA.2.1⟩
  | tick e => exact (translateAssign_good h).2
  | demonic l r ihl ihr =>
    rw [translateStmt] at h
    split at h
    next hd =>
      rw [translateChoice] at h
      dsimp only [bind, Option.bind] at h
      split at h
      next => cases h
      next q hq =>
        obtain ⟨ls, b1⟩ := q
        dsimp only at h
        split at h
        next => cases h
        next q hq' =>
          obtain ⟨rs, b2⟩ := q
          cases h
          have hb := branch_good (b := b.setNondet) (e1 := .fromTo (.l b.nlocs) ls) (e2 := .fromTo (.l b.nlocs) rs) rfl rfl
            (ihl hq) (ihr hq')
          exact (good_setNondet hb).mono fun A hA => ⟨hd, ls, rs, hA⟩
    next => cases h
  | angelic l r ihl ihr =>
    rw [translateStmt] at h
    split at h
    next hd =>
      rw [translateChoice] at h
      dsimp only [bind, Option.bind] at h
      split at h
      next => cases h
      next q hq =>
        obtain ⟨ls, b1⟩ := q
        dsimp only at h
        split at h
        next => cases h
        next q hq' =>
          obtain ⟨rs, b2⟩ := q
          cases h
          have hb := branch_good (b := b.setNondet) (e1 := .fromTo (.l b.nlocs) ls) (e2 := .fromTo (.l b.nlocs) rs) rfl rfl
            (ihl hq) (ihr hq')
          exact (good_setNondet hb).mono fun A hA => ⟨hd, ls, rs, hA⟩
    next => cases h
  | ite c l r ihl ihr =>
    rw [translateStmt] at h
    dsimp only [bind, Option.bind] at h
    cases hj : translate c with
    | none => rw [hj] at h; cases h
    | some j =>
      rw [hj] at h
      dsimp only at h
      split at h
      next => cases h
      next q hq =>
        obtain ⟨ls, b1⟩ := q
        dsimp only at h
        split at h
        next => cases h
        next q hq' =>
          obtain ⟨rs, b2⟩ := q
          cases h
          have hb := branch_good (b := b) (e1 := .fromToIf (.l b.nlocs) ls j) (e2 := .fromToIf (.l b.nlocs) rs (.not j)) rfl rfl
            (ihl hq) (ihr hq')
          exact hb.mono fun A hA => ⟨j, ls, rs, hj, hA⟩
  | «while» c body ih =>
    rw [translateStmt] at h
    dsimp only [bind, Option.bind] at h
    cases hj : translate c with
    | none => rw [hj] at h; cases h
    | some j =>
      rw [hj] at h
      dsimp only at h
      split at h
      next => cases h
      next q hq =>
        obtain ⟨ls, b1⟩ := q
        cases h
        have hb := branch_good (b := b) (Q := fun _ => True) (e1 := .fromToIf (.l b.nlocs) ls j)
          (e2 := .fromToIf (.l b.nlocs) next (.not j)) rfl rfl (ih hq) (good_refl (fun _ => trivial) _)
        exact hb.mono fun A hA => ⟨j, ls, hj, hA.1, hA.2.2⟩
  | annot k s ih => exact ih h
  | varDecl _ => cases h
  | call _ _ _ _ => cases h
  | havoc _ _ => cases h
  | compare _ _ => cases h
  | negate _ => cases h
  | validate _ => cases h
  | weigh _ => cases h
  | additive _ _ _ _ => cases h

/-- The finished automaton has the edges of the statement. -/
theorem translateStmt_enc {dir : Dir} {S : Stmt} {next start : Loc} {b : Build}
    (h : translateStmt dir S next ⟨0, [], false⟩ = some (start, b)) (post : JExpr) : Enc (finish b post) dir S start next := by
  have hg := translateStmt_good dir S h
  refine hg.enc (fun e he => by cases he) _ fun k _ _ => ⟨?_, ?_⟩
  · show edgesAt (b.edges ++ _) _ = _
    unfold edgesAt
    rw [List.filter_append]
    simp [JEdge.fromTo]
  · simp [finish]

theorem finish_special {b : Build} (hwf : b.WF) (post : JExpr) :
    edgesAt (finish b post).edges .fin = [.fromTo .fin .sink] ∧ edgesAt (finish b post).edges .err = [.fromTo .err .sink] ∧
      edgesAt (finish b post).edges .sink = [] := by
  have : ∀ l, (∀ k, l ≠ .l k) → edgesAt b.edges l = [] := fun l hl => by
    refine List.filter_eq_nil_iff.2 fun e he hd => ?_
    obtain ⟨k', h1, _⟩ := hwf e he
    exact hl k' ((of_decide_eq_true hd).symm.trans h1)
  have happ : ∀ l, (∀ k, l ≠ .l k) → edgesAt (finish b post).edges l =
      edgesAt [.fromTo .fin .sink, .fromTo .err .sink] l := fun l hl => by
    show edgesAt (b.edges ++ _) _ = _
    unfold edgesAt
    rw [List.filter_append]
    have h := this l hl
    unfold edgesAt at h
    rw [h]
    rfl
  refine ⟨(happ _ (by simp)).trans ?_, (happ _ (by simp)).trans ?_, (happ _ (by simp)).trans ?_⟩ <;> simp [edgesAt, JEdge.fromTo]

end Caesar.Mc
