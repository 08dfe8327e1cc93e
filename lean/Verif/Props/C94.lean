import Verif.Servers.Emit

/-!
# C94: what the editor is told about a result
-/

namespace Caesar.Server

open Caesar.Driver.Verdict (Place Soundness ProveResult resultText)

/-! ## Specification -/

/-- The full property: errors elsewhere than at the unit are only shown if there is a counterexample. -/
def C94_full : Prop :=
  ∀ (t : Texts) (s : Soundness) (a : Answer) (sliceVerify : Bool) (found : Option (Bool × List Sliced)) (ds : List Diag),
    emit t s (a.finalSlice sliceVerify found) a.result = some ds → ∀ d ∈ ds, d.level = .error → d.span = t.span ∨ a.result = .counterexample

/-- There is a model although the result is unknown. -/
def Answer.Guess : Answer → Prop
  | .unknown _ (some _) => True
  | _ => False

/-- The diagnostic that a statement of a slice gets: it is an error if the statement is part of a slice that fails, and a warning if it is not part
of a slice that verifies. Messages are those of annotations, if there are any. -/
inductive Marks (mode : Mode) (st : Sliced) : Diag → Prop where
  | error (hm : mode = .error) (he : st.enabled = some true) :
      Marks mode st ⟨.error, st.span, st.failure.getD "This statement is part of the error", none, [(st.span, "here")], false⟩
  | warning (hm : mode = .verify) (he : st.enabled = some false) :
      Marks mode st ⟨.warning, st.span, st.success.getD "This statement is not necessary", none, [(st.span, "here")], true⟩

/-- The variables that are declared by the user or come from quantifiers and substitutions. -/
def Local.isUser (v : Local) : Bool := v.kind.isSome && v.kind ≠ some .slice

/-- The text for a variable. -/
def Local.text (value : Local → String) (v : Local) : String :=
  "in the cex, " ++ (v.kind.map VarKind.text).getD "" ++ " variable " ++ v.name ++ " is " ++ value v

/-! ## Lemmas -/

theorem mem_diags {sm : Slice} {d : Diag} : d ∈ sm.diags ↔ ∃ st ∈ sm.stmts, Marks sm.mode st d := by
  simp only [Slice.diags, Slice.results, List.mem_filterMap]
  constructor
  · rintro ⟨p, ⟨st, hst, hp⟩, hd⟩
    refine ⟨st, hst, ?_⟩
    unfold Sliced.result at hp
    split at hp <;> cases hp
    · cases hd
      exact .error ‹_› ‹_›
    · cases hd
      exact .warning ‹_› ‹_›
    · cases hd
  · rintro ⟨st, hst, h⟩
    cases h with
    | error hm he => exact ⟨(st.span, .partOfError st.failure), ⟨st, hst, by simp only [Sliced.result, hm, he]⟩, rfl⟩
    | warning hm he => exact ⟨(st.span, .notNecessary st.success), ⟨st, hst, by simp only [Sliced.result, hm, he]⟩, rfl⟩

theorem labels_eq (locals : List Local) (value : Local → String) :
    labels locals value = ((locals.mergeSort fun a b => a.span.start ≤ b.span.start).filter Local.isUser).map fun v => (v.span, v.text value) := by
  rw [labels]
  induction locals.mergeSort fun a b => decide (a.span.start ≤ b.span.start) with
  | nil => rfl
  | cons v l ih =>
    rcases v with ⟨sp, n, _ | k⟩
    · simpa [Local.isUser, Local.label, List.filterMap_cons] using ih
    · by_cases hk : k = .slice
      · subst hk
        simpa [Local.isUser, Local.label] using ih
      · simp [Local.isUser, Local.label, Local.text, hk] at ih ⊢
        exact ih

/-! ## The theorems -/

/-- There is no panic. -/
theorem C94_total (t : Texts) (s : Soundness) (a : Answer) (sliceVerify : Bool) (found : Option (Bool × List Sliced)) :
    (emit t s (a.finalSlice sliceVerify found) a.result).isSome = true := by
  cases a <;> cases sliceVerify <;> rfl

/-- The diagnostics are those of the statements, followed by at most one for the unit. There is none for the unit exactly if the status is
"verified"; otherwise it is an error that begins with the text which is printed on the command line. -/
theorem C94_unit {t : Texts} {s : Soundness} {a : Answer} {sliceVerify : Bool} {found : Option (Bool × List Sliced)} {ds : List Diag}
    (h : emit t s (a.finalSlice sliceVerify found) a.result = some ds) : ∃ statements unit, ds = statements ++ unit ∧
    (∀ d, d ∈ statements ↔ ∃ sm ∈ a.finalSlice sliceVerify found, ∃ st ∈ sm.stmts, Marks sm.mode st d) ∧
    (status s a.result = .verified ∧ unit = [] ∨
      status s a.result ≠ .verified ∧ ∃ d, unit = [d] ∧ d.level = .error ∧ d.span = t.span ∧ ∃ rest, d.message = resultText s a.result ++ rest) := by
  have hst : ∀ o : Option Slice, ∀ d, (d ∈ match o with
      | some sm => sm.diags
      | none => []) ↔ ∃ sm ∈ o, ∃ st ∈ sm.stmts, Marks sm.mode st d := by
    intro o d
    cases o with
    | none => simp
    | some sm => simp [mem_diags]
  refine ⟨_, match a.result with
      | .proof => (t.soundness s .proof).toList
      | .counterexample => [⟨.error, t.span, resultText s .counterexample ++ "\n\n" ++ t.model, none, labels t.locals t.value, false⟩]
      | .unknown reason => [⟨.error, t.span, resultText s (.unknown reason), some unknownNote, [], false⟩], ?_,
    hst (a.finalSlice sliceVerify found), ?_⟩
  · cases a with
    | proof => exact (Option.some.inj h).symm
    | counterexample l =>
      have hs : (Answer.counterexample l).finalSlice sliceVerify found = some ⟨true, .error, l⟩ := by cases sliceVerify <;> rfl
      rw [hs] at h ⊢
      exact (Option.some.inj h).symm
    | unknown reason l => exact (Option.some.inj h).symm
  · cases a with
    | proof =>
      by_cases hp : s.soundProofs = true
      · exact .inl ⟨by simp [Answer.result, status, VerifyStatus.ofResult, hp], by simp [Answer.result, Texts.soundness, Soundness.diagnostic, hp]⟩
      · refine .inr ⟨by simp [Answer.result, status, VerifyStatus.ofResult, hp],
          ⟨.error, t.span, "Unsound verification", s.note, s.labels.map fun l => (t.at' l.span, l.message), false⟩, ?_, rfl, rfl, "", ?_⟩
        · simp [Answer.result, Texts.soundness, Soundness.diagnostic, hp]
        · have : resultText s .proof = "Unsound verification" := if_neg hp
          exact this.symm.trans String.append_empty.symm
    | counterexample l =>
      refine .inr ⟨?_, _, rfl, rfl, rfl, "\n\n" ++ t.model, by rw [← String.append_assoc]; rfl⟩
      simp only [Answer.result, status, VerifyStatus.ofResult]
      split <;> nofun
    | unknown reason l =>
      refine .inr ⟨?_, _, rfl, rfl, rfl, "", String.append_empty.symm⟩
      simp only [Answer.result, status, VerifyStatus.ofResult]
      nofun

/-- The status is "verified" exactly if no error is shown. -/
theorem C94_status {t : Texts} {s : Soundness} {a : Answer} {sliceVerify : Bool} {found : Option (Bool × List Sliced)} {ds : List Diag}
    (h : emit t s (a.finalSlice sliceVerify found) a.result = some ds) : status s a.result = .verified ↔ ∀ d ∈ ds, d.level ≠ .error := by
  obtain ⟨sts, unit, rfl, hs, hu⟩ := C94_unit h
  rcases hu with ⟨hv, rfl⟩ | ⟨hv, d, rfl, he, -, -⟩
  · refine ⟨fun _ d hd => ?_, fun _ => hv⟩
    rw [List.append_nil] at hd
    obtain ⟨sm, hsm, st, -, hm⟩ := (hs d).1 hd
    have hmode : sm.mode = .verify := by
      cases a with
      | proof =>
        cases sliceVerify with
        | false => exact nomatch hsm
        | true =>
          obtain ⟨p, -, rfl⟩ := Option.map_eq_some_iff.1 (Option.mem_def.1 hsm)
          rfl
      | counterexample l =>
        simp only [Answer.result, status, VerifyStatus.ofResult] at hv
        split at hv <;> cases hv
      | unknown reason l => cases hv
    cases hm with
    | error h _ => rw [hmode] at h; cases h
    | warning _ _ => nofun
  · exact ⟨fun h => absurd h hv, fun h => absurd he (h d (List.mem_append_right _ (.head _)))⟩

/-- Without models for unknown results, errors elsewhere than at the unit are only shown if there is a counterexample. -/
theorem C94_partial {t : Texts} {s : Soundness} {a : Answer} (hg : ¬ a.Guess) {sliceVerify : Bool} {found : Option (Bool × List Sliced)} {ds : List Diag}
    (h : emit t s (a.finalSlice sliceVerify found) a.result = some ds) : ∀ d ∈ ds, d.level = .error → d.span = t.span ∨ a.result = .counterexample := by
  obtain ⟨sts, unit, rfl, hs, hu⟩ := C94_unit h
  intro d hd hl
  rcases List.mem_append.1 hd with hd | hd
  · obtain ⟨sm, hsm, st, -, hm⟩ := (hs d).1 hd
    cases a with
    | counterexample l => exact .inr rfl
    | unknown reason l =>
      cases l with
      | some l => exact absurd trivial hg
      | none => cases sliceVerify <;> exact nomatch hsm
    | proof =>
      cases sliceVerify with
      | false => exact nomatch hsm
      | true =>
        obtain ⟨p, -, rfl⟩ := Option.map_eq_some_iff.1 (Option.mem_def.1 hsm)
        cases hm with
        | error h _ => cases h
        | warning _ _ => cases hl
  · rcases hu with ⟨-, rfl⟩ | ⟨-, d', rfl, -, hsp, -⟩
    · exact nomatch hd
    · rcases List.mem_singleton.1 hd with rfl
      exact .inl hsp

/-- The labels of a counterexample: one for each variable that is not from the slicer, in the order of the positions. -/
theorem C94_labels {t : Texts} {s : Soundness} {l : List Sliced} {sliceVerify : Bool} {found : Option (Bool × List Sliced)} {ds : List Diag}
    (h : emit t s ((Answer.counterexample l).finalSlice sliceVerify found) .counterexample = some ds) : ∃ d ∈ ds.getLast?, ∃ vs : List Local,
    vs.Perm (t.locals.filter Local.isUser) ∧ vs.Pairwise (fun a b => a.span.start ≤ b.span.start) ∧
      d.labels = vs.map fun v => (v.span, v.text t.value) := by
  have hs : (Answer.counterexample l).finalSlice sliceVerify found = some ⟨true, .error, l⟩ := by cases sliceVerify <;> rfl
  rw [hs] at h
  cases h
  refine ⟨_, by rw [List.getLast?_append]; rfl, _, ?_, ?_, labels_eq _ _⟩
  · exact (List.mergeSort_perm _ _).filter _
  · refine List.Pairwise.filter _ ?_
    have := List.pairwise_mergeSort (le := fun a b : Local => decide (a.span.start ≤ b.span.start))
      (fun a b c h1 h2 => by simp only [decide_eq_true_eq] at *; omega) (fun a b => by simp only [Bool.or_eq_true, decide_eq_true_eq]; omega) t.locals
    exact this.imp fun h => by simpa using h

/-- On the command line, the title of a slice tells whether there was a counterexample or a proof, or only a guess. -/
theorem C94_title {a : Answer} {sliceVerify : Bool} {l : List Sliced} {sm : Slice} (hs : sm ∈ a.finalSlice sliceVerify (some (true, l))) {title : String}
    (ht : sm.title = some title) : title = "program slice (based on unknown solver state):" ↔ a.Guess := by
  have hc : sm.consistent = true ↔ ¬ a.Guess := by
    cases a with
    | proof => cases sliceVerify <;> cases hs; exact ⟨fun _ h => h, fun _ => rfl⟩
    | counterexample l => cases sliceVerify <;> cases hs <;> exact ⟨fun _ h => h, fun _ => rfl⟩
    | unknown reason l => cases l <;> cases sliceVerify <;> cases hs <;> exact ⟨nofun, fun h => absurd trivial h⟩
  unfold Slice.title at ht
  split at ht
  · cases ht
  cases ht
  by_cases h : sm.consistent = true
  · rw [if_pos h]
    exact ⟨fun h => absurd h (by decide), fun hg => absurd hg (hc.1 h)⟩
  · rw [if_neg h]
    exact ⟨fun _ => not_not.1 fun hg => h (hc.2 hg), fun _ => rfl⟩

/-! ## Programs -/

/-- A unit with two variables. -/
def c94Texts : Texts where
  span := ⟨1, 0, 5⟩
  at' := fun _ => ⟨1, 0, 0⟩
  locals := [⟨⟨1, 30, 31⟩, "y", some .mut⟩, ⟨⟨1, 90, 91⟩, "slice", some .slice⟩, ⟨⟨1, 10, 11⟩, "x", some .input⟩]
  value := fun v => if v.name = "x" then "1" else "∞"
  model := "the pre-quantity evaluated to:\n    0"

/-- An assertion that is enabled in the model. -/
def c94Stmt : Sliced := ⟨⟨1, 40, 50⟩, none, none, some true⟩

/-- An unknown result with a model: the assertion is shown as a part of the error, although no error was found. -/
theorem C94_not_full : ¬ C94_full := by
  intro h
  have := h c94Texts .default (.unknown "timeout" (some [c94Stmt])) false none _ rfl _ (.head _) rfl
  rcases this with h | h
  · cases h
  · cases h

/-- The assumptions hold for a counterexample with two variables. -/
example : ∃ ds, emit c94Texts .default ((Answer.counterexample [c94Stmt]).finalSlice true none) .counterexample = some ds ∧
    ds.map (·.labels) = [[(⟨1, 40, 50⟩, "here")],
      [(⟨1, 10, 11⟩, "in the cex, input variable x is 1"), (⟨1, 30, 31⟩, "in the cex, mutable variable y is ∞")]] := by
  refine ⟨_, rfl, ?_⟩
  simp [Answer.finalSlice, Answer.slice, Slice.diags, Slice.results, Sliced.result, sliceDiag, c94Stmt, labels_eq, c94Texts, List.mergeSort, List.MergeSort.Internal.splitInTwo,
    Local.isUser, Local.text, VarKind.text]

/-- The assumptions of `C94_status` hold for a proof with a slice. -/
example : ∃ ds, emit c94Texts .default (Answer.proof.finalSlice true (some (true, [⟨⟨1, 40, 50⟩, none, some "m", some false⟩]))) .proof = some ds ∧
    ds = [⟨.warning, ⟨1, 40, 50⟩, "m", none, [(⟨1, 40, 50⟩, "here")], true⟩] := ⟨_, rfl, rfl⟩

end Caesar.Server
