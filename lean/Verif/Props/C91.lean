import Verif.Driver.Warnings
import Verif.Slicing.TransformSound

/-!
# C91: Errors, warnings and `--werr`

The exit code of a run of `verify` is 0 exactly if no step fails, all tasks are proved, and no error is given; with `--werr` (documented as "Treat warnings as errors"),
exactly if in addition no warning is given. This is refuted: with `--werr`, every diagnostic counts as an error, also the mere advice that slicing is not possible or the values computed by Storm.
What is proved is the exact meaning of the exit code, which diagnostics are given, that `--werr` never changes results, and that a warning about monotonicity ends a run with `--werr` before anything is verified.
-/

namespace Caesar.Driver.Warnings

/-! ## Specification -/

/-- The negations of a statement in the order of the text: `negate` is `.down`, `conegate` is `.up`. -/
def negations : Stmt → List Dir
  | .negate d => [d]
  | .seq a b => negations a ++ negations b
  | .demonic a b => negations a ++ negations b
  | .angelic a b => negations a ++ negations b
  | .additive a b => negations a ++ negations b
  | .ite _ a b => negations a ++ negations b
  | .while _ s => negations s
  | .annot _ s => negations s
  | _ => []

/-- Both kinds of negations take turns, beginning with the given one. -/
def TakeTurns : Dir → List Dir → Prop
  | _, [] => True
  | .down, d :: l => d = .down ∧ TakeTurns .up l
  | .up, d :: l => d = .up ∧ TakeTurns .down l

/-- No step of a run fails, and the solver always has an answer. -/
structure NoFailure (p : Program) : Prop where
  parse : p.parse = .ok ()
  tycheck : ∀ u ∈ p.units, u.tycheck = .ok ()
  select : ∃ f, p.select = .ok f
  explain : p.explain = true → ∀ u ∈ p.kept, ∀ e, u.explain ≠ .error (.other e)
  jani : p.modelCheck = true → ∀ u ∈ p.kept, ∀ e, u.jani ≠ .error (.other e)
  rules : p.rules = .ok ()
  limits : p.noVerify = false → ∀ t ∈ p.tasks, t.limits = .ok ()
  before : p.noVerify = false → ∀ t ∈ p.tasks, t.before = .ok ()
  lower : p.noVerify = false → ∀ t ∈ p.tasks, t.lower = .ok ()
  solve : p.noVerify = false → ∀ t ∈ p.tasks, ∃ r, t.solve = .ok r

/-- All tasks are proved. -/
def AllProved (p : Program) : Prop := p.noVerify = false → ∀ t ∈ p.tasks, t.solve = .ok .proof

/-- The diagnostics that are due: what is wrong or worth a remark, although it does not end the run. -/
inductive Due (p : Program) : Diag → Prop where
  /-- The negations of a procedure do not take turns. -/
  | notMonotone {u : SUnit} {d : Dir} {B : Stmt} : u ∈ p.units → u.source = .proc d (some B) → ¬ TakeTurns d (negations B) → Due p ⟨.warning, .notMonotone, u.num⟩
  /-- There should be an explanation, but there is none. -/
  | notExplained {u : SUnit} : p.explain = true → u ∈ p.kept → u.explain = .error .problem → Due p ⟨.warning, .notExplained, u.num⟩
  /-- A procedure has no model. -/
  | noModel {u : SUnit} : p.modelCheck = true → u ∈ p.kept → u.jani = .error .problem → Due p ⟨.error, .noModel, u.num⟩
  /-- Storm gave a value, or the model has no initial state. -/
  | value {u : SUnit} {r : StormResult} : p.modelCheck = true → u ∈ p.kept → u.jani = .ok (some r) → r = .value ∨ r = .noInitialState → Due p ⟨.advice, .storm, u.num⟩
  /-- Storm failed, or there is no result in its output. -/
  | noValue {u : SUnit} {r : StormResult} : p.modelCheck = true → u ∈ p.kept → u.jani = .ok (some r) → r = .failed ∨ r = .notFound → Due p ⟨.error, .storm, u.num⟩
  /-- The negations of a task do not take turns, so that it is not sliced. -/
  | notSliced {t : Task} : p.noVerify = false → t ∈ p.tasks → ¬ TakeTurns t.dir (negations t.block) → Due p ⟨.advice, .notSliced, t.num⟩
  /-- There is a proof, but it means nothing. -/
  | unsoundProof {t : Task} : p.noVerify = false → t ∈ p.tasks → t.solve = .ok .proof → t.soundProofs = false → Due p ⟨.error, .unsoundProof, t.num⟩

/-! ## Negations -/

/-- The direction after negations that take turns. -/
def runNeg : Dir → List Dir → Option Dir
  | d, [] => some d
  | d, e :: l => if d ≠ e then none else runNeg d.toggle l

theorem runNeg_append (l l' : List Dir) : ∀ d, runNeg d (l ++ l') = (runNeg d l).bind fun d1 => runNeg d1 l' := by
  induction l with
  | nil => exact fun _ => rfl
  | cons e l ih =>
    intro d
    show (if d ≠ e then none else runNeg d.toggle (l ++ l')) = Option.bind (if d ≠ e then none else runNeg d.toggle l) _
    split
    · rfl
    · exact ih _

theorem runNeg_isSome (l : List Dir) : ∀ d, (runNeg d l).isSome = true ↔ TakeTurns d l := by
  induction l with
  | nil => intro d; cases d <;> exact ⟨fun _ => trivial, fun _ => rfl⟩
  | cons e l ih =>
    intro d
    show (if d ≠ e then none else runNeg d.toggle l).isSome = true ↔ _
    cases d <;> cases e
    · exact (ih .up).trans ⟨fun h => ⟨rfl, h⟩, fun h => h.2⟩
    · exact ⟨fun h => (nomatch h), fun h => nomatch h.1⟩
    · exact ⟨fun h => (nomatch h), fun h => nomatch h.1⟩
    · exact (ih .down).trans ⟨fun h => ⟨rfl, h⟩, fun h => h.2⟩

theorem monoVisit_runNeg (S : Stmt) : ∀ d, monoVisit d S = runNeg d (negations S) := by
  induction S with
  | seq a b iha ihb | demonic a b iha ihb | angelic a b iha ihb | additive a b iha ihb | ite c a b iha ihb =>
    intro d
    show (monoVisit d a).bind (fun d1 => monoVisit d1 b) = runNeg d (negations a ++ negations b)
    rw [runNeg_append, iha]
    simp only [ihb]
  | «while» c s ih => exact fun d => ih d
  | annot an s ih => exact fun d => ih d
  | negate e => exact fun d => rfl
  | _ => exact fun d => rfl

theorem monoVisit_isSome (d : Dir) (S : Stmt) : (monoVisit d S).isSome = true ↔ TakeTurns d (negations S) := by
  rw [monoVisit_runNeg]
  exact runNeg_isSome _ _

/-- The slicer stops where the check for monotonicity fails. -/
theorem visit_stops (f : Slicing.Selection) (S : Stmt) : ∀ (state : Slicing.Selection) (st : Slicing.St), monoVisit st.dir S = none → (Slicing.visit f state st S).2.2 = false := by
  have two : ∀ {mk : Stmt → Stmt → Stmt} {a b : Stmt} {k : Stmt → Stmt → Slicing.St → Slicing.Res} {state : Slicing.Selection} {st : Slicing.St}
      (_ : ∀ (state : Slicing.Selection) (st : Slicing.St), monoVisit st.dir a = none → (Slicing.visit f state st a).2.2 = false)
      (_ : ∀ (state : Slicing.Selection) (st : Slicing.St), monoVisit st.dir b = none → (Slicing.visit f state st b).2.2 = false)
      (_ : (monoVisit st.dir a).bind (fun d1 => monoVisit d1 b) = none),
      (Slicing.visitTwo mk (Slicing.visit f state st a) b (fun st => Slicing.visit f state st b) k).2.2 = false := by
    intro mk a b k state st iha ihb h
    cases h1 : monoVisit st.dir a with
    | none =>
      have ha := iha state st h1
      generalize Slicing.visit f state st a = ra at ha
      obtain ⟨a', st1, ok⟩ := ra
      obtain rfl : ok = false := ha
      rfl
    | some d1 =>
      rw [h1] at h
      have ha := Slicing.visit_dir f a state st d1 h1
      generalize Slicing.visit f state st a = ra at ha
      obtain ⟨a', st1, ok⟩ := ra
      obtain ⟨rfl, rfl⟩ : ok = true ∧ st1.dir = d1 := ha
      have hb := ihb state st1 h
      unfold Slicing.visitTwo
      dsimp only
      generalize Slicing.visit f state st1 b = rb at hb
      obtain ⟨b', st2, ok⟩ := rb
      obtain rfl : ok = false := hb
      rfl
  induction S with
  | seq a b iha ihb | additive a b iha ihb | ite c a b iha ihb | demonic a b iha ihb | angelic a b iha ihb => exact fun state st h => two iha ihb h
  | «while» c s ih => exact fun state st => ih state st
  | annot an s ih =>
    intro state st
    cases an with
    | slicing n => exact ih _ st
    | _ => exact ih state st
  | negate d =>
    intro state st h
    have h : (if st.dir ≠ d then none else some st.dir.toggle) = none := h
    split at h
    · next hd =>
      show (Slicing.sliceLeaf f state st (.negate d)).2.2 = false
      simp only [Slicing.sliceLeaf, handleNegationForwards]
      generalize st.dir = e at hd
      cases e <;> cases d <;> first | exact absurd rfl hd | rfl
    · exact nomatch h
  | _ => exact fun state st h => nomatch h

/-- A task is sliced exactly if its negations take turns. -/
theorem C91_sliced (filter : Slicing.Selection) (tcx : TyCtx) (d : Dir) (S : Stmt) :
    (Slicing.visit filter {} { tcx := tcx, dir := d } S).2.2 = true ↔ TakeTurns d (negations S) := by
  rw [← monoVisit_isSome]
  cases h : monoVisit d S with
  | none => exact ⟨fun hv => (Bool.false_ne_true ((visit_stops filter S {} { tcx := tcx, dir := d } h).symm.trans hv)).elim, fun hv => nomatch hv⟩
  | some d' => exact ⟨fun _ => rfl, fun _ => (Slicing.visit_dir filter S {} { tcx := tcx, dir := d } d' h).1⟩

/-! ## The exit code -/

/-- Nothing has happened that makes the exit code differ from 0. -/
def Fine (r : Run × Except Failure Unit) : Prop := r.2 = .ok () ∧ r.1.emitted = false ∧ r.1.numFailures = 0

/-- What is needed so that a step lets everything be fine. -/
def Needs (a : Step) (Q : Bool → Prop) : Prop := ∀ s, (Fine (a s) ↔ Fine (s, .ok ()) ∧ Q s.werr) ∧ (a s).1.werr = s.werr

theorem Needs.congr {a : Step} {Q R : Bool → Prop} (h : Needs a Q) (hQR : ∀ w, Q w ↔ R w) : Needs a R :=
  fun s => ⟨(h s).1.trans (and_congr_right fun _ => hQR _), (h s).2⟩

theorem needs_skip : Needs skip fun _ => True := fun _ => ⟨⟨fun h => ⟨h, trivial⟩, fun h => h.1⟩, rfl⟩

theorem needs_fail (e : Failure) : Needs (fun s => (s, .error e)) fun _ => False := fun _ => ⟨⟨fun h => (nomatch h.1), fun h => h.2.elim⟩, rfl⟩

theorem needs_andThen {a b : Step} {Q R : Bool → Prop} (ha : Needs a Q) (hb : Needs b R) : Needs (andThen a b) fun w => Q w ∧ R w := by
  intro s
  have ha := ha s
  unfold andThen
  generalize a s = r at ha
  obtain ⟨s', r⟩ := r
  cases r with
  | error e => exact ⟨⟨fun h => (nomatch h.1), fun h => (nomatch (ha.1.2 ⟨h.1, h.2.1⟩).1)⟩, ha.2⟩
  | ok u =>
    have hw : s'.werr = s.werr := ha.2
    have hb := hb s'
    rw [hw] at hb
    refine ⟨hb.1.trans ?_, hb.2⟩
    rw [show Fine (s', .ok ()) ↔ _ from ha.1]
    exact and_assoc

theorem needs_each {α : Type} {f : α → Step} {Q : α → Bool → Prop} (h : ∀ a, Needs (f a) (Q a)) (l : List α) : Needs (each f l) fun w => ∀ a ∈ l, Q a w := by
  induction l with
  | nil => exact needs_skip.congr fun w => ⟨fun _ _ h => (nomatch h), fun _ => trivial⟩
  | cons a l ih => exact (needs_andThen (h a) ih).congr fun w => (List.forall_mem_cons (p := fun a => Q a w)).symm

theorem needs_known (n : Nat) (r : Except Stop Unit) : Needs (known n r) fun _ => r = .ok () := by
  match r with
  | .ok () => exact needs_skip.congr fun _ => ⟨fun _ => rfl, fun _ => trivial⟩
  | .error .problem => exact (needs_fail _).congr fun _ => ⟨fun h => h.elim, fun h => nomatch h⟩
  | .error (.other e) => exact (needs_fail _).congr fun _ => ⟨fun h => h.elim, fun h => nomatch h⟩

theorem kind_beq (k : Kind) : (k == Kind.error) = false ↔ k ≠ .error := by cases k <;> decide

theorem needs_add (d : Diag) : Needs (add d) fun w => d.kind ≠ .error ∧ w = false := by
  intro s
  refine ⟨?_, rfl⟩
  show (_ = _ ∧ (s.emitted || s.werr || d.kind == .error) = false ∧ s.numFailures = 0) ↔ (_ = _ ∧ s.emitted = false ∧ s.numFailures = 0) ∧ _
  rw [Bool.or_eq_false_iff, Bool.or_eq_false_iff, kind_beq]
  exact ⟨fun ⟨h1, ⟨⟨h2, h3⟩, h4⟩, h5⟩ => ⟨⟨h1, h2, h5⟩, h4, h3⟩, fun ⟨⟨h1, h2, h5⟩, h4, h3⟩ => ⟨h1, ⟨⟨h2, h3⟩, h4⟩, h5⟩⟩

theorem needs_addOrThrow (d : Diag) : Needs (addOrThrow d) fun w => d.kind ≠ .error ∧ w = false := by
  intro s
  unfold addOrThrow
  cases h : (d.kind == .error || s.werr) with
  | false => exact needs_add d s
  | true =>
    refine ⟨⟨fun h => (nomatch h.1), fun ⟨_, h1, h2⟩ => ?_⟩, rfl⟩
    rw [(kind_beq _).2 h1, h2] at h
    exact nomatch h

theorem needs_ite {c : Bool} {a : Step} {Q : Bool → Prop} (ha : Needs a Q) : Needs (if c then a else skip) fun w => c = true → Q w := by
  cases c with
  | false => exact needs_skip.congr fun _ => ⟨fun _ h => (nomatch h), fun _ => trivial⟩
  | true => exact ha.congr fun _ => ⟨fun h _ => h, fun h => h rfl⟩

theorem SUnit.notMonotone_iff (u : SUnit) : u.notMonotone = true ↔ ∃ d B, u.source = .proc d (some B) ∧ ¬ TakeTurns d (negations B) := by
  unfold SUnit.notMonotone
  split
  · next d B h =>
    have hm : (!monoAccepts d B) = true ↔ ¬ TakeTurns d (negations B) := by
      rw [← monoVisit_isSome, Bool.not_eq_true']
      exact Bool.eq_false_iff
    rw [hm]
    refine ⟨fun hn => ⟨d, B, h, hn⟩, fun ⟨d', B', h', hn⟩ => ?_⟩
    rw [h] at h'
    cases h'
    exact hn
  · next hn => exact ⟨fun h => (nomatch h), fun ⟨d, B, h, _⟩ => (hn d B h).elim⟩

/-- What is needed of a unit in the type check. -/
def TyNeed (u : SUnit) (w : Bool) : Prop := u.tycheck = .ok () ∧ (u.notMonotone = true → w = false)

theorem needs_tycheckUnit (u : SUnit) : Needs (tycheckUnit u) (TyNeed u) :=
  (needs_andThen (needs_known _ _) (needs_ite (needs_addOrThrow _))).congr fun _ =>
    and_congr_right fun _ => ⟨fun h hm => (h hm).2, fun h hm => ⟨Kind.noConfusion, h hm⟩⟩

def ExplainNeed (u : SUnit) (w : Bool) : Prop := (∀ e, u.explain ≠ .error (.other e)) ∧ (u.explain = .error .problem → w = false)

theorem needs_explainUnit (u : SUnit) : Needs (explainUnit u) (ExplainNeed u) := by
  unfold explainUnit ExplainNeed
  match u.explain with
  | .ok () => exact needs_skip.congr fun _ => ⟨fun _ => ⟨fun _ => (nofun), nofun⟩, fun _ => trivial⟩
  | .error .problem => exact (needs_add _).congr fun _ => ⟨fun h => ⟨fun _ => nofun, fun _ => h.2⟩, fun h => ⟨Kind.noConfusion, h.2 rfl⟩⟩
  | .error (.other e) => exact (needs_fail _).congr fun _ => ⟨False.elim, fun h => h.1 e rfl⟩

def JaniNeed (u : SUnit) (w : Bool) : Prop := (∀ e, u.jani ≠ .error (.other e)) ∧ u.jani ≠ .error .problem ∧ ∀ r, u.jani = .ok (some r) → r ≠ .failed ∧ r ≠ .notFound ∧ w = false

theorem needs_modelCheckUnit (u : SUnit) : Needs (modelCheckUnit u) (JaniNeed u) := by
  unfold modelCheckUnit JaniNeed
  match u.jani with
  | .ok none => exact needs_skip.congr fun _ => ⟨fun _ => ⟨fun _ => nofun, nofun, fun _ => nofun⟩, fun _ => trivial⟩
  | .ok (some r) =>
    refine (needs_add _).congr fun w => ⟨fun h => ⟨fun _ => nofun, nofun, fun r' hr => ?_⟩, fun h => ?_⟩
    · cases hr
      refine ⟨?_, ?_, h.2⟩
      · rintro rfl; exact h.1 rfl
      · rintro rfl; exact h.1 rfl
    · have h := h.2.2 r rfl
      refine ⟨?_, h.2.2⟩
      cases r with
      | value => exact Kind.noConfusion
      | noInitialState => exact Kind.noConfusion
      | failed => exact (h.1 rfl).elim
      | notFound => exact (h.2.1 rfl).elim
  | .error .problem => exact (needs_add _).congr fun _ => ⟨fun h => (h.1 rfl).elim, fun h => (h.2.1 rfl).elim⟩
  | .error (.other e) => exact (needs_fail _).congr fun _ => ⟨False.elim, fun h => h.1 e rfl⟩

theorem needs_solveTask (t : Task) : Needs (solveTask t) fun _ => t.solve = .ok .proof ∧ t.soundProofs = true := by
  have hr : ∀ r, Needs (andThen (report t r) (count r)) fun _ => r = .proof ∧ t.soundProofs = true := by
    intro r s
    cases r with
    | proof =>
      cases hs : t.soundProofs with
      | true =>
        simp only [andThen, report, hs, count]
        exact ⟨⟨fun h => ⟨h, trivial, trivial⟩, fun h => h.1⟩, rfl⟩
      | false =>
        simp only [andThen, report, hs, count, add]
        refine ⟨⟨fun h => ?_, fun h => nomatch h.2.2⟩, rfl⟩
        have h : (s.emitted || s.werr || true) = false := h.2.1
        rw [Bool.or_true] at h
        exact nomatch h
    | counterexample =>
      refine ⟨⟨fun h => ?_, fun h => nomatch h.2.1⟩, rfl⟩
      have h : s.numFailures + 1 = 0 := h.2.2
      exact nomatch h
    | unknown u =>
      cases u with
      | interrupted => exact ⟨⟨fun h => (nomatch h.1), fun h => nomatch h.2.1⟩, rfl⟩
      | timeout => exact ⟨⟨fun h => (nomatch h.1), fun h => nomatch h.2.1⟩, rfl⟩
      | other =>
        refine ⟨⟨fun h => ?_, fun h => nomatch h.2.1⟩, rfl⟩
        have h : s.numFailures + 1 = 0 := h.2.2
        exact nomatch h
  unfold solveTask
  match t.solve with
  | .ok r => exact (hr r).congr fun _ => and_congr_left fun _ => ⟨fun h => congrArg _ h, fun h => Except.ok.inj h⟩
  | .error .problem => exact (needs_known _ _).congr fun _ => ⟨fun h => (nomatch h), fun h => nomatch h.1⟩
  | .error (.other e) => exact (needs_known _ _).congr fun _ => ⟨fun h => (nomatch h), fun h => nomatch h.1⟩

def TaskNeed (t : Task) (w : Bool) : Prop :=
  t.limits = .ok () ∧ t.before = .ok () ∧ (¬ TakeTurns t.dir (negations t.block) → w = false) ∧ t.lower = .ok () ∧ t.solve = .ok .proof ∧ t.soundProofs = true

theorem sliceTask_eq (filter : Slicing.Selection) (tcx : TyCtx) (t : Task) :
    sliceTask filter tcx t = if !(Slicing.visit filter {} { tcx := tcx, dir := t.dir } t.block).2.2 then addOrThrow ⟨.advice, .notSliced, t.num⟩ else skip := by
  unfold sliceTask
  cases (Slicing.visit filter {} { tcx := tcx, dir := t.dir } t.block).2.2 <;> rfl

theorem notSliced_iff (filter : Slicing.Selection) (tcx : TyCtx) (t : Task) :
    (!(Slicing.visit filter {} { tcx := tcx, dir := t.dir } t.block).2.2) = true ↔ ¬ TakeTurns t.dir (negations t.block) := by
  rw [← C91_sliced filter tcx, Bool.not_eq_true']
  exact Bool.eq_false_iff

theorem needs_verifyTask (filter : Slicing.Selection) (tcx : TyCtx) (t : Task) : Needs (verifyTask filter tcx t) (TaskNeed t) := by
  unfold verifyTask
  rw [sliceTask_eq]
  refine (needs_andThen (needs_known _ _) (needs_andThen (needs_known _ _) (needs_andThen (needs_ite (needs_addOrThrow _)) (needs_andThen (needs_known _ _) (needs_solveTask t))))).congr
    fun w => and_congr_right fun _ => and_congr_right fun _ => and_congr_left fun _ => ?_
  rw [notSliced_iff]
  exact ⟨fun h hm => (h hm).2, fun h hm => ⟨Kind.noConfusion, h hm⟩⟩

theorem finalize_zero (r : Run × Except Failure Unit) : (finalize r).1 = 0 ↔ Fine r := by
  obtain ⟨s, r⟩ := r
  match r with
  | .ok () =>
    show exitCode (.ok (s.numFailures == 0, s.emitted)) = 0 ↔ (_ = _ ∧ s.emitted = false ∧ s.numFailures = 0)
    unfold exitCode
    cases he : s.emitted with
    | true => exact ⟨fun h => (nomatch h), fun h => nomatch h.2.1⟩
    | false =>
      cases hn : s.numFailures with
      | zero => exact ⟨fun _ => ⟨rfl, rfl, rfl⟩, fun _ => rfl⟩
      | succ n => exact ⟨fun h => (nomatch h), fun h => nomatch h.2.2⟩
  | .error (.diagnostic d) => exact ⟨fun h => (nomatch h), fun h => nomatch h.1⟩
  | .error (.other e) => cases e <;> exact ⟨fun h => (nomatch h), fun h => nomatch h.1⟩

/-- The exit code is 0 exactly if no step fails, everything is proved, no error is due, and with `--werr`, no diagnostic at all. -/
theorem C91_exit (w : Bool) (p : Program) : (run w p).1 = 0 ↔ NoFailure p ∧ AllProved p ∧ ∀ d, Due p d → d.kind ≠ .error ∧ w = false := by
  have hm : Needs (main p) _ := needs_andThen (needs_known 0 p.parse) (needs_andThen (needs_each needs_tycheckUnit p.units)
    (needs_andThen (needs_known 0 (p.select.map fun _ => ())) (needs_andThen (needs_ite (c := p.explain) (needs_each needs_explainUnit p.kept))
      (needs_andThen (needs_ite (c := p.modelCheck) (needs_each needs_modelCheckUnit p.kept)) (needs_andThen (needs_known 0 p.rules)
        (b := if p.noVerify then skip else each (verifyTask p.filter p.tcx) p.tasks) (R := fun w => p.noVerify = false → ∀ t ∈ p.tasks, TaskNeed t w) (by
          cases p.noVerify with
          | true => exact needs_skip.congr fun _ => ⟨fun _ h => (nomatch h), fun _ => trivial⟩
          | false => exact (needs_each (needs_verifyTask p.filter p.tcx) p.tasks).congr fun _ => ⟨fun h _ => h, fun h => h rfl⟩))))))
  have hsel : (p.select.map fun _ => ()) = .ok () ↔ ∃ f, p.select = .ok f := by
    match p.select with
    | .ok f => exact ⟨fun _ => ⟨f, rfl⟩, fun _ => rfl⟩
    | .error e => exact ⟨fun h => (nomatch h), fun ⟨_, h⟩ => nomatch h⟩
  refine (finalize_zero _).trans ((hm { werr := w }).1.trans ?_)
  constructor
  · rintro ⟨-, h1, h2, h3, h4, h5, h6, h7⟩
    refine ⟨⟨h1, fun u hu => (h2 u hu).1, hsel.1 h3, fun he u hu => (h4 he u hu).1, fun he u hu => (h5 he u hu).1, h6, fun hv t ht => (h7 hv t ht).1,
      fun hv t ht => (h7 hv t ht).2.1, fun hv t ht => (h7 hv t ht).2.2.2.1, fun hv t ht => ⟨_, (h7 hv t ht).2.2.2.2.1⟩⟩, fun hv t ht => (h7 hv t ht).2.2.2.2.1, ?_⟩
    rintro _ (⟨hu, hs, hn⟩ | ⟨ho, hu, he⟩ | ⟨ho, hu, he⟩ | ⟨ho, hu, he, hr⟩ | ⟨ho, hu, he, hr⟩ | ⟨ho, ht, hn⟩ | ⟨ho, ht, hp, hs⟩)
    · exact ⟨Kind.noConfusion, (h2 _ hu).2 ((SUnit.notMonotone_iff _).2 ⟨_, _, hs, hn⟩)⟩
    · exact ⟨Kind.noConfusion, (h4 ho _ hu).2 he⟩
    · exact ((h5 ho _ hu).2.1 he).elim
    · exact ⟨Kind.noConfusion, ((h5 ho _ hu).2.2 _ he).2.2⟩
    · have h := (h5 ho _ hu).2.2 _ he
      rcases hr with rfl | rfl
      · exact (h.1 rfl).elim
      · exact (h.2.1 rfl).elim
    · exact ⟨Kind.noConfusion, (h7 ho _ ht).2.2.1 hn⟩
    · have h := (h7 ho _ ht).2.2.2.2.2
      rw [hs] at h
      exact nomatch h
  · rintro ⟨hf, hp, hd⟩
    refine ⟨⟨rfl, rfl, rfl⟩, hf.parse, fun u hu => ⟨hf.tycheck u hu, fun hm => ?_⟩, hsel.2 hf.select, fun ho u hu => ⟨hf.explain ho u hu, fun he => (hd _ (.notExplained ho hu he)).2⟩,
      fun ho u hu => ⟨hf.jani ho u hu, fun he => (hd _ (.noModel ho hu he)).1 rfl, fun r hr => ?_⟩, hf.rules,
      fun hv t ht => ⟨hf.limits hv t ht, hf.before hv t ht, fun hn => (hd _ (.notSliced hv ht hn)).2, hf.lower hv t ht, hp hv t ht, ?_⟩⟩
    · obtain ⟨d, B, hs, hn⟩ := (SUnit.notMonotone_iff _).1 hm
      exact (hd _ (.notMonotone hu hs hn)).2
    · cases r with
      | value => exact ⟨nofun, nofun, (hd _ (.value ho hu hr (.inl rfl))).2⟩
      | noInitialState => exact ⟨nofun, nofun, (hd _ (.value ho hu hr (.inr rfl))).2⟩
      | failed => exact ((hd _ (.noValue ho hu hr (.inl rfl))).1 rfl).elim
      | notFound => exact ((hd _ (.noValue ho hu hr (.inr rfl))).1 rfl).elim
    · cases hs : t.soundProofs with
      | true => rfl
      | false => exact ((hd _ (.unsoundProof hv ht (hp hv t ht) hs)).1 rfl).elim

/-! ## The documented meaning of `--werr` -/

/-- With `--werr`, warnings are errors; everything else stays as it is. -/
def C91_full : Prop :=
  ∀ (w : Bool) (p : Program), (run w p).1 = 0 ↔ NoFailure p ∧ AllProved p ∧ ∀ d, Due p d → d.kind ≠ .error ∧ (w = true → d.kind ≠ .warning)

/-- The documented meaning, for runs without advice. -/
theorem C91_partial (w : Bool) (p : Program) (h : ∀ d, Due p d → d.kind ≠ .advice) :
    (run w p).1 = 0 ↔ NoFailure p ∧ AllProved p ∧ ∀ d, Due p d → d.kind ≠ .error ∧ (w = true → d.kind ≠ .warning) := by
  rw [C91_exit]
  refine and_congr_right fun _ => and_congr_right fun _ => forall_congr' fun d => forall_congr' fun hd => and_congr_right fun he => ?_
  have ha := h d hd
  cases hk : d.kind with
  | error => exact (he hk).elim
  | advice => exact (ha hk).elim
  | warning => cases w <;> simp

/-- One unit with raw statements `conegate; negate`, which is proved. -/
def adviceProgram : Program where
  parse := .ok ()
  units := [⟨1, .raw (.seq (.negate .up) (.negate .down)), .ok (), .ok (), .ok none⟩]
  select := .ok fun _ => true
  rules := .ok ()
  tasks := [⟨1, .ok (), .ok (), .down, .seq (.negate .up) (.negate .down), .ok (), .ok .proof, true⟩]
  explain := false
  modelCheck := false
  noVerify := false
  filter := {}
  tcx := { decls := [], fresh := fun _ => none }

theorem adviceProgram_due (d : Diag) : Due adviceProgram d ↔ d = ⟨.advice, .notSliced, 1⟩ := by
  constructor
  · rintro (⟨hu, hs, hn⟩ | ⟨ho, hu, he⟩ | ⟨ho, hu, he⟩ | ⟨ho, hu, he, hr⟩ | ⟨ho, hu, he, hr⟩ | ⟨ho, ht, hn⟩ | ⟨ho, ht, hp, hs⟩)
    · cases List.mem_singleton.1 hu
      exact nomatch hs
    · exact nomatch ho
    · exact nomatch ho
    · exact nomatch ho
    · exact nomatch ho
    · cases List.mem_singleton.1 ht
      rfl
    · cases List.mem_singleton.1 ht
      exact nomatch hs
  · rintro rfl
    exact .notSliced (t := ⟨1, .ok (), .ok (), .down, .seq (.negate .up) (.negate .down), .ok (), .ok .proof, true⟩) rfl (List.mem_singleton.2 rfl) fun h => nomatch h.1

theorem adviceProgram_fine : NoFailure adviceProgram ∧ AllProved adviceProgram := by
  refine ⟨⟨rfl, fun u hu => ?_, ⟨_, rfl⟩, nofun, nofun, rfl, fun _ t ht => ?_, fun _ t ht => ?_, fun _ t ht => ?_, fun _ t ht => ⟨.proof, ?_⟩⟩, fun _ t ht => ?_⟩
  · cases List.mem_singleton.1 hu; rfl
  all_goals cases List.mem_singleton.1 ht; rfl

/-- Advice is an error with `--werr`, too. -/
theorem C91_not_full : ¬ C91_full := by
  intro h
  have h1 := (h true adviceProgram).2 ⟨adviceProgram_fine.1, adviceProgram_fine.2, fun d hd => ?_⟩
  · have h2 := ((C91_exit true adviceProgram).1 h1).2.2 _ ((adviceProgram_due _).2 rfl)
    exact nomatch h2.2
  · cases (adviceProgram_due d).1 hd
    exact ⟨Kind.noConfusion, fun _ => Kind.noConfusion⟩

/-- `--werr` is never more lenient. -/
theorem C91_stricter (p : Program) (h : (run true p).1 = 0) : (run false p).1 = 0 ∧ ∀ d, ¬ Due p d := by
  have h := (C91_exit true p).1 h
  exact ⟨(C91_exit false p).2 ⟨h.1, h.2.1, fun d hd => (nomatch (h.2.2 d hd).2)⟩, fun d hd => (nomatch (h.2.2 d hd).2)⟩

/-! ## The diagnostics that are printed -/

/-- Without `--werr`, a step that does not fail prints exactly the diagnostics in `D`. -/
def Prints (a : Step) (D : Diag → Prop) : Prop :=
  ∀ s, s.werr = false → (a s).2 = .ok () → (a s).1.werr = false ∧ ∀ d, d ∈ (a s).1.printed ↔ d ∈ s.printed ∨ D d

theorem Prints.congr {a : Step} {D E : Diag → Prop} (h : Prints a D) (hDE : ∀ d, D d ↔ E d) : Prints a E :=
  fun s hw ho => ⟨(h s hw ho).1, fun d => ((h s hw ho).2 d).trans (or_congr_right (hDE d))⟩

theorem prints_skip : Prints skip fun _ => False := fun _ hw _ => ⟨hw, fun _ => (or_iff_left id).symm⟩

theorem prints_fail (e : Failure) (D : Diag → Prop) : Prints (fun s => (s, .error e)) D := fun _ _ h => nomatch h

theorem prints_andThen {a b : Step} {D E : Diag → Prop} (ha : Prints a D) (hb : Prints b E) : Prints (andThen a b) fun d => D d ∨ E d := by
  intro s hw
  have ha := ha s hw
  unfold andThen
  generalize a s = r at ha
  obtain ⟨s', r⟩ := r
  cases r with
  | error e => exact fun h => nomatch h
  | ok u =>
    intro ho
    have ha := ha rfl
    have hb := hb s' ha.1 ho
    exact ⟨hb.1, fun d => (hb.2 d).trans ((or_congr_left (ha.2 d)).trans or_assoc)⟩

theorem prints_each {α : Type} {f : α → Step} {D : α → Diag → Prop} (h : ∀ a, Prints (f a) (D a)) (l : List α) : Prints (each f l) fun d => ∃ a ∈ l, D a d := by
  induction l with
  | nil => exact prints_skip.congr fun d => ⟨False.elim, fun ⟨_, h, _⟩ => nomatch h⟩
  | cons a l ih => exact (prints_andThen (h a) ih).congr fun d => by simp

theorem prints_known (n : Nat) (r : Except Stop Unit) : Prints (known n r) fun _ => False := by
  match r with
  | .ok () => exact prints_skip
  | .error .problem => exact prints_fail _ _
  | .error (.other e) => exact prints_fail _ _

theorem prints_add (x : Diag) : Prints (add x) fun d => d = x :=
  fun s hw _ => ⟨hw, fun d => by show d ∈ s.printed ++ [x] ↔ _; rw [List.mem_append, List.mem_singleton]⟩

theorem prints_addOrThrow (x : Diag) : Prints (addOrThrow x) fun d => d = x := by
  intro s hw
  unfold addOrThrow
  split
  · exact fun h => nomatch h
  · exact prints_add x s hw

theorem prints_ite {c : Bool} {a : Step} {D : Diag → Prop} (ha : Prints a D) : Prints (if c then a else skip) fun d => c = true ∧ D d := by
  cases c with
  | false => exact prints_skip.congr fun _ => ⟨False.elim, fun h => nomatch h.1⟩
  | true => exact ha.congr fun _ => ⟨fun h => ⟨rfl, h⟩, fun h => h.2⟩

theorem prints_tycheckUnit (u : SUnit) : Prints (tycheckUnit u) fun d => u.notMonotone = true ∧ d = ⟨.warning, .notMonotone, u.num⟩ :=
  (prints_andThen (prints_known _ _) (prints_ite (prints_addOrThrow _))).congr fun _ => or_iff_right id

theorem prints_explainUnit (u : SUnit) : Prints (explainUnit u) fun d => u.explain = .error .problem ∧ d = ⟨.warning, .notExplained, u.num⟩ := by
  unfold explainUnit
  match u.explain with
  | .ok () => exact prints_skip.congr fun _ => ⟨False.elim, fun h => nomatch h.1⟩
  | .error .problem => exact (prints_add _).congr fun _ => ⟨fun h => ⟨rfl, h⟩, fun h => h.2⟩
  | .error (.other e) => exact prints_fail _ _

theorem prints_modelCheckUnit (u : SUnit) : Prints (modelCheckUnit u) fun d =>
    u.jani = .error .problem ∧ d = ⟨.error, .noModel, u.num⟩ ∨ ∃ r, u.jani = .ok (some r) ∧ d = stormDiag u.num r := by
  unfold modelCheckUnit
  match u.jani with
  | .ok none => exact prints_skip.congr fun _ => ⟨False.elim, fun h => h.elim (fun h => nomatch h.1) fun ⟨_, h, _⟩ => nomatch h⟩
  | .ok (some r) =>
    refine (prints_add _).congr fun _ => ⟨fun h => .inr ⟨r, rfl, h⟩, ?_⟩
    rintro (⟨h, _⟩ | ⟨r', h, rfl⟩)
    · exact nomatch h
    · cases h
      rfl
  | .error .problem => exact (prints_add _).congr fun _ => ⟨fun h => .inl ⟨rfl, h⟩, fun h => h.elim (fun h => h.2) fun ⟨_, h, _⟩ => nomatch h⟩
  | .error (.other e) => exact prints_fail _ _

theorem prints_solveTask (t : Task) : Prints (solveTask t) fun d => (t.solve = .ok .proof ∧ t.soundProofs = false) ∧ d = ⟨.error, .unsoundProof, t.num⟩ := by
  have hc : ∀ r, Prints (count r) fun _ => False := by
    intro r s hw
    cases r with
    | proof => exact fun _ => ⟨hw, fun _ => (or_iff_left id).symm⟩
    | counterexample => exact fun _ => ⟨hw, fun _ => (or_iff_left id).symm⟩
    | unknown u =>
      cases u with
      | interrupted => exact fun h => nomatch h
      | timeout => exact fun h => nomatch h
      | other => exact fun _ => ⟨hw, fun _ => (or_iff_left id).symm⟩
  have hr : ∀ r, Prints (report t r) fun d => (r = .proof ∧ t.soundProofs = false) ∧ d = ⟨.error, .unsoundProof, t.num⟩ := by
    intro r s hw
    unfold report
    dsimp only
    split
    · next h =>
      rw [Bool.and_eq_true, decide_eq_true_eq, Bool.not_eq_true'] at h
      exact fun ho => ⟨hw, fun d => ((prints_add _ { s with reported := s.reported ++ [(t.num, r)] } hw ho).2 d).trans (or_congr_right ⟨fun hd => ⟨h, hd⟩, fun hd => hd.2⟩)⟩
    · next h =>
      rw [Bool.and_eq_true, decide_eq_true_eq, Bool.not_eq_true'] at h
      exact fun _ => ⟨hw, fun d => (or_iff_left fun hd => h hd.1).symm⟩
  unfold solveTask
  match t.solve with
  | .ok r =>
    exact (prints_andThen (hr r) (hc r)).congr fun _ => (or_iff_left id).trans (and_congr_left fun _ => and_congr_left fun _ => ⟨fun h => congrArg _ h, fun h => Except.ok.inj h⟩)
  | .error .problem => exact prints_fail _ _
  | .error (.other e) => exact prints_fail _ _

theorem prints_verifyTask (filter : Slicing.Selection) (tcx : TyCtx) (t : Task) : Prints (verifyTask filter tcx t) fun d =>
    ¬ TakeTurns t.dir (negations t.block) ∧ d = ⟨.advice, .notSliced, t.num⟩ ∨ (t.solve = .ok .proof ∧ t.soundProofs = false) ∧ d = ⟨.error, .unsoundProof, t.num⟩ := by
  unfold verifyTask
  rw [sliceTask_eq]
  refine (prints_andThen (prints_known _ _) (prints_andThen (prints_known _ _) (prints_andThen (prints_ite (prints_addOrThrow _)) (prints_andThen (prints_known _ _) (prints_solveTask t))))).congr
    fun d => ?_
  rw [notSliced_iff, or_iff_right id, or_iff_right id]
  exact or_congr_right (or_iff_right id)

/-- Whether a run ends without a failure. -/
def Ends (w : Bool) (p : Program) : Prop := (main p { werr := w }).2 = .ok ()

/-- Without `--werr`, a run without failures prints exactly the diagnostics that are due. -/
theorem C91_printed (p : Program) (h : Ends false p) (d : Diag) : d ∈ (run false p).2.printed ↔ Due p d := by
  have hm : Prints (main p) _ := prints_andThen (prints_known 0 p.parse) (prints_andThen (prints_each prints_tycheckUnit p.units)
    (prints_andThen (prints_known 0 (p.select.map fun _ => ())) (prints_andThen (prints_ite (c := p.explain) (prints_each prints_explainUnit p.kept))
      (prints_andThen (prints_ite (c := p.modelCheck) (prints_each prints_modelCheckUnit p.kept)) (prints_andThen (prints_known 0 p.rules)
        (b := if p.noVerify then skip else each (verifyTask p.filter p.tcx) p.tasks) (E := fun d => p.noVerify = false ∧ ∃ t ∈ p.tasks,
          (¬ TakeTurns t.dir (negations t.block) ∧ d = ⟨.advice, .notSliced, t.num⟩ ∨ (t.solve = .ok .proof ∧ t.soundProofs = false) ∧ d = ⟨.error, .unsoundProof, t.num⟩)) (by
          cases p.noVerify with
          | true => exact prints_skip.congr fun _ => ⟨False.elim, fun h => nomatch h.1⟩
          | false => exact (prints_each (prints_verifyTask p.filter p.tcx) p.tasks).congr fun _ => ⟨fun h => ⟨rfl, h⟩, fun h => h.2⟩))))))
  have hr : (run false p).2 = (main p { werr := false }).1 := by
    unfold run
    have h : (main p { werr := false }).2 = .ok () := h
    generalize main p { werr := false } = r at h
    obtain ⟨s, r⟩ := r
    cases (show r = .ok () from h)
    rfl
  rw [hr, (hm { werr := false } rfl h).2 d]
  constructor
  · rintro (h | h | ⟨u, hu, hn, rfl⟩ | h | ⟨ho, u, hu, he, rfl⟩ | ⟨ho, u, hu, ⟨he, rfl⟩ | ⟨r, he, rfl⟩⟩ | h | ⟨ho, t, ht, ⟨hn, rfl⟩ | ⟨⟨hp, hs⟩, rfl⟩⟩)
    · exact nomatch h
    · exact h.elim
    · obtain ⟨e, B, hs, ht⟩ := (SUnit.notMonotone_iff _).1 hn
      exact .notMonotone hu hs ht
    · exact h.elim
    · exact .notExplained ho hu he
    · exact .noModel ho hu he
    · cases r with
      | value => exact .value ho hu he (.inl rfl)
      | noInitialState => exact .value ho hu he (.inr rfl)
      | failed => exact .noValue ho hu he (.inl rfl)
      | notFound => exact .noValue ho hu he (.inr rfl)
    · exact h.elim
    · exact .notSliced ho ht hn
    · exact .unsoundProof ho ht hp hs
  · rintro (⟨hu, hs, hn⟩ | ⟨ho, hu, he⟩ | ⟨ho, hu, he⟩ | ⟨ho, hu, he, hr⟩ | ⟨ho, hu, he, hr⟩ | ⟨ho, ht, hn⟩ | ⟨ho, ht, hp, hs⟩)
    · exact .inr (.inr (.inl ⟨_, hu, (SUnit.notMonotone_iff _).2 ⟨_, _, hs, hn⟩, rfl⟩))
    · exact .inr (.inr (.inr (.inr (.inl ⟨ho, _, hu, he, rfl⟩))))
    · exact .inr (.inr (.inr (.inr (.inr (.inl ⟨ho, _, hu, .inl ⟨he, rfl⟩⟩)))))
    · exact .inr (.inr (.inr (.inr (.inr (.inl ⟨ho, _, hu, .inr ⟨_, he, by rcases hr with rfl | rfl <;> rfl⟩⟩)))))
    · exact .inr (.inr (.inr (.inr (.inr (.inl ⟨ho, _, hu, .inr ⟨_, he, by rcases hr with rfl | rfl <;> rfl⟩⟩)))))
    · exact .inr (.inr (.inr (.inr (.inr (.inr (.inr ⟨ho, _, ht, .inl ⟨hn, rfl⟩⟩))))))
    · exact .inr (.inr (.inr (.inr (.inr (.inr (.inr ⟨ho, _, ht, .inr ⟨⟨hp, hs⟩, rfl⟩⟩))))))

/-! ## The results -/

/-- A step with and without `--werr`: either it does the same, or it stops with `--werr`. -/
def Same (a : Step) : Prop :=
  (∀ s, s.reported <+: (a s).1.reported) ∧
  ∀ s1 s0 : Run, s1.werr = true → s0.werr = false → s1.reported = s0.reported →
    ((a s1).1.werr = true ∧ (a s0).1.werr = false ∧ (a s1).1.reported = (a s0).1.reported ∧ (a s1).2 = (a s0).2) ∨
      (a s1).2 ≠ .ok () ∧ (a s1).1.reported <+: (a s0).1.reported

theorem same_skip : Same skip := ⟨fun _ => List.prefix_refl _, fun _ _ h1 h0 h => .inl ⟨h1, h0, h, rfl⟩⟩

theorem same_fail (e : Failure) : Same fun s => (s, .error e) := ⟨fun _ => List.prefix_refl _, fun _ _ h1 h0 h => .inl ⟨h1, h0, h, rfl⟩⟩

theorem same_andThen {a b : Step} (ha : Same a) (hb : Same b) : Same (andThen a b) := by
  constructor
  · intro s
    have ha := ha.1 s
    unfold andThen
    generalize a s = r at ha
    obtain ⟨s', r⟩ := r
    cases r with
    | error e => exact ha
    | ok u => exact ha.trans (hb.1 s')
  · intro s1 s0 h1 h0 h
    have ha := ha.2 s1 s0 h1 h0 h
    unfold andThen
    generalize a s1 = r1 at ha
    generalize a s0 = r0 at ha
    obtain ⟨s1', r1⟩ := r1
    obtain ⟨s0', r0⟩ := r0
    rcases ha with ⟨hw1, hw0, hr, he⟩ | ⟨hf, hp⟩
    · cases (show r1 = r0 from he)
      cases r1 with
      | error e => exact .inl ⟨hw1, hw0, hr, rfl⟩
      | ok u => exact hb.2 s1' s0' hw1 hw0 hr
    · cases r1 with
      | ok u => exact (hf rfl).elim
      | error e =>
        refine .inr ⟨nofun, ?_⟩
        cases r0 with
        | error e0 => exact hp
        | ok u => exact List.IsPrefix.trans hp (hb.1 s0')

theorem same_each {α : Type} {f : α → Step} (h : ∀ a, Same (f a)) (l : List α) : Same (each f l) := by
  induction l with
  | nil => exact same_skip
  | cons a l ih => exact same_andThen (h a) ih

theorem same_known (n : Nat) (r : Except Stop Unit) : Same (known n r) := by
  match r with
  | .ok () => exact same_skip
  | .error .problem => exact same_fail _
  | .error (.other e) => exact same_fail _

theorem same_add (d : Diag) : Same (add d) := ⟨fun _ => List.prefix_refl _, fun _ _ h1 h0 h => .inl ⟨h1, h0, h, rfl⟩⟩

theorem same_addOrThrow (d : Diag) : Same (addOrThrow d) := by
  constructor
  · intro s
    unfold addOrThrow
    split <;> exact List.prefix_refl _
  · intro s1 s0 h1 h0 h
    refine .inr ?_
    unfold addOrThrow
    rw [h1, Bool.or_true, if_pos rfl]
    refine ⟨nofun, ?_⟩
    show s1.reported <+: _
    rw [h]
    split <;> exact List.prefix_refl _

theorem same_ite {c : Bool} {a : Step} (ha : Same a) : Same (if c then a else skip) := by
  cases c
  · exact same_skip
  · exact ha

theorem same_solveTask (t : Task) : Same (solveTask t) := by
  have hc : ∀ r, Same (count r) := by
    intro r
    cases r with
    | proof => exact ⟨fun _ => List.prefix_refl _, fun _ _ h1 h0 h => .inl ⟨h1, h0, h, rfl⟩⟩
    | counterexample => exact ⟨fun _ => List.prefix_refl _, fun _ _ h1 h0 h => .inl ⟨h1, h0, h, rfl⟩⟩
    | unknown u => cases u <;> exact ⟨fun _ => List.prefix_refl _, fun _ _ h1 h0 h => .inl ⟨h1, h0, h, rfl⟩⟩
  have hr : ∀ r, Same (report t r) := by
    intro r
    have he : report t r = fun s => (if (decide (r = .proof) && !t.soundProofs) then add ⟨.error, .unsoundProof, t.num⟩ else skip) { s with reported := s.reported ++ [(t.num, r)] } := by
      funext s
      unfold report
      dsimp only
      split <;> rfl
    have hs := same_ite (c := decide (r = .proof) && !t.soundProofs) (same_add ⟨.error, .unsoundProof, t.num⟩)
    rw [he]
    exact ⟨fun s => (List.prefix_append s.reported [(t.num, r)]).trans (hs.1 { s with reported := s.reported ++ [(t.num, r)] }), fun s1 s0 h1 h0 h => hs.2 _ _ h1 h0 (congrArg (· ++ [(t.num, r)]) h)⟩
  unfold solveTask
  match t.solve with
  | .ok r => exact same_andThen (hr r) (hc r)
  | .error .problem => exact same_fail _
  | .error (.other e) => exact same_fail _

theorem same_main (p : Program) : Same (main p) := by
  have hx : ∀ u, Same (explainUnit u) := by
    intro u
    unfold explainUnit
    match u.explain with
    | .ok () => exact same_skip
    | .error .problem => exact same_add _
    | .error (.other e) => exact same_fail _
  have hj : ∀ u, Same (modelCheckUnit u) := by
    intro u
    unfold modelCheckUnit
    match u.jani with
    | .ok none => exact same_skip
    | .ok (some r) => exact same_add _
    | .error .problem => exact same_add _
    | .error (.other e) => exact same_fail _
  have hv : ∀ t, Same (verifyTask p.filter p.tcx t) := by
    intro t
    unfold verifyTask
    rw [sliceTask_eq]
    exact same_andThen (same_known _ _) (same_andThen (same_known _ _) (same_andThen (same_ite (same_addOrThrow _)) (same_andThen (same_known _ _) (same_solveTask t))))
  refine same_andThen (same_known _ _) (same_andThen (same_each (fun u => same_andThen (same_known _ _) (same_ite (same_addOrThrow _))) _) (same_andThen (same_known _ _)
    (same_andThen (same_ite (same_each hx _)) (same_andThen (same_ite (same_each hj _)) (same_andThen (same_known _ _) ?_)))))
  cases p.noVerify
  · exact same_each hv _
  · exact same_skip

theorem run_reported (w : Bool) (p : Program) : (run w p).2.reported = (main p { werr := w }).1.reported := by
  unfold run
  generalize main p { werr := w } = r
  obtain ⟨s, r⟩ := r
  match r with
  | .ok () => rfl
  | .error (.diagnostic d) => rfl
  | .error (.other e) => rfl

/-- With `--werr`, the results printed are the first ones of those printed without it, and all of them if the run ends without a failure. -/
theorem C91_results (p : Program) : (run true p).2.reported <+: (run false p).2.reported ∧ (Ends true p → (run true p).2.reported = (run false p).2.reported) := by
  rw [run_reported, run_reported]
  rcases (same_main p).2 { werr := true } { werr := false } rfl rfl rfl with ⟨-, -, h, -⟩ | ⟨hf, hp⟩
  · exact ⟨h ▸ List.prefix_refl _, fun _ => h⟩
  · exact ⟨hp, fun h => (hf h).elim⟩

/-- With `--werr`, nothing is verified if the negations of any procedure do not take turns, also if this procedure is not selected by `--filter`. -/
theorem C91_stops (p : Program) (n : Nat) (h : Due p ⟨.warning, .notMonotone, n⟩) : (run true p).2.reported = [] ∧ (run true p).1 ≠ 0 := by
  refine ⟨?_, fun h0 => nomatch (((C91_exit true p).1 h0).2.2 _ h).2⟩
  obtain ⟨u, hu, hn⟩ : ∃ u ∈ p.units, u.notMonotone = true := by
    cases h with
    | notMonotone hu hs ht => exact ⟨_, hu, (SUnit.notMonotone_iff _).2 ⟨_, _, hs, ht⟩⟩
  rw [run_reported]
  have hk : ∀ n r s, (known n r s).1 = s := by
    intro n r s
    match r with
    | .ok () => rfl
    | .error .problem => rfl
    | .error (.other e) => rfl
  have ht : ∀ (u : SUnit) s, s.werr = true → (tycheckUnit u s).1 = s ∧ (u.notMonotone = true → (tycheckUnit u s).2 ≠ .ok ()) := by
    intro u s hs
    unfold tycheckUnit andThen
    have hk := hk u.num u.tycheck s
    generalize known u.num u.tycheck s = r at hk
    obtain ⟨s', r⟩ := r
    cases (show s' = s from hk)
    cases r with
    | error e => exact ⟨rfl, fun _ => nofun⟩
    | ok _ =>
      dsimp only
      split
      · unfold addOrThrow
        rw [hs, Bool.or_true, if_pos rfl]
        exact ⟨rfl, fun _ => nofun⟩
      · next hm => exact ⟨rfl, fun h => (hm h).elim⟩
  have he : ∀ (l : List SUnit) s, s.werr = true → (each tycheckUnit l s).1 = s ∧ (u ∈ l → (each tycheckUnit l s).2 ≠ .ok ()) := by
    intro l
    induction l with
    | nil => exact fun s _ => ⟨rfl, fun h => nomatch h⟩
    | cons v l ih =>
      intro s hs
      show (andThen (tycheckUnit v) (each tycheckUnit l) s).1 = s ∧ (_ → (andThen (tycheckUnit v) (each tycheckUnit l) s).2 ≠ .ok ())
      unfold andThen
      have ht := ht v s hs
      generalize tycheckUnit v s = r at ht
      obtain ⟨s', r⟩ := r
      cases (show s' = s from ht.1)
      cases r with
      | error e => exact ⟨rfl, fun _ => nofun⟩
      | ok _ =>
        refine ⟨(ih s hs).1, fun hm => ?_⟩
        rcases List.mem_cons.1 hm with rfl | hm
        · exact (ht.2 hn rfl).elim
        · exact (ih s hs).2 hm
  unfold main andThen
  have hk := hk 0 p.parse { werr := true }
  generalize known 0 p.parse { werr := true } = r at hk
  obtain ⟨s', r⟩ := r
  cases (show s' = { werr := true } from hk)
  cases r with
  | error e => rfl
  | ok _ =>
    have he := he p.units { werr := true } rfl
    dsimp only
    generalize each tycheckUnit p.units { werr := true } = r at he
    obtain ⟨s', r⟩ := r
    cases (show s' = { werr := true } from he.1)
    cases r with
    | error e => rfl
    | ok _ => exact (he.2 hu rfl).elim

/-! ## Reasons for other exit codes -/

/-- What holds of all states of a run: an error flag comes with a diagnostic, and a failure with a result that is no proof. -/
def Reasons (s : Run) : Prop := (s.emitted = true → s.printed ≠ []) ∧ (s.numFailures ≠ 0 → ∃ x ∈ s.reported, x.2 ≠ .proof)

def Keeps (a : Step) : Prop := ∀ s, Reasons s → Reasons (a s).1

theorem keeps_andThen {a b : Step} (ha : Keeps a) (hb : Keeps b) : Keeps (andThen a b) := by
  intro s hs
  have ha := ha s hs
  unfold andThen
  generalize a s = r at ha
  obtain ⟨s', r⟩ := r
  cases r with
  | error e => exact ha
  | ok u => exact hb s' ha

theorem keeps_same : Keeps skip := fun _ hs => hs

theorem keeps_each {α : Type} {f : α → Step} (h : ∀ a, Keeps (f a)) (l : List α) : Keeps (each f l) := by
  induction l with
  | nil => exact keeps_same
  | cons a l ih => exact keeps_andThen (h a) ih

theorem keeps_known (n : Nat) (r : Except Stop Unit) : Keeps (known n r) := by
  match r with
  | .ok () => exact keeps_same
  | .error .problem => exact fun _ hs => hs
  | .error (.other e) => exact fun _ hs => hs

theorem keeps_add (d : Diag) : Keeps (add d) := fun _ hs => ⟨fun _ => List.append_ne_nil_of_right_ne_nil _ (List.cons_ne_nil _ _), hs.2⟩

theorem keeps_addOrThrow (d : Diag) : Keeps (addOrThrow d) := by
  intro s hs
  unfold addOrThrow
  split
  · exact hs
  · exact keeps_add d s hs

theorem keeps_ite {c : Bool} {a : Step} (ha : Keeps a) : Keeps (if c then a else skip) := by
  cases c
  · exact keeps_same
  · exact ha

theorem keeps_solveTask (t : Task) : Keeps (solveTask t) := by
  have hr : ∀ r, Keeps (andThen (report t r) (count r)) := by
    intro r s hs
    have h1 : Reasons { s with reported := s.reported ++ [(t.num, r)] } :=
      ⟨hs.1, fun h => (hs.2 h).imp fun x hx => ⟨List.mem_append_left _ hx.1, hx.2⟩⟩
    have hm : (t.num, r) ∈ s.reported ++ [(t.num, r)] := List.mem_append_right _ (List.mem_singleton.2 rfl)
    cases r with
    | proof =>
      cases hs : t.soundProofs with
      | true =>
        simp only [andThen, report, hs, count]
        exact h1
      | false =>
        simp only [andThen, report, hs, count, add]
        exact keeps_add ⟨.error, .unsoundProof, t.num⟩ _ h1
    | counterexample => exact ⟨h1.1, fun _ => ⟨_, hm, nofun⟩⟩
    | unknown u =>
      cases u with
      | interrupted => exact h1
      | timeout => exact h1
      | other => exact ⟨h1.1, fun _ => ⟨_, hm, nofun⟩⟩
  unfold solveTask
  match t.solve with
  | .ok r => exact hr r
  | .error .problem => exact keeps_known _ _
  | .error (.other e) => exact keeps_known _ _

theorem keeps_main (p : Program) : Keeps (main p) := by
  have hx : ∀ u, Keeps (explainUnit u) := by
    intro u
    unfold explainUnit
    match u.explain with
    | .ok () => exact keeps_same
    | .error .problem => exact keeps_add _
    | .error (.other e) => exact fun _ hs => hs
  have hj : ∀ u, Keeps (modelCheckUnit u) := by
    intro u
    unfold modelCheckUnit
    match u.jani with
    | .ok none => exact keeps_same
    | .ok (some r) => exact keeps_add _
    | .error .problem => exact keeps_add _
    | .error (.other e) => exact fun _ hs => hs
  have hv : ∀ t, Keeps (verifyTask p.filter p.tcx t) := by
    intro t
    unfold verifyTask
    rw [sliceTask_eq]
    exact keeps_andThen (keeps_known _ _) (keeps_andThen (keeps_known _ _) (keeps_andThen (keeps_ite (keeps_addOrThrow _)) (keeps_andThen (keeps_known _ _) (keeps_solveTask t))))
  refine keeps_andThen (keeps_known _ _) (keeps_andThen (keeps_each (fun u => keeps_andThen (keeps_known _ _) (keeps_ite (keeps_addOrThrow _))) _) (keeps_andThen (keeps_known _ _)
    (keeps_andThen (keeps_ite (keeps_each hx _)) (keeps_andThen (keeps_ite (keeps_each hj _)) (keeps_andThen (keeps_known _ _) ?_)))))
  cases p.noVerify
  · exact keeps_each hv _
  · exact keeps_same

/-- If the exit code is not 0, then there is a reason: a diagnostic is printed, a result is printed which is no proof, or a step fails in another way. -/
theorem C91_reason (w : Bool) (p : Program) (h : (run w p).1 ≠ 0) :
    (run w p).2.printed ≠ [] ∨ (∃ x ∈ (run w p).2.reported, x.2 ≠ .proof) ∨ ∃ e, (main p { werr := w }).2 = .error (.other e) := by
  have hk := keeps_main p { werr := w } ⟨nofun, fun h => (h rfl).elim⟩
  unfold run at h ⊢
  generalize main p { werr := w } = r at h hk
  obtain ⟨s, r⟩ := r
  match r with
  | .ok () =>
    cases he : s.emitted with
    | true => exact .inl (hk.1 he)
    | false =>
      refine .inr (.inl (hk.2 fun hn => h ?_))
      exact (finalize_zero (s, .ok ())).2 ⟨rfl, he, hn⟩
  | .error (.diagnostic d) => exact .inl (List.append_ne_nil_of_right_ne_nil _ (List.cons_ne_nil _ _))
  | .error (.other e) => exact .inr (.inr ⟨e, rfl⟩)

/-! ## Non-vacuity -/

/-- The program with advice: accepted without `--werr`, and rejected with it. -/
example : (run false adviceProgram).1 = 0 ∧ (run true adviceProgram).1 = 1 ∧ (run false adviceProgram).2.printed = [⟨.advice, .notSliced, 1⟩] ∧
    (run false adviceProgram).2.reported = [(1, .proof)] ∧ (run true adviceProgram).2.reported = [] := ⟨rfl, rfl, rfl, rfl, rfl⟩

/-- A procedure with `conegate`, which is not selected, and a procedure without statements. -/
def warningProgram : Program where
  parse := .ok ()
  units := [⟨1, .proc .down (some (.negate .up)), .ok (), .ok (), .ok none⟩, ⟨2, .proc .down (some (Stmt.block [])), .ok (), .ok (), .ok none⟩]
  select := .ok fun u => u.num == 2
  rules := .ok ()
  tasks := [⟨2, .ok (), .ok (), .down, Stmt.block [], .ok (), .ok .proof, true⟩]
  explain := true
  modelCheck := false
  noVerify := false
  filter := {}
  tcx := { decls := [], fresh := fun _ => none }

/-- The hypotheses of `C91_stops`, `C91_printed` and `C91_partial` are met. -/
example : Due warningProgram ⟨.warning, .notMonotone, 1⟩ ∧ Ends false warningProgram ∧ (∀ d, Due warningProgram d → d.kind ≠ .advice) := by
  refine ⟨.notMonotone (u := ⟨1, .proc .down (some (.negate .up)), .ok (), .ok (), .ok none⟩) (List.mem_cons_self ..) rfl (fun h => nomatch h.1), rfl, fun d hd => ?_⟩
  have h := (C91_printed warningProgram rfl d).2 hd
  cases List.mem_singleton.1 (show d ∈ [⟨.warning, .notMonotone, 1⟩] from h)
  exact Kind.noConfusion

example : (run false warningProgram).1 = 0 ∧ (run false warningProgram).2.reported = [(2, .proof)] ∧ (run true warningProgram).1 = 1 ∧
    (run true warningProgram).2.reported = [] := ⟨rfl, rfl, rfl, rfl⟩

/-- The hypothesis of `C91_reason` is met. -/
example : (run true warningProgram).1 ≠ 0 ∧ (run true warningProgram).2.printed = [⟨.warning, .notMonotone, 1⟩] := ⟨nofun, rfl⟩

/-- The hypothesis of `C91_stricter` is met by a run with a procedure. -/
example : (run true { warningProgram with units := [⟨2, .proc .down (some (Stmt.block [])), .ok (), .ok (), .ok none⟩] }).1 = 0 := rfl

end Caesar.Driver.Warnings
