import Verif.Driver.Verdict
import Verif.Servers.StatusLemmas
import Verif.Props.C31
import Verif.Props.C55
import Verif.Props.C58

/-!
# C90: what is reported for a unit

The texts are documented in `website/blog/2026-03-14-caesar-4-0.md:58-64` and `website/docs/proof-rules/approximations.md:18-30`: "Verified" is a sound
proof of the property, "Counter-example to property found" a sound refutation, and the other two results may be wrong about the original program.

The part about refutations is false: calls are not tracked (`C90_not_full`), although the same page lists them among the approximations. The part about
proofs is C58.
-/

open scoped ENNReal NNReal
open Relation

namespace Caesar.Driver.Verdict
set_option linter.unusedSectionVars false

/-! ## Specification -/

/-- The statement at a place. Places in the branches of the addition choice are not looked at (see `C32_additive_wrong`). -/
def stmtAt : Stmt → Place → Option Stmt
  | s, [] => some s
  | .seq a _, 0 :: p => stmtAt a p
  | .seq _ b, 1 :: p => stmtAt b p
  | .ite _ a _, 0 :: p => stmtAt a p
  | .ite _ _ b, 1 :: p => stmtAt b p
  | .demonic a _, 0 :: p => stmtAt a p
  | .demonic _ b, 1 :: p => stmtAt b p
  | .angelic a _, 0 :: p => stmtAt a p
  | .angelic _ b, 1 :: p => stmtAt b p
  | .while _ s, 0 :: p => stmtAt s p
  | .annot _ s, 0 :: p => stmtAt s p
  | _, _ => none

/-- The approximating statements: annotated loops, with the kind that their rule claims, and negations. -/
inductive Approximates (d : Dir) (calculus : Option CalculusType) : Stmt → StmtKindName → ApproxKind → Prop where
  | loop (an : Annot) (s : Stmt) (h : an.isEncoding = true) :
      Approximates d calculus (.annot an s) .loop (an.approximation (an.inferFix calculus d) (ApproxKind.infimum (trackApprox d calculus s)) calculus)
  | negate (d' : Dir) : Approximates d calculus (.negate d') .stmt .unknown

/-- The side which is needed for sound proofs: under-approximations for procedures, over-approximations for coprocedures. -/
def Supports (d : Dir) (k : ApproxKind) : Prop := match d with | .down => k.under = true | .up => k.over = true

/-- The other direction. -/
def other : Dir → Dir
  | .down => .up
  | .up => .down

/-! ## Records -/

theorem track_kinds (d : Dir) (c : Option CalculusType) (S : Stmt) : ∀ here, (track d c here S).map Record.kind = trackApprox d c S := by
  induction S with
  | seq a b iha ihb | ite _ a b iha ihb | demonic a b iha ihb | angelic a b iha ihb =>
    intro here
    simp only [track, trackApprox, List.map_append, iha, ihb]
  | «while» _ s ih => intro here; simp only [track, trackApprox, ih]
  | annot an s ih =>
    intro here
    simp only [track, trackApprox, ih]
    split
    · rw [List.map_append, ih]; rfl
    · exact ih _
  | _ => intro here; rfl

theorem stmtAt_nil (S : Stmt) : stmtAt S [] = some S := by cases S <;> rfl

/-- The record at a place. -/
def IsRecord (d : Dir) (c : Option CalculusType) (S : Stmt) (p : Place) (r : Record) : Prop :=
  ∃ t, stmtAt S p = some t ∧ Approximates d c t r.stmtKind r.kind

theorem not_record {d : Dir} {c : Option CalculusType} {S : Stmt} (h1 : ∀ p, p ≠ [] → stmtAt S p = none) (h2 : ∀ k k', ¬ Approximates d c S k k') (p : Place)
    (r : Record) : ¬ IsRecord d c S p r := by
  rintro ⟨t, h, ht⟩
  cases p with
  | nil => rw [stmtAt_nil] at h; cases h; exact h2 _ _ ht
  | cons n p => rw [h1 _ (by simp)] at h; exact nomatch h

theorem record_two {d : Dir} {c : Option CalculusType} {S a b : Stmt} (h0 : ∀ p, stmtAt S (0 :: p) = stmtAt a p) (h1 : ∀ p, stmtAt S (1 :: p) = stmtAt b p)
    (hn : ∀ n p, stmtAt S ((n + 2) :: p) = none) (h2 : ∀ k k', ¬ Approximates d c S k k')
    (ha : ∀ here r, r ∈ track d c here a ↔ ∃ p, r.span = here ++ p ∧ IsRecord d c a p r)
    (hb : ∀ here r, r ∈ track d c here b ↔ ∃ p, r.span = here ++ p ∧ IsRecord d c b p r) (here : Place) (r : Record) :
    r ∈ track d c (here ++ [0]) a ++ track d c (here ++ [1]) b ↔ ∃ p, r.span = here ++ p ∧ IsRecord d c S p r := by
  rw [List.mem_append, ha, hb]
  constructor
  · rintro (⟨p, h, t, ht, ht'⟩ | ⟨p, h, t, ht, ht'⟩)
    · exact ⟨0 :: p, by rw [h, List.append_assoc]; rfl, t, (h0 p).trans ht, ht'⟩
    · exact ⟨1 :: p, by rw [h, List.append_assoc]; rfl, t, (h1 p).trans ht, ht'⟩
  · rintro ⟨p, h, t, ht, ht'⟩
    match p with
    | [] => rw [stmtAt_nil] at ht; cases ht; exact absurd ht' (h2 _ _)
    | 0 :: p => exact Or.inl ⟨p, by rw [h, List.append_assoc]; rfl, t, (h0 p).symm.trans ht, ht'⟩
    | 1 :: p => exact Or.inr ⟨p, by rw [h, List.append_assoc]; rfl, t, (h1 p).symm.trans ht, ht'⟩
    | (n + 2) :: p => rw [hn] at ht; exact nomatch ht

theorem mem_track (d : Dir) (c : Option CalculusType) (S : Stmt) : ∀ here r, r ∈ track d c here S ↔ ∃ p, r.span = here ++ p ∧ IsRecord d c S p r := by
  induction S with
  | seq a b iha ihb | ite _ a b iha ihb | demonic a b iha ihb | angelic a b iha ihb =>
    refine record_two (fun p => ?_) (fun p => ?_) (fun n p => ?_) (by intro _ _ h; cases h) iha ihb <;> simp only [stmtAt]
  | «while» _ s ih =>
    intro here r
    rw [track, ih]
    constructor
    · rintro ⟨p, h, t, ht, ht'⟩
      exact ⟨0 :: p, by rw [h, List.append_assoc]; rfl, t, by rw [stmtAt]; exact ht, ht'⟩
    · rintro ⟨p, h, t, ht, ht'⟩
      match p with
      | [] => cases ht; exact nomatch ht'
      | 0 :: p => exact ⟨p, by rw [h, List.append_assoc]; rfl, t, by rw [stmtAt] at ht; exact ht, ht'⟩
      | (n + 1) :: p => simp only [stmtAt] at ht; exact nomatch ht
  | annot an s ih =>
    intro here r
    have hin : (∃ p, r.span = here ++ [0] ++ p ∧ IsRecord d c s p r) ↔ ∃ p, r.span = here ++ 0 :: p ∧ IsRecord d c (.annot an s) (0 :: p) r := by
      refine exists_congr fun p => ?_
      rw [List.append_assoc, IsRecord, IsRecord]
      simp only [stmtAt, List.singleton_append]
    have hp : (∃ p, r.span = here ++ p ∧ IsRecord d c (.annot an s) p r) ↔
        (∃ p, r.span = here ++ 0 :: p ∧ IsRecord d c (.annot an s) (0 :: p) r) ∨ (r.span = here ∧ Approximates d c (.annot an s) r.stmtKind r.kind) := by
      constructor
      · rintro ⟨p, h, t, ht, ht'⟩
        match p with
        | [] => cases ht; exact Or.inr ⟨by rw [h, List.append_nil], ht'⟩
        | 0 :: p => exact Or.inl ⟨p, h, t, ht, ht'⟩
        | (n + 1) :: p => simp only [stmtAt] at ht; exact nomatch ht
      · rintro (⟨p, h⟩ | ⟨h, h'⟩)
        · exact ⟨0 :: p, h⟩
        · exact ⟨[], by rw [h, List.append_nil], _, rfl, h'⟩
    rw [hp, ← hin, ← ih, track]
    split
    next he =>
      rw [List.mem_append, List.mem_singleton, track_kinds]
      refine or_congr_right ⟨?_, ?_⟩
      · rintro rfl
        exact ⟨rfl, .loop an s he⟩
      · rintro ⟨h, h'⟩
        obtain ⟨sp, k, k'⟩ := r
        cases h
        cases h'
        rfl
    next he =>
      refine ⟨Or.inl, ?_⟩
      rintro (h | ⟨-, h⟩)
      · exact h
      · obtain ⟨sp, k, k'⟩ := r
        cases h
        contradiction
  | negate d' =>
    intro here r
    rw [track, List.mem_singleton]
    constructor
    · rintro rfl
      exact ⟨[], by simp, _, rfl, .negate d'⟩
    · rintro ⟨p, h, t, ht, ht'⟩
      cases p with
      | nil =>
        obtain ⟨sp, k, k'⟩ := r
        cases ht
        cases ht'
        rw [List.append_nil] at h
        cases h
        rfl
      | cons n p => simp only [stmtAt] at ht; exact nomatch ht
  | _ =>
    intro here r
    refine ⟨fun h => absurd h List.not_mem_nil, ?_⟩
    rintro ⟨p, -, h⟩
    refine absurd h (not_record (fun p hp => ?_) (by intro _ _ h; cases h) p r)
    cases p with
    | nil => exact absurd rfl hp
    | cons n p => simp only [stmtAt]

/-- The records of a body are its approximating statements, each with its place, in any number and at any depth. -/
theorem C90_records (d : Dir) (c : Option CalculusType) (B : Stmt) (r : Record) :
    r ∈ track d c [] B ↔ ∃ t, stmtAt B r.span = some t ∧ Approximates d c t r.stmtKind r.kind := by
  rw [mem_track]
  constructor
  · rintro ⟨p, h, t, ht, ht'⟩
    rw [h]
    exact ⟨t, ht, ht'⟩
  · rintro ⟨t, ht, ht'⟩
    exact ⟨_, rfl, t, ht, ht'⟩

/-! ## Soundness of a unit -/

theorem new_fields (d : Dir) (l : List Record) (c : Option CalculusType) : (Soundness.new d l c).direction = d ∧ (Soundness.new d l c).approximations = l ∧
    (Soundness.new d l c).calculus = c ∧ (Soundness.new d l c).approx = ApproxKind.infimum (l.map Record.kind) := by
  cases d <;> exact ⟨rfl, rfl, rfl, rfl⟩

theorem supports_infimum (d : Dir) (l : List ApproxKind) : Supports d (ApproxKind.infimum l) ↔ ∀ k ∈ l, Supports d k := by
  cases d with
  | down =>
    have h := C31_infimum l ⟨true, false⟩
    exact ⟨fun hs k hk => (h.1 ⟨fun _ => hs, fun h => nomatch h⟩ k hk).1 rfl, fun hs => (h.2 fun k hk => ⟨fun _ => hs k hk, fun h => nomatch h⟩).1 rfl⟩
  | up =>
    have h := C31_infimum l ⟨false, true⟩
    exact ⟨fun hs k hk => (h.1 ⟨(fun h => nomatch h), fun _ => hs⟩ k hk).2 rfl, fun hs => (h.2 fun k hk => ⟨(fun h => nomatch h), fun _ => hs k hk⟩).2 rfl⟩

theorem new_sound (d : Dir) (l : List Record) (c : Option CalculusType) :
    ((Soundness.new d l c).soundProofs = true ↔ ∀ r ∈ l, Supports d r.kind) ∧
      ((Soundness.new d l c).soundRefutations = true ↔ ∀ r ∈ l, Supports (other d) r.kind) := by
  have h1 := supports_infimum d (l.map Record.kind)
  have h2 := supports_infimum (other d) (l.map Record.kind)
  rw [List.forall_mem_map] at h1 h2
  cases d <;> exact ⟨h1, h2⟩

/-- Proofs of a procedure count as sound iff all its approximating statements have the side that its direction needs, and refutations iff all of them
have the other side. -/
theorem C90_sound (d : Dir) (c : Option CalculusType) (B : Stmt) (s : Soundness) (hs : (SUnit.proc d c (some B)).soundness = some s) :
    (s.soundProofs = true ↔ ∀ p t sk k, stmtAt B p = some t → Approximates d c t sk k → Supports d k) ∧
      (s.soundRefutations = true ↔ ∀ p t sk k, stmtAt B p = some t → Approximates d c t sk k → Supports (other d) k) := by
  cases hs
  have h := new_sound d (track d c [] B) c
  have key : ∀ Q : ApproxKind → Prop, (∀ r ∈ track d c [] B, Q r.kind) ↔ ∀ p t sk k, stmtAt B p = some t → Approximates d c t sk k → Q k := by
    intro Q
    constructor
    · intro h p t sk k ht hk
      exact h ⟨p, sk, k⟩ ((C90_records d c B _).2 ⟨t, ht, hk⟩)
    · intro h r hr
      obtain ⟨t, ht, hk⟩ := (C90_records d c B r).1 hr
      exact h _ _ _ _ ht hk
  exact ⟨h.1.trans (key _), h.2.trans (key _)⟩

/-- These are the values of C32 and C58. -/
theorem C90_same (d : Dir) (c : Option CalculusType) (B : Stmt) (s : Soundness) (hs : (SUnit.proc d c (some B)).soundness = some s) :
    procSoundness d c B = ⟨s.soundProofs, s.soundRefutations⟩ := by
  cases hs
  unfold procSoundness ProcSoundness.new Soundness.new
  simp only [track_kinds]
  cases d <;> rfl

/-! ## Texts and errors -/

/-- The possible first lines. -/
inductive Result where
  | verified | unsound | property | verification | unknown (reason : String)
deriving DecidableEq

/-- The documented texts. -/
def Result.text : Result → String
  | .verified => "Verified"
  | .unsound => "Unsound verification"
  | .property => "Counter-example to property found"
  | .verification => "Counter-example to verification found"
  | .unknown reason => "Unknown result: SMT solver returned " ++ reason

/-- When which verdict is documented. -/
inductive Gives (s : Soundness) : ProveResult → Result → Prop where
  | verified (h : s.soundProofs = true) : Gives s .proof .verified
  | unsound (h : s.soundProofs = false) : Gives s .proof .unsound
  | property (h : s.soundRefutations = true) : Gives s .counterexample .property
  | verification (h : s.soundRefutations = false) : Gives s .counterexample .verification
  | unknown (reason : String) : Gives s (.unknown reason) (.unknown reason)

theorem text_injective {v w : Result} (h : v.text = w.text) : v = w := by
  have pre : ∀ r : String, ("Unknown result: SMT solver returned " ++ r).toList.take 3 = ['U', 'n', 'k'] := by
    intro r
    rw [String.toList_append]
    rfl
  have key : ∀ (r : String) (t : String), t.toList.take 3 ≠ ['U', 'n', 'k'] → "Unknown result: SMT solver returned " ++ r ≠ t := by
    rintro r _ ht rfl
    exact ht (pre r)
  cases v <;> cases w <;> first | rfl | exact absurd h (by decide) | skip
  case unknown.unknown r r' =>
    have h := congrArg String.toList (show "Unknown result: SMT solver returned " ++ r = "Unknown result: SMT solver returned " ++ r' from h)
    rw [String.toList_append, String.toList_append] at h
    rw [String.toList_inj.1 (List.append_cancel_left h)]
  all_goals
    first
    | exact absurd h (key _ _ (by decide))
    | exact absurd h.symm (key _ _ (by decide))

/-- The text is that of the documented verdict, and the verdict can be read off the text. -/
theorem C90_text (s : Soundness) (r : ProveResult) (v : Result) : resultText s r = v.text ↔ Gives s r v := by
  obtain ⟨w, hw, hg⟩ : ∃ w, Gives s r w ∧ resultText s r = w.text := by
    cases r with
    | proof =>
      cases h : s.soundProofs with
      | true => exact ⟨.verified, .verified h, if_pos h⟩
      | false => exact ⟨.unsound, .unsound h, if_neg (by rw [h]; exact Bool.false_ne_true)⟩
    | counterexample =>
      cases h : s.soundRefutations with
      | true => exact ⟨.property, .property h, if_pos h⟩
      | false => exact ⟨.verification, .verification h, if_neg (by rw [h]; exact Bool.false_ne_true)⟩
    | unknown reason => exact ⟨.unknown reason, .unknown reason, Eq.refl ("Unknown result: SMT solver returned " ++ reason)⟩
  have huniq : ∀ {v w}, Gives s r v → Gives s r w → v = w := by
    intro v w hv hw
    cases hv <;> cases hw <;> first | rfl | (rename_i h h'; rw [h] at h'; exact nomatch h')
  rw [hg]
  exact ⟨fun h => text_injective h ▸ hw, fun h => by rw [huniq hw h]⟩

/-- An error is added exactly if the text is "Unsound verification", and it has this message. -/
theorem C90_error (name : String) (s : Soundness) (r : ProveResult) :
    ((report name s r).2 ≠ none ↔ resultText s r = Result.unsound.text) ∧
      ∀ e, (report name s r).2 = some e → e.message = "Unsound verification" ∧ e.labels = s.labels ∧ e.note ≠ none := by
  rw [C90_text]
  cases r with
  | proof =>
    cases h : s.soundProofs with
    | true =>
      simp only [report, Soundness.diagnostic, h]
      exact ⟨⟨fun h => absurd rfl h, fun h' => by cases h'; rename_i h'; rw [h] at h'; exact nomatch h'⟩, fun e he => nomatch he⟩
    | false =>
      have hn : s.note ≠ none := by simp only [Soundness.note, h]; exact fun h => nomatch h
      simp only [report, Soundness.diagnostic, h]
      refine ⟨⟨fun _ => .unsound h, fun _ h => nomatch h⟩, fun e he => ?_⟩
      cases he
      exact ⟨rfl, rfl, hn⟩
  | counterexample => exact ⟨⟨fun h => absurd rfl h, fun h => nomatch h⟩, fun e he => nomatch he⟩
  | unknown reason => exact ⟨⟨fun h => absurd rfl h, fun h => nomatch h⟩, fun e he => nomatch he⟩

/-- The labels are at the approximating statements which are not exact, and only there. -/
theorem C90_labels (d : Dir) (c : Option CalculusType) (B : Stmt) (s : Soundness) (hs : (SUnit.proc d c (some B)).soundness = some s) (l : Label) :
    l ∈ s.labels ↔ ∃ t sk k, stmtAt B l.span = some t ∧ Approximates d c t sk k ∧ k ≠ .exact ∧ l.message = labelText c ⟨l.span, sk, k⟩ := by
  cases hs
  rw [Soundness.labels, (new_fields _ _ _).2.1, (new_fields _ _ _).2.2.1, List.mem_map]
  constructor
  · rintro ⟨r, hr, rfl⟩
    rw [List.mem_filter] at hr
    obtain ⟨t, ht, hk⟩ := (C90_records d c B r).1 hr.1
    exact ⟨t, _, _, ht, hk, of_decide_eq_true hr.2, rfl⟩
  · rintro ⟨t, sk, k, ht, hk, hne, hm⟩
    refine ⟨⟨l.span, sk, k⟩, List.mem_filter.2 ⟨(C90_records d c B _).2 ⟨t, ht, hk⟩, decide_eq_true hne⟩, ?_⟩
    rw [← hm]

/-- The error points at a reason: one of its labels is at an approximating statement without the side that the direction needs. -/
theorem C90_blame (name : String) (d : Dir) (c : Option CalculusType) (B : Stmt) (s : Soundness) (hs : (SUnit.proc d c (some B)).soundness = some s)
    (r : ProveResult) (e : ErrorDiag) (he : (report name s r).2 = some e) :
    ∃ l ∈ e.labels, ∃ t sk k, stmtAt B l.span = some t ∧ Approximates d c t sk k ∧ ¬ Supports d k ∧ l.message = labelText c ⟨l.span, sk, k⟩ := by
  have hu : resultText s r = Result.unsound.text := (C90_error name s r).1.1 (by rw [he]; exact fun h => nomatch h)
  rw [C90_text] at hu
  have hf : s.soundProofs = false := by cases hu; assumption
  have h1 := (C90_sound d c B s hs).1
  rw [hf] at h1
  have h2 : ¬ ∀ p t sk k, stmtAt B p = some t → Approximates d c t sk k → Supports d k := fun h => nomatch h1.2 h
  simp only [not_forall] at h2
  obtain ⟨p, t, sk, k, ht, hk, hn⟩ := h2
  refine ⟨⟨p, labelText c ⟨p, sk, k⟩⟩, ?_, t, sk, k, ht, hk, hn, rfl⟩
  rw [((C90_error name s r).2 e he).2.1, C90_labels d c B s hs]
  refine ⟨t, sk, k, ht, hk, ?_, rfl⟩
  rintro rfl
  exact hn (by cases d <;> rfl)

/-- The first line begins with the name of the unit, and then says the verdict. -/
theorem C90_line (name : String) (s : Soundness) (r : ProveResult) (v : Result) : (report name s r).1 = name ++ ": " ++ v.text ↔ Gives s r v := by
  rw [← C90_text]
  have h : (report name s r).1 = name ++ ": " ++ resultText s r := rfl
  rw [h]
  generalize resultText s r = a
  generalize v.text = b
  refine ⟨fun h => ?_, fun h => by rw [h]⟩
  have h := congrArg String.toList h
  rw [String.toList_append (t := a), String.toList_append (t := b)] at h
  exact String.toList_inj.1 (List.append_cancel_left h)

/-- Raw statements are reported as those of a procedure without a calculus. -/
theorem C90_raw (B : Stmt) : (SUnit.raw B).soundness = (SUnit.proc .down none (some B)).soundness := rfl

theorem note_texts :
    noteText .down ⟨false, true⟩ = "over-approximation conflicts with proc direction, leading to unsound proof" ∧
      noteText .down ⟨false, false⟩ = "unknown approximation conflicts with proc direction, leading to unsound proof" ∧
      noteText .up ⟨true, false⟩ = "under-approximation conflicts with coproc direction, leading to unsound proof" ∧
      noteText .up ⟨false, false⟩ = "unknown approximation conflicts with coproc direction, leading to unsound proof" := by decide

/-- The note of the error names the side of the procedure, or says that there is none, and its direction. -/
theorem C90_note (name : String) (d : Dir) (c : Option CalculusType) (B : Stmt) (s : Soundness) (hs : (SUnit.proc d c (some B)).soundness = some s)
    (r : ProveResult) (e : ErrorDiag) (he : (report name s r).2 = some e) :
    (d = .down → s.soundRefutations = true → e.note = some "over-approximation conflicts with proc direction, leading to unsound proof") ∧
      (d = .up → s.soundRefutations = true → e.note = some "under-approximation conflicts with coproc direction, leading to unsound proof") ∧
      (d = .down → s.soundRefutations = false → e.note = some "unknown approximation conflicts with proc direction, leading to unsound proof") ∧
      (d = .up → s.soundRefutations = false → e.note = some "unknown approximation conflicts with coproc direction, leading to unsound proof") := by
  cases r with
  | counterexample => exact nomatch he
  | unknown => exact nomatch he
  | proof =>
    have hf : s.soundProofs = false := by
      cases h : s.soundProofs with
      | false => rfl
      | true => simp only [report, Soundness.diagnostic, h] at he; exact nomatch he
    have hn : e.note = s.note := by
      simp only [report, Soundness.diagnostic, hf] at he
      cases he
      rfl
    have hn' : s.note = some (noteText s.direction s.approx) := by
      unfold Soundness.note
      rw [hf]
      rfl
    have hd : s.direction = d := by cases hs; cases d <;> rfl
    have hk : s.soundProofs = (match (generalizing := false) d with | .down => s.approx.under | .up => s.approx.over) := by cases hs; cases d <;> rfl
    have hr : s.soundRefutations = (match (generalizing := false) d with | .down => s.approx.over | .up => s.approx.under) := by cases hs; cases d <;> rfl
    rw [hn, hn', hd, hr]
    rw [hf] at hk
    generalize s.approx = k at hk ⊢
    obtain ⟨u, o⟩ := k
    cases d with
    | down =>
      cases (show false = u from hk)
      refine ⟨fun _ h => ?_, (fun h => nomatch h), fun _ h => ?_, (fun h => nomatch h)⟩
      · cases (show o = true from h); exact congrArg some note_texts.1
      · cases (show o = false from h); exact congrArg some note_texts.2.1
    | up =>
      cases (show false = o from hk)
      refine ⟨(fun h => nomatch h), fun _ h => ?_, (fun h => nomatch h), fun _ h => ?_⟩
      · cases (show u = true from h); exact congrArg some note_texts.2.2.1
      · cases (show u = false from h); exact congrArg some note_texts.2.2.2

/-- What a label says about a statement which is not exact: with a calculus, on which side of the calculus the verification condition is; otherwise, the
kind of the approximation. Only loops can have one side, so these are all the texts of labels. -/
theorem C90_messages (d : Dir) (c : Option CalculusType) (t : Stmt) (sk : StmtKindName) (k : ApproxKind) (hk : Approximates d c t sk k) (p : Place) :
    (k.over = true → k.under = false →
      (c = some .wp → labelText c ⟨p, sk, k⟩ = "For this loop S, wp is over-approximated i.e., vc[S] ≥ wp[S]") ∧
      (c = some .wlp → labelText c ⟨p, sk, k⟩ = "For this loop S, wlp is over-approximated i.e., vc[S] ≥ wlp[S]") ∧
      (c = some .ert → labelText c ⟨p, sk, k⟩ = "For this loop S, ert is over-approximated i.e., vc[S] ≥ ert[S]") ∧
      (c = none → labelText c ⟨p, sk, k⟩ = "This statement is an over-approximation of the real program behavior")) ∧
    (k.under = true → k.over = false →
      (c = some .wp → labelText c ⟨p, sk, k⟩ = "For this loop S, wp is under-approximated i.e., vc[S] ≤ wp[S]") ∧
      (c = some .wlp → labelText c ⟨p, sk, k⟩ = "For this loop S, wlp is under-approximated i.e., vc[S] ≤ wlp[S]") ∧
      (c = some .ert → labelText c ⟨p, sk, k⟩ = "For this loop S, ert is under-approximated i.e., vc[S] ≤ ert[S]") ∧
      (c = none → labelText c ⟨p, sk, k⟩ = "This statement is an under-approximation of the real program behavior")) ∧
    (k.under = false → k.over = false → labelText c ⟨p, sk, k⟩ = "This statement is an unknown approximation of the real program behavior") := by
  have hsk : sk = .loop ∨ k = .unknown := by cases hk <;> simp
  obtain ⟨u, o⟩ := k
  refine ⟨fun h1 h2 => ?_, fun h1 h2 => ?_, fun h1 h2 => ?_⟩
  · cases (show o = true from h1)
    cases (show u = false from h2)
    obtain rfl : sk = .loop := by
      rcases hsk with h | h
      · exact h
      · exact nomatch h
    refine ⟨?_, ?_, ?_, ?_⟩ <;> (rintro rfl; simp only [labelText, StmtKindName.text, calculusText, kindText]; decide)
  · cases (show u = true from h1)
    cases (show o = false from h2)
    obtain rfl : sk = .loop := by
      rcases hsk with h | h
      · exact h
      · exact nomatch h
    refine ⟨?_, ?_, ?_, ?_⟩ <;> (rintro rfl; simp only [labelText, StmtKindName.text, calculusText, kindText]; decide)
  · cases (show u = false from h1)
    cases (show o = false from h2)
    rcases c with _ | c
    · simp only [labelText, kindText]; decide
    · simp only [labelText, kindText]; decide

/-- The result for the statuses of the language server (C74). -/
def ProveResult.outcome : ProveResult → Server.Outcome
  | .proof => .proof
  | .counterexample => .counterexample
  | .unknown _ => .unknown

/-- The text agrees with the status which the editor shows for the unit. -/
theorem C90_status (s : Soundness) (r : ProveResult) :
    (Server.VerifyStatus.ofResult r.outcome s.soundProofs s.soundRefutations = .verified ↔ resultText s r = Result.verified.text) ∧
      (Server.VerifyStatus.ofResult r.outcome s.soundProofs s.soundRefutations = .refuted ↔ resultText s r = Result.property.text) ∧
      (Server.VerifyStatus.ofResult r.outcome s.soundProofs s.soundRefutations = .failed ↔
        resultText s r = Result.unsound.text ∨ resultText s r = Result.verification.text) ∧
      (Server.VerifyStatus.ofResult r.outcome s.soundProofs s.soundRefutations = .unknown ↔ ∃ reason, resultText s r = (Result.unknown reason).text) := by
  simp only [C90_text]
  cases r with
  | proof =>
    cases h : s.soundProofs
    · refine ⟨⟨fun h => (nomatch h), fun h' => ?_⟩, ⟨fun h => (nomatch h), fun h => (nomatch h)⟩, ⟨fun _ => Or.inl (.unsound h), fun _ => rfl⟩,
        ⟨fun h => (nomatch h), fun h => (nomatch h)⟩⟩
      cases h'; rename_i h'; rw [h] at h'; exact nomatch h'
    · refine ⟨⟨fun _ => .verified h, fun _ => rfl⟩, ⟨fun h => (nomatch h), fun h => (nomatch h)⟩, ⟨fun h => (nomatch h), ?_⟩,
        ⟨fun h => (nomatch h), fun h => (nomatch h)⟩⟩
      rintro (h' | h')
      · cases h'; rename_i h'; rw [h] at h'; exact nomatch h'
      · exact nomatch h'
  | counterexample =>
    cases h : s.soundRefutations
    · refine ⟨⟨fun h => (nomatch h), fun h => (nomatch h)⟩, ⟨fun h => (nomatch h), fun h' => ?_⟩, ⟨fun _ => Or.inr (.verification h), fun _ => rfl⟩,
        ⟨fun h => (nomatch h), fun h => (nomatch h)⟩⟩
      cases h'; rename_i h'; rw [h] at h'; exact nomatch h'
    · refine ⟨⟨fun h => (nomatch h), fun h => (nomatch h)⟩, ⟨fun _ => .property h, fun _ => rfl⟩, ⟨fun h => (nomatch h), ?_⟩,
        ⟨fun h => (nomatch h), fun h => (nomatch h)⟩⟩
      rintro (h' | h')
      · exact nomatch h'
      · cases h'; rename_i h'; rw [h] at h'; exact nomatch h'
  | unknown reason =>
    refine ⟨⟨fun h => (nomatch h), fun h => (nomatch h)⟩, ⟨fun h => (nomatch h), fun h => (nomatch h)⟩, ⟨fun h => (nomatch h), ?_⟩,
      ⟨fun _ => ⟨reason, .unknown reason⟩, fun _ => rfl⟩⟩
    rintro (h | h) <;> exact nomatch h

/-! ## The map -/

open Caesar.Server (insertKey getKey getKey_insertKey_self getKey_insertKey_ne)

theorem getKey_map {N : Type} [DecidableEq N] (units : List (N × SUnit)) (hn : (units.map Prod.fst).Nodup) : ∀ (m : List (N × Soundness)) (n : N),
    getKey (units.foldl addSoundness m) n =
      match units.find? (fun u => u.1 = n) with
      | some u => (match u.2.soundness with | some s => some s | none => getKey m n)
      | none => getKey m n := by
  induction units with
  | nil => intro m n; rfl
  | cons u units ih =>
    intro m n
    rw [List.map_cons, List.nodup_cons] at hn
    rw [List.foldl_cons, ih hn.2]
    by_cases h : u.1 = n
    · rw [List.find?_cons_of_pos (by simpa using h)]
      have hnone : units.find? (fun u => u.1 = n) = none := by
        rw [List.find?_eq_none]
        intro v hv hvn
        exact hn.1 (List.mem_map.2 ⟨v, hv, (of_decide_eq_true hvn).trans h.symm⟩)
      rw [hnone]
      simp only [addSoundness]
      cases hs : u.2.soundness with
      | none => rfl
      | some s => simp only [← h]; exact getKey_insertKey_self _ _ _
    · rw [List.find?_cons_of_neg (by simpa using h)]
      have hm : getKey (addSoundness m u) n = getKey m n := by
        unfold addSoundness
        cases u.2.soundness with
        | none => rfl
        | some s => exact getKey_insertKey_ne _ _ _ _ (fun h' => h h'.symm)
      rw [hm]

/-- If no two units have the same name, each procedure with a body and each raw unit is reported with its own soundness, whatever the other units are. -/
theorem C90_map {N : Type} [DecidableEq N] (units : List (N × SUnit)) (hn : (units.map Prod.fst).Nodup) (n : N) (u : SUnit) (hu : (n, u) ∈ units)
    (s : Soundness) (hs : u.soundness = some s) : soundnessOf (soundnessMap units) n = s := by
  have hf : units.find? (fun u => u.1 = n) = some (n, u) := by
    induction units with
    | nil => exact absurd hu List.not_mem_nil
    | cons v units ih =>
      rw [List.map_cons, List.nodup_cons] at hn
      rcases List.mem_cons.1 hu with rfl | hu
      · exact List.find?_cons_of_pos (by simp)
      · rw [List.find?_cons_of_neg]
        · exact ih hn.2 hu
        · intro h
          exact hn.1 (List.mem_map.2 ⟨_, hu, (of_decide_eq_true h).symm⟩)
  unfold soundnessOf soundnessMap
  rw [getKey_map units hn, hf]
  simp only [hs]
  rfl

/-- A unit which is not in the map, as the units generated by proof rules, is never reported as unsound or as a counterexample to the verification only. -/
theorem C90_generated {N : Type} [DecidableEq N] (units : List (N × SUnit)) (n : N) (hn : n ∉ units.map Prod.fst) (name : String) (r : ProveResult) :
    (report name (soundnessOf (soundnessMap units) n) r).2 = none ∧
      resultText (soundnessOf (soundnessMap units) n) r ≠ Result.unsound.text ∧ resultText (soundnessOf (soundnessMap units) n) r ≠ Result.verification.text := by
  have key : ∀ (units : List (N × SUnit)) (m : List (N × Soundness)), n ∉ units.map Prod.fst →
      getKey (units.foldl addSoundness m) n = getKey m n := by
    intro units
    induction units with
    | nil => intro m _; rfl
    | cons u units ih =>
      intro m h
      rw [List.map_cons, List.mem_cons, not_or] at h
      rw [List.foldl_cons, ih _ h.2, addSoundness]
      cases u.2.soundness with
      | none => rfl
      | some s => exact getKey_insertKey_ne _ _ _ _ h.1
  have hd : soundnessOf (soundnessMap units) n = .default := by
    unfold soundnessOf soundnessMap
    rw [key units [] hn]
    rfl
  rw [hd, Ne, Ne, C90_text .default r, C90_text .default r]
  refine ⟨?_, ?_, ?_⟩
  · cases r <;> rfl
  · rintro ⟨⟩
    contradiction
  · rintro ⟨⟩
    contradiction

/-! ## Refutations -/

section
variable [Doms] [Interp]

/-- The verification of `p'` finds a counterexample: the verification condition, with calls replaced by specifications, is violated in some state. -/
def VcRefuted (procs' : ProcTable) (p' : Proc) : Prop :=
  ∃ d T declared T' declared' e, encodeProcVerify p' = some (d, T) ∧ specCall procs' d T declared = some (T', declared') ∧
    coreVc d T' = .ok e ∧ ¬ VcHolds d e

end

/-- The documented meaning of "Counter-example to property found": the procedure `p` does not satisfy its specification in the meaning that its calculus
gives to the program. All checks have passed (`Checked`), and all other procedures are verified. -/
def C90_full : Prop :=
  ∀ (_ : Doms) (_ : Interp) (P : List Proc) (d : Dir) (cal : Ident → Option CalculusType) (ext : ProcSem)
    (sccs : List (List Ident)) (procs' : ProcTable), ProgramOk P d cal ext → Checked P d cal sccs procs' →
    ∀ p ∈ P, ∀ B, p.body = some B → ∀ c, cal p.name = some c → ∀ p', procs' p.name = some p' →
    (∀ f q', procs' f = some q' → f ≠ p.name → VcVerified procs' q') → VcRefuted procs' p' →
    ∀ s, (SUnit.proc d (cal p.name) (some B)).soundness = some s → resultText s .counterexample = Result.property.text →
    ¬ p.Meets (progSem c (table P) ext p.name)

section
variable [Doms] [Interp]

omit [Doms] [Interp] in
theorem noCalls_of_calls {S : Stmt} (h : ∀ lhs f args, ¬ S.Calls lhs f args) : S.NoCalls := by
  induction S with
  | call i l f a => exact h l f a ⟨rfl, rfl, rfl⟩
  | seq a b iha ihb | demonic a b iha ihb | angelic a b iha ihb | additive a b iha ihb | ite c a b iha ihb =>
    exact ⟨iha fun l f a hc => h l f a (Or.inl hc), ihb fun l f a hc => h l f a (Or.inr hc)⟩
  | «while» c s ih | annot an s ih => exact ih h
  | _ => trivial

/-- For procedures without calls, whose rules are used as in C32 (`Stmt.RulesOk`), the text is right: "Counter-example to property found" means that the
procedure violates its specification. Other procedures may have calls and may be recursive. Missing: procedures with calls (`C90_not_full`) and the rules of
`C32_not_full`. -/
theorem C90_refuted_partial (P : List Proc) (d : Dir) (cal : Ident → Option CalculusType) (ext : ProcSem) (procs' : ProcTable)
    (ho : ProgramOk P d cal ext) (henc : LoopsEncoded d (table P) procs') (p : Proc) (hp : p ∈ P) (B : Stmt) (hB : p.body = some B)
    (c : CalculusType) (hcal : cal p.name = some c) (hcalls : ∀ lhs f args, ¬ B.Calls lhs f args) (hR : B.RulesOk d c.toFix) (p' : Proc)
    (hp' : procs' p.name = some p') (hv : VcRefuted procs' p') (s : Soundness) (hs : (SUnit.proc d (cal p.name) (some B)).soundness = some s)
    (ht : resultText s .counterexample = Result.property.text) : ¬ p.Meets (progSem c (table P) ext p.name) := by
  intro hm
  have hw := ho.wf
  have hf : table P p.name = some p := (table_iff ho.names).2 ⟨hp, rfl⟩
  have hd := hw.dir p.name p hf
  obtain ⟨b', h1, -, h2⟩ := henc.2 p.name p hf
  obtain ⟨B', h3, rfl⟩ := h2 B hB
  rw [h1] at hp'
  obtain rfl := Option.some.inj hp'
  -- the meaning of the procedure is that of its body
  obtain ⟨d', hsem⟩ : ∃ d', progSem c (table P) ext = recSem d' c.toFix.loopSem (table P) ext := by
    cases c with
    | wp => exact ⟨.up, rfl⟩
    | ert => exact ⟨.up, rfl⟩
    | wlp => exact ⟨.down, rfl⟩
  rw [hsem] at hm
  let C : SemCtx := callCtx c.toFix.loopSem (table P) (recSem d' c.toFix.loopSem (table P) ext)
  have hbody : ∀ φ, recSem d' c.toFix.loopSem (table P) ext p.name φ = vcSem C B φ := by
    intro φ
    rw [← recSem_fixed d' c.toFix.loopSem (table P) ext ho.ext.mono hw.noNeg p.name φ]
    unfold unfoldProcs
    simp only [hf, hB]
    rfl
  have hreg : C.Regular := callCtx_regular (recSem_mono _ _ _ _)
  have hpost : Ignores (fun v => v ∉ p.ins ∧ v ∉ p.outputs) p.post := by
    intro σ σ' h
    have key : ∀ e ∈ p.ensures, e.ev σ' = e.ev σ := fun e hee => ev_agreeOff (fun v hv hfr =>
      ((hw.wf p.name p hf).ensures e hee v hfr).elim hv.1 hv.2) h
    unfold Proc.post combine
    cases p.dir with
    | down => exact iInf_congr fun e => iInf_congr fun he => key e he
    | up => exact iSup_congr fun e => iSup_congr fun he => key e he
  have happ := trackApprox_sound (d := d) (calculus := some c) hreg rfl hR (Stmt.fixIs_calculus d c B) (ho.locals p hp B hB) hpost h3
  have hsound := C90_same d (cal p.name) B s hs
  have href : s.soundRefutations = true := by
    rw [C90_text] at ht
    cases ht
    assumption
  rw [hcal] at hsound
  -- the verification condition
  obtain ⟨dT, T, decl, T', decl', e, hT, hsp, hvc, hfail⟩ := hv
  obtain ⟨hg, hgd⟩ := task_shape (p := { p with body := some B' }) h3 rfl (ho.noValidate p hp B hB) (ho.dists p hp B hB) hT
  have hsem' := vcgen_sound C hvc ((specCall_guarded hg hsp).validateOk _) (specCall_goodDists hgd hsp)
  have hTT : T' = T := by
    unfold encodeProcVerify at hT
    obtain ⟨rfl, rfl⟩ := Prod.mk.inj (Option.some.inj hT)
    obtain ⟨S, declB, h4, rfl⟩ := specCall_task (specCall_atoms procs' p.dir p.dir p.requires).1
      (specCall_atoms procs' p.dir p.dir p.ensures).2 hsp
    have hn : B'.NoCalls := noCalls_of_calls fun lhs f args hc => hcalls lhs f args (encodeLoops_calls h3 hc)
    rw [specCall_noCalls procs' p.dir hn decl] at h4
    obtain ⟨rfl, -⟩ := Prod.mk.inj (Option.some.inj h4)
    rfl
  rw [hTT] at hsem'
  have hterm : (terminal dT).ev = (topLitInLattice dT).ev := by cases dT <;> rfl
  rw [hterm] at hsem'
  refine hfail ?_
  unfold Proc.Meets at hm
  cases d with
  | down =>
    obtain ⟨rfl, h26⟩ := C26_proc C { p with body := some B' } B' rfl hd dT T hT
    intro σ
    refine (congrFun hsem' σ).trans (h26.2 (fun τ => ?_) σ)
    have h5 := (hm : match p.dir with | .down => _ | .up => _)
    simp only [hd] at h5
    have h6 := happ.2 (by have := congrArg ProcSoundness.soundRefutations hsound; exact this.trans href) τ
    have h7 := (h5 τ).trans (le_of_eq (congrFun (hbody p.post) τ))
    have h8 := h7.trans h6
    have hpre : p.pre = fun σ => ⨅ e ∈ p.requires, e.ev σ := by unfold Proc.pre; rw [hd]; rfl
    have hpo : p.post = fun σ => ⨅ e ∈ p.ensures, e.ev σ := by unfold Proc.post; rw [hd]; rfl
    rw [hpre, hpo] at h8
    exact h8
  | up =>
    obtain ⟨rfl, h26⟩ := C26_coproc C { p with body := some B' } B' rfl hd dT T hT
    intro σ
    refine (congrFun hsem' σ).trans (h26.2 (fun τ => ?_) σ)
    have h5 := (hm : match p.dir with | .down => _ | .up => _)
    simp only [hd] at h5
    have h6 := happ.1 (by have := congrArg ProcSoundness.soundRefutations hsound; exact this.trans href) τ
    have h7 := (le_of_eq (congrFun (hbody p.post) τ).symm).trans (h5 τ)
    have h8 := h6.trans h7
    have hpre : p.pre = fun σ => ⨆ e ∈ p.requires, e.ev σ := by unfold Proc.pre; rw [hd]; rfl
    have hpo : p.post = fun σ => ⨆ e ∈ p.ensures, e.ev σ := by unfold Proc.post; rw [hd]; rfl
    rw [hpre, hpo] at h8
    exact h8

/-- The text "Verified" for all procedures, after the checks of the call graph and of the calculi, means that an annotated procedure satisfies its
specification, if the procedures that it reaches by calls are annotated (C58). -/
theorem C90_verified_partial (P : List Proc) (d : Dir) (cal : Ident → Option CalculusType) (ext : ProcSem) (sccs : List (List Ident)) (procs' : ProcTable)
    (ho : ProgramOk P d cal ext) (hscc : IsSccs (callGraph (bodies P)) sccs) (henc : LoopsEncoded d (table P) procs')
    (hchk : ∀ p ∈ P, ∀ B, p.body = some B → ∀ recursive : Bool,
      (recursive = true ↔ ∃ b ∈ findRecursive (callGraph (bodies P)) sccs, b.recursive = p.name) →
      checkProc (cal p.name) p.dir recursive (B.callees.map cal) = .ok ())
    (hv : ∀ f p', procs' f = some p' → VcVerified procs' p')
    (htext : ∀ q ∈ P, ∀ B, q.body = some B → ∀ s, (SUnit.proc d (cal q.name) (some B)).soundness = some s → resultText s .proof = Result.verified.text)
    (p : Proc) (hp : p ∈ P) (c : CalculusType) (hcal : cal p.name = some c)
    (hann : ∀ q ∈ P, q.body ≠ none → ReflTransGen (Calls (bodies P)) p.name q.name → cal q.name ≠ none) :
    p.Meets (progSem c (table P) ext p.name) := by
  classical
  refine C58_partial P d cal ext sccs procs' ho ⟨hscc, fun q hq B hB => hchk q hq B hB _ decide_eq_true_iff, henc, fun q hq B hB => ?_⟩ hv p hp c hcal hann
  have h := htext q hq B hB _ rfl
  rw [C90_text] at h
  rw [C90_same d (cal q.name) B _ rfl]
  cases h
  assumption

end

/-! ## Violation -/

/-- The literal `0`. -/
def lit0 : Expr .eureal := .lit (.efrac 0)

/-- `@wlp proc f() -> () pre 1 post 1 { g() }`. -/
def callF : Proc := ⟨⟨"f", 0⟩, .down, [], [], [.requires lit1, .ensures lit1], some (.call false [] ⟨"g", 0⟩ [])⟩

/-- `@wlp proc g() -> () pre 0 post 1 {}`: the specification is weaker than what the body does. -/
def weakG : Proc := ⟨⟨"g", 0⟩, .down, [], [], [.requires lit0, .ensures lit1], some .skip⟩

/-- The program. -/
def weakP : List Proc := [callF, weakG]

theorem weakP_cases {f : Ident} {p : Proc} (h : table weakP f = some p) :
    (f = ⟨"f", 0⟩ ∧ p = callF) ∨ (f = ⟨"g", 0⟩ ∧ p = weakG) := by
  obtain ⟨h1, h2⟩ := (table_iff (P := weakP) (by decide)).1 h
  rcases List.mem_cons.1 h1 with rfl | h1
  · exact Or.inl ⟨h2.symm, rfl⟩
  · obtain rfl := List.mem_singleton.1 h1
    exact Or.inr ⟨h2.symm, rfl⟩

section
variable [Doms] [Interp]

theorem lit0_ev (σ : Env) : lit0.ev σ = 0 := by
  show (((0 : ℚ≥0) : ℝ≥0) : ℝ≥0∞) = 0
  simp

theorem weak_ok (cal : Ident → Option CalculusType) : ProgramOk weakP .down cal (fun _ φ => φ) := by
  have hnt : ∀ v, ¬ Temp (table weakP) v := by
    rintro v ⟨f, p, hp, hv⟩
    rcases weakP_cases hp with ⟨-, rfl⟩ | ⟨-, rfl⟩ <;> exact absurd hv List.not_mem_nil
  have hmem : ∀ p ∈ weakP, p = callF ∨ p = weakG := by
    intro p hp
    rcases List.mem_cons.1 hp with rfl | hp
    · exact Or.inl rfl
    · exact Or.inr (List.mem_singleton.1 hp)
  refine ⟨by decide, ⟨?_, ?_, fun _ _ _ v hv => absurd hv (hnt v), ?_, ?_, fun _ _ _ _ _ v hv => absurd hv (hnt v), ?_⟩,
    ⟨fun _ _ _ h => h, ?_, ?_⟩, ?_, ?_, ?_, ?_, ?_, ?_⟩
  · intro f p hp
    rcases weakP_cases hp with ⟨-, rfl⟩ | ⟨-, rfl⟩ <;> rfl
  · intro f p hp
    rcases weakP_cases hp with ⟨-, rfl⟩ | ⟨-, rfl⟩
    · refine ⟨List.nodup_nil, fun e he v hv => ?_, fun e he v hv => ?_, fun e he => ?_, List.nodup_nil, fun x hx => absurd hx List.not_mem_nil⟩
      all_goals
        obtain rfl := List.mem_singleton.mp (show e ∈ [lit1] from he)
      · exact hv.elim
      · exact hv.elim
      · trivial
    · refine ⟨List.nodup_nil, fun e he v hv => ?_, fun e he v hv => ?_, fun e he => ?_, List.nodup_nil, fun x hx => absurd hx List.not_mem_nil⟩
      · obtain rfl := List.mem_singleton.mp (show e ∈ [lit0] from he)
        exact hv.elim
      · obtain rfl := List.mem_singleton.mp (show e ∈ [lit1] from he)
        exact hv.elim
      · obtain rfl := List.mem_singleton.mp (show e ∈ [lit1] from he)
        trivial
  · intro f p B hp hB
    rcases weakP_cases hp with ⟨-, rfl⟩ | ⟨-, rfl⟩ <;> cases hB <;> trivial
  · intro f p B hp hB x hx
    rcases weakP_cases hp with ⟨-, rfl⟩ | ⟨-, rfl⟩ <;> exact absurd hx List.not_mem_nil
  · intro f p B hp hB lhs g args hc
    rcases weakP_cases hp with ⟨-, rfl⟩ | ⟨-, rfl⟩
    · cases hB
      obtain ⟨rfl, rfl, rfl⟩ := hc
      exact ⟨weakG, rfl, rfl, rfl, fun a ha => absurd ha List.not_mem_nil, fun x hx => absurd hx List.not_mem_nil⟩
    · cases hB; exact hc.elim
  · intro f p hp hB
    rcases weakP_cases hp with ⟨-, rfl⟩ | ⟨-, rfl⟩ <;> exact nomatch hB
  · intro f p hp hB
    rcases weakP_cases hp with ⟨-, rfl⟩ | ⟨-, rfl⟩ <;> exact nomatch hB
  · intro p hp
    rcases hmem p hp with rfl | rfl <;> exact List.cons_ne_nil _ _
  · intro p hp B hB lhs g args hc q hq
    rcases hmem p hp with rfl | rfl
    · cases hB
      obtain ⟨rfl, rfl, rfl⟩ := hc
      obtain rfl := Option.some.inj (show some weakG = some q from hq)
      exact ⟨List.nodup_nil, trivial, trivial⟩
    · cases hB; exact hc.elim
  · intro p hp B hB
    rcases hmem p hp with rfl | rfl <;> cases hB <;> trivial
  · intro p hp B hB c hc
    rcases hmem p hp with rfl | rfl <;> cases hB <;> trivial
  · intro p hp B hB
    rcases hmem p hp with rfl | rfl <;> cases hB <;> trivial
  · intro p hp B hB
    rcases hmem p hp with rfl | rfl <;> cases hB <;> trivial

theorem weak_encoded : LoopsEncoded .down (table weakP) (table weakP) := by
  refine ⟨fun f hf => hf, fun f p hp => ?_⟩
  rcases weakP_cases hp with ⟨rfl, rfl⟩ | ⟨rfl, rfl⟩
  · exact ⟨_, rfl, (fun h => nomatch h), fun B hB => by cases hB; exact ⟨_, rfl, rfl⟩⟩
  · exact ⟨_, rfl, (fun h => nomatch h), fun B hB => by cases hB; exact ⟨_, rfl, rfl⟩⟩

theorem weak_checked : Checked weakP .down (fun _ => some .wlp) [[⟨"g", 0⟩], [⟨"f", 0⟩]] (table weakP) := by
  have hrec : ∀ f, ¬ ∃ b ∈ findRecursive (callGraph (bodies weakP)) [[⟨"g", 0⟩], [⟨"f", 0⟩]], b.recursive = f := by
    rintro f ⟨b, hb, -⟩
    have : findRecursive (callGraph (bodies weakP)) [[⟨"g", 0⟩], [⟨"f", 0⟩]] = [] := rfl
    rw [this] at hb
    exact absurd hb List.not_mem_nil
  have hg : callGraph (bodies weakP) = callGraph (bodies c58P) := rfl
  have hmem : ∀ p ∈ weakP, p = callF ∨ p = weakG := by
    intro p hp
    rcases List.mem_cons.1 hp with rfl | hp
    · exact Or.inl rfl
    · exact Or.inr (List.mem_singleton.1 hp)
  refine ⟨hg ▸ c58_sccs, fun p hp B hB => ?_, weak_encoded, fun p hp B hB => ?_⟩
  · rw [decide_eq_false (hrec p.name), C33_recursion]
    refine ⟨(fun h => nomatch h), fun c' hc' => ?_⟩
    obtain ⟨g, -, h⟩ := List.mem_map.1 hc'
    cases h
    rfl
  · rcases hmem p hp with rfl | rfl <;> cases hB <;> rfl

/-- The meaning in which both procedures do nothing. -/
theorem weak_meaning : callF.Meets (progSem .wlp (table weakP) (fun _ φ => φ) ⟨"f", 0⟩) := by
  intro τ
  have hpre : callF.pre τ = callF.post τ := rfl
  rw [hpre]
  refine le_iSup₂ (f := fun (Γ : ProcSem) (_ : Γ ∈ {Γ : ProcSem | (∀ f, Monotone (Γ f)) ∧
    ∀ f φ, Γ f φ ≤ unfoldProcs .gfp (table weakP) (fun _ φ => φ) Γ f φ}) => Γ ⟨"f", 0⟩ callF.post τ) (fun _ φ => φ) ⟨fun _ _ _ h => h, fun f φ => ?_⟩
  cases hp : table weakP f with
  | none =>
    unfold unfoldProcs
    rw [hp]
  | some p =>
    rcases weakP_cases hp with ⟨rfl, rfl⟩ | ⟨rfl, rfl⟩
    · exact fun σ => le_iInf fun τ₀ => le_rfl
    · exact le_rfl

end

/-- The full property is false. `g` does nothing but promises little (`pre 0`), and `f` calls `g`. All checks pass, `g` is verified, and for `f`
"Counter-example to property found" is reported, as calls are not recorded as approximations. But `f` satisfies its specification. -/
theorem C90_not_full : ¬ C90_full := by
  intro h
  let _ := unitDoms
  let _ := unitInterp
  refine h unitDoms unitInterp weakP .down (fun _ => some .wlp) (fun _ φ => φ) _ _ (weak_ok _) weak_checked callF List.mem_cons_self _ rfl .wlp rfl
    callF rfl (fun f q' hq hne => ?_) ⟨.down, _, [], _, _, _, rfl, rfl, rfl, fun hv => ?_⟩ _ rfl rfl weak_meaning
  · rcases weakP_cases hq with ⟨rfl, rfl⟩ | ⟨rfl, rfl⟩
    · exact absurd rfl hne
    · intro d T hT
      obtain ⟨rfl, rfl⟩ := Prod.mk.inj (Option.some.inj hT)
      refine ⟨[], _, _, _, rfl, rfl, fun σ => ?_⟩
      refine if_pos (show lit0.ev σ ≤ _ from ?_)
      rw [lit0_ev]
      exact zero_le
  · have key' : ∀ e : Expr .eureal, ¬ (Expr.bin (BinOp.impl rfl) lit1 (Expr.bin (BinOp.inf rfl) lit0 e)).eval zeroEnv = Ty.eureal.top := by
      intro e he
      have h0 : min (lit0.ev zeroEnv) (e.ev zeroEnv) = 0 := by rw [lit0_ev]; exact min_eq_left (zero_le (a := e.ev zeroEnv))
      have hn : ¬ lit1.ev zeroEnv ≤ min (lit0.ev zeroEnv) (e.ev zeroEnv) := by
        rw [h0, lit1_ev]
        simp
      refine hn ?_
      rw [← Expr.ev_inf _ _ _ rfl]
      exact (Ty.impl_eq_top (t := .eureal) rfl).1 he
    exact key' _ (hv zeroEnv)

/-! ## Non-vacuity -/

/-- `@unroll(1, ∞) while false {}`. -/
def unrolled : Stmt := .annot (.unroll 1 (Expr.topLit .eureal rfl)) (.while (Expr.boolLit false) .skip)

/-- `@wlp proc h() -> () pre 1 post 1/2 { @unroll(1, ∞) while false {} }`. -/
def unrolledH : Proc := ⟨⟨"h", 0⟩, .down, [], [], [.requires lit1, .ensures halfLit], some unrolled⟩

/-- `h` after the encoding of the loop. -/
def unrolledH' : Proc := { unrolledH with body := some (encodeUnroll (Expr.boolLit false) .skip 1 (heyConst (Expr.topLit .eureal rfl) .down)) }

theorem table_one {q : Proc} {f : Ident} {p : Proc} (h : table [q] f = some p) : f = q.name ∧ p = q := by
  obtain ⟨h1, h2⟩ := (table_iff (P := [q]) (List.nodup_singleton _)).1 h
  obtain rfl := List.mem_singleton.1 h1
  exact ⟨h2.symm, rfl⟩

section
variable [Doms] [Interp]

theorem unrolled_ok (cal : Ident → Option CalculusType) (hcal : ∀ f c, cal f = some c → c = .wlp) : ProgramOk [unrolledH] .down cal (fun _ φ => φ) := by
  have hnt : ∀ v, ¬ Temp (table [unrolledH]) v := by
    rintro v ⟨f, p, hp, hv⟩
    obtain ⟨-, rfl⟩ := table_one hp
    exact absurd hv List.not_mem_nil
  refine ⟨by decide, ⟨?_, ?_, fun _ _ _ v hv => absurd hv (hnt v), ?_, ?_, fun _ _ _ _ _ v hv => absurd hv (hnt v), ?_⟩,
    ⟨fun _ _ _ h => h, ?_, ?_⟩, ?_, ?_, ?_, ?_, ?_, ?_⟩
  · intro f p hp
    obtain ⟨-, rfl⟩ := table_one hp
    rfl
  · intro f p hp
    obtain ⟨-, rfl⟩ := table_one hp
    refine ⟨List.nodup_nil, fun e he v hv => ?_, fun e he v hv => ?_, fun e he => ?_, List.nodup_nil, fun x hx => absurd hx List.not_mem_nil⟩
    · obtain rfl := List.mem_singleton.mp (show e ∈ [lit1] from he)
      exact hv.elim
    · obtain rfl := List.mem_singleton.mp (show e ∈ [halfLit] from he)
      exact hv.elim
    · obtain rfl := List.mem_singleton.mp (show e ∈ [halfLit] from he)
      trivial
  · intro f p B hp hB
    obtain ⟨-, rfl⟩ := table_one hp
    cases hB
    trivial
  · intro f p B hp hB x hx
    obtain ⟨-, rfl⟩ := table_one hp
    exact absurd hx List.not_mem_nil
  · intro f p B hp hB lhs g args hc
    obtain ⟨-, rfl⟩ := table_one hp
    cases hB
    exact hc.elim
  · intro f p hp hB
    obtain ⟨-, rfl⟩ := table_one hp
    exact nomatch hB
  · intro f p hp hB
    obtain ⟨-, rfl⟩ := table_one hp
    exact nomatch hB
  all_goals
    intro p hp
    obtain rfl := List.mem_singleton.1 hp
  · exact List.cons_ne_nil _ _
  · intro B hB lhs g args hc
    cases hB
    exact hc.elim
  · intro B hB
    cases hB
    exact ⟨fun v hv => hv.1.elim, trivial⟩
  · intro B hB c hc
    cases hB
    rw [hcal _ _ hc]
    exact ⟨funext fun σ => rfl, trivial⟩
  · intro B hB
    cases hB
    trivial
  · intro B hB
    cases hB
    trivial

theorem unrolled_refuted (σ₀ : Env) : VcRefuted (table [unrolledH']) unrolledH' := by
  refine ⟨.down, _, [], _, _, _, rfl, rfl, rfl, fun hv => ?_⟩
  have key : ∀ e : Expr .eureal, ¬ (Expr.bin (BinOp.impl rfl) lit1 ((Expr.boolLit false).ite e (Expr.bin (BinOp.inf rfl) halfLit (terminal .down)))).eval
      σ₀ = Ty.eureal.top := by
    intro e he
    have h1 : lit1.ev σ₀ ≤ ((Expr.boolLit false).ite e (Expr.bin (BinOp.inf rfl) halfLit (terminal .down))).ev σ₀ :=
      (Ty.impl_eq_top (t := .eureal) rfl).1 he
    have h2 : ((Expr.boolLit false).ite e (Expr.bin (BinOp.inf rfl) halfLit (terminal .down))).ev σ₀ =
        (Expr.bin (BinOp.inf rfl) halfLit (terminal .down)).ev σ₀ := if_neg (fun h : false = true => nomatch h)
    rw [h2, Expr.ev_inf, lit1_ev, halfLit_ev] at h1
    have h3 : (1 : ℝ≥0) ≤ 1 / 2 := by exact_mod_cast h1.trans (min_le_left _ _)
    exact absurd h3 (by norm_num)
  exact key _ (hv σ₀)

theorem unrolled_encoded : LoopsEncoded .down (table [unrolledH]) (table [unrolledH']) := by
  refine ⟨fun f hf => ?_, fun f p hp => ?_⟩
  · cases h : table [unrolledH'] f with
    | none => rfl
    | some p =>
      obtain ⟨rfl, -⟩ := table_one h
      exact nomatch hf
  · obtain ⟨rfl, rfl⟩ := table_one hp
    exact ⟨_, rfl, (fun h => nomatch h), fun B hB => by cases hB; exact ⟨_, rfl, rfl⟩⟩

/-- `h` is reported as a counterexample to the property, and it violates its specification. -/
example (σ₀ : Env) (s : Soundness) (hs : (SUnit.proc .down (some .wlp) (some unrolled)).soundness = some s) :
    resultText s .counterexample = "Counter-example to property found" ∧ ¬ unrolledH.Meets (progSem .wlp (table [unrolledH]) (fun _ φ => φ) ⟨"h", 0⟩) := by
  have ht : resultText s .counterexample = Result.property.text := by
    rw [C90_text]
    cases hs
    exact .property rfl
  exact ⟨ht, C90_refuted_partial [unrolledH] .down (fun _ => some .wlp) (fun _ φ => φ) _ (unrolled_ok _ fun _ _ h => (Option.some.inj h).symm) unrolled_encoded
    unrolledH List.mem_cons_self unrolled rfl .wlp rfl (fun _ _ _ h => h.elim) ⟨funext fun _ => rfl, trivial⟩ unrolledH' rfl (unrolled_refuted σ₀) s hs ht⟩

/-- With `@wlp` on both procedures, the program of C58 is reported as verified, and it is correct. -/
example : c58F.Meets (progSem .wlp (table c58P) (fun _ φ => φ) ⟨"f", 0⟩) := by
  have hrec : findRecursive (callGraph (bodies c58P)) [[⟨"g", 0⟩], [⟨"f", 0⟩]] = [] := rfl
  have hmem : ∀ p ∈ c58P, p = c58F ∨ p = c58G := by
    intro p hp
    rcases List.mem_cons.1 hp with rfl | hp
    · exact Or.inl rfl
    · exact Or.inr (List.mem_singleton.1 hp)
  refine C90_verified_partial c58P .down (fun _ => some .wlp) (fun _ φ => φ) [[⟨"g", 0⟩], [⟨"f", 0⟩]] (table c58P') (c58_ok _) c58_sccs c58_encoded ?_
    (fun f p' hp => c58_verified hp) ?_ c58F List.mem_cons_self .wlp rfl fun _ _ _ _ h => nomatch h
  · intro p hp B hB r hr
    rw [hrec] at hr
    have : r = false := by
      cases r with
      | false => rfl
      | true => obtain ⟨b, hb, -⟩ := hr.1 rfl; exact absurd hb List.not_mem_nil
    rw [this, C33_recursion]
    refine ⟨(fun h => nomatch h), fun c' hc' => ?_⟩
    obtain ⟨g, -, h⟩ := List.mem_map.1 hc'
    cases h
    rfl
  · intro p hp B hB s hs
    rw [C90_text]
    rcases hmem p hp with rfl | rfl <;> cases hB <;> cases hs <;> exact .verified rfl

end

/-- The loop of C58 in a `@wp proc`: a proof is reported as unsound, with a label at the loop. -/
example (name : String) : ∃ s, (SUnit.proc .down (some .wp) (some c58Loop)).soundness = some s ∧
    ∃ e, (report name s .proof).2 = some e ∧ ∃ l ∈ e.labels, l.span = [] := by
  refine ⟨_, rfl, _, rfl, ?_⟩
  obtain ⟨l, hl, t, sk, k, ht, hk, -⟩ := C90_blame name .down (some .wp) c58Loop _ rfl .proof _ rfl
  refine ⟨l, hl, ?_⟩
  match h : l.span with
  | [] => rfl
  | [0] =>
    rw [h] at ht
    obtain rfl := Option.some.inj (show some (Stmt.while (Expr.boolLit true) .skip) = some t from ht)
    cases hk
  | 0 :: 0 :: [] =>
    rw [h] at ht
    obtain rfl := Option.some.inj (show some Stmt.skip = some t from ht)
    cases hk
  | 0 :: 0 :: n :: p => rw [h] at ht; simp [stmtAt, c58Loop] at ht
  | 0 :: (n + 1) :: p => rw [h] at ht; simp [stmtAt, c58Loop] at ht
  | (n + 1) :: p => rw [h] at ht; simp [stmtAt, c58Loop] at ht

/-- Two units and a generated one. -/
example : soundnessOf (soundnessMap [("a", SUnit.proc .up none (some .skip)), ("b", SUnit.raw (.negate .down))]) "b" =
      .new .down [⟨[], .stmt, .unknown⟩] none ∧
    (report "c" (soundnessOf (soundnessMap [("a", SUnit.proc .up none (some .skip)), ("b", SUnit.raw (.negate .down))]) "c") .proof).2 = none :=
  ⟨C90_map _ (by decide) "b" (.raw (.negate .down)) (by simp) _ rfl, (C90_generated _ "c" (by decide) "c" .proof).1⟩

end Caesar.Driver.Verdict
