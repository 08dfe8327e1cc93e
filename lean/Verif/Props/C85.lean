import Verif.Mc.StormSpec
import Verif.Props.C77

/-!
# C85: What is reported from Storm is Storm's result for the model of the procedure
-/

open scoped ENNReal

namespace Caesar.Mc

open Caesar.Smt (natText parseBigInt prettyRational bigRationalText)

/-! ## Searching -/

/-- The text from the first occurrence on. -/
def from_ (pat : Text) : Text → Option Text
  | [] => if pat = [] then some [] else none
  | c :: cs => if pat.isPrefixOf (c :: cs) then some (c :: cs) else from_ pat cs

theorem find_from (pat : Text) : ∀ s, (find pat s).map s.drop = from_ pat s
  | [] => by by_cases h : pat = [] <;> simp [find, from_, h]
  | c :: cs => by
    by_cases h : pat.isPrefixOf (c :: cs)
    · simp [find, from_, h]
    · rw [find, from_, if_neg h, if_neg h, ← find_from pat cs]
      cases find pat cs <;> simp

theorem from_eq_some {pat s t : Text} (h : from_ pat s = some t) : pat <+: t ∧ ∃ a, s = a ++ t := by
  induction s with
  | nil =>
    by_cases hp : pat = []
    · simp only [from_, hp, if_true, Option.some.injEq] at h
      subst h; exact ⟨by rw [hp], [], rfl⟩
    · simp [from_, hp] at h
  | cons c cs ih =>
    by_cases hp : pat.isPrefixOf (c :: cs)
    · simp only [from_, hp, if_true, Option.some.injEq] at h
      subst h
      exact ⟨by simpa using hp, [], rfl⟩
    · rw [from_, if_neg hp] at h
      obtain ⟨h1, a, h2⟩ := ih h
      exact ⟨h1, c :: a, by rw [h2]; rfl⟩

theorem from_prefix {pat s : Text} (h : pat <+: s) : from_ pat s = some s := by
  cases s with
  | nil => simp [from_, List.prefix_nil.1 h]
  | cons c cs => rw [from_, if_pos (by simpa using h)]

theorem from_none {pat s : Text} (h : Without pat s) : from_ pat s = none := by
  cases hf : from_ pat s with
  | none => rfl
  | some t =>
    obtain ⟨⟨b, hb⟩, a, ha⟩ := from_eq_some hf
    exact absurd (by rw [ha, ← hb, List.append_assoc]) (h a b)

/-- A character which is not in the pattern separates. -/
theorem from_sep {pat : Text} {c : Char} (hc : c ∉ pat) (hp : pat ≠ []) (b : Text) : ∀ a : Text,
    from_ pat (a ++ c :: b) = match from_ pat a with | some t => some (t ++ c :: b) | none => from_ pat b
  | [] => by
    cases pat with
    | nil => exact absurd rfl hp
    | cons p ps =>
      have : ¬ (p = c) := fun h => hc (by simp [h])
      simp [from_, List.isPrefixOf, this]
  | d :: ds => by
    have key : pat.isPrefixOf (d :: ds ++ c :: b) = pat.isPrefixOf (d :: ds) := by
      rw [Bool.eq_iff_iff, List.isPrefixOf_iff_prefix, List.isPrefixOf_iff_prefix]
      constructor
      · rintro ⟨t, ht⟩
        rcases List.append_eq_append_iff.1 ht with ⟨u, h1, _⟩ | ⟨u, h1, h2⟩
        · exact ⟨u, h1.symm⟩
        · cases u with
          | nil => exact ⟨[], by simpa using h1⟩
          | cons x u =>
            obtain ⟨rfl, -⟩ := List.cons.inj h2
            exact absurd (by rw [h1]; simp) hc
      · exact fun h => h.trans (List.prefix_append _ _)
    rw [List.cons_append, from_, from_, ← List.cons_append, key]
    by_cases h : pat.isPrefixOf (d :: ds)
    · rw [if_pos h, if_pos h]
    · rw [if_neg h, if_neg h]
      exact from_sep hc hp b ds

/-- Text without the first character of the pattern is skipped. -/
theorem from_skip {p : Char} {ps : Text} (b : Text) : ∀ a : Text, p ∉ a → from_ (p :: ps) (a ++ b) = from_ (p :: ps) b
  | [], _ => rfl
  | d :: ds, h => by
    have : ¬ (p = d) := fun e => h (by simp [e])
    rw [List.cons_append, from_]
    simp only [List.isPrefixOf, beq_eq_false_iff_ne.2 this, Bool.false_and]
    exact from_skip b ds fun e => h (by simp [e])

theorem from_lines {pat : Text} (hn : '\n' ∉ pat) (hp : pat ≠ []) (b : Text) : ∀ ls : List Text, (∀ l ∈ ls, Without pat l) →
    from_ pat (lines ls ++ b) = from_ pat b
  | [], _ => rfl
  | l :: ls, h => by
    have : lines (l :: ls) ++ b = l ++ '\n' :: (lines ls ++ b) := by simp [lines]
    rw [this, from_sep hn hp, from_none (h l (by simp))]
    exact from_lines hn hp b ls fun x hx => h x (by simp [hx])

theorem without_of_from {pat s : Text} (h : from_ pat s = none) : Without pat s := by
  rintro a b rfl
  have : ∀ a : Text, from_ pat (a ++ pat ++ b) ≠ none := by
    intro a
    induction a with
    | nil => rw [List.nil_append, from_prefix (List.prefix_append _ _)]; simp
    | cons c a ih =>
      rw [List.append_assoc, List.cons_append, from_]
      split
      · simp
      · rw [← List.append_assoc]; exact ih
  exact this a h

theorem result_header {s : Sec} (h : s.Ok) : Without resultText s.header := by
  apply without_of_from
  have h1 : from_ resultText (sectionText ++ [' ']) = none := by decide
  have e : s.header = (sectionText ++ [' ']) ++ '"' :: (s.name ++ '"' :: s.formula) := by simp [Sec.header]
  rw [e, from_sep (by decide) (by decide), h1]
  show from_ resultText (s.name ++ '"' :: s.formula) = none
  rw [from_sep (by decide) (by decide), from_none h.name.1.result]
  exact from_none h.formula.result

/-- The result line of a section. -/
theorem from_result_sec {s : Sec} (h : s.Ok) (b : Text) : from_ resultText (s.text ++ b) =
    match s.result with
    | some r => some (r.line ++ '\n' :: (lines s.after ++ b))
    | none => from_ resultText b := by
  have hn : '\n' ∉ resultText := by decide
  have hp : resultText ≠ [] := by decide
  have e : s.text ++ b = lines (s.header :: s.before) ++ (s.resultLines ++ (lines s.after ++ b)) := by
    simp only [Sec.text, List.append_assoc]
  rw [e, from_lines hn hp]
  · unfold Sec.resultLines
    cases hr : s.result with
    | none => exact from_lines hn hp b _ fun l hl => (h.after l hl).result
    | some r =>
      have : lines [r.line] ++ (lines s.after ++ b) = r.line ++ '\n' :: (lines s.after ++ b) := by simp [lines]
      simp only [this]
      refine from_prefix (List.IsPrefix.trans ?_ (List.prefix_append _ _))
      simp only [Result.line, List.append_assoc]
      exact List.IsPrefix.trans (by decide : resultText <+: resultLead) (List.prefix_append _ _)
  · intro l hl
    rcases List.mem_cons.1 hl with rfl | hl
    · exact result_header h
    · exact (h.before l hl).result

theorem from_result_secs : ∀ ss : List Sec, (∀ s ∈ ss, s.Ok) →
    match ss.findSome? Sec.result with
    | some r => ∃ b, from_ resultText (ss.flatMap Sec.text) = some (r.line ++ '\n' :: b)
    | none => from_ resultText (ss.flatMap Sec.text) = none
  | [], _ => by simp [from_]; decide
  | s :: ss, h => by
    have hs := from_result_sec (h s (by simp)) (ss.flatMap Sec.text)
    have ih := from_result_secs ss fun x hx => h x (by simp [hx])
    rw [List.findSome?_cons, List.flatMap_cons]
    cases hr : s.result with
    | some r => exact ⟨_, by rw [hs, hr]⟩
    | none =>
      rw [hr] at hs
      simp only
      cases hf : ss.findSome? Sec.result with
      | none => rw [hf] at ih; simp only at ih ⊢; rw [hs]; exact ih
      | some r =>
        rw [hf] at ih
        obtain ⟨b, hb⟩ := ih
        exact ⟨b, by rw [hs]; exact hb⟩

/-! ## Headers -/

theorem without_prefix {pat q s : Text} (h : Without pat s) : Without (pat ++ q) s := by
  intro a b e
  exact h a (q ++ b) (by rw [e]; simp)

theorem search_eq (p : Text) : searchString p = sectionText ++ [' ', '"'] ++ p ++ ['"'] := by
  have : "Model checking property \"".toList = sectionText ++ [' ', '"'] := by decide
  exact congrArg (fun t => t ++ p ++ ['"']) this

theorem search_plain {p s : Text} (h : Without sectionText s) : Without (searchString p) s := by
  rw [search_eq, List.append_assoc, List.append_assoc]
  exact without_prefix h

theorem quote_prefix {p n f : Text} (hp : '"' ∉ p) (hn : '"' ∉ n) : (p ++ ['"'] <+: n ++ '"' :: f) ↔ p = n := by
  induction p generalizing n with
  | nil =>
    cases n with
    | nil => simp
    | cons x n =>
      have : x ≠ '"' := fun e => hn (by simp [e])
      simp [List.cons_prefix_cons, this.symm]
  | cons y p ih =>
    cases n with
    | nil =>
      have : y ≠ '"' := fun e => hp (by simp [e])
      simp [List.cons_prefix_cons, this]
    | cons x n =>
      simp only [List.cons_append, List.cons_prefix_cons, List.cons.injEq]
      rw [ih (fun e => hp (by simp [e])) (fun e => hn (by simp [e]))]

theorem section_tail : sectionText = 'M' :: sectionText.tail := by decide

/-- A section is found by its own name only. -/
theorem from_header {s : Sec} (h : s.Ok) {p : Text} (hq : '"' ∉ p) :
    from_ (searchString p) s.header = if s.name = p then some s.header else none := by
  have hpre : (searchString p <+: s.header) ↔ p = s.name := by
    rw [search_eq, Sec.header]
    simp only [List.append_assoc]
    rw [List.prefix_append_right_inj, List.prefix_append_right_inj, List.singleton_append]
    exact quote_prefix hq h.name.2
  split
  · next he => exact from_prefix (hpre.2 he.symm)
  · next he =>
    have hne : ¬ (searchString p).isPrefixOf s.header := by
      rw [List.isPrefixOf_iff_prefix, hpre]; exact fun e => he e.symm
    have hcons : s.header = 'M' :: (sectionText.tail ++ ([' ', '"'] ++ s.name ++ ['"'] ++ s.formula)) := by
      rw [Sec.header]; conv_lhs => rw [section_tail]
      simp
    rw [hcons, from_, ← hcons, if_neg hne]
    have hw : Without sectionText (sectionText.tail ++ ([' ', '"'] ++ s.name ++ ['"'] ++ s.formula)) := by
      apply without_of_from
      have e : sectionText.tail ++ ([' ', '"'] ++ s.name ++ ['"'] ++ s.formula) =
          (sectionText.tail ++ [' ']) ++ '"' :: (s.name ++ '"' :: s.formula) := by simp
      have h1 : from_ sectionText (sectionText.tail ++ [' ']) = none := by decide
      rw [e, from_sep (by decide) (by decide), h1]
      show from_ sectionText (s.name ++ '"' :: s.formula) = none
      rw [from_sep (by decide) (by decide), from_none h.name.1.section_]
      exact from_none h.formula.section_
    exact from_none (search_plain hw)

/-- The first section with a name. -/
theorem from_search_secs {p : Text} (hq : '"' ∉ p) (hn : '\n' ∉ p) : ∀ ss : List Sec, (∀ s ∈ ss, s.Ok) →
    from_ (searchString p) (ss.flatMap Sec.text) =
      match ss.dropWhile (fun s => decide (s.name ≠ p)) with
      | [] => none
      | s :: rest => some ((s :: rest).flatMap Sec.text)
  | [], _ => by
    have : searchString p ≠ [] := by rw [search_eq]; simp
    simp [from_, this]
  | s :: ss, h => by
    have hs := h s (by simp)
    have hnl : '\n' ∉ searchString p := by
      rw [search_eq]
      simp only [List.mem_append, not_or]
      exact ⟨⟨⟨by decide, by decide⟩, hn⟩, by decide⟩
    have hne : searchString p ≠ [] := by rw [search_eq]; simp
    have e : (s :: ss).flatMap Sec.text = s.header ++ '\n' :: (lines s.before ++ (s.resultLines ++ (lines s.after ++ ss.flatMap Sec.text))) := by
      simp [Sec.text, lines]
    rw [e, from_sep hnl hne, from_header hs hq]
    by_cases hp : s.name = p
    · rw [if_pos hp, List.dropWhile_cons_of_neg (by simp [hp])]
      simp only [e]
    · rw [if_neg hp, List.dropWhile_cons_of_pos (by simp [hp])]
      simp only
      rw [from_lines hnl hne _ _ fun l hl => search_plain (hs.before l hl).section_]
      have hr : ∀ b, from_ (searchString p) (s.resultLines ++ b) = from_ (searchString p) b := by
        intro b
        unfold Sec.resultLines
        cases hr : s.result with
        | none => rfl
        | some r =>
          refine from_lines hnl hne b [r.line] fun l hl => ?_
          rw [List.mem_singleton.1 hl]
          exact search_plain (hs.result r hr).section_
      rw [hr, from_lines hnl hne _ _ fun l hl => search_plain (hs.after l hl).section_]
      exact from_search_secs hq hn ss fun x hx => h x (by simp [hx])

/-! ## Results -/

theorem find_newline (b : Text) : ∀ v : Text, '\n' ∉ v → find ['\n'] (v ++ '\n' :: b) = some v.length
  | [], _ => by simp [find, List.isPrefixOf]
  | c :: v, h => by
    have : '\n' ≠ c := fun e => h (e ▸ List.mem_cons_self)
    rw [List.cons_append, find]
    simp only [List.isPrefixOf, beq_eq_false_iff_ne.2 this, Bool.false_and]
    rw [find_newline b v fun e => h (by simp [e])]
    rfl

theorem findPropertyResult_some {o : StormOptions} {out p t v b : Text} (h1 : from_ (searchString p) out = some t)
    (h2 : from_ resultText t = some (resultText ++ v ++ '\n' :: b)) (hv : '\n' ∉ v) :
    findPropertyResult o out p = .value (showResult o v) := by
  rw [← find_from] at h1 h2
  obtain ⟨i, hi, rfl⟩ := Option.map_eq_some_iff.1 h1
  obtain ⟨j, hj, hd⟩ := Option.map_eq_some_iff.1 h2
  have hdrop : out.drop (i + j + resultText.length) = v ++ '\n' :: b := by
    rw [← List.drop_drop, ← List.drop_drop, hd, List.append_assoc, List.drop_left]
  simp only [findPropertyResult, hi, hj, hdrop, find_newline b v hv, List.take_left]

theorem findPropertyResult_none {o : StormOptions} {out p : Text}
    (h : (from_ (searchString p) out).bind (from_ resultText) = none) : findPropertyResult o out p = .notFound := by
  unfold findPropertyResult
  rw [← find_from] at h
  cases hi : find (searchString p) out with
  | none => rfl
  | some i =>
    rw [hi] at h
    simp only [Option.map_some, Option.bind_some, ← find_from, Option.map_eq_none_iff] at h
    simp only [h]

theorem dropWhile_white (s : Text) (h : s ≠ [] ∧ ∀ c ∈ s, isWhite c = false) : s.dropWhile isWhite = s := by
  cases s with
  | nil => rfl
  | cons c cs => exact List.dropWhile_cons_of_neg (by simp [h.2 c (by simp)])

theorem trim_mid {s : Text} (h : s ≠ [] ∧ ∀ c ∈ s, isWhite c = false) {w : Text} (hw : ∀ c ∈ w, isWhite c) : trim (' ' :: s ++ w) = s := by
  obtain ⟨hne, hall⟩ := h
  have hsp : isWhite ' ' = true := by decide
  have h1 : (' ' :: s ++ w).dropWhile isWhite = s ++ w := by
    rw [List.cons_append, List.dropWhile_cons_of_pos hsp]
    cases s with
    | nil => exact absurd rfl hne
    | cons c cs => exact List.dropWhile_cons_of_neg (by simp [hall c (by simp)])
  have h2 : ∀ w : Text, (∀ c ∈ w, isWhite c) → ∀ t : Text, (w ++ t).dropWhile isWhite = t.dropWhile isWhite := by
    intro w hw t
    induction w with
    | nil => rfl
    | cons c w ih => rw [List.cons_append, List.dropWhile_cons_of_pos (hw c (by simp))]; exact ih fun d hd => hw d (by simp [hd])
  rw [trim, h1, List.reverse_append, h2 w.reverse (by simpa using hw), dropWhile_white _ ⟨by simpa using hne, by simpa using hall⟩, List.reverse_reverse]

/-- How the text of a result is shown: rational numbers as decimals if Storm computes exactly. -/
def numberText (exact : Bool) (s : Text) : Text :=
  if exact then (match parseRational s with | some q => prettyRational q | none => s) else s

theorem find_of_from {pat s : Text} : ∀ {a : Text}, from_ pat (a ++ s) = some s → pat ≠ [] → find pat (a ++ s) = some a.length := by
  intro a h _
  rw [← find_from] at h
  obtain ⟨i, hi, hd⟩ := Option.map_eq_some_iff.1 h
  rw [hi]
  have hlen := congrArg List.length hd
  simp only [List.length_drop, List.length_append] at hlen
  congr 1
  by_cases hs : s = []
  · subst hs
    simp only [List.append_nil] at hi hd
    have : ∀ (s : Text) (i : ℕ), find pat s = some i → i ≤ s.length := by
      intro s
      induction s with
      | nil => intro i h; by_cases hp : pat = [] <;> simp_all [find]
      | cons c cs ih =>
        intro i h
        rw [find] at h
        split at h
        · have : i = 0 := by simpa using h.symm
          omega
        · obtain ⟨j, hj, rfl⟩ := Option.map_eq_some_iff.1 h
          have := ih j hj
          simp; omega
    have h1 := this a i hi
    have h2 : a.length ≤ i := by simpa using hd
    omega
  · have : 0 < s.length := List.length_pos_iff.2 hs
    omega

theorem showResult_line (o : StormOptions) {r : Result} (h : r.Ok) {v : Text} (hv : r.line = resultText ++ v) :
    showResult o v = operator o.exact o.stateLimit ++ numberText o.exact r.text := by
  have hlead : resultLead = resultText ++ [' '] := by decide
  have hv' : v = ' ' :: r.text ++ (match r.approx with | none => [] | some a => approxLead ++ a ++ [')']) := by
    rw [Result.line, hlead] at hv
    simp only [List.append_assoc, List.append_cancel_left_eq] at hv
    rw [← hv]
    simp only [List.cons_append, List.append_assoc]
    cases r.approx <;> rfl
  have hlp : '(' ∉ ' ' :: r.text := by
    intro hm
    rcases List.mem_cons.1 hm with hm | hm
    · revert hm; decide
    · exact (h.text.2 _ hm).2 rfl
  have happ : approxText = '(' :: approxText.tail := by decide
  have ht : r.text ≠ [] ∧ ∀ c ∈ r.text, isWhite c = false := ⟨h.text.1, fun c hc => (h.text.2 c hc).1⟩
  suffices hcut : trim (cutApprox v) = r.text by
    simp only [showResult, hcut, numberText]
    rfl
  unfold cutApprox
  cases ha : r.approx with
  | none =>
    rw [ha] at hv'
    have hf : find approxText v = none := by
      have : from_ approxText v = none := by
        rw [hv', happ]
        simp only [from_skip [] _ hlp]
        decide
      rw [← find_from, Option.map_eq_none_iff] at this
      exact this
    simp only [hf]
    rw [hv']
    exact trim_mid ht (by simp)
  | some a =>
    rw [ha] at hv'
    have e : v = (' ' :: r.text ++ [' ']) ++ (approxText ++ (a ++ [')'])) := by
      have : approxLead = ' ' :: approxText := by decide
      rw [hv', this]; simp
    have hsk : '(' ∉ (' ' :: r.text ++ [' ']) := by
      intro hm
      rcases List.mem_append.1 hm with hm | hm
      · exact hlp hm
      · revert hm; decide
    have hf : find approxText v = some (' ' :: r.text ++ [' ']).length := by
      rw [e]
      refine find_of_from ?_ (by decide)
      conv_lhs => rw [happ]
      rw [from_skip _ _ hsk, ← happ]
      exact from_prefix (List.prefix_append _ _)
    simp only [hf]
    rw [e, List.take_left]
    exact trim_mid ht (by simp; decide)

/-- Whatever Storm reports, the value found for a property is the first result at or behind the section of the property. -/
theorem C85_found (o : StormOptions) {rep : Report} (h : rep.Ok) {p : Text} (hq : '"' ∉ p) (hn : '\n' ∉ p) :
    findPropertyResult o rep.text p =
      match (rep.secs.dropWhile fun s => decide (s.name ≠ p)).findSome? Sec.result with
      | some r => .value (operator o.exact o.stateLimit ++ numberText o.exact r.text)
      | none => .notFound := by
  have hnl : '\n' ∉ searchString p := by
    rw [search_eq]
    simp only [List.mem_append, not_or]
    exact ⟨⟨⟨by decide, by decide⟩, hn⟩, by decide⟩
  have hne : searchString p ≠ [] := by rw [search_eq]; simp
  have h1 : from_ (searchString p) rep.text = match rep.secs.dropWhile (fun s => decide (s.name ≠ p)) with
      | [] => none
      | s :: rest => some ((s :: rest).flatMap Sec.text) := by
    rw [Report.text, from_lines hnl hne _ _ fun l hl => search_plain (h.intro l hl).section_]
    exact from_search_secs hq hn rep.secs h.secs
  cases hd : rep.secs.dropWhile (fun s => decide (s.name ≠ p)) with
  | nil =>
    rw [hd] at h1
    rw [findPropertyResult_none (by rw [h1]; rfl)]
    rfl
  | cons s ss =>
    rw [hd] at h1
    have hok : ∀ x ∈ s :: ss, x.Ok := fun x hx => h.secs x ((List.dropWhile_suffix _).subset (hd ▸ hx))
    have h2 := from_result_secs (s :: ss) hok
    cases hf : (s :: ss).findSome? Sec.result with
    | none =>
      rw [hf] at h2
      rw [findPropertyResult_none (by rw [h1]; exact h2)]
    | some r =>
      rw [hf] at h2
      obtain ⟨b, hb⟩ := h2
      obtain ⟨x, hx, hxr⟩ := List.exists_of_findSome?_eq_some hf
      have hr := (hok x hx).result r hxr
      obtain ⟨v, hv⟩ : ∃ v, r.line = resultText ++ v := by
        have hlead : resultLead = resultText ++ [' '] := by decide
        rw [Result.line, hlead]
        exact ⟨_, by rw [List.append_assoc, List.append_assoc]⟩
      rw [hv] at hb
      rw [findPropertyResult_some h1 hb (fun hm => hr.line (by rw [hv]; exact List.mem_append_right _ hm)), showResult_line o hr hv]

/-! ## Numbers -/

theorem natText_slash (n : ℕ) : '/' ∉ natText n := by
  intro hn
  obtain ⟨d, hd, h⟩ := Smt.natText_dig n _ hn
  revert h
  revert d
  decide

theorem parseBigInt_neg (n : ℕ) : parseBigInt ('-' :: natText n) = some (-(n : ℤ)) := by
  have h := Smt.parseDigits_natText n
  cases hn : natText n with
  | nil => exact absurd hn (Smt.natText_ne_nil n)
  | cons c cs =>
    rw [hn] at h
    simp [parseBigInt, h]

theorem takeWhile_all {p : Char → Bool} : ∀ {s : Text}, (∀ c ∈ s, p c = true) → s.takeWhile p = s
  | [], _ => rfl
  | c :: s, h => by rw [List.takeWhile_cons_of_pos (h c (by simp)), takeWhile_all fun d hd => h d (by simp [hd])]

theorem dropWhile_all {p : Char → Bool} : ∀ {s : Text}, (∀ c ∈ s, p c = true) → s.dropWhile p = []
  | [], _ => rfl
  | c :: s, h => by rw [List.dropWhile_cons_of_pos (h c (by simp)), dropWhile_all fun d hd => h d (by simp [hd])]

/-- The text of a number is read as this number. -/
theorem C85_read (q : ℚ) : parseRational (bigRationalText q) = some q := by
  have hsign : parseBigInt ((if q < 0 then ['-'] else []) ++ natText q.num.natAbs) = some q.num := by
    by_cases hq : q < 0
    · rw [if_pos hq, List.singleton_append, parseBigInt_neg]
      have : q.num < 0 := Rat.num_neg.2 hq
      congr 1; omega
    · rw [if_neg hq, List.nil_append, Smt.parseBigInt_natText]
      have : 0 ≤ q.num := Rat.num_nonneg.2 (not_lt.1 hq)
      congr 1; omega
  have hns : ∀ c ∈ (if q < 0 then ['-'] else []) ++ natText q.num.natAbs, decide (c ≠ '/') = true := by
    intro c hc
    rw [decide_eq_true_iff]
    rintro rfl
    rcases List.mem_append.1 hc with hc | hc
    · split at hc
      · revert hc; decide
      · cases hc
    · exact natText_slash _ hc
  unfold bigRationalText parseRational
  by_cases hd : q.den = 1
  · rw [if_pos hd, List.append_nil, takeWhile_all hns, dropWhile_all hns]
    simp only [hsign, Option.bind_eq_bind, Option.bind_some, one_ne_zero, if_false, Int.cast_one, div_one]
    rw [Rat.coe_int_num_of_den_eq_one hd]
  · rw [if_neg hd, List.takeWhile_append_of_pos hns, List.dropWhile_append_of_pos hns]
    simp only [ne_eq, not_true, decide_false, List.takeWhile_cons_of_neg, Bool.false_eq_true, not_false_eq_true,
      List.dropWhile_cons_of_neg, List.append_nil, hsign, Smt.parseBigInt_natText, Option.bind_eq_bind, Option.bind_some]
    rw [if_neg (by exact_mod_cast q.den_nz)]
    congr 1
    exact_mod_cast Rat.num_div_den q

/-- With exact arithmetic, a number is shown as the decimal which denotes it. -/
theorem C85_number (q : ℚ) : ∃ s, numberText true (bigRationalText q) = s.text q ∧ Smt.Denotes s q := by
  obtain ⟨s, h1, h2⟩ := Smt.C77_decimal q
  exact ⟨s, by simp [numberText, C85_read, h1], h2⟩

/-- Other texts such as `inf`, and all texts of inexact computations, are shown as they are. -/
theorem C85_text (exact : Bool) (s : Text) (h : exact = true → parseRational s = none) : numberText exact s = s := by
  cases exact with
  | false => rfl
  | true => simp [numberText, h rfl]

/-! ## The value of the property -/

/-- The full statement about `find_property_result`: a result that is found is that of the section of the property. -/
def C85_full : Prop := ∀ (o : StormOptions) (rep : Report), rep.Ok → (rep.secs.map Sec.name).Nodup → ∀ s ∈ rep.secs,
  findPropertyResult o rep.text s.name =
    match s.result with
    | some r => .value (operator o.exact o.stateLimit ++ numberText o.exact r.text)
    | none => .notFound

theorem drop_section {p : Text} {s : Sec} (hp : s.name = p) : ∀ {ss : List Sec}, (ss.map Sec.name).Nodup → s ∈ ss →
    ∃ rest, ss.dropWhile (fun s => decide (s.name ≠ p)) = s :: rest
  | x :: xs, hnd, hm => by
    by_cases hx : x.name = p
    · refine ⟨xs, ?_⟩
      rw [List.dropWhile_cons_of_neg (by simp [hx])]
      rcases List.mem_cons.1 hm with rfl | hm
      · rfl
      · rw [List.map_cons, List.nodup_cons] at hnd
        exact absurd (List.mem_map.2 ⟨s, hm, hp.trans hx.symm⟩) hnd.1
    · rw [List.dropWhile_cons_of_pos (by simp [hx])]
      refine drop_section hp (List.nodup_cons.1 hnd).2 ((List.mem_cons.1 hm).resolve_left ?_)
      rintro rfl
      exact hx hp

/-- It holds for properties that have a result, or if the section is the last one, in particular if Storm checks one property only. -/
theorem C85_own_partial (o : StormOptions) {rep : Report} (h : rep.Ok) (hnd : (rep.secs.map Sec.name).Nodup) {s : Sec} (hs : s ∈ rep.secs)
    (hr : s.result ≠ none ∨ rep.secs.getLast? = some s) :
    findPropertyResult o rep.text s.name =
      match s.result with
      | some r => .value (operator o.exact o.stateLimit ++ numberText o.exact r.text)
      | none => .notFound := by
  have hok := h.secs s hs
  rw [C85_found o h hok.name.2 hok.name.1.line]
  obtain ⟨rest, hd⟩ := drop_section rfl hnd hs
  rw [hd, List.findSome?_cons]
  cases hres : s.result with
  | some r => rfl
  | none =>
    rcases hr with hr | hr
    · exact absurd hres hr
    · have hrest : rest = [] := by
        have hsuf : (s :: rest) <:+ rep.secs := hd ▸ List.dropWhile_suffix _
        obtain ⟨pre, hpre⟩ := hsuf
        by_contra hne
        have hl : rep.secs.getLast? = rest.getLast? := by
          rw [← hpre, List.getLast?_append, List.getLast?_cons]
          cases hx : rest.getLast? with
          | none => exact absurd (List.getLast?_eq_none_iff.1 hx) hne
          | some x => simp
        rw [hr] at hl
        have hmem : s ∈ rest := List.mem_of_getLast? hl.symm
        rw [← hpre, List.map_append, List.nodup_append] at hnd
        have := hnd.2.1
        rw [List.map_cons, List.nodup_cons] at this
        exact this.1 (List.mem_map.2 ⟨s, hmem, rfl⟩)
      rw [hrest]
      rfl

theorem readAnswer_ok (o : StormOptions) (w : WhichStorm) (ps : List Text) {out : Text} (h : out ≠ []) :
    readAnswer o w ps (.exit (some 0) out) = .ok ⟨out.takeWhile (· ≠ '\n'), ps.map fun p => (p, findPropertyResult o out p)⟩ := by
  simp [readAnswer, version, h]

/-- What is shown for a procedure: Storm's result for the property `reward`. -/
theorem C85_reward (o : StormOptions) (w : WhichStorm) {intro : List Text} {s : Sec} (h : (Report.mk intro [s]).Ok) (hname : s.name = "reward".toList) :
    toDiag (readAnswer o w ["reward".toList] (.exit (some 0) (Report.mk intro [s]).text)) =
      some (match s.result with
        | some r => .reward (operator o.exact o.stateLimit ++ numberText o.exact r.text)
        | none => .notFound) := by
  have hne : (Report.mk intro [s]).text ≠ [] := by
    intro he
    have := congrArg List.length he
    simp only [Report.text, Sec.text, Sec.header, lines, List.flatMap_cons, List.flatMap_nil, List.length_append, List.length_cons,
      List.length_nil, List.append_nil] at this
    omega
  have hv := C85_own_partial o h (s := s) (by simp) (by simp) (.inr rfl)
  have hl : ∀ v : StormValue, [("reward".toList, v)].lookup rewardName = some v := by
    intro v
    rw [List.lookup_cons]
    have : (rewardName == "reward".toList) = true := by decide
    rw [this]
  rw [readAnswer_ok o w _ hne]
  rw [hname] at hv
  simp only [toDiag, List.map_cons, List.map_nil, hl]
  rw [hv]
  cases s.result <;> rfl

/-- A value is shown only if Storm succeeded. -/
theorem C85_success (o : StormOptions) (w : WhichStorm) (a : Answer) (t : Text) (h : toDiag (readAnswer o w ["reward".toList] a) = some (.reward t)) :
    ∃ out, a = .exit (some 0) out ∧ findPropertyResult o out "reward".toList = .value t := by
  have hl : ∀ v : StormValue, [("reward".toList, v)].lookup rewardName = some v := by
    intro v
    rw [List.lookup_cons]
    have : (rewardName == "reward".toList) = true := by decide
    rw [this]
  cases a with
  | io => cases h
  | exit code out =>
    by_cases hc : code = some 0
    · subst hc
      refine ⟨out, rfl, ?_⟩
      by_cases ho : out = []
      · subst ho
        simp [readAnswer, version, toDiag] at h
      · rw [readAnswer_ok o w _ ho] at h
        simp only [toDiag, List.map_cons, List.map_nil, hl] at h
        cases hf : findPropertyResult o out "reward".toList with
        | value s => rw [hf] at h; simp only [Option.some.injEq, StormDiag.reward.injEq] at h; rw [h]
        | notFound => rw [hf] at h; simp at h
        | noInitialState => rw [hf] at h; simp at h
    · exfalso
      simp only [readAnswer] at h
      rw [if_pos hc] at h
      split at h
      · cases h
      · split at h
        · split at h
          · cases h
          · simp only [toDiag, List.map_cons, List.map_nil, hl] at h
            cases h
        · split at h
          · split at h <;> cases h
          · cases h

/-! ## A concrete report -/

theorem plain_of {s : Text} (h1 : '\n' ∉ s) (h2 : from_ sectionText s = none) (h3 : from_ resultText s = none) : Plain s :=
  ⟨h1, without_of_from h2, without_of_from h3⟩

/-- `1/3 (approx. 0.33)` -/
def thirdResult : Result := ⟨"1/3".toList, some "0.33".toList⟩

theorem third_ok : thirdResult.Ok := ⟨by decide, by decide, without_of_from (by decide)⟩

/-- The output about `reward`. -/
def rewardSec : Sec := ⟨"reward".toList, ": R[C]=? ...".toList, [], some thirdResult, ["Time for model checking: 0.000s.".toList]⟩

theorem rewardSec_ok : rewardSec.Ok where
  name := ⟨plain_of (by decide) (by decide) (by decide), by decide⟩
  formula := plain_of (by decide) (by decide) (by decide)
  before := by intro l hl; cases hl
  result := by intro r hr; cases hr; exact third_ok
  after := by
    intro l hl
    rw [List.mem_singleton.1 hl]
    exact plain_of (by decide) (by decide) (by decide)

/-- A property for which Storm has no result. -/
def failSec : Sec := ⟨"other".toList, ": ...".toList, ["ERROR".toList], none, []⟩

theorem failSec_ok : failSec.Ok where
  name := ⟨plain_of (by decide) (by decide) (by decide), by decide⟩
  formula := plain_of (by decide) (by decide) (by decide)
  before := by
    intro l hl
    rw [List.mem_singleton.1 hl]
    exact plain_of (by decide) (by decide) (by decide)
  result := by intro r hr; cases hr
  after := by intro l hl; cases hl

def exactOptions : StormOptions := ⟨none, some .path, true, none, none, none⟩

/-- The result of the next property is returned for a property without result. -/
theorem C85_not_full : ¬ C85_full := by
  intro h
  have hok : (Report.mk ["Storm 1.9".toList] [failSec, rewardSec]).Ok := by
    refine ⟨?_, ?_⟩
    · intro l hl
      rw [List.mem_singleton.1 hl]
      exact plain_of (by decide) (by decide) (by decide)
    · intro s hs
      rcases List.mem_cons.1 hs with rfl | hs
      · exact failSec_ok
      · rw [List.mem_singleton.1 hs]; exact rewardSec_ok
  have h1 := h exactOptions _ hok (by decide) failSec (by simp)
  rw [C85_found exactOptions hok (by decide) (by decide)] at h1
  have h2 : (([failSec, rewardSec].dropWhile fun s => decide (s.name ≠ failSec.name)).findSome? Sec.result) = some thirdResult := by
    rw [List.dropWhile_cons_of_neg (by simp)]; rfl
  rw [h2] at h1
  cases h1

/-- For the property `reward` alone, `1/3` is shown. -/
example : toDiag (readAnswer exactOptions .path ["reward".toList] (.exit (some 0) (Report.mk ["Storm 1.9".toList] [rewardSec]).text)) =
    some (.reward (['0', '.', '3', Smt.overline] ++ " (1/3)".toList)) := by
  rw [C85_reward exactOptions .path ⟨fun l hl => by rw [List.mem_singleton.1 hl]; exact plain_of (by decide) (by decide) (by decide),
    fun s hs => by rw [List.mem_singleton.1 hs]; exact rewardSec_ok⟩ rfl]
  with_unfolding_all rfl

/-! ## Arguments -/

/-- The whole seconds of the smaller one of the two timeouts, if there is one. -/
theorem C85_timeout (left : Option Dur) (specific : Option ℕ) : (stormTimeout left specific).map Dur.secs =
    match left, specific with
    | none, none => none
    | some d, none => some d.secs
    | none, some s => some s
    | some d, some s => some (min d.secs s) := by
  cases left with
  | none => cases specific <;> rfl
  | some d =>
    cases specific with
    | none => rfl
    | some s =>
      simp only [stormTimeout, Option.bind_some, Option.map_some, Option.some_or, Option.some.injEq, Dur.min]
      split
      · show d.secs = min d.secs s
        omega
      · show s = min d.secs s
        omega

/-- The timeout leaves time if there is some. -/
def C85_timeout_full : Prop := ∀ (o : StormOptions) (l : Limits) (d : Dur), l.left = some d → d.secs ≠ 0 ∨ d.nanos ≠ 0 → o.timeout = none →
  ∀ file ps s, Settings.read {} (stormArgs o l file ps) = some s → s.timeout ≠ some ['0']

theorem read_exact (s : Settings) (as : List Text) : Settings.read s ("--exact".toList :: as) = Settings.read { s with exact := true } as := by
  cases as <;> rfl

/-- Storm is run with exactly the settings that were asked for. -/
theorem C85_settings (o : StormOptions) (l : Limits) (file : Text) (ps : List Text) : Settings.read {} (stormArgs o l file ps) =
    some { timeout := (stormTimeout l.left o.timeout).map fun t => natText t.secs, exact := o.exact, stateLimit := o.stateLimit.map natText,
           constants := o.constants, sound := true, jani := some file, props := some (joinComma ps) } := by
  have tail : ∀ s : Settings, Settings.read s ["--sound".toList, "--jani".toList, file, "-jprop".toList, joinComma ps] =
      some { s with sound := true, jani := some file, props := some (joinComma ps) } := fun s => rfl
  have c4 : ∀ s : Settings, s.constants = none → Settings.read s ((match o.constants with | some c => ["--constants".toList, c] | none => []) ++
      ["--sound".toList, "--jani".toList, file, "-jprop".toList, joinComma ps]) =
      some { s with constants := o.constants, sound := true, jani := some file, props := some (joinComma ps) } := by
    intro s hs
    cases o.constants with
    | none => rw [List.nil_append, tail, ← hs]
    | some c => rfl
  have c3 : ∀ s : Settings, s.constants = none → s.stateLimit = none →
      Settings.read s ((match o.stateLimit with | some n => ["--state-limit".toList, natText n] | none => []) ++
        ((match o.constants with | some c => ["--constants".toList, c] | none => []) ++
        ["--sound".toList, "--jani".toList, file, "-jprop".toList, joinComma ps])) =
      some { s with stateLimit := o.stateLimit.map natText, constants := o.constants, sound := true, jani := some file, props := some (joinComma ps) } := by
    intro s hs hl
    cases o.stateLimit with
    | none => rw [List.nil_append, c4 s hs, Option.map_none, ← hl]
    | some n => exact c4 { s with stateLimit := some (natText n) } hs
  have c2 : ∀ s : Settings, s.constants = none → s.stateLimit = none → s.exact = false →
      Settings.read s ((if o.exact then ["--exact".toList] else []) ++ ((match o.stateLimit with | some n => ["--state-limit".toList, natText n] | none => []) ++
        ((match o.constants with | some c => ["--constants".toList, c] | none => []) ++
        ["--sound".toList, "--jani".toList, file, "-jprop".toList, joinComma ps]))) =
      some { s with exact := o.exact, stateLimit := o.stateLimit.map natText, constants := o.constants, sound := true, jani := some file, props := some (joinComma ps) } := by
    intro s hs hl he
    cases o.exact with
    | false => rw [if_neg (by simp), List.nil_append, c3 s hs hl, ← he]
    | true => exact (read_exact s _).trans (c3 { s with exact := true } hs hl)
  unfold stormArgs
  simp only [List.append_assoc]
  cases stormTimeout l.left o.timeout with
  | none => exact c2 {} rfl rfl rfl
  | some t => exact c2 { timeout := some (natText t.secs) } rfl rfl rfl

/-- Half a second is passed as zero seconds. -/
theorem C85_timeout_not_full : ¬ C85_timeout_full := by
  intro h
  refine h exactOptions ⟨some ⟨0, 500000000⟩, none⟩ ⟨0, 500000000⟩ rfl (.inr (by decide)) rfl [] [] _ (C85_settings _ _ _ _) ?_
  show some (natText 0) = some ['0']
  rw [Smt.natText_digit (by decide)]
  rfl

/-! ## Failures -/

theorem find_isSome (pat s : Text) : (find pat s).isSome = true ↔ ¬ Without pat s := by
  have h := congrArg Option.isSome (find_from pat s)
  rw [Option.isSome_map] at h
  rw [h]
  constructor
  · intro h1 h2
    rw [from_none h2] at h1
    cases h1
  · intro h1
    by_contra h2
    exact h1 (without_of_from (Option.not_isSome_iff_eq_none.1 h2))

theorem strip_append (a b : Text) : strip a (a ++ b) = some b := by
  unfold strip
  rw [if_pos (List.isPrefixOf_iff_prefix.2 (List.prefix_append a b)), List.drop_left]

theorem digits_natText (n : ℕ) (b : Text) : digits (natText n ++ ' ' :: b) = some (natText n, ' ' :: b) := by
  have hd : ∀ c ∈ natText n, isDigit c = true := fun c hc => by
    obtain ⟨d, hd, rfl⟩ := Smt.natText_dig n c hc
    exact decide_eq_true (Smt.digitChar_spec d hd).1
  have h1 : (natText n ++ ' ' :: b).takeWhile isDigit = natText n := by
    rw [List.takeWhile_append_of_pos hd, List.takeWhile_cons_of_neg (by decide), List.append_nil]
  have h2 : (natText n ++ ' ' :: b).dropWhile isDigit = ' ' :: b := by
    rw [List.dropWhile_append_of_pos hd, List.dropWhile_cons_of_neg (by decide)]
  unfold digits
  rw [h1, h2]
  cases h : natText n with
  | nil => exact absurd h (Smt.natText_ne_nil n)
  | cons d ds => rfl

/-- How Storm says that it gave up. -/
def abortText (states seconds : ℕ) : Text :=
  "Explored ".toList ++ (natText states ++ (" states in ".toList ++ (natText seconds ++ " seconds before abort".toList)))

/-- The regular expression with other words. -/
theorem abort_words (a b c : Text) (n t : ℕ) (r : Text) (hb : ∃ b', b = ' ' :: b') (hc : ∃ c', c = ' ' :: c') :
    (do
      let s ← strip a ((a ++ (natText n ++ (b ++ (natText t ++ c)))) ++ r)
      let (n, s) ← digits s
      let s ← strip b s
      let (t, s) ← digits s
      let _ ← strip c s
      some (n, t)) = some (natText n, natText t) := by
  obtain ⟨b, rfl⟩ := hb
  obtain ⟨c, rfl⟩ := hc
  have h1 := strip_append (' ' :: b) (natText t ++ ' ' :: (c ++ r))
  have h2 := strip_append (' ' :: c) r
  simp only [List.append_assoc, strip_append, Option.bind_eq_bind, Option.bind_some, List.cons_append] at h1 h2 ⊢
  simp only [digits_natText, Option.bind_some, h1, h2]

theorem abortAt_text (n t : ℕ) (b : Text) : abortAt (abortText n t ++ b) = some (natText n, natText t) :=
  abort_words _ _ _ n t b ⟨"states in ".toList, by decide⟩ ⟨"seconds before abort".toList, by decide⟩

theorem abortAt_none {s : Text} (h : Without "Explored ".toList s) : abortAt s = none := by
  unfold abortAt strip
  rw [if_neg]
  · rfl
  · intro hp
    obtain ⟨b, hb⟩ := List.isPrefixOf_iff_prefix.1 hp
    exact h [] b hb.symm

theorem without_tail {pat : Text} {c : Char} {s : Text} (h : Without pat (c :: s)) : Without pat s :=
  fun a b hab => h (c :: a) b (by rw [hab]; rfl)

theorem abortIn_none : ∀ {s : Text}, Without "Explored ".toList s → abortIn s = none
  | [], _ => rfl
  | c :: s, h => by
    rw [abortIn, abortAt_none h, abortIn_none (without_tail h)]
    rfl

theorem abortIn_text (n t : ℕ) (b : Text) : ∀ a : Text, (∀ x y, a = x ++ 'E' :: y → False) →
    abortIn (a ++ (abortText n t ++ b)) = some (natText n, natText t)
  | [], _ => by
    have h := abortAt_text n t b
    obtain ⟨r, hr⟩ : ∃ r, abortText n t ++ b = 'E' :: r := ⟨_, rfl⟩
    rw [List.nil_append]
    rw [hr] at h ⊢
    rw [abortIn, h]
    rfl
  | c :: a, ha => by
    have hc : c ≠ 'E' := fun h => ha [] a (by rw [h]; rfl)
    have h1 : abortAt (c :: (a ++ (abortText n t ++ b))) = none := by
      unfold abortAt strip
      rw [if_neg]
      · rfl
      · intro hp
        obtain ⟨r, hr⟩ := List.isPrefixOf_iff_prefix.1 hp
        exact hc (List.cons.inj hr).1.symm
    rw [List.cons_append, abortIn, h1, abortIn_text n t b a fun x y hxy => ha (c :: x) y (by rw [hxy]; rfl)]
    rfl

theorem parseU64_natText {n : ℕ} (h : n < 2 ^ 64) : parseU64 (natText n) = some n := by
  unfold parseU64
  rw [Smt.parseDigits_natText, Option.bind_some, if_pos h]

/-- What is reported when running Storm fails: exit code 125 means that Docker does not run, but only if it is used. Otherwise, missing
initial states and an aborted exploration, with the right numbers, are recognized; everything else is shown as it is. -/
theorem C85_failures (o : StormOptions) (w : WhichStorm) :
    toDiag (readAnswer o w ["reward".toList] .io) = some (.error .io) ∧
    ∀ (code : Option ℤ) (out : Text), code ≠ some 0 →
      (code = some 125 → w ≠ .path → toDiag (readAnswer o w ["reward".toList] (.exit code out)) = some (.error .dockerNotRunning)) ∧
      (code ≠ some 125 ∨ w = .path →
        (¬ Without "The model does not have a single initial state".toList out →
          toDiag (readAnswer o w ["reward".toList] (.exit code out)) = some .noInitialState) ∧
        (Without "The model does not have a single initial state".toList out →
          (∀ states seconds a b, states < 2 ^ 64 → seconds < 2 ^ 64 → 'E' ∉ a → out = a ++ (abortText states seconds ++ b) →
            toDiag (readAnswer o w ["reward".toList] (.exit code out)) = some (.error (.aborted seconds states))) ∧
          (Without "Explored ".toList out →
            toDiag (readAnswer o w ["reward".toList] (.exit code out)) = some (.error (.failed code out))))) := by
  refine ⟨rfl, fun code out hc => ⟨fun h1 h2 => ?_, fun hp => ?_⟩⟩
  · simp only [readAnswer]
    rw [if_pos hc, if_pos ⟨h1, h2⟩]
    rfl
  · have hn : ¬ (code = some 125 ∧ w ≠ .path) := fun h => hp.elim (fun h1 => h1 h.1) fun h1 => h.2 h1
    refine ⟨fun hi => ?_, fun hi => ⟨fun n t a b hn64 ht64 hE ho => ?_, fun hx => ?_⟩⟩
    · simp only [readAnswer]
      rw [if_pos hc, if_neg hn, if_pos ((find_isSome noInitialText _).2 hi)]
      have ho : out ≠ [] := by
        rintro rfl
        exact hi (without_of_from (by decide))
      simp only [version, if_neg ho, toDiag, List.map_cons, List.map_nil]
      have : ("reward".toList, StormValue.noInitialState) = (rewardName, StormValue.noInitialState) := rfl
      rw [this, List.lookup_cons_self]
    · simp only [readAnswer]
      rw [if_pos hc, if_neg hn, if_neg (fun h => (find_isSome noInitialText _).1 h hi), ho,
        abortIn_text n t b a fun x y hxy => hE (by rw [hxy]; simp)]
      simp only [parseU64_natText hn64, parseU64_natText ht64]
      rfl
    · simp only [readAnswer]
      rw [if_pos hc, if_neg hn, if_neg (fun h => (find_isSome noInitialText _).1 h hi), abortIn_none hx]
      rfl

/-- An aborted exploration. -/
example (o : StormOptions) : toDiag (readAnswer o .path ["reward".toList] (.exit (some 125) (abortText 7 3 ++ ['\n']))) =
    some (.error (.aborted 3 7)) := by
  refine ((((C85_failures o .path).2 (some 125) _ (by decide)).2 (.inr rfl)).2 (without_of_from ?_)).1 7 3 [] ['\n'] (by decide) (by decide)
    (by decide) rfl
  unfold abortText
  rw [Smt.natText_digit (by decide), Smt.natText_digit (by decide)]
  decide

/-! ## Panics -/

/-- Storm's answers are read without panics, except for an empty output and numbers that do not fit into 64 bits. -/
theorem C85_no_panic (o : StormOptions) (w : WhichStorm) (a : Answer) (h : toDiag (readAnswer o w ["reward".toList] a) = none) :
    a = .exit (some 0) [] ∨ ∃ code out n t, a = .exit code out ∧ abortIn out = some (n, t) ∧ (parseU64 n = none ∨ parseU64 t = none) := by
  have hl : ∀ v : StormValue, [("reward".toList, v)].lookup rewardName = some v := by
    intro v
    rw [List.lookup_cons]
    have : (rewardName == "reward".toList) = true := by decide
    rw [this]
  cases a with
  | io => cases h
  | exit code out =>
    by_cases hc : code = some 0
    · subst hc
      by_cases ho : out = []
      · exact .inl (by rw [ho])
      · rw [readAnswer_ok o w _ ho] at h
        simp only [toDiag, List.map_cons, List.map_nil, hl] at h
        cases hf : findPropertyResult o out "reward".toList <;> rw [hf] at h <;> cases h
    · right
      simp only [readAnswer] at h
      rw [if_pos hc] at h
      split at h
      · cases h
      · split at h
        · next hi =>
          split at h
          · next hv =>
            have : out = [] := by
              by_contra ho
              simp [version, ho] at hv
            subst this
            exact absurd hi (by decide)
          · simp only [toDiag, List.map_cons, List.map_nil, hl] at h
            cases h
        · split at h
          · next n t hab =>
            split at h
            · cases h
            · next hx =>
              refine ⟨code, out, n, t, rfl, hab, ?_⟩
              by_contra hh
              rw [not_or] at hh
              obtain ⟨x, hx1⟩ := Option.ne_none_iff_exists'.1 hh.1
              obtain ⟨y, hy1⟩ := Option.ne_none_iff_exists'.1 hh.2
              exact hx x y hx1 hy1
          · cases h

/-- A successful run without output is a panic. -/
theorem C85_panics : toDiag (readAnswer exactOptions .path ["reward".toList] (.exit (some 0) [])) = none := rfl

/-! ## Limits on the number of states -/

section
variable [JOps]

theorem stepsIn_le {A : JAutomaton} (π : Scheduler A) (K : Loc → JState → Prop) : ∀ n h l s, π.stepsIn K n h l s ≤ π.steps n h l s
  | 0, _, _, _ => le_refl _
  | n + 1, h, l, s => by
    rw [Scheduler.stepsIn, Scheduler.steps]
    by_cases he : A.enabled l s = []
    · rw [if_pos (.inr he), if_pos he]
    · rw [if_neg he]
      by_cases hk : K l s
      · rw [if_neg (by simp [hk, he])]
        refine add_le_add (le_refl _) ?_
        unfold JEdge.expect
        refine List.sum_le_sum fun d _ => ?_
        exact mul_le_mul_right (add_le_add (le_refl _) (stepsIn_le π K n _ _ _)) _
      · rw [if_pos (.inl hk)]
        exact bot_le

/-- Exploring only some of the states gives a lower bound, for minimal and for maximal rewards. Hence `≥` in front of exact results. -/
theorem C85_state_limit (A : JAutomaton) (K : Loc → JState → Prop) (d : Dir) (l : Loc) (s : JState) : A.valueIn K d l s ≤ A.value d l s := by
  have h : ∀ π : Scheduler A, ⨆ n, π.stepsIn K n [] l s ≤ π.total l s := fun π => iSup_mono fun n => stepsIn_le π K n [] l s
  cases d with
  | down => exact iInf_mono h
  | up => exact iSup_mono h

/-- If all the states are explored, the value is the one of the model. -/
theorem C85_all_states (A : JAutomaton) (d : Dir) (l : Loc) (s : JState) : A.valueIn (fun _ _ => True) d l s = A.value d l s := by
  have h : ∀ (π : Scheduler A) n h l s, π.stepsIn (fun _ _ => True) n h l s = π.steps n h l s := by
    intro π n
    induction n with
    | zero => intros; rfl
    | succ n ih =>
      intro h l s
      rw [Scheduler.stepsIn, Scheduler.steps]
      by_cases he : A.enabled l s = []
      · rw [if_pos (.inr he), if_pos he]
      · rw [if_neg (by simp [he]), if_neg he]
        simp only [ih]
  cases d <;> simp only [JAutomaton.valueIn, JAutomaton.value, Scheduler.total, h]

end

/-- The relation in front of the result: none for exact results, a lower bound if the number of states is limited, and approximations
for inexact results. -/
theorem C85_operator (exact : Bool) (limit : Option ℕ) :
    (operator exact limit = [] ↔ exact = true ∧ limit = none) ∧
    (operator exact limit = "≥ ".toList ↔ exact = true ∧ limit ≠ none) ∧
    (operator exact limit = "≈ ".toList ↔ exact = false ∧ limit = none) ∧
    (operator exact limit = "⪆ ".toList ↔ exact = false ∧ limit ≠ none) := by
  have h1 : "≥ ".toList ≠ [] ∧ "⪆ ".toList ≠ [] ∧ "≈ ".toList ≠ [] ∧ "≥ ".toList ≠ "⪆ ".toList ∧ "≥ ".toList ≠ "≈ ".toList ∧
    "≈ ".toList ≠ "⪆ ".toList := by decide
  obtain ⟨a, b, c, d, e, f⟩ := h1
  have g : "⪆ ".toList ≠ "≥ ".toList ∧ "≈ ".toList ≠ "≥ ".toList ∧ "⪆ ".toList ≠ "≈ ".toList ∧ [] ≠ "≥ ".toList ∧ [] ≠ "⪆ ".toList ∧
      [] ≠ "≈ ".toList := ⟨d.symm, e.symm, f.symm, a.symm, b.symm, c.symm⟩
  obtain ⟨g1, g2, g3, g4, g5, g6⟩ := g
  revert a b c d e f g1 g2 g3 g4 g5 g6
  unfold operator
  generalize "≥ ".toList = u
  generalize "⪆ ".toList = v
  generalize "≈ ".toList = w
  intro a b c d e f g1 g2 g3 g4 g5 g6
  cases exact <;> cases limit <;> simp_all

/-! ## Units -/

section
variable {M E : Type} (o : StormOptions) (limits : ℕ → Limits) (storm : Cmd → Option M → Answer)

/-- What should be reported at the unit with number `n`: errors of the export, and Storm's answer for the model of this procedure. -/
def reportFor (dir : Text) (n : ℕ) : McUnit M E → Option (McDiag E)
  | .proc _ (.error e) => some (.export e)
  | .proc name (.ok m) => match o.run with
    | none => none
    | some w => (toDiag (readAnswer o w ["reward".toList]
        (storm (stormCmd o w (limits n) dir (name ++ ".jani".toList) ["reward".toList]) (some m)))).map .storm
  | .decl _ => none
  | .raw => none

theorem checkUnit_reports (dir : Text) (n : ℕ) (fs : Files M) (u : McUnit M E) (d : Option (McDiag E))
    (h : (checkUnit o limits storm (some dir) n fs u).2 = some d) : d = reportFor o limits storm dir n u := by
  cases u with
  | decl name => exact (Option.some.inj h).symm
  | raw => cases h
  | proc name model =>
    cases model with
    | error e => exact (Option.some.inj h).symm
    | ok m =>
      simp only [checkUnit, reportFor] at h ⊢
      cases hr : o.run with
      | none => rw [hr] at h; exact (Option.some.inj h).symm
      | some w =>
        rw [hr] at h
        simp only [Function.update_self] at h
        obtain ⟨x, hx, rfl⟩ := Option.map_eq_some_iff.1 h
        have hx' : toDiag (readAnswer o w ["reward".toList]
          (storm (stormCmd o w (limits n) dir (name ++ ".jani".toList) ["reward".toList]) (some m))) = some x := hx
        simp only [hx', Option.map_some]

theorem checkUnits_cons (dir : Option Text) (n : ℕ) (fs : Files M) (u : McUnit M E) (us : List (McUnit M E)) :
    checkUnits o limits storm dir n fs (u :: us) =
      match (checkUnit o limits storm dir n fs u).2 with
      | none => ((checkUnit o limits storm dir n fs u).1, [], .panic)
      | some d =>
        let r := checkUnits o limits storm dir (n + 1) (checkUnit o limits storm dir n fs u).1 us
        (r.1, (match d with | some d => [(n, d)] | none => []) ++ r.2.1, r.2.2) := by
  rw [checkUnits]
  rcases checkUnit o limits storm dir n fs u with ⟨fs', _ | d⟩ <;> rfl

theorem checkUnits_reports (dir : Text) : ∀ (us : List (McUnit M E)) (n : ℕ) (fs : Files M),
    (checkUnits o limits storm (some dir) n fs us).2.2 = .done →
    (checkUnits o limits storm (some dir) n fs us).2.1 =
      (us.zipIdx n).filterMap fun u => (reportFor o limits storm dir u.2 u.1).map fun d => (u.2, d)
  | [], _, _, _ => rfl
  | u :: us, n, fs, h => by
    rw [checkUnits_cons] at h ⊢
    rw [List.zipIdx_cons, List.filterMap_cons]
    cases hd : (checkUnit o limits storm (some dir) n fs u).2 with
    | none => rw [hd] at h; cases h
    | some d =>
      rw [hd] at h
      have hr := checkUnit_reports o limits storm dir n fs u d hd
      have ih := checkUnits_reports dir us (n + 1) _ h
      simp only
      rw [ih, ← hr]
      cases d <;> rfl

/-- The files after the loop: those of the last procedures with these names. -/
theorem checkUnits_files (dir : Text) : ∀ (us : List (McUnit M E)) (n : ℕ) (fs : Files M),
    (checkUnits o limits storm (some dir) n fs us).2.2 = .done → ∀ path,
    (checkUnits o limits storm (some dir) n fs us).1 path =
      us.foldl (fun f u => match u with
        | .proc name (.ok m) => if path = name ++ ".jani".toList then some m else f
        | _ => f) (fs path)
  | [], _, _, _, _ => rfl
  | u :: us, n, fs, h, path => by
    rw [checkUnits_cons] at h ⊢
    cases hd : (checkUnit o limits storm (some dir) n fs u).2 with
    | none => rw [hd] at h; cases h
    | some d =>
      rw [hd] at h
      simp only
      rw [checkUnits_files dir us (n + 1) _ h path, List.foldl_cons]
      congr 1
      cases u with
      | decl name => rfl
      | raw => rfl
      | proc name model =>
        cases model with
        | error e => rfl
        | ok m =>
          have : ∀ f : Files M, Function.update f (janiFile name) (some m) path = if path = name ++ ".jani".toList then some m else f path := by
            intro f
            rw [Function.update_apply]
            rfl
          simp only [checkUnit]
          cases o.run <;> exact this fs

/-- The directory of the files: the given one, or a temporary one if Storm is run. -/
def dirOf (temp : Text) : Option Text := o.janiDir.or (if o.run.isSome then some temp else none)

/-- If the command ends without panic, the diagnostics are, in the order of the units, the errors of the export and what Storm
answers for the model of this very procedure. -/
theorem C85_units (temp : Text) (isCommand : Bool) (us : List (McUnit M E)) (dir : Text) (hdir : dirOf o temp = some dir)
    (h : (runModelChecking o limits storm temp isCommand us).2.2 = .done) :
    (runModelChecking o limits storm temp isCommand us).2.1 =
      us.zipIdx.filterMap fun u => (reportFor o limits storm dir u.2 u.1).map fun d => (u.2, d) := by
  unfold runModelChecking at h ⊢
  unfold dirOf at hdir
  cases hj : o.janiDir with
  | some d =>
    rw [hj] at h hdir
    cases hdir
    exact checkUnits_reports o limits storm _ us 0 _ h
  | none =>
    rw [hj] at h hdir
    simp only [Option.none_or] at hdir
    have hrun : ¬ (isCommand ∧ o.run = none) := by
      rintro ⟨_, hr⟩
      rw [hr] at hdir
      simp at hdir
    simp only [if_neg hrun, hdir] at h ⊢
    exact checkUnits_reports o limits storm dir us 0 _ h

/-- Nothing is done without directory and Storm: the command is an error, other commands go on. -/
theorem C85_nothing (temp : Text) (isCommand : Bool) (us : List (McUnit M E)) (hdir : dirOf o temp = none) :
    (runModelChecking o limits storm temp isCommand us).2.1 = [] ∧
    (runModelChecking o limits storm temp isCommand us).2.2 = if isCommand then .userError else .done := by
  unfold runModelChecking
  unfold dirOf at hdir
  rw [Option.or_eq_none_iff] at hdir
  obtain ⟨hj, hr⟩ := hdir
  have hr : o.run = none := by
    cases hx : o.run with
    | none => rfl
    | some w => rw [hx] at hr; simp at hr
  rw [hj]
  cases isCommand with
  | true => simp [hr]
  | false =>
    have : ∀ (us : List (McUnit M E)) (n : ℕ) (fs : Files M), (checkUnits o limits storm none n fs us).2.1 = [] ∧
        (checkUnits o limits storm none n fs us).2.2 = .done := by
      intro us
      induction us with
      | nil => intro n fs; exact ⟨rfl, rfl⟩
      | cons u us ih =>
        intro n fs
        rw [checkUnits_cons]
        cases u <;> exact ih (n + 1) fs
    simpa [hr] using this us 0 _

theorem foldl_skip {path : Text} : ∀ (us : List (McUnit M E)) (x : Option M), (∀ u ∈ us, ∀ name m, u = .proc name (.ok m) → path ≠ name ++ ".jani".toList) →
    us.foldl (fun f u => match u with
        | .proc name (.ok m) => if path = name ++ ".jani".toList then some m else f
        | _ => f) x = x
  | [], _, _ => rfl
  | u :: us, x, h => by
    rw [List.foldl_cons]
    have ih := foldl_skip us x fun v hv => h v (by simp [hv])
    cases u with
    | decl name => exact ih
    | raw => exact ih
    | proc name model =>
      cases model with
      | error e => exact ih
      | ok m =>
        simp only
        rw [if_neg (h _ (by simp) name m rfl)]
        exact ih

/-- The names of the declarations. -/
def McUnit.declName : McUnit M E → Option Text
  | .proc name _ => some name
  | .decl name => some name
  | .raw => none

/-- If the procedures have different names, then afterwards there is a file for each procedure, with its model. -/
theorem C85_files (temp : Text) (isCommand : Bool) (us : List (McUnit M E)) (dir : Text) (hdir : dirOf o temp = some dir)
    (h : (runModelChecking o limits storm temp isCommand us).2.2 = .done) (hnd : (us.filterMap McUnit.declName).Nodup)
    {name : Text} {m : M} (hu : McUnit.proc name (.ok m) ∈ us) :
    (runModelChecking o limits storm temp isCommand us).1 (name ++ ".jani".toList) = some m := by
  have key : ∀ fs : Files M, (checkUnits o limits storm (some dir) 0 fs us).2.2 = .done →
      (checkUnits o limits storm (some dir) 0 fs us).1 (name ++ ".jani".toList) = some m := by
    intro fs hd
    rw [checkUnits_files o limits storm dir us 0 fs hd]
    obtain ⟨a, b, rfl⟩ := List.append_of_mem hu
    rw [List.foldl_append, List.foldl_cons]
    simp only [if_true]
    refine foldl_skip b _ fun v hv name' m' he hp => ?_
    subst he
    have hname : name = name' := List.append_cancel_right hp
    subst hname
    rw [List.filterMap_append, List.filterMap_cons] at hnd
    simp only [McUnit.declName] at hnd
    have h2 := (List.nodup_append.1 hnd).2.1
    rw [List.nodup_cons] at h2
    exact h2.1 (List.mem_filterMap.2 ⟨_, hv, rfl⟩)
  unfold runModelChecking at h ⊢
  unfold dirOf at hdir
  cases hj : o.janiDir with
  | some d =>
    rw [hj] at h hdir
    cases hdir
    exact key _ h
  | none =>
    rw [hj] at h hdir
    simp only [Option.none_or] at hdir
    have hrun : ¬ (isCommand ∧ o.run = none) := by
      rintro ⟨_, hr⟩
      rw [hr] at hdir
      simp at hdir
    simp only [if_neg hrun, hdir] at h ⊢
    exact key _ h

end

/-- Two procedures and a function: their results are reported at the procedures. -/
example : (runModelChecking (E := Unit) exactOptions (fun _ => ⟨none, none⟩)
      (fun _ m => match m with | some (0 : ℕ) => .io | _ => .exit (some 0) (Report.mk ["Storm 1.9".toList] [rewardSec]).text)
      "/tmp/x".toList true [.proc ['f'] (.ok 0), .decl ['g'], .proc ['h'] (.ok 1)]).2 =
    ([(0, .storm (.error .io)), (2, .storm (.reward (['0', '.', '3', Smt.overline] ++ " (1/3)".toList)))], .done) := by
  with_unfolding_all rfl

end Caesar.Mc
