import Verif.Driver.Smtlib
import Verif.Props.C71

/-!
# C89: Files with the queries to the solver
-/

namespace Caesar.Driver.Query

/-! ## Specification -/

/-- What a reader of SMT-LIB is in: code, a comment, a string, or a quoted symbol. -/
inductive SmtMode where
  | code | comment | str | sym
  deriving DecidableEq

/-- How a character changes it. -/
def SmtMode.next : SmtMode → Char → SmtMode
  | .code, c => if c = ';' then .comment else if c = '"' then .str else if c = '|' then .sym else .code
  | .comment, c => if c = '\n' then .code else .comment
  | .str, c => if c = '"' then .code else .str
  | .sym, c => if c = '|' then .code else .sym

/-- How a text changes it. -/
def SmtMode.after (m : SmtMode) (t : FText) : SmtMode := t.foldl SmtMode.next m

/-- The text without comments. -/
def codeOf : SmtMode → FText → FText
  | _, [] => []
  | m, c :: cs => if m.next c = .comment then codeOf .comment cs else c :: codeOf (m.next c) cs

/-- Lines, each ended by a line feed. -/
def linesText (ls : List FText) : FText := (ls.map (· ++ ['\n'])).flatten

/-- The lines of the header. -/
def headerLines (i : CommandInfo) (n : UnitName) (r : Option Answer) : List FText :=
  ["Command: ".toList ++ i.command, "Caesar version: ".toList ++ i.version, "Features: ".toList ++ i.features, [],
    "Profile: ".toList ++ i.profile, "Target: ".toList ++ i.target, "Build date: ".toList ++ i.date,
    "Build host: ".toList ++ i.host ++ (i.ci.elim [] fun c => " (".toList ++ c ++ [')']), [],
    "Z3 version: ".toList ++ i.z3, "Operating system: ".toList ++ i.os, [],
    "Source unit: ".toList ++ n.text] ++ (r.elim [] fun r => ["Prove result: ".toList ++ r.text])

/-- The question for details that goes with an answer. -/
def detailsText : Option Answer → FText
  | some .counterexample => "\n(get-model)\n".toList
  | some (.unknown _) => "\n(get-info :reason-unknown)\n".toList
  | _ => []

/-- A relative path whose segments are names (not empty, `.` or `..`), and a declaration named by an identifier. -/
def UnitName.Plain (n : UnitName) : Prop :=
  (∀ s ∈ segments n.shortPath, s ≠ [] ∧ s ≠ ['.'] ∧ s ≠ ['.', '.']) ∧ ∃ d, n.declName = some d ∧ '/' ∉ d ∧ ':' ∉ d

/-- A relative path, and a declaration named by an identifier. -/
def UnitName.Relative (n : UnitName) : Prop :=
  n.shortPath.head? ≠ some '/' ∧ ∃ d, n.declName = some d ∧ '/' ∉ d ∧ ':' ∉ d

/-- The answer that is known when the file of a unit is written last. -/
def QueryUnit.reported (noVerify : Bool) (u : QueryUnit) : Option Answer := if noVerify then none else u.answer

/-- What the file of a unit should contain. -/
def QueryUnit.file (globals : Params) (raco : Option (FText → Option FText)) (i : CommandInfo) (noVerify : Bool) (u : QueryUnit) : FText :=
  headerText i u.name (u.reported noVerify) ++ queryText globals (getSmtlib globals raco u.solver) (u.reported noVerify)

/-! ## Comments -/

theorem codeOf_append (m : SmtMode) (a b : FText) : codeOf m (a ++ b) = codeOf m a ++ codeOf (m.after a) b := by
  induction a generalizing m with
  | nil => rfl
  | cons c a ih =>
    simp only [List.cons_append, codeOf, SmtMode.after, List.foldl_cons]
    split
    · rename_i h; rw [ih, h]; rfl
    · rw [ih]; rfl

theorem after_append (m : SmtMode) (a b : FText) : m.after (a ++ b) = (m.after a).after b := List.foldl_append

/-- The prefix at the start of each line, character by character. -/
def prefixed (pre : FText) : Bool → FText → FText
  | _, [] => []
  | s, c :: cs => (if s then pre else []) ++ c :: prefixed pre (decide (c = '\n')) cs

/-- Whether the next character starts a line. -/
def endsLine (s : Bool) (t : FText) : Bool := t.foldl (fun _ c => decide (c = '\n')) s

theorem prefixed_append (pre : FText) (s : Bool) (a b : FText) :
    prefixed pre s (a ++ b) = prefixed pre s a ++ prefixed pre (endsLine s a) b := by
  induction a generalizing s with
  | nil => rfl
  | cons c a ih => simp only [List.cons_append, prefixed, ih, endsLine, List.foldl_cons, List.append_assoc]

theorem splitInclusive_flatten (t : FText) : (splitInclusive t).flatten = t := by
  induction t with
  | nil => rfl
  | cons c t ih =>
    simp only [splitInclusive]
    split
    · simp [ih]
    · split
      · rename_i h; rw [h] at ih; simp at ih; simp [ih]
      · rename_i h; rw [h] at ih; simpa using ih

/-- A line: no line feed but at the end. -/
def OneLine (l : FText) : Prop := ∃ c l', l = l' ++ [c] ∧ '\n' ∉ l'

theorem splitInclusive_oneLine (t : FText) : ∀ l ∈ splitInclusive t, OneLine l := by
  induction t with
  | nil => intro l h; cases h
  | cons c t ih =>
    simp only [splitInclusive]
    split
    · intro l hl
      rcases List.mem_cons.mp hl with rfl | hl
      · exact ⟨c, [], rfl, by simp⟩
      · exact ih l hl
    · rename_i hc
      split
      · intro l hl
        rcases List.mem_cons.mp hl with rfl | hl
        · exact ⟨c, [], rfl, by simp⟩
        · cases hl
      · rename_i l₀ ls h
        intro l hl
        rcases List.mem_cons.mp hl with rfl | hl
        · obtain ⟨e, l', rfl, hn⟩ := ih l₀ (by rw [h]; simp)
          exact ⟨e, c :: l', rfl, by simp [hn, Ne.symm hc]⟩
        · exact ih l (by rw [h]; simp [hl])

theorem prefixed_plain (pre : FText) (l : FText) (h : '\n' ∉ l) (c : Char) : prefixed pre false (l ++ [c]) = l ++ [c] := by
  induction l with
  | nil => rfl
  | cons d l ih =>
    simp only [List.mem_cons, not_or] at h
    have hd : decide (d = '\n') = false := by simpa using Ne.symm h.1
    simp only [List.cons_append, prefixed, hd, ih h.2]
    rfl

theorem prefixed_oneLine (pre : FText) (s : Bool) (l : FText) (h : OneLine l) :
    prefixed pre s l = (if s then pre else []) ++ l ∧ endsLine s l = decide (l.getLast? = some '\n') := by
  obtain ⟨c, l', rfl, hn⟩ := h
  constructor
  · cases l' with
    | nil => rfl
    | cons d l' =>
      simp only [List.mem_cons, not_or] at hn
      have hd : decide (d = '\n') = false := by simpa using Ne.symm hn.1
      simp only [List.cons_append, prefixed, hd, prefixed_plain pre l' hn.2]
  · simp [endsLine, List.foldl_append]

theorem endsLine_append (s : Bool) (a b : FText) : endsLine s (a ++ b) = endsLine (endsLine s a) b := List.foldl_append

theorem write_eq (pre : FText) (w : PrefixWriter) (t : FText) :
    w.write pre t = ⟨endsLine w.lineStart t, w.out ++ prefixed pre w.lineStart t⟩ := by
  unfold PrefixWriter.write
  have key : ∀ (ls : List FText) (w : PrefixWriter), (∀ l ∈ ls, OneLine l) →
      ls.foldl (fun w line => (⟨decide (line.getLast? = some '\n'), w.out ++ (if w.lineStart then pre else []) ++ line⟩ : PrefixWriter)) w =
        ⟨endsLine w.lineStart ls.flatten, w.out ++ prefixed pre w.lineStart ls.flatten⟩ := by
    intro ls
    induction ls with
    | nil => intro w _; simp [endsLine, prefixed]
    | cons l ls ih =>
      intro w h
      have hl := prefixed_oneLine pre w.lineStart l (h l (by simp))
      rw [List.foldl_cons, ih _ (fun l' h' => h l' (by simp [h']))]
      simp only [List.flatten_cons, endsLine_append, prefixed_append, hl.1, hl.2, List.append_assoc]
  rw [key _ _ (splitInclusive_oneLine t), splitInclusive_flatten]

theorem writes_eq (pre : FText) (chunks : List FText) (w : PrefixWriter) :
    chunks.foldl (PrefixWriter.write pre) w = ⟨endsLine w.lineStart chunks.flatten, w.out ++ prefixed pre w.lineStart chunks.flatten⟩ := by
  induction chunks generalizing w with
  | nil => simp [endsLine, prefixed]
  | cons c cs ih =>
    rw [List.foldl_cons, ih, write_eq]
    simp only [List.flatten_cons, endsLine_append, prefixed_append, List.append_assoc]

theorem prefixed_lines (pre : FText) (ls : List FText) (h : ∀ l ∈ ls, '\n' ∉ l) :
    prefixed pre true (linesText ls) = linesText (ls.map (pre ++ ·)) := by
  induction ls with
  | nil => rfl
  | cons l ls ih =>
    have hl := prefixed_oneLine pre true (l ++ ['\n']) ⟨'\n', l, rfl, h l (by simp)⟩
    have hs : endsLine true (l ++ ['\n']) = true := by rw [hl.2]; simp
    simp only [linesText, List.map_cons, List.flatten_cons] at ih ⊢
    rw [prefixed_append, hs, hl.1, ih (fun l' h' => h l' (by simp [h']))]
    simp

/-- However the text is cut into pieces, each of its lines gets the prefix. -/
theorem C89_header (chunks ls : List FText) (hc : chunks.flatten = linesText ls) (hls : ∀ l ∈ ls, '\n' ∉ l) :
    (chunks.foldl (PrefixWriter.write "; ".toList) ⟨true, []⟩).out = linesText (ls.map ("; ".toList ++ ·)) := by
  rw [writes_eq, hc]
  exact prefixed_lines _ ls hls

example : (([['a'], ['b', '\n', '\n', 'c'], ['\n']].foldl (PrefixWriter.write "; ".toList) ⟨true, []⟩).out) =
    "; ab\n; \n; c\n".toList :=
  (C89_header [['a'], ['b', '\n', '\n', 'c'], ['\n']] [['a', 'b'], [], ['c']] rfl (by decide)).trans rfl

theorem prefixed_code (t : FText) :
    (codeOf .code (prefixed "; ".toList true t) = List.replicate (t.count '\n') '\n' ∧
      (SmtMode.code.after (prefixed "; ".toList true t) = if endsLine true t then .code else .comment)) ∧
    (codeOf .comment (prefixed "; ".toList false t) = List.replicate (t.count '\n') '\n' ∧
      (SmtMode.comment.after (prefixed "; ".toList false t) = if endsLine false t then .code else .comment)) := by
  induction t with
  | nil => exact ⟨⟨rfl, rfl⟩, ⟨rfl, rfl⟩⟩
  | cons c t ih =>
    have hp : ∀ m, SmtMode.comment.next c = m → codeOf .comment (c :: prefixed "; ".toList (decide (c = '\n')) t) =
          List.replicate ((c :: t).count '\n') '\n' ∧
        SmtMode.comment.after (c :: prefixed "; ".toList (decide (c = '\n')) t) =
          if endsLine (decide (c = '\n')) t then .code else .comment := by
      intro m hm
      by_cases hc : c = '\n'
      · subst hc
        simp only [decide_true]
        refine ⟨?_, ih.1.2⟩
        simp only [codeOf, SmtMode.next, if_pos, reduceCtorEq, if_false, List.count_cons_self, List.replicate_succ, ih.1.1]
      · have hn : SmtMode.comment.next c = .comment := by simp [SmtMode.next, hc]
        simp only [hc, decide_false]
        refine ⟨?_, ?_⟩
        · simp only [codeOf, hn, if_pos, ih.2.1]
          rw [List.count_cons_of_ne (by simpa using hc)]
        · simp only [SmtMode.after, List.foldl_cons, hn]; exact ih.2.2
    have h := hp _ rfl
    refine ⟨⟨?_, ?_⟩, ?_⟩
    · have : codeOf .code (prefixed "; ".toList true (c :: t)) = codeOf .comment (c :: prefixed "; ".toList (decide (c = '\n')) t) := rfl
      rw [this]; exact h.1
    · have : SmtMode.code.after (prefixed "; ".toList true (c :: t)) =
          SmtMode.comment.after (c :: prefixed "; ".toList (decide (c = '\n')) t) := rfl
      rw [this]; exact h.2
    · exact h

theorem chunks_flatten (i : CommandInfo) (n : UnitName) (r : Option Answer) :
    (i.chunks ++ ["Source unit: ".toList ++ n.text ++ ['\n']] ++ (r.elim [] fun r => ["Prove result: ".toList ++ r.text ++ ['\n']])).flatten =
      linesText (headerLines i n r) := by
  unfold CommandInfo.chunks headerLines linesText
  generalize "Command: ".toList = t1
  generalize "Caesar version: ".toList = t2
  generalize "Features: ".toList = t3
  generalize "Profile: ".toList = t4
  generalize "Target: ".toList = t5
  generalize "Build date: ".toList = t6
  generalize "Build host: ".toList = t7
  generalize " (".toList = t8
  generalize "Z3 version: ".toList = t9
  generalize "Operating system: ".toList = t10
  generalize "Source unit: ".toList = t11
  generalize "Prove result: ".toList = t12
  cases i.ci <;> cases r <;> simp

theorem endsLine_lines (s : Bool) (ls : List FText) (h : ls ≠ []) : endsLine s (linesText ls) = true := by
  obtain ⟨ls', l, rfl⟩ := List.eq_nil_or_concat ls |>.resolve_left h
  simp [linesText, endsLine, List.foldl_append]

theorem headerText_eq (i : CommandInfo) (n : UnitName) (r : Option Answer) :
    headerText i n r = prefixed "; ".toList true (linesText (headerLines i n r)) := by
  unfold headerText
  rw [writes_eq, chunks_flatten]
  rfl

theorem header_code (i : CommandInfo) (n : UnitName) (r : Option Answer) :
    (∃ k, codeOf .code (headerText i n r) = List.replicate k '\n') ∧ SmtMode.code.after (headerText i n r) = .code := by
  rw [headerText_eq]
  refine ⟨⟨_, (prefixed_code _).1.1⟩, ?_⟩
  rw [(prefixed_code _).1.2, endsLine_lines _ _ (by simp [headerLines]), if_pos rfl]

/-- For all arguments, names and reasons, a reader sees nothing of the header but empty lines: it reads the query as if there were no header. -/
theorem C89_comments (i : CommandInfo) (n : UnitName) (r : Option Answer) (q : FText) :
    ∃ k, codeOf .code (headerText i n r ++ q) = List.replicate k '\n' ++ codeOf .code q := by
  obtain ⟨⟨k, hk⟩, hm⟩ := header_code i n r
  exact ⟨k, by rw [codeOf_append, hk, hm]⟩

/-- Without line feeds in what is shown, the header has one comment per line. -/
theorem C89_header_lines (i : CommandInfo) (n : UnitName) (r : Option Answer) (h : ∀ l ∈ headerLines i n r, '\n' ∉ l) :
    headerText i n r = linesText ((headerLines i n r).map ("; ".toList ++ ·)) := by
  rw [headerText_eq]; exact prefixed_lines _ _ h

/-- What a program could show about itself. -/
def c89Info : CommandInfo := ⟨['c'], ['4'], [], ['p'], ['t'], ['d'], ['h'], some ['g'], ['z'], ['l']⟩

example : headerText c89Info ⟨['a'], some ['p']⟩ (some .proof) = linesText ((headerLines c89Info ⟨['a'], some ['p']⟩ (some .proof)).map ("; ".toList ++ ·)) :=
  C89_header_lines _ _ _ (by decide)

/-- A reason with a line feed and a command stays a comment. -/
example : ∃ k, codeOf .code (headerText c89Info ⟨['a'], some ['p']⟩ (some (.unknown "x\n(exit)".toList)) ++ "(check-sat)".toList) =
    List.replicate k '\n' ++ "(check-sat)".toList :=
  C89_comments c89Info ⟨['a'], some ['p']⟩ (some (.unknown "x\n(exit)".toList)) "(check-sat)".toList

/-! ## Parameters -/

theorem setParam_keys (k v : FText) (m : Params) :
    (setParam k v m).map Prod.fst = if k ∈ m.map Prod.fst then m.map Prod.fst else m.map Prod.fst ++ [k] := by
  induction m with
  | nil => rfl
  | cons e m ih =>
    obtain ⟨k', v'⟩ := e
    simp only [setParam]
    by_cases h : k' = k
    · subst h; simp
    · rw [if_neg h]
      simp only [List.map_cons, ih, List.mem_cons, Ne.symm h, false_or]
      split <;> simp

theorem setParam_nodup (k v : FText) (m : Params) (h : (m.map Prod.fst).Nodup) : ((setParam k v m).map Prod.fst).Nodup := by
  rw [setParam_keys]
  split
  · exact h
  · rename_i hk
    rw [List.nodup_append]
    exact ⟨h, by simp, by rintro a ha b hb rfl; simp at hb; subst hb; exact hk ha⟩

theorem setParam_lookup (k v q : FText) (m : Params) : (setParam k v m).lookup q = if q = k then some v else m.lookup q := by
  induction m with
  | nil =>
    by_cases h : q = k
    · subst h; simp [setParam]
    · simp [setParam, List.lookup_cons, beq_false_of_ne h, h]
  | cons e m ih =>
    obtain ⟨k', v'⟩ := e
    simp only [setParam]
    by_cases hk : k' = k
    · subst hk
      rw [if_pos rfl]
      by_cases h : q = k'
      · subst h; simp
      · simp [List.lookup_cons, beq_false_of_ne h, h]
    · rw [if_neg hk]
      by_cases h : q = k'
      · subst h; simp [hk]
      · simp only [List.lookup_cons, beq_false_of_ne h, ih]

theorem setParams_nodup (ps m : Params) (h : (m.map Prod.fst).Nodup) : ((setParams ps m).map Prod.fst).Nodup := by
  induction ps generalizing m with
  | nil => exact h
  | cons e ps ih => exact ih _ (setParam_nodup _ _ _ h)

theorem setParams_lookup (ps m : Params) (q : FText) : (setParams ps m).lookup q = (ps.reverse.lookup q).or (m.lookup q) := by
  induction ps generalizing m with
  | nil => rfl
  | cons e ps ih =>
    obtain ⟨k, v⟩ := e
    have : setParams ((k, v) :: ps) m = setParams ps (setParam k v m) := rfl
    rw [this, ih, setParam_lookup, List.reverse_cons, List.lookup_append]
    by_cases h : q = k
    · subst h; simp
    · simp [h, List.lookup_cons, beq_false_of_ne h]

theorem setParam_same (k v : FText) (m : Params) (h : (m.map Prod.fst).Nodup) (hm : (k, v) ∈ m) : setParam k v m = m := by
  induction m with
  | nil => cases hm
  | cons e m ih =>
    obtain ⟨k', v'⟩ := e
    simp only [List.map_cons, List.nodup_cons] at h
    rcases List.mem_cons.mp hm with he | hm
    · cases he; simp [setParam]
    · have : k' ≠ k := by rintro rfl; exact h.1 (List.mem_map.mpr ⟨_, hm, rfl⟩)
      simp [setParam, this, ih h.2 hm]

theorem setParams_same (ps m : Params) (h : (m.map Prod.fst).Nodup) (hs : ∀ e ∈ ps, e ∈ m) : setParams ps m = m := by
  induction ps with
  | nil => rfl
  | cons e ps ih =>
    have : setParams (e :: ps) m = setParams ps (setParam e.1 e.2 m) := rfl
    rw [this, setParam_same _ _ _ h (hs e (by simp)), ih (fun e' h' => hs e' (by simp [h']))]

/-- However parameters are set, each is written exactly once, with the value it was set to last. -/
theorem C89_options (ps : Params) : let globals := setParams ps []
    optionsText globals globals = (globals.map optionText).flatten ∧ (globals.map Prod.fst).Nodup ∧
    ∀ k, globals.lookup k = ps.reverse.lookup k := by
  intro globals
  have hn : (globals.map Prod.fst).Nodup := setParams_nodup ps [] (by simp)
  refine ⟨?_, hn, fun k => ?_⟩
  · unfold optionsText
    rw [setParams_same _ _ hn (fun e h => h)]
  · rw [setParams_lookup]; simp

example : (setParams [(['a'], ['1']), (['b'], ['2']), (['a'], ['3'])] []) = [(['a'], ['3']), (['b'], ['2'])] := by decide

/-! ## The query -/

/-- Text in which no comment, string or quoted symbol starts. -/
def NoQuotes (t : FText) : Prop := ';' ∉ t ∧ '"' ∉ t ∧ '|' ∉ t

instance (t : FText) : Decidable (NoQuotes t) := by unfold NoQuotes; infer_instance

theorem NoQuotes.append {a b : FText} (ha : NoQuotes a) (hb : NoQuotes b) : NoQuotes (a ++ b) := by
  simp only [NoQuotes, List.mem_append, not_or] at *; tauto

theorem NoQuotes.code {t : FText} (h : NoQuotes t) : codeOf .code t = t ∧ SmtMode.code.after t = .code := by
  induction t with
  | nil => exact ⟨rfl, rfl⟩
  | cons c t ih =>
    simp only [NoQuotes, List.mem_cons, not_or] at h
    obtain ⟨⟨h1, h1'⟩, ⟨h2, h2'⟩, ⟨h3, h3'⟩⟩ := h
    have hn : SmtMode.code.next c = .code := by simp [SmtMode.next, Ne.symm h1, Ne.symm h2, Ne.symm h3]
    have := ih ⟨h1', h2', h3'⟩
    refine ⟨?_, ?_⟩
    · simp only [codeOf, hn, reduceCtorEq, if_false, this.1]
    · simp only [SmtMode.after, List.foldl_cons, hn]; exact this.2

theorem natText_noQuotes (n : ℕ) : NoQuotes (Smt.natText n) := by
  have h := Smt.natText_dig n
  have hd : ∀ d < 10, Smt.digitChar d ≠ ';' ∧ Smt.digitChar d ≠ '"' ∧ Smt.digitChar d ≠ '|' := by decide
  refine ⟨fun hc => ?_, fun hc => ?_, fun hc => ?_⟩
  · obtain ⟨d, h1, h2⟩ := h _ hc; exact (hd d h1).1 h2.symm
  · obtain ⟨d, h1, h2⟩ := h _ hc; exact (hd d h1).2.1 h2.symm
  · obtain ⟨d, h1, h2⟩ := h _ hc; exact (hd d h1).2.2 h2.symm

/-- Parameters without quotes. -/
def QuoteFree (ps : Params) : Prop := ∀ e ∈ ps, NoQuotes e.1 ∧ NoQuotes e.2

theorem QuoteFree.append {a b : Params} (ha : QuoteFree a) (hb : QuoteFree b) : QuoteFree (a ++ b) := by
  intro e he
  rcases List.mem_append.mp he with h | h
  · exact ha e h
  · exact hb e h

theorem quoteFree_elim (o : Option ℕ) (k : FText) (hk : NoQuotes k) : QuoteFree (o.elim [] fun n => [(k, Smt.natText n)]) := by
  cases o with
  | none => intro e he; cases he
  | some n => intro e he; simp at he; subst he; exact ⟨hk, natText_noQuotes n⟩

theorem z3Params_quoteFree (o : Z3Options) : QuoteFree (z3Params o) := by
  have hd : ∀ ps : Params, (∀ e ∈ ps, NoQuotes e.1 ∧ NoQuotes e.2) → QuoteFree ps := fun _ h => h
  unfold z3Params
  refine .append (.append (.append (.append (.append (.append (.append (.append ?_ ?_) ?_) ?_) ?_) ?_) ?_) ?_) ?_
  · exact hd _ (by decide)
  · cases o.trace
    · exact hd _ (by decide)
    · exact hd _ (by decide)
  · exact quoteFree_elim _ _ (by decide)
  · exact hd _ (by decide)
  · cases o.quant
    · exact hd _ (by decide)
    · exact hd _ (by decide)
    · exact hd _ (by decide)
    · exact hd _ (by decide)
  · cases o.qiProfile
    · exact hd _ (by decide)
    · exact hd _ (by decide)
  · cases o.mbqiTrace
    · exact hd _ (by decide)
    · exact hd _ (by decide)
  · exact quoteFree_elim _ _ (by decide)
  · exact quoteFree_elim _ _ (by decide)

theorem setParam_quoteFree (k v : FText) (m : Params) (hk : NoQuotes k) (hv : NoQuotes v) (hm : QuoteFree m) : QuoteFree (setParam k v m) := by
  induction m with
  | nil => intro e he; simp [setParam] at he; subst he; exact ⟨hk, hv⟩
  | cons a m ih =>
    obtain ⟨k', v'⟩ := a
    simp only [setParam]
    split
    · intro e he
      rcases List.mem_cons.mp he with rfl | he
      · exact ⟨hk, hv⟩
      · exact hm e (by simp [he])
    · intro e he
      rcases List.mem_cons.mp he with rfl | he
      · exact hm _ (by simp)
      · exact ih (fun e' h' => hm e' (by simp [h'])) e he

theorem setParams_quoteFree (ps m : Params) (hp : QuoteFree ps) (hm : QuoteFree m) : QuoteFree (setParams ps m) := by
  induction ps generalizing m with
  | nil => exact hm
  | cons e ps ih =>
    exact ih _ (fun e' h' => hp e' (by simp [h'])) (setParam_quoteFree _ _ _ (hp e (by simp)).1 (hp e (by simp)).2 hm)

theorem optionsText_noQuotes (ps : Params) (h : QuoteFree ps) : NoQuotes (ps.map optionText).flatten := by
  induction ps with
  | nil => simp [NoQuotes]
  | cons e ps ih =>
    rw [List.map_cons, List.flatten_cons]
    refine .append ?_ (ih fun e' h' => h e' (by simp [h']))
    unfold optionText
    exact .append (.append (.append (.append (by decide) (h e (by simp)).1) (by decide)) (h e (by simp)).2) (by decide)

theorem keys_literal (ps : Params) (h : (ps.map Prod.fst).Nodup) : setParams ps [] = ps := by
  have key : ∀ (ps m : Params), ((m ++ ps).map Prod.fst).Nodup → setParams ps m = m ++ ps := by
    intro ps
    induction ps with
    | nil => intro m _; simp [setParams]
    | cons e ps ih =>
      intro m hm
      have hk : e.1 ∉ m.map Prod.fst := by
        simp only [List.map_append, List.map_cons, List.nodup_append] at hm
        intro hc
        exact hm.2.2 _ hc _ (by simp) rfl
      have hs : setParam e.1 e.2 m = m ++ [e] := by
        clear hm ih
        induction m with
        | nil => rfl
        | cons a m ih =>
          simp only [List.map_cons, List.mem_cons, not_or] at hk
          simp only [setParam, if_neg (Ne.symm hk.1), ih hk.2, List.cons_append]
      have : setParams (e :: ps) m = setParams ps (setParam e.1 e.2 m) := rfl
      rw [this, hs, ih _ (by simpa using hm)]
      simp
  exact (key ps [] (by simpa using h)).trans rfl

theorem detailsText_noQuotes (r : Option Answer) : NoQuotes (detailsText r) := by
  rcases r with _ | (_ | _ | _)
  · decide
  · decide
  · decide
  · exact (by decide : NoQuotes "\n(get-info :reason-unknown)\n".toList)

theorem addDetails_eq (s : SmtlibText) (r : Option Answer) : r.elim s s.addDetails = ⟨s.params, s.body ++ detailsText r⟩ := by
  cases r with
  | none => exact congrArg (SmtlibText.mk s.params) (List.append_nil s.body).symm
  | some r =>
    cases r with
    | proof => exact congrArg (SmtlibText.mk s.params) (List.append_nil s.body).symm
    | counterexample => rfl
    | unknown => rfl

theorem queryText_eq (globals : Params) (s : SmtlibText) (r : Option Answer) :
    queryText globals s r = (s.params.elim [] fun ps => optionsText globals ps ++ ['\n']) ++ (s.body ++ ("\n(check-sat)".toList ++ detailsText r)) := by
  unfold queryText
  rw [addDetails_eq, SmtlibText.addCheckSat]
  generalize "\n(check-sat)".toList = t
  unfold SmtlibText.intoString
  cases s.params with
  | none => simp only [Option.elim, List.append_assoc, List.nil_append]
  | some ps => simp only [Option.elim, List.append_assoc]

/-- If the text of the solver does not end inside a string or a quoted symbol, then a reader of the file sees: empty lines, the options
that were set, the commands of the solver, a check, and the question for details that goes with the answer. -/
theorem C89_query (o : Z3Options) (raco : Option (FText → Option FText)) (i : CommandInfo) (n : UnitName) (solver : FText) (r : Option Answer)
    (before : List Z3Options) (body : FText) (hb : body = (raco.bind fun f => f solver).getD solver)
    (hm : SmtMode.code.after body = .code ∨ SmtMode.code.after body = .comment) :
    let globals := setParams (z3Params o) (before.foldl (fun m o => setParams (z3Params o) m) [])
    ∃ k, codeOf .code (headerText i n r ++ queryText globals (getSmtlib globals raco solver) r) =
      List.replicate k '\n' ++ ((globals.map optionText).flatten ++ ('\n' :: codeOf .code body ++ ("\n(check-sat)".toList ++ detailsText r))) := by
  intro globals
  have hbefore : ∀ (os : List Z3Options) (m : Params), (m.map Prod.fst).Nodup → QuoteFree m →
      ((os.foldl (fun m o => setParams (z3Params o) m) m).map Prod.fst).Nodup ∧ QuoteFree (os.foldl (fun m o => setParams (z3Params o) m) m) := by
    intro os
    induction os with
    | nil => exact fun m h1 h2 => ⟨h1, h2⟩
    | cons o' os ih => exact fun m h1 h2 => ih _ (setParams_nodup _ _ h1) (setParams_quoteFree _ _ (z3Params_quoteFree o') h2)
  obtain ⟨hn₀, hq₀⟩ := hbefore before [] (by simp) (fun e he => by cases he)
  have hn : (globals.map Prod.fst).Nodup := setParams_nodup _ _ hn₀
  have hq : QuoteFree globals := setParams_quoteFree _ _ (z3Params_quoteFree o) hq₀
  obtain ⟨k, hk⟩ := C89_comments i n r (queryText globals (getSmtlib globals raco solver) r)
  refine ⟨k, hk.trans ?_⟩
  congr 1
  rw [queryText_eq]
  have hO : optionsText globals globals = (globals.map optionText).flatten := by
    unfold optionsText; rw [setParams_same _ _ hn (fun e h => h)]
  simp only [getSmtlib, Option.elim, ← hb, hO]
  have hA : NoQuotes ((globals.map optionText).flatten ++ ['\n']) := .append (optionsText_noQuotes _ hq) (by decide)
  have hC : NoQuotes ("\n(check-sat)".toList ++ detailsText r) := .append (by decide) (detailsText_noQuotes r)
  rw [codeOf_append, hA.code.1, hA.code.2, codeOf_append]
  have hE : codeOf (SmtMode.code.after body) ("\n(check-sat)".toList ++ detailsText r) = "\n(check-sat)".toList ++ detailsText r := by
    rcases hm with h | h
    · rw [h, hC.code.1]
    · rw [h]
      have : codeOf .comment ("\n(check-sat)".toList ++ detailsText r) = codeOf .code ("\n(check-sat)".toList ++ detailsText r) := rfl
      rw [this, hC.code.1]
  rw [hE]
  simp only [List.append_assoc, List.cons_append, List.nil_append]

/-- Options with a seed and a timeout, without formatting. -/
example : ∃ k, codeOf .code (headerText c89Info ⟨['a'], some ['p']⟩ (some .counterexample) ++
      queryText (setParams (z3Params ⟨false, some 7, .all, false, false, none, some 900⟩) [])
        (getSmtlib (setParams (z3Params ⟨false, some 7, .all, false, false, none, some 900⟩) []) none "(assert |;|) ; c".toList) (some .counterexample)) =
    List.replicate k '\n' ++ ((setParams (z3Params ⟨false, some 7, .all, false, false, none, some 900⟩) []).map optionText).flatten ++
      "\n(assert |;|) \n(check-sat)\n(get-model)\n".toList := by
  obtain ⟨k, hk⟩ := C89_query ⟨false, some 7, .all, false, false, none, some 900⟩ none c89Info ⟨['a'], some ['p']⟩ "(assert |;|) ; c".toList
    (some .counterexample) [] "(assert |;|) ; c".toList rfl (.inr rfl)
  exact ⟨k, hk.trans (by rw [List.append_assoc]; rfl)⟩

/-- The parameters of a first run are exactly those of `set_global_z3_params`. -/
theorem C89_first (o : Z3Options) : setParams (z3Params o) [] = z3Params o := by
  apply keys_literal
  have hs : ((z3Params o).map Prod.fst).Sublist (["smt.arith.nl.order".toList] ++
      ["trace".toList, "proof".toList, "trace_file_name".toList] ++ ["smt.random_seed".toList] ++
      ["smt.qi.eager_threshold".toList, "smt.qi.lazy_threshold".toList] ++ ["smt.ematching".toList, "smt.mbqi.id".toList] ++
      ["smt.qi.profile".toList, "smt.qi.profile_freq".toList] ++ ["smt.mbqi.trace".toList] ++ ["verbose".toList] ++ ["timeout".toList]) := by
    have ho : ∀ (o : Option ℕ) (k : FText), ((o.elim [] fun n => [(k, Smt.natText n)]).map Prod.fst).Sublist [k] := by
      intro o k; cases o <;> simp
    unfold z3Params
    simp only [List.map_append]
    refine .append (.append (.append (.append (.append (.append (.append (.append ?_ ?_) ?_) ?_) ?_) ?_) ?_) ?_) ?_
    · exact .refl _
    · cases o.trace
      · exact List.nil_sublist _
      · exact .refl _
    · exact ho _ _
    · exact .refl _
    · cases o.quant
      · exact List.nil_sublist _
      · exact .cons _ (.refl _)
      · exact .cons_cons _ (List.nil_sublist _)
      · exact .refl _
    · cases o.qiProfile
      · exact List.nil_sublist _
      · exact .refl _
    · cases o.mbqiTrace
      · exact List.nil_sublist _
      · exact .refl _
    · exact ho _ _
    · exact ho _ _
  exact hs.nodup (by decide)

/-- The parameters that limit time, seed random choices and switch off e-matching and the model-based instantiation of quantifiers are set as the
options ask for: instantiation by models is restricted to quantifiers marked for it exactly if only e-matching or nothing is to be used. -/
theorem C89_z3_options (o : Z3Options) :
    (z3Params o).lookup "timeout".toList = o.timeLeft.map Smt.natText ∧
    (z3Params o).lookup "smt.random_seed".toList = o.seed.map Smt.natText ∧
    (z3Params o).lookup "smt.ematching".toList = (if o.quant = .mbqi ∨ o.quant = .none then some "false".toList else none) ∧
    (z3Params o).lookup "smt.mbqi.id".toList = (if o.quant = .ematching ∨ o.quant = .none then some "mbqi_".toList else none) := by
  unfold z3Params
  simp only [List.lookup_append]
  obtain ⟨trace, seed, quant, qi, mt, verbose, left⟩ := o
  refine ⟨?_, ?_, ?_, ?_⟩
  · cases trace <;> cases quant <;> cases qi <;> cases mt <;> cases seed <;> cases verbose <;> cases left <;> rfl
  · cases trace <;> cases quant <;> cases qi <;> cases mt <;> cases seed <;> cases verbose <;> cases left <;> rfl
  · cases trace <;> cases quant <;> cases qi <;> cases mt <;> cases seed <;> cases verbose <;> cases left <;> rfl
  · cases trace <;> cases quant <;> cases qi <;> cases mt <;> cases seed <;> cases verbose <;> cases left <;> rfl

/-! ## Names -/

/-- A path from its segments. -/
def joinSegs : List FText → FText
  | [] => []
  | s :: ss => s ++ (ss.map ('/' :: ·)).flatten

theorem segments_ne_nil (p : FText) : segments p ≠ [] := by
  cases p with
  | nil => simp [segments]
  | cons c p => simp only [segments]; split <;> [simp; (split <;> simp)]

theorem joinSegs_segments (p : FText) : joinSegs (segments p) = p := by
  induction p with
  | nil => rfl
  | cons c p ih =>
    simp only [segments]
    obtain ⟨s, ss, h⟩ := List.exists_cons_of_ne_nil (segments_ne_nil p)
    rw [h] at ih ⊢
    split
    · rename_i hc; subst hc; simpa [joinSegs] using ih
    · simpa [joinSegs] using ih

theorem segments_slash (p : FText) : ∀ s ∈ segments p, '/' ∉ s := by
  induction p with
  | nil => simp [segments]
  | cons c p ih =>
    simp only [segments]
    obtain ⟨s, ss, h⟩ := List.exists_cons_of_ne_nil (segments_ne_nil p)
    rw [h] at ih ⊢
    split
    · intro t ht
      rcases List.mem_cons.mp ht with rfl | ht
      · simp
      · exact ih t ht
    · rename_i hc
      intro t ht
      rcases List.mem_cons.mp ht with rfl | ht
      · simp [Ne.symm hc, ih s (by simp)]
      · exact ih t (by simp [ht])

/-- A suffix without separators belongs to the last segment. -/
theorem segments_suffix (p q : FText) (h : '/' ∉ q) :
    ∃ ss l, segments p = ss ++ [l] ∧ segments (p ++ q) = ss ++ [l ++ q] := by
  induction p with
  | nil =>
    refine ⟨[], [], rfl, ?_⟩
    induction q with
    | nil => rfl
    | cons c q ih =>
      simp only [List.mem_cons, not_or] at h
      have := ih h.2
      simp only [List.nil_append] at this ⊢
      simp only [segments, if_neg (Ne.symm h.1), this]
  | cons c p ih =>
    obtain ⟨ss, l, h1, h2⟩ := ih
    simp only [List.cons_append, segments, h1, h2]
    split
    · exact ⟨[] :: ss, l, rfl, rfl⟩
    · cases ss with
      | nil => exact ⟨[], c :: l, rfl, rfl⟩
      | cons s ss => exact ⟨(c :: s) :: ss, l, rfl, rfl⟩

theorem push_segs (ss : List FText) (b : FText) (hb : b ≠ [] ∧ b.getLast? ≠ some '/') (h : ∀ s ∈ ss, s ≠ [] ∧ '/' ∉ s) :
    ss.foldl pushPath b = b ++ (ss.map ('/' :: ·)).flatten := by
  induction ss generalizing b with
  | nil => simp
  | cons s ss ih =>
    have hs := h s (by simp)
    have hh : s.head? ≠ some '/' := fun hc => hs.2 (List.mem_of_mem_head? hc)
    have hl : s.getLast? ≠ some '/' := fun hc => hs.2 (List.mem_of_getLast? hc)
    have hp : pushPath b s = b ++ '/' :: s := by simp [pushPath, hh, hb.1, hb.2]
    have hg : (b ++ '/' :: s).getLast? = s.getLast? := by
      obtain ⟨s', e, rfl⟩ := List.eq_nil_or_concat s |>.resolve_left hs.1
      rw [List.getLast?_append]; simp [List.getLast?_cons]
    rw [List.foldl_cons, hp, ih _ ⟨by simp, by rw [hg]; exact hl⟩ (fun t ht => h t (by simp [ht]))]
    simp

theorem push_joinSegs (ss : List FText) (h : ∀ s ∈ ss, s ≠ [] ∧ '/' ∉ s) : ss.foldl pushPath [] = joinSegs ss := by
  cases ss with
  | nil => rfl
  | cons s ss =>
    have hs := h s (by simp)
    have hh : s.head? ≠ some '/' := fun hc => hs.2 (List.mem_of_mem_head? hc)
    have hl : s.getLast? ≠ some '/' := fun hc => hs.2 (List.mem_of_getLast? hc)
    have hp : pushPath [] s = s := by simp [pushPath, hh]
    rw [List.foldl_cons, hp, push_segs ss s ⟨hs.1, hl⟩ (fun t ht => h t (by simp [ht]))]
    rfl

/-- The suffix of the path. -/
def UnitName.suffix (d : FText) : FText := "::".toList ++ d ++ ".smt2".toList

theorem fileName_eq (n : UnitName) : n.fileName "smt2".toList =
    (((pathComps (n.text ++ ".smt2".toList)).filter (· ≠ .parent)).map PathComp.text).foldl pushPath [] := by
  unfold UnitName.fileName
  rw [List.foldl_map]
  rfl

theorem segComp_some {s : FText} {c : PathComp} (h : segComp s = some c) (hc : c ≠ .parent) :
    c.text = s ∧ s ≠ [] ∧ s ≠ ['.', '.'] := by
  unfold segComp at h
  split at h
  · cases h
  · rename_i h1
    split at h
    · cases h; exact absurd rfl hc
    · rename_i h2; cases h; exact ⟨rfl, fun h => h1 (.inl h), h2⟩

theorem relative_head (n : UnitName) (h : n.Relative) : (n.text ++ ".smt2".toList).head? ≠ some '/' := by
  obtain ⟨hp, d, hd, -, -⟩ := h
  unfold UnitName.text
  rw [hd]
  cases hs : n.shortPath with
  | nil => exact (by decide : some ':' ≠ some '/')
  | cons c p => rw [hs] at hp; exact hp

theorem suffix_slash {d : FText} (h : '/' ∉ d) : '/' ∉ UnitName.suffix d := by
  unfold UnitName.suffix
  rw [List.mem_append, List.mem_append]
  rintro ((h' | h') | h')
  · exact absurd h' (by decide)
  · exact h h'
  · exact absurd h' (by decide)

theorem suffix_length (d : FText) : 7 ≤ (UnitName.suffix d).length := by
  unfold UnitName.suffix
  have : ("::".toList ++ d ++ ".smt2".toList).length = 2 + d.length + 5 := by rw [List.length_append, List.length_append]; rfl
  omega

theorem text_suffix {n : UnitName} {d : FText} (hd : n.declName = some d) :
    n.text ++ ".smt2".toList = n.shortPath ++ UnitName.suffix d := by
  unfold UnitName.text UnitName.suffix
  rw [hd, List.append_assoc]
  rfl

/-- All files are inside of the directory: their paths consist of the directory and segments none of which is `..`. -/
theorem C89_inside (n : UnitName) (h : n.Relative) : ∃ ss : List FText, ss ≠ [] ∧ (∀ s ∈ ss, s ≠ [] ∧ '/' ∉ s ∧ s ≠ ['.', '.']) ∧
    ∀ dir : FText, dir ≠ [] → dir.getLast? ≠ some '/' →
      pushPath dir (n.fileName "smt2".toList) = dir ++ (ss.map ('/' :: ·)).flatten := by
  have hrel := relative_head n h
  obtain ⟨hp, d, hd, hsl, hcol⟩ := h
  have ht := text_suffix hd
  obtain ⟨ss, l, h1, h2⟩ := segments_suffix n.shortPath (UnitName.suffix d) (suffix_slash hsl)
  let comps := ((pathComps (n.text ++ ".smt2".toList)).filter (· ≠ .parent)).map PathComp.text
  have hc : ∀ s ∈ comps, s ≠ [] ∧ '/' ∉ s ∧ s ≠ ['.', '.'] := by
    intro s hs
    obtain ⟨c, hc, rfl⟩ := List.mem_map.mp hs
    obtain ⟨hc, hpar⟩ := List.mem_filter.mp hc
    simp only [ne_eq, decide_not, Bool.not_eq_eq_eq_not, Bool.not_true, decide_eq_false_iff_not] at hpar
    unfold pathComps at hc
    rw [if_neg hrel] at hc
    rcases List.mem_append.mp hc with hc | hc
    · split at hc
      · simp at hc; subst hc; decide
      · cases hc
    · obtain ⟨s, hs, hsc⟩ := List.mem_filterMap.mp hc
      obtain ⟨e, hne, hdd⟩ := segComp_some hsc hpar
      rw [e]
      exact ⟨hne, segments_slash _ s hs, hdd⟩
  have hlast : l ++ UnitName.suffix d ∈ comps := by
    refine List.mem_map.mpr ⟨.normal (l ++ UnitName.suffix d), ?_, rfl⟩
    have hlen : 7 ≤ (l ++ UnitName.suffix d).length := by rw [List.length_append]; have := suffix_length d; omega
    refine List.mem_filter.mpr ⟨?_, by simp⟩
    unfold pathComps
    refine List.mem_append_right _ (List.mem_filterMap.mpr ⟨l ++ UnitName.suffix d, by rw [ht, h2]; simp, ?_⟩)
    unfold segComp
    rw [if_neg, if_neg]
    · intro e; rw [e] at hlen; simp at hlen
    · rintro (e | e) <;> rw [e] at hlen <;> simp at hlen
  refine ⟨comps, List.ne_nil_of_mem hlast, hc, fun dir hdir hdl => ?_⟩
  rw [fileName_eq]
  change pushPath dir (comps.foldl pushPath []) = _
  rw [push_joinSegs _ (fun s hs => ⟨(hc s hs).1, (hc s hs).2.1⟩)]
  obtain ⟨s, ss', hss⟩ := List.exists_cons_of_ne_nil (List.ne_nil_of_mem hlast)
  rw [hss]
  have hs := hc s (by rw [hss]; simp)
  have hh : (joinSegs (s :: ss')).head? ≠ some '/' := by
    cases s with
    | nil => exact absurd rfl hs.1
    | cons e s =>
      simp only [joinSegs, List.cons_append, List.head?_cons, ne_eq, Option.some.injEq]
      rintro rfl; exact hs.2.1 (by simp)
  unfold pushPath
  rw [if_neg hh, if_neg (by simp [hdir, hdl])]
  simp [joinSegs]

example : ∃ ss : List FText, ss ≠ [] ∧ (∀ s ∈ ss, s ≠ [] ∧ '/' ∉ s ∧ s ≠ ['.', '.']) ∧ ∀ dir : FText, dir ≠ [] → dir.getLast? ≠ some '/' →
    pushPath dir ((⟨"../../etc/a".toList, some ['p']⟩ : UnitName).fileName "smt2".toList) = dir ++ (ss.map ('/' :: ·)).flatten :=
  C89_inside _ ⟨by decide, ['p'], rfl, by decide, by decide⟩

/-- For a plain name, the file is named like the unit. -/
theorem fileName_plain (n : UnitName) (h : n.Plain) : n.fileName "smt2".toList = n.text ++ ".smt2".toList ∧
    (n.text ++ ".smt2".toList).head? ≠ some '/' := by
  obtain ⟨hseg, d, hd, hsl, hcol⟩ := h
  have ht := text_suffix hd
  obtain ⟨ss, l, h1, h2⟩ := segments_suffix n.shortPath (UnitName.suffix d) (suffix_slash hsl)
  have hlen : 7 ≤ (l ++ UnitName.suffix d).length := by rw [List.length_append]; have := suffix_length d; omega
  have hall : ∀ s ∈ segments (n.text ++ ".smt2".toList), s ≠ [] ∧ s ≠ ['.'] ∧ s ≠ ['.', '.'] := by
    rw [ht, h2]
    intro s hs
    rcases List.mem_append.mp hs with hs | hs
    · exact hseg s (by rw [h1]; simp [hs])
    · simp only [List.mem_singleton] at hs
      subst hs
      refine ⟨?_, ?_, ?_⟩ <;> intro e <;> rw [e] at hlen <;> simp at hlen
  have hhead : (n.text ++ ".smt2".toList).head? ≠ some '/' := by
    intro hc
    obtain ⟨c, p, hcp⟩ : ∃ c p, n.text ++ ".smt2".toList = c :: p := by
      cases hx : n.text ++ ".smt2".toList with
      | nil => rw [hx] at hc; cases hc
      | cons c p => exact ⟨c, p, rfl⟩
    rw [hcp] at hc hall
    simp only [List.head?_cons, Option.some.injEq] at hc
    subst hc
    exact (hall [] (by simp [segments])).1 rfl
  refine ⟨?_, hhead⟩
  rw [fileName_eq]
  have hcomps : ((pathComps (n.text ++ ".smt2".toList)).filter (· ≠ .parent)).map PathComp.text = segments (n.text ++ ".smt2".toList) := by
    unfold pathComps
    rw [if_neg hhead, if_neg]
    · have : ∀ l : List FText, (∀ s ∈ l, s ≠ [] ∧ s ≠ ['.'] ∧ s ≠ ['.', '.']) →
          (([] ++ l.filterMap segComp).filter (· ≠ PathComp.parent)).map PathComp.text = l := by
        intro l
        induction l with
        | nil => intro _; rfl
        | cons s l ih =>
          intro hl
          have hs := hl s (by simp)
          have : segComp s = some (.normal s) := by simp [segComp, hs]
          have ih' := ih (fun t ht => hl t (by simp [ht]))
          simp only [List.nil_append] at ih' ⊢
          rw [List.filterMap_cons_some this, List.filter_cons_of_pos (by simp), List.map_cons, ih']
          rfl
      exact this _ hall
    · intro hc
      exact (hall ['.'] (List.mem_of_mem_head? hc)).2.1 rfl
  rw [hcomps, push_joinSegs, joinSegs_segments]
  exact fun s hs => ⟨(hall s hs).1, segments_slash _ s hs⟩

theorem colon_split {a a' d d' : FText} (h : a ++ ':' :: d = a' ++ ':' :: d') (hd : ':' ∉ d) (hd' : ':' ∉ d') : a = a' ∧ d = d' := by
  rcases List.append_eq_append_iff.mp h with ⟨x, h1, h2⟩ | ⟨x, h1, h2⟩
  · cases x with
    | nil => simp at h1 h2; exact ⟨h1.symm, h2⟩
    | cons c x =>
      simp only [List.cons_append, List.cons.injEq] at h2
      exact absurd (h2.2 ▸ by simp) hd
  · cases x with
    | nil => simp at h1 h2; exact ⟨h1, h2.symm⟩
    | cons c x =>
      simp only [List.cons_append, List.cons.injEq] at h2
      exact absurd (h2.2 ▸ by simp) hd'

/-- Different plain names have different texts. -/
theorem text_injective {n n' : UnitName} (h : n.Plain) (h' : n'.Plain) (he : n.text ++ ".smt2".toList = n'.text ++ ".smt2".toList) : n = n' := by
  obtain ⟨-, d, hd, -, hc⟩ := h
  obtain ⟨-, d', hd', -, hc'⟩ := h'
  have he := List.append_cancel_right he
  unfold UnitName.text at he
  rw [hd, hd'] at he
  have he : (n.shortPath ++ [':']) ++ ':' :: d = (n'.shortPath ++ [':']) ++ ':' :: d' := by
    rw [List.append_assoc, List.append_assoc]; exact he
  obtain ⟨h1, h2⟩ := colon_split he hc hc'
  have h3 := List.append_cancel_right h1
  have : ∀ m : UnitName, m = ⟨m.shortPath, m.declName⟩ := fun _ => rfl
  rw [this n, this n', h3, hd, hd', h2]

theorem pushPath_injective {dir p q : FText} (hp : p.head? ≠ some '/') (hq : q.head? ≠ some '/') (h : pushPath dir p = pushPath dir q) : p = q := by
  simp only [pushPath, if_neg hp, if_neg hq] at h
  split at h
  · exact List.append_cancel_left h
  · simpa using List.append_cancel_left h

/-! ## The files of a run -/

/-- The file of a unit by its name. -/
def UnitName.path (dir : FText) (n : UnitName) : FText := pushPath dir (n.text ++ ".smt2".toList)

theorem path_injective {dir : FText} {n n' : UnitName} (h : n.Plain) (h' : n'.Plain) (he : n.path dir = n'.path dir) : n = n' :=
  text_injective h h' (pushPath_injective (fileName_plain n h).2 (fileName_plain n' h').2 he)

section
variable (dir : FText) (globals : Params) (raco : Option (FText → Option FText)) (i : CommandInfo) (noVerify : Bool)

theorem writeUnit_eq (fs : FileSystem) (u : QueryUnit) (h : u.name.Plain) :
    writeUnit (some dir) globals raco i noVerify fs u = Function.update fs (u.name.path dir) (some (u.file globals raco i noVerify)) := by
  have hw : ∀ r fs, writeSmtlib (some dir) globals i u.name (getSmtlib globals raco u.solver) r fs =
      Function.update fs (u.name.path dir) (some (headerText i u.name r ++ queryText globals (getSmtlib globals raco u.solver) r)) := by
    intro r fs
    unfold writeSmtlib UnitName.path
    rw [(fileName_plain u.name h).1]
  unfold writeUnit QueryUnit.file QueryUnit.reported
  simp only [hw]
  cases noVerify with
  | true => rfl
  | false =>
    cases u.answer with
    | none => rfl
    | some r => simp only [Bool.false_eq_true, if_false, Option.elim, Function.update_idem]

/-- Units with plain and different names that are all answered (or not to be verified): afterwards, each has its file, named like the
unit, with its query and its answer, and no other file is changed. -/
theorem C89_files_partial (fs : FileSystem) (us : List QueryUnit) (hp : ∀ u ∈ us, u.name.Plain) (hn : (us.map (·.name)).Nodup)
    (ha : noVerify = true ∨ ∀ u ∈ us, u.answer ≠ none) :
    (∀ u ∈ us, writeUnits (some dir) globals raco i noVerify fs us (u.name.path dir) = some (u.file globals raco i noVerify)) ∧
    ∀ p, (∀ u ∈ us, p ≠ u.name.path dir) → writeUnits (some dir) globals raco i noVerify fs us p = fs p := by
  induction us generalizing fs with
  | nil => exact ⟨fun u hu => (by cases hu), fun p _ => rfl⟩
  | cons u us ih =>
    simp only [List.map_cons, List.nodup_cons] at hn
    have hstep : writeUnits (some dir) globals raco i noVerify fs (u :: us) =
        writeUnits (some dir) globals raco i noVerify (writeUnit (some dir) globals raco i noVerify fs u) us := by
      rw [writeUnits]
      rcases ha with h | h
      · simp [h]
      · simp [h u (by simp)]
    have ih' := ih (writeUnit (some dir) globals raco i noVerify fs u) (fun v hv => hp v (by simp [hv])) hn.2
      (ha.imp id fun h v hv => h v (by simp [hv]))
    have hu := hp u (by simp)
    rw [hstep]
    refine ⟨fun v hv => ?_, fun p hpp => ?_⟩
    · rcases List.mem_cons.mp hv with rfl | hv
      · rw [ih'.2, writeUnit_eq _ _ _ _ _ _ _ hu, Function.update_self]
        intro w hw he
        have := path_injective hu (hp w (by simp [hw])) he
        exact hn.1 (List.mem_map.mpr ⟨w, hw, this.symm⟩)
      · exact ih'.1 v hv
    · rw [ih'.2 p (fun v hv => hpp v (by simp [hv])), writeUnit_eq _ _ _ _ _ _ _ hu, Function.update_of_ne (hpp u (by simp))]

/-- If the run stops at a unit, its file is written without an answer, and those of later units are not written. -/
theorem C89_stopped (fs : FileSystem) (done rest : List QueryUnit) (u : QueryUnit) (hp : ∀ v ∈ done ++ u :: rest, v.name.Plain)
    (hn : ((done ++ u :: rest).map (·.name)).Nodup) (ha : ∀ v ∈ done, v.answer ≠ none) (hu : u.answer = none) :
    (∀ v ∈ done, writeUnits (some dir) globals raco i false fs (done ++ u :: rest) (v.name.path dir) = some (v.file globals raco i false)) ∧
    writeUnits (some dir) globals raco i false fs (done ++ u :: rest) (u.name.path dir) =
      some (headerText i u.name none ++ queryText globals (getSmtlib globals raco u.solver) none) ∧
    ∀ v ∈ rest, writeUnits (some dir) globals raco i false fs (done ++ u :: rest) (v.name.path dir) = fs (v.name.path dir) := by
  have happ : ∀ (l : List QueryUnit) (fs : FileSystem), (∀ v ∈ l, v.answer ≠ none) → writeUnits (some dir) globals raco i false fs (l ++ u :: rest) =
      writeUnit (some dir) globals raco i false (writeUnits (some dir) globals raco i false fs l) u := by
    intro l
    induction l with
    | nil => intro fs _; simp [writeUnits, hu]
    | cons v l ih =>
      intro fs hl
      have hv := hl v (by simp)
      simp only [List.cons_append, writeUnits, hv, and_false, if_false]
      exact ih _ (fun w hw => hl w (by simp [hw]))
  have hd := C89_files_partial dir globals raco i false fs done (fun v hv => hp v (by simp [hv]))
    (by rw [List.map_append] at hn; exact (List.nodup_append.mp hn).1) (.inr ha)
  have hup := hp u (by simp)
  have hne : ∀ v, v ∈ done ∨ v ∈ rest → v.name.path dir ≠ u.name.path dir := by
    intro v hv he
    have := path_injective (hp v (by rcases hv with h | h <;> simp [h])) hup he
    rw [List.map_append, List.map_cons] at hn
    obtain ⟨-, hn2, hn3⟩ := List.nodup_append.mp hn
    rcases hv with h | h
    · exact hn3 _ (List.mem_map.mpr ⟨v, h, rfl⟩) u.name (by simp) this
    · exact (List.nodup_cons.mp hn2).1 (List.mem_map.mpr ⟨v, h, this⟩)
  rw [happ done fs ha, writeUnit_eq _ _ _ _ _ _ _ hup]
  refine ⟨fun v hv => ?_, ?_, fun v hv => ?_⟩
  · rw [Function.update_of_ne (hne v (.inl hv)), hd.1 v hv]
  · rw [Function.update_self]; simp [QueryUnit.file, QueryUnit.reported, hu]
  · rw [Function.update_of_ne (hne v (.inr hv)), hd.2]
    intro w hw he
    have := path_injective (hp v (by simp [hv])) (hp w (by simp [hw])) he
    rw [List.map_append, List.map_cons] at hn
    exact (List.nodup_append.mp hn).2.2 _ (List.mem_map.mpr ⟨w, hw, rfl⟩) v.name (by simp; exact .inr ⟨v, hv, rfl⟩) this.symm

/-- Without a directory, no file is written. -/
theorem C89_no_directory (fs : FileSystem) (us : List QueryUnit) : writeUnits none globals raco i noVerify fs us = fs := by
  have h1 : ∀ fs u, writeUnit none globals raco i noVerify fs u = fs := by
    intro fs u
    unfold writeUnit
    cases noVerify with
    | true => rfl
    | false => cases u.answer <;> rfl
  induction us generalizing fs with
  | nil => rfl
  | cons u us ih => simp only [writeUnits, h1, ih, ite_self]

end

/-- Names of units of two files. -/
theorem c89_plain : (⟨"b/a.heyvl".toList, some ['p']⟩ : UnitName).Plain ∧ (⟨"b/a.heyvl".toList, some ['q']⟩ : UnitName).Plain :=
  ⟨⟨by decide, ['p'], rfl, by decide, by decide⟩, ⟨by decide, ['q'], rfl, by decide, by decide⟩⟩

/-- Two procedures of a file. -/
def c89Units : List QueryUnit := [⟨⟨"b/a.heyvl".toList, some ['p']⟩, ['x'], some .proof⟩, ⟨⟨"b/a.heyvl".toList, some ['q']⟩, ['y'], some .counterexample⟩]

example : writeUnits (some ['o']) [] none c89Info false (fun _ => none) c89Units "o/b/a.heyvl::p.smt2".toList =
    some (QueryUnit.file [] none c89Info false ⟨⟨"b/a.heyvl".toList, some ['p']⟩, ['x'], some .proof⟩) :=
  (C89_files_partial ['o'] [] none c89Info false (fun _ => none) c89Units
    (by intro u hu; simp only [c89Units, List.mem_cons, List.not_mem_nil, or_false] at hu; rcases hu with rfl | rfl; exacts [c89_plain.1, c89_plain.2])
    (by decide) (.inr (by decide))).1 ⟨⟨"b/a.heyvl".toList, some ['p']⟩, ['x'], some .proof⟩ List.mem_cons_self

example : writeUnits (some ['o']) [] none c89Info false (fun _ => none)
      [⟨⟨"b/a.heyvl".toList, some ['p']⟩, ['x'], none⟩, ⟨⟨"b/a.heyvl".toList, some ['q']⟩, ['y'], some .counterexample⟩] "o/b/a.heyvl::q.smt2".toList = none :=
  (C89_stopped ['o'] [] none c89Info (fun _ => none) [] [⟨⟨"b/a.heyvl".toList, some ['q']⟩, ['y'], some .counterexample⟩]
    ⟨⟨"b/a.heyvl".toList, some ['p']⟩, ['x'], none⟩
    (by intro u hu; simp only [List.nil_append, List.mem_cons, List.not_mem_nil, or_false] at hu; rcases hu with rfl | rfl; exacts [c89_plain.1, c89_plain.2])
    (by decide) (by decide) rfl).2.2 _ List.mem_cons_self

/-- The full claim: all units with different names in relative paths have their files. -/
def C89_full : Prop := ∀ (dir : FText) (globals : Params) (raco : Option (FText → Option FText)) (i : CommandInfo) (fs : FileSystem) (us : List QueryUnit),
  (∀ u ∈ us, u.name.Relative) → (us.map (·.name)).Nodup → (∀ u ∈ us, u.answer ≠ none) →
  ∀ u ∈ us, ∃ p, writeUnits (some dir) globals raco i false fs us p = some (u.file globals raco i false)

/-- Two files of the same name, here and in the directory above. -/
def c89Clash : List QueryUnit := [⟨⟨"../a".toList, some ['p']⟩, ['x'], some .proof⟩, ⟨⟨['a'], some ['p']⟩, ['x'], some .counterexample⟩]

/-- It does not hold: `..` is removed from paths, so the units of `../a` and `a` have the same file, and only the last is kept. -/
theorem C89_not_full : ¬ C89_full := by
  intro h
  obtain ⟨p, hp⟩ := h ['o'] [] none c89Info (fun _ => none) c89Clash
    (by
      intro u hu
      simp only [c89Clash, List.mem_cons, List.not_mem_nil, or_false] at hu
      rcases hu with rfl | rfl
      · exact ⟨by decide, ['p'], rfl, by decide, by decide⟩
      · exact ⟨by decide, ['p'], rfl, by decide, by decide⟩)
    (by decide) (by decide) _ (List.mem_cons_self)
  have hf : (⟨"../a".toList, some ['p']⟩ : UnitName).fileName "smt2".toList = "a::p.smt2".toList := by decide
  have hf' : (⟨['a'], some ['p']⟩ : UnitName).fileName "smt2".toList = "a::p.smt2".toList := by decide
  by_cases hpath : p = "o/a::p.smt2".toList
  · subst hpath
    have e : writeUnits (some ['o']) [] none c89Info false (fun _ => none) c89Clash "o/a::p.smt2".toList =
        some (QueryUnit.file [] none c89Info false ⟨⟨['a'], some ['p']⟩, ['x'], some .counterexample⟩) := by
      simp only [c89Clash, writeUnits, writeUnit, writeSmtlib, hf, hf', Option.elim, Bool.false_eq_true, if_false, Bool.not_false, true_and, reduceCtorEq]
      exact Function.update_self (α := FText) (β := fun _ => Option FText) _ _ _
    rw [e] at hp
    have hl := congrArg List.getLast? (Option.some.inj hp)
    unfold QueryUnit.file at hl
    rw [List.getLast?_append, List.getLast?_append] at hl
    have h1 : (queryText [] (getSmtlib [] none ['x']) (some .counterexample)).getLast? = some '\n' := by decide
    have h2 : (queryText [] (getSmtlib [] none ['x']) (some .proof)).getLast? = some ')' := by decide
    simp only [QueryUnit.reported, Bool.false_eq_true, if_false, h1, h2, Option.some_or] at hl
    exact absurd hl (by decide)
  · have e : writeUnits (some ['o']) [] none c89Info false (fun _ => none) c89Clash p = none := by
      have hne : p ≠ pushPath ['o'] "a::p.smt2".toList := hpath
      simp only [c89Clash, writeUnits, writeUnit, writeSmtlib, hf, hf', Option.elim, Bool.false_eq_true, if_false, Bool.not_false, true_and, reduceCtorEq,
        Function.update_of_ne hne]
    rw [e] at hp
    cases hp

end Caesar.Driver.Query
