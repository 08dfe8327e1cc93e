import Mathlib.Data.List.Basic
import Mathlib.Data.List.Count

/-!
# Source positions

The model of the byte spans and of their conversion to the ranges of the language server protocol (`src/ast/diagnostic.rs`).
A text is a list of characters; the bytes of a character are those of its UTF-8 encoding (`Char.utf8Size`).
-/

namespace Caesar.Position

/-- `str::is_char_boundary` of Rust's standard library, which is used in `src/ast/diagnostic.rs:99-106`. The end of the text is a boundary,
everything beyond is not. -/
def isCharBoundary : List Char → ℕ → Bool
  | _, 0 => true
  | [], _ + 1 => false
  | c :: cs, i + 1 => if i + 1 < c.utf8Size then false else isCharBoundary cs (i + 1 - c.utf8Size)

/-- The number of character boundaries in a range of bytes: the two iterators of `src/ast/diagnostic.rs:99-106`. -/
def boundaries (source : List Char) (start stop : ℕ) : ℕ :=
  (List.range' start (stop - start)).countP (isCharBoundary source)

/-- A span of bytes, `Span` of `src/ast/diagnostic.rs:231-241`, without the file and without the variant. -/
structure ByteSpan where
  start : ℕ
  stop : ℕ

/-- `StoredFile::char_span` (`src/ast/diagnostic.rs:96-111`). `none` is the failed assertion. -/
def charSpan (source : List Char) (span : ByteSpan) : Option (ℕ × ℕ) :=
  if span.start ≤ span.stop then
    let start := boundaries source 0 span.start
    let stop := start + boundaries source span.start span.stop
    some (start, stop)
  else none

/-- `lsp_types::Position`: a line and a character, both count from zero. -/
structure Pos where
  line : ℕ
  character : ℕ
deriving DecidableEq

/-- `lsp_types::Range` as it is built in `src/ast/diagnostic.rs:308-317`; the fields also serve as the four variables of the loop of `to_lsp`
(`src/ast/diagnostic.rs:287-290`). -/
structure Range where
  start : Pos
  stop : Pos
deriving DecidableEq

/-- The loop of `Span::to_lsp` (`src/ast/diagnostic.rs:292-306`) for the characters that are left, from index `i` on. -/
def lspLoop (charStart charEnd : ℕ) : ℕ → List Char → Range → Range
  | _, [], r => r
  | i, c :: cs, r =>
    if i = charEnd then r
    else
      let start := if i = charStart then r.stop else r.start
      let stop : Pos := if c = '\n' then ⟨r.stop.line + 1, 0⟩ else ⟨r.stop.line, r.stop.character + 1⟩
      lspLoop charStart charEnd (i + 1) cs ⟨start, stop⟩

/-- `Span::to_lsp` (`src/ast/diagnostic.rs:280-319`) for a file of a client, without the look-up of the file. `none` is the failed assertion of
`char_span`. -/
def toLsp (source : List Char) (span : ByteSpan) : Option Range :=
  (charSpan source span).map fun cs => lspLoop cs.1 cs.2 0 source ⟨⟨0, 0⟩, ⟨0, 0⟩⟩

/-- The span of an unexpected end of the text, or of an invalid token (`src/front/parser/mod.rs:51-67`). -/
def pointSpan (location : ℕ) : ByteSpan := ⟨location, location + 1⟩

/-! ## Specification -/

/-- The number of bytes of a text. -/
def bytes (s : List Char) : ℕ := (s.map Char.utf8Size).sum

/-- The number of UTF-16 code units of a character: two for those beyond the basic multilingual plane. -/
def utf16Units (c : Char) : ℕ := if c.val.toNat < 0x10000 then 1 else 2

/-- The position behind a text, after the position `p`, in the language server protocol: `'\n'`, `"\r\n"` and `'\r'` end a line, and the
character is the number of UTF-16 code units since the start of the line (the default position encoding, and the server does not negotiate any other). -/
def lspPosFrom : List Char → Pos → Pos
  | [], p => p
  | '\r' :: '\n' :: s, p => lspPosFrom s ⟨p.line + 1, 0⟩
  | '\r' :: s, p => lspPosFrom s ⟨p.line + 1, 0⟩
  | '\n' :: s, p => lspPosFrom s ⟨p.line + 1, 0⟩
  | c :: s, p => lspPosFrom s ⟨p.line, p.character + utf16Units c⟩

/-- The position behind a prefix of a text. -/
def lspPos (before : List Char) : Pos := lspPosFrom before ⟨0, 0⟩

/-! ## Lemmas -/

/-- One character of the loop of `to_lsp`. -/
def advance (p : Pos) (c : Char) : Pos := if c = '\n' then ⟨p.line + 1, 0⟩ else ⟨p.line, p.character + 1⟩

theorem bytes_append (s t : List Char) : bytes (s ++ t) = bytes s + bytes t := by simp [bytes]

theorem bytes_cons (c : Char) (s : List Char) : bytes (c :: s) = c.utf8Size + bytes s := by simp [bytes]

theorem isCharBoundary_shift (c : Char) (cs : List Char) (i : ℕ) : isCharBoundary (c :: cs) (c.utf8Size + i) = isCharBoundary cs i := by
  have := c.utf8Size_pos
  obtain ⟨k, hk⟩ : ∃ k, c.utf8Size + i = k + 1 := ⟨c.utf8Size + i - 1, by omega⟩
  rw [hk]
  simp only [isCharBoundary]
  rw [if_neg (by omega)]
  congr 1
  omega

theorem isCharBoundary_inside (c : Char) (cs : List Char) (i : ℕ) (h0 : 0 < i) (h : i < c.utf8Size) : isCharBoundary (c :: cs) i = false := by
  obtain ⟨k, rfl⟩ : ∃ k, i = k + 1 := ⟨i - 1, by omega⟩
  simp [isCharBoundary, h]

theorem boundaries_append (s : List Char) {a b c : ℕ} (hab : a ≤ b) (hbc : b ≤ c) : boundaries s a c = boundaries s a b + boundaries s b c := by
  unfold boundaries
  rw [← List.countP_append]
  congr 1
  have h1 : a + 1 * (b - a) = b := by omega
  have h2 : c - a = (b - a) + (c - b) := by omega
  rw [h2, ← List.range'_append, h1]

theorem boundaries_shift (c : Char) (cs : List Char) (a b : ℕ) :
    boundaries (c :: cs) (c.utf8Size + a) (c.utf8Size + b) = boundaries cs a b := by
  unfold boundaries
  have h : c.utf8Size + b - (c.utf8Size + a) = b - a := by omega
  rw [h, ← List.map_add_range', List.countP_map]
  congr 1
  funext i
  simp [isCharBoundary_shift]

/-- Within the first character there is exactly one boundary. -/
theorem boundaries_first (c : Char) (cs : List Char) (k : ℕ) (h0 : 0 < k) (hk : k ≤ c.utf8Size) : boundaries (c :: cs) 0 k = 1 := by
  unfold boundaries
  obtain ⟨m, rfl⟩ : ∃ m, k = m + 1 := ⟨k - 1, by omega⟩
  simp only [Nat.sub_zero, List.range'_succ, List.countP_cons, Nat.zero_add]
  have : (List.range' 1 m).countP (isCharBoundary (c :: cs)) = 0 := by
    rw [List.countP_eq_zero]
    intro i hi
    rw [List.mem_range'_1] at hi
    simp [isCharBoundary_inside c cs i (by omega) (by omega)]
  rw [this]
  simp [isCharBoundary]

theorem boundaries_prefix (s t : List Char) : boundaries (s ++ t) 0 (bytes s) = s.length := by
  induction s with
  | nil => simp [bytes, boundaries]
  | cons c s ih =>
    have hc := c.utf8Size_pos
    rw [bytes_cons, boundaries_append _ (Nat.zero_le c.utf8Size) (by omega)]
    have h1 := boundaries_first c (s ++ t) c.utf8Size hc (Nat.le_refl _)
    have h2 := boundaries_shift c (s ++ t) 0 (bytes s)
    simp only [Nat.add_zero, List.cons_append] at h1 h2 ⊢
    rw [h1, h2, ih]
    simp [Nat.add_comm]

theorem boundaries_drop (s t : List Char) (a b : ℕ) : boundaries (s ++ t) (bytes s + a) (bytes s + b) = boundaries t a b := by
  induction s with
  | nil => simp [bytes]
  | cons c s ih =>
    rw [bytes_cons, Nat.add_assoc, Nat.add_assoc, List.cons_append, boundaries_shift, ih]

/-- The characters of which at least the first byte is before the end. -/
theorem boundaries_roundUp (s : List Char) (c : Char) (t : List Char) (k : ℕ) (h0 : 0 < k) (hk : k ≤ c.utf8Size) :
    boundaries (s ++ c :: t) 0 (bytes s + k) = s.length + 1 := by
  rw [boundaries_append _ (Nat.zero_le (bytes s)) (by omega), boundaries_prefix]
  have := boundaries_drop s (c :: t) 0 k
  rw [Nat.add_zero] at this
  rw [this, boundaries_first c t k h0 hk]

theorem lspLoop_before (cs ce : ℕ) (s t : List Char) (i : ℕ) (r : Range) (h1 : i + s.length ≤ cs) (h2 : i + s.length ≤ ce) :
    lspLoop cs ce i (s ++ t) r = lspLoop cs ce (i + s.length) t ⟨r.start, s.foldl advance r.stop⟩ := by
  induction s generalizing i r with
  | nil => simp
  | cons c s ih =>
    simp only [List.length_cons] at h1 h2
    simp only [List.cons_append, lspLoop]
    rw [if_neg (by omega), if_neg (by omega), ih _ _ (by omega) (by omega)]
    simp only [List.length_cons, List.foldl_cons, advance]
    congr 1
    omega

theorem lspLoop_inside (cs ce : ℕ) (s t : List Char) (i : ℕ) (r : Range) (h1 : cs < i) (h2 : i + s.length ≤ ce) :
    lspLoop cs ce i (s ++ t) r = lspLoop cs ce (i + s.length) t ⟨r.start, s.foldl advance r.stop⟩ := by
  induction s generalizing i r with
  | nil => simp
  | cons c s ih =>
    simp only [List.length_cons] at h2
    simp only [List.cons_append, lspLoop]
    rw [if_neg (by omega), if_neg (by omega), ih _ _ (by omega) (by omega)]
    simp only [List.length_cons, List.foldl_cons, advance]
    congr 1
    omega

theorem lspLoop_end (cs ce : ℕ) (s : List Char) (r : Range) : lspLoop cs ce ce s r = r := by
  cases s <;> simp [lspLoop]

theorem lspLoop_range (pre mid post : List Char) (h : mid ≠ []) (r : Range) :
    lspLoop pre.length (pre.length + mid.length) 0 (pre ++ (mid ++ post)) r =
      ⟨pre.foldl advance r.stop, mid.foldl advance (pre.foldl advance r.stop)⟩ := by
  rw [lspLoop_before _ _ _ _ _ _ (by omega) (by omega)]
  obtain ⟨c, mid, rfl⟩ := List.exists_cons_of_ne_nil h
  simp only [List.cons_append, lspLoop, List.length_cons, Nat.zero_add]
  rw [if_neg (by omega), if_pos trivial]
  rw [lspLoop_inside _ _ _ _ _ _ (by omega) (by omega)]
  have : pre.length + (mid.length + 1) = pre.length + 1 + mid.length := by omega
  rw [this, lspLoop_end]
  simp [advance]

/-- Specification: every carriage return is followed by a line feed. -/
def NoLoneCR (s : List Char) : Prop := ∀ a b, s = a ++ '\r' :: b → ∃ b', b = '\n' :: b'

theorem NoLoneCR.tail {c : Char} {s : List Char} (h : NoLoneCR (c :: s)) : NoLoneCR s := by
  intro a b hs
  exact h (c :: a) b (by rw [hs]; rfl)

theorem lspPosFrom_other (c : Char) (s : List Char) (p : Pos) (hn : c ≠ '\n') (hr : c ≠ '\r') :
    lspPosFrom (c :: s) p = lspPosFrom s ⟨p.line, p.character + utf16Units c⟩ :=
  lspPosFrom.eq_5 _ _ _ (by rintro _ h; exact absurd h hr) (by rintro h; exact absurd h hr) (by rintro h; exact absurd h hn)

/-- Within a line, the code's positions are those of the protocol if every character is one unit. -/
theorem lspPosFrom_line (s : List Char) (p : Pos) (h16 : ∀ c ∈ s, utf16Units c = 1) (hn : '\n' ∉ s) (hcr : '\r' ∉ s) :
    lspPosFrom s p = s.foldl advance p := by
  induction s generalizing p with
  | nil => rfl
  | cons c s ih =>
    simp only [List.mem_cons, not_or, forall_eq_or_imp] at h16 hcr hn
    have hr : c ≠ '\r' := fun h => hcr.1 h.symm
    have hl : c ≠ '\n' := fun h => hn.1 h.symm
    rw [lspPosFrom_other c s p hl hr, h16.1]
    simp only [List.foldl_cons, advance, hl, if_false]
    exact ih _ h16.2 hn.2 hcr.2

theorem lspPosFrom_lines_aux (last : List Char) (n : ℕ) : ∀ (e : List Char) (p q : Pos), e.length ≤ n → p.line = q.line → NoLoneCR (e ++ ['\n']) →
    ∃ l, lspPosFrom (e ++ '\n' :: last) p = lspPosFrom last ⟨l, 0⟩ ∧ (e ++ '\n' :: last).foldl advance q = last.foldl advance ⟨l, 0⟩ := by
  induction n with
  | zero =>
    intro e p q he hpq _
    obtain rfl : e = [] := List.length_eq_zero_iff.1 (by omega)
    exact ⟨p.line + 1, by simp [lspPosFrom], by simp [advance, hpq]⟩
  | succ n ih =>
    intro e p q he hpq hcr
    cases e with
    | nil => exact ⟨p.line + 1, by simp [lspPosFrom], by simp [advance, hpq]⟩
    | cons c e =>
      simp only [List.length_cons] at he
      by_cases hr : c = '\r'
      · subst hr
        obtain ⟨b', hb'⟩ := hcr [] (e ++ ['\n']) rfl
        cases e with
        | nil => exact ⟨p.line + 1, by simp [lspPosFrom], by simp [advance, hpq]⟩
        | cons d e =>
          simp only [List.cons_append, List.cons.injEq] at hb'
          obtain ⟨rfl, -⟩ := hb'
          simp only [List.length_cons] at he
          obtain ⟨l, h1, h2⟩ := ih e ⟨p.line + 1, 0⟩ ⟨q.line + 1, 0⟩ (by omega) (by simp [hpq]) hcr.tail.tail
          exact ⟨l, by simpa [lspPosFrom] using h1, by simpa [advance] using h2⟩
      · by_cases hn : c = '\n'
        · subst hn
          obtain ⟨l, h1, h2⟩ := ih e ⟨p.line + 1, 0⟩ ⟨q.line + 1, 0⟩ (by omega) (by simp [hpq]) hcr.tail
          exact ⟨l, by simpa [lspPosFrom] using h1, by simpa [advance] using h2⟩
        · obtain ⟨l, h1, h2⟩ := ih e ⟨p.line, p.character + utf16Units c⟩ ⟨q.line, q.character + 1⟩ (by omega) hpq hcr.tail
          refine ⟨l, ?_, ?_⟩
          · rw [List.cons_append, lspPosFrom_other c _ p hn hr]
            exact h1
          · simpa [advance, hn] using h2

/-- Specification: the text has no lone carriage returns, and all the characters of its last line are one UTF-16 code unit each. -/
def Plain (s : List Char) : Prop :=
  NoLoneCR s ∧ ∀ earlier last, s = earlier ++ last → '\n' ∉ last → (earlier = [] ∨ ∃ e, earlier = e ++ ['\n']) → ∀ c ∈ last, utf16Units c = 1

/-- Every text is some lines and a last line. -/
theorem split_last (s : List Char) : ∃ earlier last, s = earlier ++ last ∧ '\n' ∉ last ∧ (earlier = [] ∨ ∃ e, earlier = e ++ ['\n']) := by
  induction s with
  | nil => exact ⟨[], [], rfl, by simp, Or.inl rfl⟩
  | cons c s ih =>
    obtain ⟨earlier, last, rfl, hn, h⟩ := ih
    rcases h with rfl | ⟨e, rfl⟩
    · by_cases hc : c = '\n'
      · subst hc
        exact ⟨['\n'], last, by simp, hn, Or.inr ⟨[], rfl⟩⟩
      · exact ⟨[], c :: last, by simp, by simp [hn, Ne.symm hc], Or.inl rfl⟩
    · exact ⟨c :: e ++ ['\n'], last, by simp, hn, Or.inr ⟨c :: e, rfl⟩⟩

theorem lspPos_eq (s : List Char) (h : Plain s) : lspPos s = s.foldl advance ⟨0, 0⟩ := by
  obtain ⟨earlier, last, rfl, hn, he⟩ := split_last s
  have h16 := h.2 _ _ rfl hn he
  have hcr : '\r' ∉ last := by
    intro hm
    obtain ⟨a, b, rfl⟩ := List.append_of_mem hm
    obtain ⟨b', rfl⟩ := h.1 (earlier ++ a) b (by simp)
    simp at hn
  rcases he with rfl | ⟨e, rfl⟩
  · exact lspPosFrom_line last _ h16 hn hcr
  · have hcr' : NoLoneCR (e ++ ['\n']) := by
      intro a b hab
      obtain ⟨b', hb'⟩ := h.1 a (b ++ last) (by rw [hab]; simp)
      cases b with
      | nil =>
        have := congrArg List.getLast? hab
        simp at this
      | cons d b =>
        simp only [List.cons_append, List.cons.injEq] at hb'
        exact ⟨b, by rw [hb'.1]⟩
    obtain ⟨l, h1, h2⟩ := lspPosFrom_lines_aux last _ e ⟨0, 0⟩ ⟨0, 0⟩ (Nat.le_refl _) rfl hcr'
    simp only [List.append_assoc, List.cons_append, List.nil_append, lspPos]
    rw [h1, h2]
    exact lspPosFrom_line last _ h16 hn hcr

end Caesar.Position
