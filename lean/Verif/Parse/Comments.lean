import Mathlib.Data.List.Induction
import Mathlib.Tactic.Common

/-!
# Removing comments

Models `remove_comments` (`src/front/parser/mod.rs:255-312`), which runs before the parser, on the bytes of the source.
-/

namespace Caesar
namespace Comments

/-- Bytes that matter: `/`, `*`, line feed, space, `"`. (`src/front/parser/mod.rs:265-280`) -/
abbrev slash : UInt8 := 47
abbrev star : UInt8 := 42
abbrev newline : UInt8 := 10
abbrev space : UInt8 := 32
abbrev quote : UInt8 := 34

/-- Where the loop is: looking for comments, in a comment until the end of the line, in block comments of the given depth (`comment_depth`, which is an `i32`
in the code). (`src/front/parser/mod.rs:265-307`) -/
inductive Mode where
  | code
  | line
  | block (depth : Nat)

/-- The loops of `remove_comments` (`src/front/parser/mod.rs:265-307`). One iterator is shared by all loops. Looking for comments, the byte after a `/` is
consumed in any case (`iter.next()`). `take_while` consumes the line feed and leaves it as it is. In a block comment, two bytes are consumed if a comment begins
or ends there (`peek`). The end of a comment of depth 1 is the end of all comments (`break`). -/
def run : Mode → List UInt8 → List UInt8
  | .code, [] => []
  | .code, [b] => [b]
  | .code, b :: c :: bs =>
    if b = slash then
      if c = slash then space :: space :: run .line bs
      else if c = star then space :: space :: run (.block 1) bs
      else b :: c :: run .code bs
    else b :: run .code (c :: bs)
  | .line, [] => []
  | .line, b :: bs => if b = newline then b :: run .code bs else space :: run .line bs
  | .block _, [] => []
  | .block _, [_] => [space]
  | .block n, b :: c :: bs =>
    if b = star ∧ c = slash then space :: space :: run (if n - 1 = 0 then .code else .block (n - 1)) bs
    else if b = slash ∧ c = star then space :: space :: run (.block (n + 1)) bs
    else space :: run (.block n) (c :: bs)

/-- `remove_comments` (`src/front/parser/mod.rs:261-312`) on bytes. -/
def removeComments (s : List UInt8) : List UInt8 := run .code s

/-! ## Specification -/

/-- A line comment begins here. -/
def StartsLine (s : List UInt8) : Prop := ∃ t, s = slash :: slash :: t

/-- A block comment begins here. -/
def StartsBlock (s : List UInt8) : Prop := ∃ t, s = slash :: star :: t

/-- A block comment ends here. -/
def EndsBlock (s : List UInt8) : Prop := ∃ t, s = star :: slash :: t

/-- `Inside s t`: `s` is the text after `/*`, and `t` is the text after the `*/` that closes it. Block comments are nested. -/
inductive Inside : List UInt8 → List UInt8 → Prop where
  | close (t) : Inside (star :: slash :: t) t
  | nest {s m t} (h : Inside s m) (h' : Inside m t) : Inside (slash :: star :: s) t
  | byte {b s t} (h₁ : ¬ StartsBlock (b :: s)) (h₂ : ¬ EndsBlock (b :: s)) (h : Inside s t) : Inside (b :: s) t

/-- As many spaces as there are bytes of `s` before its end `t`. -/
def blank (s t : List UInt8) : List UInt8 := List.replicate (s.length - t.length) space

/-- `Strip L s r`: `r` is `s` with spaces in place of comments. A line comment does not include the end of the line. A block comment that is not closed extends to the
end. `L` are the sequences in which comments are not looked for (string literals). -/
inductive Strip (L : List UInt8 → Prop) : List UInt8 → List UInt8 → Prop where
  | nil : Strip L [] []
  | literal {l s r} (hl : L l) (h : Strip L s r) : Strip L (l ++ s) (l ++ r)
  | byte {b s r} (h₁ : ¬ StartsLine (b :: s)) (h₂ : ¬ StartsBlock (b :: s)) (h₃ : ∀ l s', L l → b :: s ≠ l ++ s') (h : Strip L s r) : Strip L (b :: s) (b :: r)
  | line {c s r} (hc : newline ∉ c) (hs : s = [] ∨ ∃ s', s = newline :: s') (h : Strip L s r) :
      Strip L (slash :: slash :: (c ++ s)) (space :: space :: (blank (c ++ s) s ++ r))
  | block {s t r} (hc : Inside s t) (h : Strip L t r) : Strip L (slash :: star :: s) (space :: space :: (blank s t ++ r))
  | unclosed {s} (h : ¬ ∃ t, Inside s t) : Strip L (slash :: star :: s) (space :: space :: blank s [])

/-- String literals: `"[^"]*"` (`src/front/parser/grammar.lalrpop:76`). -/
def StringLit (l : List UInt8) : Prop := ∃ c, quote ∉ c ∧ l = quote :: (c ++ [quote])

/-! ## Lemmas -/

theorem Inside.length {s t : List UInt8} (h : Inside s t) : t.length < s.length := by
  induction h with
  | close t => simp only [List.length_cons]; omega
  | nest _ _ ih ih' => simp only [List.length_cons]; omega
  | byte _ _ _ ih => simp only [List.length_cons]; omega

theorem blank_cons (b : UInt8) {s t : List UInt8} (h : t.length ≤ s.length) : blank (b :: s) t = space :: blank s t := by
  unfold blank
  rw [List.length_cons, show s.length + 1 - t.length = (s.length - t.length) + 1 by omega]
  rfl

theorem blank_trans {s m t : List UInt8} (h : m.length ≤ s.length) (h' : t.length ≤ m.length) : blank s m ++ blank m t = blank s t := by
  unfold blank
  rw [List.replicate_append_replicate]
  congr 1
  omega

theorem blank_self (s : List UInt8) : blank s s = [] := by simp [blank]

/-- In a line comment. -/
theorem run_line : ∀ (c : List UInt8) {s : List UInt8}, newline ∉ c → run .line (c ++ s) = blank (c ++ s) s ++ run .line s
  | [], s, _ => by rw [List.nil_append, blank_self]; rfl
  | b :: c, s, h => by
    have hb : b ≠ newline := fun e => h (e ▸ .head _)
    rw [List.cons_append, blank_cons b (by simp)]
    show (if b = newline then _ else _) = _
    rw [if_neg hb, run_line c fun h' => h (.tail _ h')]
    rfl

theorem run_line_end {s : List UInt8} (h : s = [] ∨ ∃ s', s = newline :: s') : run .line s = run .code s := by
  obtain rfl | ⟨s', rfl⟩ := h
  · rfl
  · show (if newline = newline then _ else _) = _
    rw [if_pos rfl]
    cases s' with
    | nil => rfl
    | cons c s' =>
      show _ = (if newline = slash then _ else _)
      rw [if_neg (by decide)]

/-- What a block comment of depth `n` is followed by. -/
def after (n : Nat) : Mode := if n = 0 then .code else .block n

/-- A balanced part of a block comment ends one level. -/
theorem run_inside {s t : List UInt8} (h : Inside s t) : ∀ n, run (.block (n + 1)) s = blank s t ++ run (after n) t := by
  induction h with
  | close t =>
    intro n
    show (if _ then _ else _) = _
    rw [if_pos ⟨rfl, rfl⟩, blank_cons _ (by simp), blank_cons _ (by simp), blank_self]
    show _ = space :: space :: run (if n = 0 then .code else .block n) t
    rw [show n + 1 - 1 = n by omega]
  | @nest s m t h h' ih ih' =>
    intro n
    have l1 := h.length
    have l2 := h'.length
    show (if _ then _ else _) = _
    rw [if_neg (by decide), if_pos ⟨rfl, rfl⟩, ih (n + 1), show run (after (n + 1)) m = run (.block (n + 1)) m from rfl, ih' n, blank_cons _ (by simp; omega),
      blank_cons _ (by omega), ← blank_trans (s := s) (m := m) (t := t) (by omega) (by omega)]
    simp
  | @byte b s t h1 h2 h ih =>
    intro n
    have l1 := h.length
    rw [blank_cons _ (by omega)]
    cases s with
    | nil => cases h
    | cons c s =>
      show (if _ then _ else _) = _
      rw [if_neg fun e => h2 ⟨s, by rw [e.1, e.2]⟩, if_neg fun e => h1 ⟨s, by rw [e.1, e.2]⟩, ih n]
      rfl

theorem Inside.unique {s t t' : List UInt8} (h : Inside s t) (h' : Inside s t') : t = t' := by
  induction h generalizing t' with
  | close t =>
    cases h' with
    | close => rfl
    | byte _ h2 _ => exact (h2 ⟨_, rfl⟩).elim
  | @nest s m t h h'' ih ih' =>
    cases h' with
    | nest k k' => exact ih' (ih k ▸ k')
    | byte h1 _ _ => exact (h1 ⟨_, rfl⟩).elim
  | byte h1 h2 h ih =>
    cases h' with
    | close => exact (h2 ⟨_, rfl⟩).elim
    | nest => exact (h1 ⟨_, rfl⟩).elim
    | byte _ _ k => exact ih k


/-- The comments that are open, `n + 1` of them, cannot all be closed. -/
inductive Closes : Nat → List UInt8 → List UInt8 → Prop where
  | one {s t} (h : Inside s t) : Closes 0 s t
  | more {n s m t} (h : Inside s m) (h' : Closes n m t) : Closes (n + 1) s t

theorem run_open {s : List UInt8} : ∀ {n : Nat}, (¬ ∃ t, Closes n s t) → run (.block (n + 1)) s = blank s [] := by
  induction s using List.twoStepInduction with
  | nil => intro n _; rfl
  | singleton b => intro n _; rfl
  | cons_cons b c s ih1 ih2 =>
    intro n h
    show (if _ then _ else _) = _
    rw [blank_cons _ (by simp), blank_cons _ (by simp)]
    split
    · next e =>
      rw [show n + 1 - 1 = n by omega]
      cases n with
      | zero => exact (h ⟨s, .one (by rw [e.1, e.2]; exact .close s)⟩).elim
      | succ n =>
        rw [if_neg (by omega), ih1]
        rintro ⟨t, ht⟩
        exact h ⟨t, .more (by rw [e.1, e.2]; exact .close s) ht⟩
    · next e1 =>
      split
      · next e =>
        rw [ih1 (n := n + 1)]
        rintro ⟨t, ht⟩
        cases ht with
        | more k k' =>
          refine h ⟨t, ?_⟩
          cases k' with
          | one k' => exact .one (by rw [e.1, e.2]; exact .nest k k')
          | more k' k'' => exact .more (by rw [e.1, e.2]; exact .nest k k') k''
      · next e2 =>
        have hs : ¬ StartsBlock (b :: c :: s) := by rintro ⟨t, e⟩; cases e; exact e2 ⟨rfl, rfl⟩
        have he : ¬ EndsBlock (b :: c :: s) := by rintro ⟨t, e⟩; cases e; exact e1 ⟨rfl, rfl⟩
        rw [ih2, blank_cons _ (by simp)]
        rintro ⟨t, ht⟩
        cases ht with
        | one k => exact h ⟨t, .one (.byte hs he k)⟩
        | more k k' => exact h ⟨t, .more (.byte hs he k) k'⟩

/-- A byte that does not begin a comment is kept. -/
theorem run_code {b : UInt8} {s : List UInt8} (h1 : ¬ StartsLine (b :: s)) (h2 : ¬ StartsBlock (b :: s)) : run .code (b :: s) = b :: run .code s := by
  cases s with
  | nil => rfl
  | cons c s =>
    show (if _ then _ else _) = _
    split
    · next e =>
      subst e
      have hc1 : c ≠ slash := fun e => h1 ⟨s, by rw [e]⟩
      have hc2 : c ≠ star := fun e => h2 ⟨s, by rw [e]⟩
      rw [if_neg hc1, if_neg hc2]
      cases s with
      | nil => rfl
      | cons d s =>
        show _ = slash :: (if _ then _ else _)
        rw [if_neg hc1]
    · rfl

/-- No comments are looked for in string literals: `l` contains no `//` and no `/*`. -/
def Clean (l : List UInt8) : Prop := ∀ u v, l ≠ u ++ slash :: slash :: v ∧ l ≠ u ++ slash :: star :: v

theorem Clean.tail {b : UInt8} {l : List UInt8} (h : Clean (b :: l)) : Clean l := fun u v =>
  ⟨fun e => (h (b :: u) v).1 (by rw [e]; rfl), fun e => (h (b :: u) v).2 (by rw [e]; rfl)⟩

/-- What is kept in front of something that begins with `x`, if `l` ends with `q`, which is not a slash. -/
theorem run_clean : ∀ (l : List UInt8) {q : UInt8} {s : List UInt8}, q ≠ slash → Clean (l ++ [q]) → run .code (l ++ q :: s) = l ++ q :: run .code s
  | [], q, s, hq, _ => run_code (by rintro ⟨t, e⟩; cases e; exact hq rfl) (by rintro ⟨t, e⟩; cases e; exact hq rfl)
  | b :: l, q, s, hq, h => by
    rw [List.cons_append, run_code, run_clean l hq h.tail]
    · rfl
    · rintro ⟨t, e⟩
      cases l with
      | nil => cases e; exact hq rfl
      | cons c l => cases e; exact (h [] (l ++ [q])).1 rfl
    · rintro ⟨t, e⟩
      cases l with
      | nil => cases e; exact (h [] []).2 rfl
      | cons c l => cases e; exact (h [] (l ++ [q])).2 rfl

/-- The code does what the specification says, if nothing that looks like a comment is in a literal. -/
theorem Strip.run {L : List UInt8 → Prop} {s r : List UInt8} (h : Strip L s r)
    (hL : ∀ l, L l → ∃ c q, l = c ++ [q] ∧ q ≠ slash ∧ Clean l) : Comments.run .code s = r := by
  induction h with
  | nil => rfl
  | @literal l s r hl _ ih =>
    obtain ⟨c, q, rfl, hq, hc⟩ := hL l hl
    rw [List.append_assoc, List.append_assoc]
    exact (run_clean (s := s) c hq hc).trans (by rw [ih]; rfl)
  | byte h1 h2 _ _ ih => rw [run_code h1 h2, ih]
  | @line c s r hc hs _ ih =>
    show (if _ then _ else _) = _
    rw [if_pos rfl, if_pos rfl, run_line c hc, run_line_end hs, ih]
  | @block s t r hc _ ih =>
    show (if _ then _ else _) = _
    rw [if_pos rfl, if_neg (by decide), if_pos rfl, run_inside hc 0]
    show _ :: _ :: (_ ++ Comments.run .code t) = _
    rw [ih]
  | @unclosed s h =>
    show (if _ then _ else _) = _
    rw [if_pos rfl, if_neg (by decide), if_pos rfl, run_open (n := 0)]
    rintro ⟨t, ht⟩
    cases ht with
    | one k => exact h ⟨t, k⟩

/-- The end of a line comment. -/
theorem line_split : ∀ s : List UInt8, ∃ c t, s = c ++ t ∧ newline ∉ c ∧ (t = [] ∨ ∃ s', t = newline :: s')
  | [] => ⟨[], [], rfl, List.not_mem_nil, .inl rfl⟩
  | b :: s => by
    by_cases h : b = newline
    · exact ⟨[], b :: s, rfl, List.not_mem_nil, .inr ⟨s, by rw [h]⟩⟩
    · obtain ⟨c, t, rfl, h1, h2⟩ := line_split s
      exact ⟨b :: c, t, rfl, by simp [Ne.symm h, h1], h2⟩

/-- Comments can be stripped from every source. -/
theorem Strip.total (L : List UInt8 → Prop) (hL : ∀ l, L l → l ≠ []) (s : List UInt8) : ∃ r, Strip L s r := by
  generalize hn : s.length = n
  induction n using Nat.strongRecOn generalizing s with
  | _ n ih =>
    cases s with
    | nil => exact ⟨[], .nil⟩
    | cons b s =>
      by_cases hl : ∃ l s', L l ∧ b :: s = l ++ s'
      · obtain ⟨l, s', h1, h2⟩ := hl
        have : l.length ≠ 0 := fun e => hL l h1 (List.length_eq_zero_iff.1 e)
        have hlen := congrArg List.length h2
        simp only [List.length_append] at hlen
        obtain ⟨r, hr⟩ := ih s'.length (by simp only [List.length_cons] at *; omega) s' rfl
        exact ⟨l ++ r, h2 ▸ .literal h1 hr⟩
      · by_cases h1 : StartsLine (b :: s)
        · obtain ⟨t, h1⟩ := h1
          obtain ⟨c, u, rfl, h2, h3⟩ := line_split t
          obtain ⟨r, hr⟩ := ih u.length (by rw [h1] at hn; simp only [List.length_cons, List.length_append] at hn; omega) u rfl
          rw [h1]
          exact ⟨_, .line h2 h3 hr⟩
        · by_cases h2 : StartsBlock (b :: s)
          · obtain ⟨t, h2⟩ := h2
            by_cases h3 : ∃ u, Inside t u
            · obtain ⟨u, h3⟩ := h3
              obtain ⟨r, hr⟩ := ih u.length (by have := h3.length; rw [h2] at hn; simp only [List.length_cons] at hn; omega) u rfl
              rw [h2]
              exact ⟨_, .block h3 hr⟩
            · rw [h2]
              exact ⟨_, .unclosed h3⟩
          · obtain ⟨r, hr⟩ := ih s.length (by simp only [List.length_cons] at hn; omega) s rfl
            exact ⟨b :: r, .byte h1 h2 (fun l s' k e => hl ⟨l, s', k, e⟩) hr⟩

/-- A string literal is determined by where it begins. -/
theorem StringLit.unique {l l' s s' : List UInt8} (h : StringLit l) (h' : StringLit l') (e : l ++ s = l' ++ s') : l = l' ∧ s = s' := by
  obtain ⟨c, hc, rfl⟩ := h
  obtain ⟨c', hc', rfl⟩ := h'
  simp only [List.cons_append, List.append_assoc, List.nil_append, List.cons.injEq, true_and] at e
  have key : ∀ (c c' : List UInt8), quote ∉ c → quote ∉ c' → c ++ quote :: s = c' ++ quote :: s' → c = c' ∧ s = s' := by
    intro c
    induction c with
    | nil =>
      intro c' _ h' e
      cases c' with
      | nil => cases e; exact ⟨rfl, rfl⟩
      | cons b c' => cases e; exact (h' (.head _)).elim
    | cons b c ih =>
      intro c' h h' e
      cases c' with
      | nil => cases e; exact (h (.head _)).elim
      | cons b' c' =>
        simp only [List.cons_append, List.cons.injEq] at e
        obtain ⟨rfl, e⟩ := e
        obtain ⟨rfl, rfl⟩ := ih c' (fun k => h (.tail _ k)) (fun k => h' (.tail _ k)) e
        exact ⟨rfl, rfl⟩
  obtain ⟨rfl, rfl⟩ := key c c' hc hc' e
  exact ⟨rfl, rfl⟩

theorem line_unique {c c' s s' : List UInt8} (hc : newline ∉ c) (hc' : newline ∉ c') (hs : s = [] ∨ ∃ t, s = newline :: t) (hs' : s' = [] ∨ ∃ t, s' = newline :: t)
    (e : c ++ s = c' ++ s') : c = c' ∧ s = s' := by
  induction c generalizing c' with
  | nil =>
    cases c' with
    | nil => exact ⟨rfl, e⟩
    | cons b c' =>
      simp only [List.nil_append] at e
      subst e
      obtain h | ⟨t, h⟩ := hs
      · cases h
      · cases h; exact (hc' (.head _)).elim
  | cons b c ih =>
    cases c' with
    | nil =>
      simp only [List.nil_append] at e
      subst e
      obtain h | ⟨t, h⟩ := hs'
      · cases h
      · cases h; exact (hc (.head _)).elim
    | cons b' c' =>
      simp only [List.cons_append, List.cons.injEq] at e
      obtain ⟨rfl, e⟩ := e
      obtain ⟨rfl, rfl⟩ := ih (fun k => hc (.tail _ k)) (fun k => hc' (.tail _ k)) e
      exact ⟨rfl, rfl⟩

/-- The specification determines the result. -/
theorem Strip.unique {s r r' : List UInt8} (h : Strip StringLit s r) (h' : Strip StringLit s r') : r = r' := by
  induction h generalizing r' with
  | nil =>
    generalize hs : ([] : List UInt8) = s at h'
    cases h' with
    | nil => rfl
    | literal hl _ => obtain ⟨c, _, rfl⟩ := hl; cases hs
    | byte => cases hs
    | line => cases hs
    | block => cases hs
    | unclosed => cases hs
  | @literal l s r hl _ ih =>
    generalize hs : l ++ s = s' at h'
    cases h' with
    | nil => obtain ⟨c, _, rfl⟩ := hl; cases hs
    | literal hl' h' => obtain ⟨rfl, rfl⟩ := hl.unique hl' hs; rw [ih h']
    | byte _ _ h3 _ => exact (h3 _ _ hl hs.symm).elim
    | line => obtain ⟨c, _, rfl⟩ := hl; cases hs
    | block => obtain ⟨c, _, rfl⟩ := hl; cases hs
    | unclosed => obtain ⟨c, _, rfl⟩ := hl; cases hs
  | @byte b s r h1 h2 h3 _ ih =>
    generalize hs : b :: s = s' at h'
    cases h' with
    | nil => cases hs
    | literal hl' h' => exact (h3 _ _ hl' hs).elim
    | byte _ _ _ h' => cases hs; rw [ih h']
    | line => cases hs; exact (h1 ⟨_, rfl⟩).elim
    | block => cases hs; exact (h2 ⟨_, rfl⟩).elim
    | unclosed => cases hs; exact (h2 ⟨_, rfl⟩).elim
  | @line c s r hc hs _ ih =>
    generalize hs' : slash :: slash :: (c ++ s) = s' at h'
    cases h' with
    | nil => cases hs'
    | literal hl' h' => obtain ⟨c, _, rfl⟩ := hl'; cases hs'
    | byte h1 _ _ h' => cases hs'; exact (h1 ⟨_, rfl⟩).elim
    | line hc' hs'' h' =>
      simp only [List.cons.injEq, true_and] at hs'
      obtain ⟨rfl, rfl⟩ := line_unique hc hc' hs hs'' hs'
      rw [ih h']
    | block => cases hs'
    | unclosed => cases hs'
  | @block s t r hc _ ih =>
    generalize hs' : slash :: star :: s = s' at h'
    cases h' with
    | nil => cases hs'
    | literal hl' h' => obtain ⟨c, _, rfl⟩ := hl'; cases hs'
    | byte _ h2 _ h' => cases hs'; exact (h2 ⟨_, rfl⟩).elim
    | line => cases hs'
    | block hc' h' =>
      cases hs'
      obtain rfl := hc.unique hc'
      rw [ih h']
    | unclosed h' => cases hs'; exact (h' ⟨_, hc⟩).elim
  | @unclosed s h =>
    generalize hs' : slash :: star :: s = s' at h'
    cases h' with
    | nil => cases hs'
    | literal hl' h' => obtain ⟨c, _, rfl⟩ := hl'; cases hs'
    | byte _ h2 _ h' => cases hs'; exact (h2 ⟨_, rfl⟩).elim
    | line => cases hs'
    | block hc' h' => cases hs'; exact (h ⟨_, hc'⟩).elim
    | unclosed => cases hs'; rfl

/-- The code does what the specification without literals says. -/
theorem removeComments_strip (s : List UInt8) : Strip (fun _ => False) s (removeComments s) := by
  obtain ⟨r, hr⟩ := Strip.total (fun _ => False) (fun _ h => h.elim) s
  have e : removeComments s = r := hr.run fun _ h => h.elim
  exact e ▸ hr

/-- Positions do not change. -/
theorem Strip.length {L : List UInt8 → Prop} {s r : List UInt8} (h : Strip L s r) : r.length = s.length := by
  induction h with
  | nil => rfl
  | literal _ _ ih => simp [ih]
  | byte _ _ _ _ ih => simp [ih]
  | line _ _ _ ih => simp [blank, ih]
  | block hc _ ih =>
    have := hc.length
    simp only [blank, List.length_cons, List.length_append, List.length_replicate, ih]
    omega
  | unclosed => simp [blank]

/-- Every byte is kept or becomes a space. -/
theorem run_bytes : ∀ (s : List UInt8) (m : Mode), List.Forall₂ (fun b b' => b' = b ∨ b' = space) s (run m s)
  | [], .code => .nil
  | [], .line => .nil
  | [], .block _ => .nil
  | [_], .code => .cons (.inl rfl) .nil
  | [_], .block _ => .cons (.inr rfl) .nil
  | b :: bs, .line => by
    show List.Forall₂ _ _ (if _ then _ else _)
    split
    · exact .cons (.inl rfl) (run_bytes bs _)
    · exact .cons (.inr rfl) (run_bytes bs _)
  | b :: c :: bs, .code => by
    show List.Forall₂ _ _ (if _ then _ else _)
    split
    · split
      · exact .cons (.inr rfl) (.cons (.inr rfl) (run_bytes bs _))
      · split
        · exact .cons (.inr rfl) (.cons (.inr rfl) (run_bytes bs _))
        · exact .cons (.inl rfl) (.cons (.inl rfl) (run_bytes bs _))
    · exact .cons (.inl rfl) (run_bytes (c :: bs) _)
  | b :: c :: bs, .block n => by
    show List.Forall₂ _ _ (if _ then _ else _)
    split
    · exact .cons (.inr rfl) (.cons (.inr rfl) (run_bytes bs _))
    · split
      · exact .cons (.inr rfl) (.cons (.inr rfl) (run_bytes bs _))
      · exact .cons (.inr rfl) (run_bytes (c :: bs) _)

theorem Clean.cons {b : UInt8} {l : List UInt8} (h : Clean l) (h1 : ¬ StartsLine (b :: l)) (h2 : ¬ StartsBlock (b :: l)) : Clean (b :: l) := by
  intro u v
  cases u with
  | nil => exact ⟨fun e => h1 ⟨v, e⟩, fun e => h2 ⟨v, e⟩⟩
  | cons x u =>
    refine ⟨fun e => ?_, fun e => ?_⟩
    · simp only [List.cons_append, List.cons.injEq] at e; exact (h u v).1 e.2
    · simp only [List.cons_append, List.cons.injEq] at e; exact (h u v).2 e.2

theorem Clean.space {l : List UInt8} (h : Clean l) : Clean (Comments.space :: l) :=
  h.cons (by rintro ⟨t, e⟩; cases e) (by rintro ⟨t, e⟩; cases e)

theorem Clean.replicate {l : List UInt8} (h : Clean l) : ∀ n, Clean (List.replicate n Comments.space ++ l)
  | 0 => h
  | n + 1 => (Clean.replicate h n).space

theorem Clean.nil : Clean [] := fun u v => ⟨fun e => absurd (congrArg List.length e) (by simp), fun e => absurd (congrArg List.length e) (by simp)⟩

/-- No comments are left. -/
theorem Strip.clean {s r : List UInt8} (h : Strip (fun _ => False) s r) : Clean r := by
  induction h with
  | nil => exact .nil
  | literal hl _ _ => exact hl.elim
  | @byte b s r h1 h2 _ h ih =>
    have hb : r = removeComments s := by
      obtain rfl := h.run fun _ h => h.elim
      rfl
    have hf := run_bytes s .code
    rw [show Comments.run .code s = r from hb.symm] at hf
    refine ih.cons ?_ ?_
    · rintro ⟨t, e⟩
      cases e
      cases hf with
      | @cons a _ s' _ h _ =>
        obtain h | h := h
        · exact h1 ⟨s', by rw [← h]⟩
        · exact absurd h (by decide)
    · rintro ⟨t, e⟩
      cases e
      cases hf with
      | @cons a _ s' _ h _ =>
        obtain h | h := h
        · exact h2 ⟨s', by rw [← h]⟩
        · exact absurd h (by decide)
  | line _ _ _ ih => exact (Clean.replicate ih _).space.space
  | block _ _ ih => exact (Clean.replicate ih _).space.space
  | unclosed _ =>
    have := Clean.replicate .nil
    simp only [List.append_nil] at this
    exact (this _).space.space

/-- Source without comments is kept. -/
theorem Clean.keep : ∀ {s : List UInt8}, Clean s → removeComments s = s
  | [], _ => rfl
  | b :: s, h => by
    show run .code (b :: s) = _
    rw [run_code (fun ⟨t, e⟩ => (h [] t).1 e) (fun ⟨t, e⟩ => (h [] t).2 e)]
    exact congrArg _ (Clean.keep h.tail)

/-! ## UTF-8 -/

/-- Bytes of characters that are not ASCII. -/
def High (b : UInt8) : Prop := 128 ≤ b.toNat

theorem High.ne {b c : UInt8} (h : High b) (hc : c.toNat < 128) : b ≠ c := by
  rintro rfl
  exact absurd h (Nat.not_le.2 hc)

theorem encode_cases (c : Char) : (∃ b : UInt8, b.toNat < 128 ∧ String.utf8EncodeChar c = [b]) ∨ ∀ b ∈ String.utf8EncodeChar c, High b := by
  unfold String.utf8EncodeChar High
  have key : ∀ n, 128 ≤ n → n < 256 → 128 ≤ (UInt8.ofNat n).toNat := fun n h1 h2 => by
    rw [UInt8.toNat_ofNat_of_lt' h2]; exact h1
  dsimp only
  split
  · next h => exact .inl ⟨_, by rw [UInt8.toNat_ofNat_of_lt' (by show _ < 256; omega)]; omega, rfl⟩
  · right
    split
    · intro b hb
      simp only [List.mem_cons, List.not_mem_nil, or_false] at hb
      obtain rfl | rfl := hb <;> exact key _ (by omega) (by omega)
    · split
      · intro b hb
        simp only [List.mem_cons, List.not_mem_nil, or_false] at hb
        obtain rfl | rfl | rfl := hb <;> exact key _ (by omega) (by omega)
      · intro b hb
        simp only [List.mem_cons, List.not_mem_nil, or_false] at hb
        obtain rfl | rfl | rfl | rfl := hb <;> exact key _ (by omega) (by omega)

/-- The bytes of a text. -/
def encode (cs : List Char) : List UInt8 := cs.flatMap String.utf8EncodeChar

theorem encode_append (cs ds : List Char) : encode (cs ++ ds) = encode cs ++ encode ds := List.flatMap_append

theorem encode_spaces : ∀ n, encode (List.replicate n ' ') = List.replicate n space
  | 0 => rfl
  | n + 1 => by
    show String.utf8EncodeChar ' ' ++ encode (List.replicate n ' ') = _
    rw [encode_spaces n]
    rfl

theorem run_high_code : ∀ {h s : List UInt8}, (∀ b ∈ h, High b) → run .code (h ++ s) = h ++ run .code s
  | [], _, _ => rfl
  | b :: h, s, hh => by
    have hb : b ≠ slash := (hh b (.head _)).ne (by decide)
    rw [List.cons_append, run_code (fun ⟨t, e⟩ => hb (List.cons.inj e).1) (fun ⟨t, e⟩ => hb (List.cons.inj e).1), run_high_code fun b h => hh b (.tail _ h)]
    rfl

theorem run_high_line : ∀ {h s : List UInt8}, (∀ b ∈ h, High b) → run .line (h ++ s) = List.replicate h.length space ++ run .line s
  | [], _, _ => rfl
  | b :: h, s, hh => by
    show (if _ then _ else _) = _
    rw [if_neg ((hh b (.head _)).ne (by decide))]
    exact congrArg (space :: ·) (run_high_line fun b h => hh b (.tail _ h))

theorem run_high_block {n : Nat} : ∀ {h s : List UInt8}, (∀ b ∈ h, High b) → run (.block n) (h ++ s) = List.replicate h.length space ++ run (.block n) s
  | [], _, _ => rfl
  | b :: h, s, hh => by
    have ih := run_high_block (n := n) (h := h) (s := s) fun b h => hh b (.tail _ h)
    have h1 : b ≠ slash := (hh b (.head _)).ne (by decide)
    have h2 : b ≠ star := (hh b (.head _)).ne (by decide)
    rw [List.cons_append]
    generalize h ++ s = t at ih
    rw [List.length_cons, List.replicate_succ, List.cons_append, ← ih]
    cases t with
    | nil => rfl
    | cons c t =>
      show (if _ then _ else _) = _
      rw [if_neg fun e => h2 e.1, if_neg fun e => h1 e.1]

theorem encode_ascii {cs : List Char} {b : UInt8} {t : List UInt8} (h : encode cs = b :: t) (hb : b.toNat < 128) :
    ∃ c cs', cs = c :: cs' ∧ String.utf8EncodeChar c = [b] ∧ t = encode cs' := by
  cases cs with
  | nil => cases h
  | cons c cs =>
    have h' : String.utf8EncodeChar c ++ encode cs = b :: t := h
    obtain ⟨b', _, e⟩ | hh := encode_cases c
    · rw [e] at h'
      cases h'
      exact ⟨c, cs, rfl, e, rfl⟩
    · cases hl : String.utf8EncodeChar c with
      | nil => exact (String.utf8EncodeChar_ne_nil hl).elim
      | cons x l =>
        rw [hl] at h' hh
        obtain ⟨rfl, _⟩ := List.cons.inj h'
        exact absurd (hh x (.head _)) (Nat.not_le.2 hb)

/-- The text stays valid UTF-8. -/
theorem run_encode (n : Nat) : ∀ cs : List Char, cs.length ≤ n → ∀ m, ∃ ds : List Char, run m (encode cs) = encode ds := by
  induction n with
  | zero =>
    intro cs h m
    obtain rfl := List.length_eq_zero_iff.1 (Nat.le_zero.1 h)
    exact ⟨[], by cases m <;> rfl⟩
  | succ n ih =>
    intro cs h m
    cases cs with
    | nil => exact ⟨[], by cases m <;> rfl⟩
    | cons c cs =>
      have hn : cs.length ≤ n := Nat.le_of_succ_le_succ h
      have two : ∀ {t ds}, t = encode ds → space :: space :: t = encode (' ' :: ' ' :: ds) := fun e => by rw [e]; rfl
      have one : ∀ {t ds}, t = encode ds → space :: t = encode (' ' :: ds) := fun e => by rw [e]; rfl
      show ∃ ds, run m (String.utf8EncodeChar c ++ encode cs) = encode ds
      obtain ⟨b, hb, e⟩ | hh := encode_cases c
      · rw [e]
        cases m with
        | line =>
          rw [List.singleton_append]
          unfold run
          split
          · obtain ⟨ds, hd⟩ := ih cs hn .code
            exact ⟨c :: ds, by rw [hd]; show _ = String.utf8EncodeChar c ++ _; rw [e]; rfl⟩
          · obtain ⟨ds, hd⟩ := ih cs hn .line
            exact ⟨_, one hd⟩
        | code =>
          by_cases h1 : StartsLine (b :: encode cs)
          · obtain ⟨t, h1⟩ := h1
            obtain ⟨rfl, h3⟩ := List.cons.inj h1
            obtain ⟨_, cs', rfl, _, rfl⟩ := encode_ascii h3 (by decide)
            obtain ⟨ds, hd⟩ := ih cs' (by simp only [List.length_cons] at hn; omega) .line
            exact ⟨_, by rw [List.singleton_append, h1]; exact two hd⟩
          · by_cases h2 : StartsBlock (b :: encode cs)
            · obtain ⟨t, h2⟩ := h2
              obtain ⟨rfl, h3⟩ := List.cons.inj h2
              obtain ⟨_, cs', rfl, _, rfl⟩ := encode_ascii h3 (by decide)
              obtain ⟨ds, hd⟩ := ih cs' (by simp only [List.length_cons] at hn; omega) (.block 1)
              exact ⟨_, by rw [List.singleton_append, h2]; exact two hd⟩
            · obtain ⟨ds, hd⟩ := ih cs hn .code
              exact ⟨c :: ds, by rw [List.singleton_append, run_code h1 h2, hd]; show _ = String.utf8EncodeChar c ++ _; rw [e]; rfl⟩
        | block k =>
          cases ht : encode cs with
          | nil => exact ⟨[' '], rfl⟩
          | cons b' t =>
            rw [List.singleton_append]
            unfold run
            split
            · next e' =>
              obtain ⟨_, cs', rfl, _, rfl⟩ := encode_ascii ht (by rw [e'.2]; decide)
              obtain ⟨ds, hd⟩ := ih cs' (by simp only [List.length_cons] at hn; omega) (if k - 1 = 0 then .code else .block (k - 1))
              exact ⟨_, two hd⟩
            · split
              · next e' =>
                obtain ⟨_, cs', rfl, _, rfl⟩ := encode_ascii ht (by rw [e'.2]; decide)
                obtain ⟨ds, hd⟩ := ih cs' (by simp only [List.length_cons] at hn; omega) (.block (k + 1))
                exact ⟨_, two hd⟩
              · obtain ⟨ds, hd⟩ := ih cs hn (.block k)
                rw [ht] at hd
                exact ⟨_, one hd⟩
      · cases m with
        | code =>
          obtain ⟨ds, hd⟩ := ih cs hn .code
          exact ⟨c :: ds, by rw [run_high_code hh, hd]; rfl⟩
        | line =>
          obtain ⟨ds, hd⟩ := ih cs hn .line
          exact ⟨List.replicate _ ' ' ++ ds, by rw [run_high_line hh, hd, encode_append, encode_spaces]⟩
        | block k =>
          obtain ⟨ds, hd⟩ := ih cs hn (.block k)
          exact ⟨List.replicate _ ' ' ++ ds, by rw [run_high_block hh, hd, encode_append, encode_spaces]⟩

end Comments
end Caesar
