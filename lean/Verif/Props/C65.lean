import Verif.Parse.Comments

/-!
# C65: comments

English: before a file is parsed, exactly its comments are replaced by spaces, and nothing else changes. Block comments are nested. Text in string literals is no comment.

The specification is `Strip StringLit` (`Verif/Parse/Comments.lean`), which says where comments begin and end, independently of the loops of `remove_comments`. It
determines the result (`Strip.unique`). The property is false for string literals that contain `//` or `/*`, and only for them.
-/

namespace Caesar

open Comments

/-- The bytes of a text. -/
def srcBytes (s : String) : List UInt8 := encode s.toList

/-- The property: comments are removed, string literals are not touched. -/
def C65_full : Prop := ∀ s : List UInt8, Strip StringLit s (removeComments s)

/-- **C65** (part: when it is right). The code computes what the specification says if and only if the specified result, in which only string literals can contain such a
thing, does not contain `//` or `/*`. -/
theorem C65_exact_partial {s r : List UInt8} (h : Strip StringLit s r) : removeComments s = r ↔ ∀ u v, r ≠ u ++ slash :: slash :: v ∧ r ≠ u ++ slash :: star :: v := by
  constructor
  · rintro rfl
    exact (removeComments_strip s).clean
  · intro hr
    replace hr : Clean r := hr
    have app : ∀ {l r : List UInt8}, Clean (l ++ r) → Clean l ∧ Clean r := by
      intro l r h
      refine ⟨fun u v => ⟨?_, ?_⟩, fun u v => ⟨?_, ?_⟩⟩
      · rintro rfl; exact (h u (v ++ r)).1 (by simp)
      · rintro rfl; exact (h u (v ++ r)).2 (by simp)
      · rintro rfl; exact (h (l ++ u) v).1 (by simp)
      · rintro rfl; exact (h (l ++ u) v).2 (by simp)
    have : Strip (fun l => StringLit l ∧ Clean l) s r := by
      induction h with
      | nil => exact .nil
      | literal hl _ ih => exact .literal ⟨hl, (app hr).1⟩ (ih (app hr).2)
      | byte h1 h2 h3 _ ih => exact .byte h1 h2 (fun l s' k => h3 l s' k.1) (ih hr.tail)
      | line hc hs _ ih => exact .line hc hs (ih (app hr.tail.tail).2)
      | block hc _ ih => exact .block hc (ih (app hr.tail.tail).2)
      | unclosed h => exact .unclosed h
    refine this.run ?_
    rintro l ⟨⟨c, _, rfl⟩, hl⟩
    exact ⟨quote :: c, quote, rfl, by decide, hl⟩

/-- The specification gives exactly one result for every source. -/
theorem C65_spec (s : List UInt8) : ∃! r, Strip StringLit s r := by
  obtain ⟨r, hr⟩ := Strip.total StringLit (by rintro l ⟨c, _, rfl⟩; simp) s
  exact ⟨r, hr, fun r' h' => h'.unique hr⟩

/-- **C65** (part: sources without string literals, as nearly all are). -/
theorem C65_partial {s : List UInt8} (h : quote ∉ s) : Strip StringLit s (removeComments s) := by
  have key : ∀ {s r}, Strip (fun _ => False) s r → quote ∉ s → Strip StringLit s r := by
    intro s r hs
    induction hs with
    | nil => exact fun _ => .nil
    | literal hl => exact hl.elim
    | byte h1 h2 _ _ ih =>
      intro h
      refine .byte h1 h2 ?_ (ih fun k => h (.tail _ k))
      rintro l s' ⟨c, _, rfl⟩ e
      exact h (e ▸ by simp)
    | line hc hs _ ih => exact fun h => .line hc hs (ih fun k => h (by simp [k]))
    | @block s t r hc _ ih =>
      intro h
      refine .block hc (ih fun k => h (.tail _ (.tail _ ?_)))
      clear h ih
      rename_i hs
      clear hs
      induction hc with
      | close => exact .tail _ (.tail _ k)
      | nest _ _ ih ih' => exact .tail _ (.tail _ (ih (ih' k)))
      | byte _ _ _ ih => exact .tail _ (ih k)
    | unclosed h => exact fun _ => .unclosed h
  exact key (removeComments_strip s) h

/-- A byte that is neither `/` nor `"`. -/
theorem strip_plain {b : UInt8} {s r : List UInt8} (h1 : b ≠ slash) (h2 : b ≠ quote) (h : Strip StringLit s r) : Strip StringLit (b :: s) (b :: r) :=
  .byte (fun ⟨_, e⟩ => h1 (List.cons.inj e).1) (fun ⟨_, e⟩ => h1 (List.cons.inj e).1) (by rintro l s' ⟨c, _, rfl⟩ e; exact h2 (List.cons.inj e).1) h

/-- **C65** fails: the rest of the line after the `//` of a link in a message is removed, also the end of the literal. -/
theorem C65_not_full : ¬ C65_full := by
  intro h
  have hs : Strip StringLit (srcBytes "@error_msg(\"see http://x.y/z\") assert 1") (srcBytes "@error_msg(\"see http://x.y/z\") assert 1") := by
    refine strip_plain (b := 64) (by decide) (by decide) <| strip_plain (b := 101) (by decide) (by decide) <| strip_plain (b := 114) (by decide) (by decide) <|
      strip_plain (b := 114) (by decide) (by decide) <| strip_plain (b := 111) (by decide) (by decide) <| strip_plain (b := 114) (by decide) (by decide) <|
      strip_plain (b := 95) (by decide) (by decide) <| strip_plain (b := 109) (by decide) (by decide) <| strip_plain (b := 115) (by decide) (by decide) <|
      strip_plain (b := 103) (by decide) (by decide) <| strip_plain (b := 40) (by decide) (by decide) <|
      Strip.literal (l := srcBytes "\"see http://x.y/z\"") (s := srcBytes ") assert 1") (r := srcBytes ") assert 1") ⟨srcBytes "see http://x.y/z", by decide, rfl⟩ ?_
    exact strip_plain (b := 41) (by decide) (by decide) <| strip_plain (b := 32) (by decide) (by decide) <| strip_plain (b := 97) (by decide) (by decide) <|
      strip_plain (b := 115) (by decide) (by decide) <| strip_plain (b := 115) (by decide) (by decide) <| strip_plain (b := 101) (by decide) (by decide) <|
      strip_plain (b := 114) (by decide) (by decide) <| strip_plain (b := 116) (by decide) (by decide) <| strip_plain (b := 32) (by decide) (by decide) <|
      strip_plain (b := 49) (by decide) (by decide) .nil
  exact absurd ((h _).unique hs) (by decide)

/-- What is left in that case. -/
example : removeComments (srcBytes "@error_msg(\"see http://x.y/z\") assert 1") = srcBytes "@error_msg(\"see http:                  " := by decide

/-- **C65** (positions). The length does not change (so the assertion at the end of `remove_comments` holds), and every byte is kept or becomes a space. -/
theorem C65_positions_partial (s : List UInt8) :
    (removeComments s).length = s.length ∧ List.Forall₂ (fun b b' => b' = b ∨ b' = space) s (removeComments s) :=
  ⟨(removeComments_strip s).length, run_bytes s .code⟩

/-- **C65** (no comments are left). The result contains neither `//` nor `/*`, and removing comments again changes nothing. -/
theorem C65_clean_partial (s : List UInt8) :
    (∀ u v, removeComments s ≠ u ++ slash :: slash :: v ∧ removeComments s ≠ u ++ slash :: star :: v) ∧ removeComments (removeComments s) = removeComments s :=
  ⟨(removeComments_strip s).clean, (removeComments_strip s).clean.keep⟩

/-- **C65** (texts). The result for a text is a text: `String::from_utf8(res).unwrap()` does not panic. -/
theorem C65_text_partial (cs : List Char) : ∃ ds : List Char, removeComments (cs.flatMap String.utf8EncodeChar) = ds.flatMap String.utf8EncodeChar :=
  run_encode cs.length cs (Nat.le_refl _) .code

/-! ## Examples -/

/-- Comments with characters of several bytes, nested comments, a comment directly after a comment, a comment in a comment of the other kind. -/
example : removeComments (srcBytes "x/*a/*∞*/b*//*c*/ / y // d /*\nz*/ /* // */ w") = srcBytes "x                   / y        \nz*/          w" := by decide
example : quote ∉ srcBytes "x/*a/*∞*/b*//*c*/ / y // d /*\nz*/ /* // */ w" := by decide

/-- A comment that is not closed. -/
example : removeComments (srcBytes "x /* a /* b */ y") = srcBytes "x               " := by decide

/-- A string literal with slashes that begin no comment. -/
example : removeComments (srcBytes "\"a/b*\" // \"") = srcBytes "\"a/b*\"     " := by decide

end Caesar
