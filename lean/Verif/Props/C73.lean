import Verif.Servers.Position

/-!
# C73: the ranges that are sent to the client are those of the spans

Diagnostics, explanations and the statuses of procedures are located by spans of bytes. The client of the language server gets ranges of lines and
UTF-16 code units instead.
-/

namespace Caesar.Position

/-- C73: the range of a span is the position of its start and the position of its end. The span is some characters `mid` of the text; the end
may be inside of the last of these characters, it is then rounded up. -/
def C73_full : Prop :=
  ∀ pre mid post : List Char, ∀ stop, bytes (pre ++ mid.dropLast) ≤ stop → bytes pre ≤ stop → stop ≤ bytes (pre ++ mid) →
    (mid = [] ∨ bytes (pre ++ mid.dropLast) < stop) →
    toLsp (pre ++ mid ++ post) ⟨bytes pre, stop⟩ = some ⟨lspPos pre, lspPos (pre ++ mid)⟩

theorem toLsp_eq (pre mid post : List Char) (stop : ℕ) (h : mid ≠ []) (h1 : bytes (pre ++ mid.dropLast) < stop) (h2 : stop ≤ bytes (pre ++ mid)) :
    toLsp (pre ++ mid ++ post) ⟨bytes pre, stop⟩ = some ⟨pre.foldl advance ⟨0, 0⟩, (pre ++ mid).foldl advance ⟨0, 0⟩⟩ := by
  have hmid := List.dropLast_append_getLast h
  generalize mid.dropLast = init at hmid h1
  generalize mid.getLast h = c at hmid
  subst hmid
  have hb : bytes (pre ++ (init ++ [c])) = bytes (pre ++ init) + c.utf8Size := by simp [bytes_append, bytes, Nat.add_assoc]
  rw [hb] at h2
  have hle : bytes pre ≤ stop := by
    rw [bytes_append] at h1
    omega
  have e1 : boundaries (pre ++ (init ++ [c]) ++ post) 0 (bytes pre) = pre.length := by
    rw [List.append_assoc]
    exact boundaries_prefix _ _
  have e2 : boundaries (pre ++ (init ++ [c]) ++ post) 0 stop = pre.length + (init ++ [c]).length := by
    obtain ⟨k, rfl⟩ : ∃ k, stop = bytes (pre ++ init) + k := ⟨stop - bytes (pre ++ init), by omega⟩
    have := boundaries_roundUp (pre ++ init) c post k (by omega) (by omega)
    simp only [List.append_assoc, List.cons_append, List.nil_append, List.length_append, List.length_cons, List.length_nil] at this ⊢
    rw [this]
    omega
  have e3 := boundaries_append (pre ++ (init ++ [c]) ++ post) (Nat.zero_le (bytes pre)) hle
  unfold toLsp charSpan
  simp only [hle, if_true, Option.map_some]
  rw [← e3, e1, e2, List.append_assoc, lspLoop_range _ _ _ (by simp)]
  simp [List.foldl_append]

/-- C73 (partial): it is so for spans that are not empty, if there are no lone carriage returns before the end of the span, and if the lines of the start and
of the end have no characters beyond the basic multilingual plane before these positions. Missing: the other spans and texts, for which it is wrong
(`C73_not_full`). -/
theorem C73_range_partial (pre mid post : List Char) (stop : ℕ) (hne : mid ≠ []) (hstart : bytes (pre ++ mid.dropLast) < stop) (hstop : stop ≤ bytes (pre ++ mid))
    (hpre : Plain pre) (hmid : Plain (pre ++ mid)) :
    toLsp (pre ++ mid ++ post) ⟨bytes pre, stop⟩ = some ⟨lspPos pre, lspPos (pre ++ mid)⟩ := by
  rw [toLsp_eq pre mid post stop hne hstart hstop, lspPos_eq _ hpre, lspPos_eq _ hmid]

/-- The conversion never fails an assertion if the span does not end before it starts. -/
theorem C73_defined (source : List Char) (span : ByteSpan) (h : span.start ≤ span.stop) : (toLsp source span).isSome := by
  simp [toLsp, charSpan, h]

theorem lspLoop_start_untouched (cs ce i : ℕ) (s : List Char) (r : Range) (h : i + s.length ≤ cs ∨ cs < i ∨ ce ≤ cs ∧ i ≤ ce) : (lspLoop cs ce i s r).start = r.start := by
  induction s generalizing i r with
  | nil => rfl
  | cons c s ih =>
    simp only [lspLoop, List.length_cons] at h ⊢
    split
    · rfl
    · rename_i hi
      rw [ih _ _ (by omega), if_neg (by omega)]

/-- The range of an empty span starts at the start of the text, wherever the span is. -/
theorem C73_empty_starts_at_zero (source : List Char) (at' : ℕ) : (toLsp source ⟨at', at'⟩).map Range.start = some ⟨0, 0⟩ := by
  simp only [toLsp, charSpan, Nat.le_refl, if_true, Option.map_some, boundaries, Nat.sub_self, List.range'_zero, List.countP_nil, Nat.add_zero, Option.some.injEq]
  rw [lspLoop_start_untouched _ _ _ _ _ (by omega)]

/-- The range of an unexpected end of the text starts at the start of the text, so the whole text is marked. -/
theorem C73_eof_starts_at_zero (source : List Char) : (toLsp source (pointSpan (bytes source))).map Range.start = some ⟨0, 0⟩ := by
  have h : boundaries source 0 (bytes source) = source.length := by simpa using boundaries_prefix source []
  simp only [toLsp, charSpan, pointSpan, Nat.le_succ, if_true, Option.map_some, h, Option.some.injEq]
  rw [lspLoop_start_untouched _ _ _ _ _ (by omega)]

/-- The full statement is wrong for empty spans. -/
theorem C73_empty_not_full : ¬ ∀ pre post : List Char, toLsp (pre ++ [] ++ post) ⟨bytes pre, bytes pre⟩ = some ⟨lspPos pre, lspPos (pre ++ [])⟩ := by
  intro h
  exact absurd (h ['a'] ['b']) (by decide)

/-- It is wrong after a character of two UTF-16 code units, such as `𝔼`. -/
theorem C73_units_not_full : ¬ ∀ pre mid post : List Char, mid ≠ [] →
    toLsp (pre ++ mid ++ post) ⟨bytes pre, bytes (pre ++ mid)⟩ = some ⟨lspPos pre, lspPos (pre ++ mid)⟩ := by
  intro h
  exact absurd (h ['𝔼'] ['x'] [] (by simp)) (by decide)

/-- It is wrong after a carriage return alone. -/
theorem C73_cr_not_full : ¬ ∀ pre mid post : List Char, mid ≠ [] → (∀ c ∈ pre ++ mid, utf16Units c = 1) →
    toLsp (pre ++ mid ++ post) ⟨bytes pre, bytes (pre ++ mid)⟩ = some ⟨lspPos pre, lspPos (pre ++ mid)⟩ := by
  intro h
  exact absurd (h ['\r'] ['x'] [] (by simp) (by decide)) (by decide)

theorem C73_not_full : ¬ C73_full := by
  intro h
  exact absurd (h ['a'] [] ['b'] 1 (by decide) (by decide) (by decide) (Or.inl rfl)) (by decide)

/-- `C73_range_partial` applies to `x` on the second line of a text with CRLF line ends, behind a character of three bytes. -/
example : toLsp (['𝔼', '\r', '\n', '∞'] ++ ['x', 'y'] ++ ['\r']) ⟨9, 11⟩ = some ⟨⟨1, 1⟩, ⟨1, 3⟩⟩ := by
  have plain : ∀ l : List Char, (∀ c ∈ l, utf16Units c = 1) → '\n' ∉ l → '\r' ∉ l → Plain (['𝔼', '\r', '\n'] ++ l) := by
    intro l h16 hn hr
    constructor
    · intro a b hab
      match a, hab with
      | [], hab => simp at hab
      | [_], hab => simp at hab; exact ⟨l, hab.2.symm⟩
      | [_, _], hab => simp at hab
      | _ :: _ :: _ :: a, hab =>
        simp at hab
        exact absurd (by rw [hab.2.2.2]; simp) hr
    · intro earlier last hs hn' he c hc
      have : last <:+ l := by
        have h1 : last <:+ ['𝔼', '\r', '\n'] ++ l := ⟨earlier, hs.symm⟩
        rcases List.suffix_or_suffix_of_suffix h1 (List.suffix_append _ _) with h | ⟨t, ht⟩
        · exact h
        · rcases List.eq_nil_or_concat t with rfl | ⟨t, x, rfl⟩
          · exact ⟨[], ht.symm⟩
          · exfalso
            rw [← ht] at hs hn'
            rw [← List.append_assoc] at hs
            have := List.append_cancel_right hs
            have h3 := congrArg List.getLast? this
            simp at h3
            simp [← h3] at hn'
      exact h16 c (this.subset hc)
  have h := C73_range_partial ['𝔼', '\r', '\n', '∞'] ['x', 'y'] ['\r'] 11 (by simp) (by decide) (by decide) (plain ['∞'] (by decide) (by decide) (by decide))
    (plain ['∞', 'x', 'y'] (by decide) (by decide) (by decide))
  exact h.trans (by decide)

end Caesar.Position
