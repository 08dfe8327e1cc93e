import Verif.Servers.Diag

/-!
# C96: What the editor shows for a diagnostic is the diagnostic
-/

namespace Caesar.Diag
open Caesar.Position

/-! ## Specification -/

/-- The file with an id (ids start with one, zero is the dummy file) is the document `d` of the client, with the given text. -/
def IsDoc (fs : Server.Files) (i : ℕ) (d : Server.Doc) (text : String) : Prop := 0 < i ∧ fs[i - 1]? = some ⟨.lsp d, text⟩

/-- The file with an id is one of those of Caesar. -/
def IsBuiltin (fs : Server.Files) (i : ℕ) : Prop := 0 < i ∧ ∃ text, fs[i - 1]? = some ⟨.builtin, text⟩

/-- A span is the range `r` of the document `d` (what the range of a span is, is C73). -/
def At (fs : Server.Files) (s : DSpan) (d : Server.Doc) (r : Range) : Prop := ∃ text, IsDoc fs s.file d text ∧ toLsp text.toList s.bytes = some r

/-- A span is in a file and does not end before its start. -/
def Sound (fs : Server.Files) (s : DSpan) : Prop := 0 < s.file ∧ s.file ≤ fs.length ∧ s.bytes.start ≤ s.bytes.stop

/-- What is shown for labels: those with a message that are in documents, in their order. -/
inductive Shown (fs : Server.Files) : List DLabel → List Related → Prop where
  | nil : Shown fs [] []
  | shown {s m ls rs d r} : At fs s d r → Shown fs ls rs → Shown fs (⟨s, some m⟩ :: ls) (⟨d.uri, r, m⟩ :: rs)
  | silent {s ls rs} : Shown fs ls rs → Shown fs (⟨s, none⟩ :: ls) rs
  | hidden {s m ls rs} : IsBuiltin fs s.file → Shown fs ls rs → Shown fs (⟨s, m⟩ :: ls) rs

/-- What is shown for a diagnostic in the document `d`. -/
structure Presents (fs : Server.Files) (d : Server.Doc) (g : Diagn) (l : LspDiag) : Prop where
  place : At fs g.location d l.range
  error : l.severity = .error ↔ g.kind = .error ∨ g.kind = .custom
  warning : l.severity = .warning ↔ g.kind = .warning
  code : l.code = g.code
  message : ∀ m, g.msg = some m → l.message = m
  noMessage : g.msg = none → l.message = "(no message)"
  tags : l.tags = g.tags
  related : ∃ rs, Shown fs g.labels rs ∧ l.related = rs ++ (g.note.map fun n => ⟨d.uri, l.range, "Note: " ++ n⟩).toList

/-- The full claim: every label of a diagnostic is shown. -/
def C96_full : Prop := ∀ fs g d l, asLsp fs g = some (some (d, l)) → ∀ b ∈ g.labels, ∀ d' r, At fs b.span d' r → ∃ x ∈ l.related, x.uri = d'.uri ∧ x.range = r

/-! ## Lemmas -/

theorem toLsp_isSome (t : List Char) (b : ByteSpan) : (toLsp t b).isSome ↔ b.start ≤ b.stop := by
  unfold toLsp charSpan
  split <;> simp_all

theorem toLspIn_some {fs s d r} : toLspIn fs s = some (some (d, r)) ↔ At fs s d r := by
  unfold toLspIn Server.Files.get At IsDoc
  constructor
  · intro h
    simp only [Option.bind_eq_some_iff, Option.map_eq_some_iff] at h
    obtain ⟨⟨p, t⟩, hf, r', hr, he⟩ := h
    split at hf
    · simp at hf
    · cases p with
      | builtin => simp at he
      | lsp d' =>
        simp only [Option.some.injEq, Prod.mk.injEq] at he
        obtain ⟨rfl, rfl⟩ := he
        exact ⟨t, ⟨by omega, hf⟩, hr⟩
  · rintro ⟨t, ⟨h0, hf⟩, hr⟩
    rw [if_neg (by omega), hf]
    simp [hr]

theorem toLspIn_none {fs s} (h : toLspIn fs s = some none) : IsBuiltin fs s.file := by
  unfold toLspIn Server.Files.get at h
  simp only [Option.bind_eq_some_iff, Option.map_eq_some_iff] at h
  obtain ⟨⟨p, t⟩, hf, r', hr, he⟩ := h
  split at hf
  · simp at hf
  · cases p with
    | builtin => exact ⟨by omega, t, hf⟩
    | lsp d' => simp at he

theorem toLspIn_sound {fs s} : (toLspIn fs s).isSome ↔ Sound fs s := by
  unfold toLspIn Server.Files.get Sound
  by_cases h0 : s.file = 0
  · simp [h0]
  · rw [if_neg h0]
    by_cases hl : s.file ≤ fs.length
    · rw [List.getElem?_eq_getElem (by omega)]
      simp only [Option.bind_some, Option.isSome_map, toLsp_isSome]
      constructor
      · exact fun h => ⟨by omega, hl, h⟩
      · exact fun h => h.2.2
    · rw [List.getElem?_eq_none (by omega)]
      simp [hl]

theorem relatedAll_shown {fs} : ∀ {ls rs}, relatedAll fs ls = some rs → Shown fs ls rs := by
  intro ls
  induction ls with
  | nil => intro rs h; simp only [relatedAll, Option.some.injEq] at h; subst h; exact .nil
  | cons l ls ih =>
    intro rs h
    simp only [relatedAll, Option.bind_eq_some_iff, Option.map_eq_some_iff] at h
    obtain ⟨r, hr, rs', hrs, rfl⟩ := h
    simp only [relatedOf, Option.map_eq_some_iff] at hr
    obtain ⟨o, ho, rfl⟩ := hr
    obtain ⟨s, m⟩ := l
    cases o with
    | none => exact .hidden (toLspIn_none ho) (ih hrs)
    | some p =>
      obtain ⟨d, range⟩ := p
      cases m with
      | none => exact .silent (ih hrs)
      | some m => exact .shown (toLspIn_some.1 ho) (ih hrs)

theorem relatedAll_sound {fs ls} : (relatedAll fs ls).isSome ↔ ∀ l ∈ ls, Sound fs l.span := by
  induction ls with
  | nil => simp [relatedAll]
  | cons l ls ih =>
    rw [List.forall_mem_cons, ← ih, ← toLspIn_sound]
    simp only [relatedAll, relatedOf]
    cases toLspIn fs l.span <;> simp

/-! ## Theorems -/

/-- A converted diagnostic is at the place of the original, with its severity, code, message and tags, and related to exactly its labels that have messages and are in documents, in their order, and then its note. -/
theorem C96_partial (fs : Server.Files) (g : Diagn) (d : Server.Doc) (l : LspDiag) (h : asLsp fs g = some (some (d, l))) : Presents fs d g l := by
  unfold asLsp at h
  simp only [Option.bind_eq_some_iff] at h
  obtain ⟨o, ho, h⟩ := h
  cases o with
  | none => simp at h
  | some p =>
    obtain ⟨d', range⟩ := p
    simp only [Option.map_eq_some_iff, Option.some.injEq, Prod.mk.injEq] at h
    obtain ⟨rs, hrs, rfl, rfl⟩ := h
    refine ⟨toLspIn_some.1 ho, ?_, ?_, rfl, ?_, ?_, rfl, rs, relatedAll_shown hrs, ?_⟩
    · cases g.kind <;> simp [severity]
    · cases g.kind <;> simp [severity]
    · intro m hm; simp [hm]
    · intro hm; simp [hm]
    · cases g.note <;> rfl

/-- The conversion panics exactly if the place of the diagnostic is not in a file or ends before its start, or, for diagnostics in documents, the same holds for a label. -/
theorem C96_panics (fs : Server.Files) (g : Diagn) :
    asLsp fs g ≠ none ↔ Sound fs g.location ∧ ((∃ d r, At fs g.location d r) → ∀ b ∈ g.labels, Sound fs b.span) := by
  rw [← Option.isSome_iff_ne_none, ← toLspIn_sound, ← relatedAll_sound]
  unfold asLsp
  rcases ho : toLspIn fs g.location with _ | _ | ⟨d, r⟩
  · simp
  · simp only [Option.bind_some, Option.isSome_some, true_and, true_iff]
    rintro ⟨d, r, h⟩
    rw [← toLspIn_some, ho] at h
    cases h
  · have : ∃ d r, At fs g.location d r := ⟨d, r, toLspIn_some.1 ho⟩
    simp [this]

/-- Diagnostics at the dummy span (`Span::dummy_span`) always panic, in all files. -/
theorem C96_dummy (fs : Server.Files) (g : Diagn) (h : g.location.file = 0) : asLsp fs g = none := by
  by_contra hn
  have := ((C96_panics fs g).1 hn).1.1
  omega

/-- A diagnostic with sound spans in a document is shown. -/
theorem C96_shown (fs : Server.Files) (g : Diagn) (d : Server.Doc) (text : String) (hd : IsDoc fs g.location.file d text) (hs : Sound fs g.location)
    (hl : ∀ b ∈ g.labels, Sound fs b.span) : ∃ l, asLsp fs g = some (some (d, l)) := by
  obtain ⟨r, hr⟩ := Option.isSome_iff_exists.1 ((toLsp_isSome text.toList g.location.bytes).2 hs.2.2)
  have ha := toLspIn_some.2 ⟨text, hd, hr⟩
  obtain ⟨rs, hrs⟩ := Option.isSome_iff_exists.1 (relatedAll_sound.2 hl)
  unfold asLsp
  simp [ha, hrs]

theorem convertAll_some {fs gs ls} : convertAll fs gs = some ls ↔ List.Forall₂ (fun g l => ∃ d, asLsp fs g = some (some (d, l))) gs ls := by
  induction gs generalizing ls with
  | nil => simp [convertAll, eq_comm]
  | cons g gs ih =>
    simp only [convertAll, Option.bind_eq_some_iff, Option.map_eq_some_iff, List.forall₂_cons_left_iff]
    constructor
    · rintro ⟨o, ho, ⟨d, l⟩, rfl, ls', hls, rfl⟩
      exact ⟨l, ls', ⟨d, ho⟩, ih.1 hls, rfl⟩
    · rintro ⟨l, ls', ⟨d, ho⟩, hls, rfl⟩
      exact ⟨_, ho, ⟨d, l⟩, rfl, ls', ih.2 hls, rfl⟩

theorem publish_mem {fs : Server.Files} {st p} (h : publish fs st = some p) (d : Server.Doc) (ls : List LspDiag) :
    (d, ls) ∈ p ↔ ∃ i gs text, (i, gs) ∈ st ∧ IsDoc fs i d text ∧ convertAll fs gs = some ls := by
  induction st generalizing p with
  | nil => simp only [publish, Option.some.injEq] at h; subst h; simp
  | cons e st ih =>
    obtain ⟨i, gs⟩ := e
    simp only [publish, Option.bind_eq_some_iff] at h
    obtain ⟨⟨path, text⟩, hf, h⟩ := h
    have hf' : 0 < i ∧ fs[i - 1]? = some ⟨path, text⟩ := by
      unfold Server.Files.get at hf
      split at hf
      · simp at hf
      · exact ⟨by omega, hf⟩
    cases path with
    | builtin =>
      rw [ih h]
      constructor
      · rintro ⟨j, gs', t, hm, hd⟩
        exact ⟨j, gs', t, List.mem_cons_of_mem _ hm, hd⟩
      · rintro ⟨j, gs', t, hm, hd⟩
        rcases List.mem_cons.1 hm with he | hm
        · cases he
          have := hd.1.2
          rw [hf'.2] at this
          cases this
        · exact ⟨j, gs', t, hm, hd⟩
    | lsp d' =>
      simp only [Option.bind_eq_some_iff, Option.map_eq_some_iff] at h
      obtain ⟨ls', hls, p', hp, rfl⟩ := h
      rw [List.mem_cons, ih hp]
      constructor
      · rintro (he | ⟨j, gs', t, hm, hd⟩)
        · cases he
          exact ⟨i, gs, text, List.mem_cons_self, hf', hls⟩
        · exact ⟨j, gs', t, List.mem_cons_of_mem _ hm, hd⟩
      · rintro ⟨j, gs', t, hm, hd, hc⟩
        rcases List.mem_cons.1 hm with he | hm
        · cases he
          have := hd.2
          rw [hf'.2] at this
          cases this
          rw [hls] at hc
          cases hc
          exact .inl rfl
        · exact .inr ⟨j, gs', t, hm, hd, hc⟩

/-- The invariant of the table: one entry for each file. -/
def Distinct (st : Statuses) : Prop := (st.map Prod.fst).Nodup

theorem add_keys (g : Diagn) (st : Statuses) (j : ℕ) : j ∈ (Statuses.add g st).map Prod.fst ↔ j = g.location.file ∨ j ∈ st.map Prod.fst := by
  induction st with
  | nil => simp [Statuses.add]
  | cons e st ih =>
    obtain ⟨i, gs⟩ := e
    unfold Statuses.add
    split
    · rename_i h; subst h; simp
    · rw [List.map_cons, List.mem_cons, ih, List.map_cons, List.mem_cons]; tauto

theorem add_distinct {g : Diagn} {st : Statuses} (h : Distinct st) : Distinct (Statuses.add g st) := by
  induction st with
  | nil => simp [Statuses.add, Distinct]
  | cons e st ih =>
    obtain ⟨i, gs⟩ := e
    unfold Distinct at h
    rw [List.map_cons, List.nodup_cons] at h
    unfold Statuses.add
    split
    · exact List.nodup_cons.2 h
    · rename_i hne
      refine List.nodup_cons.2 ⟨?_, ih h.2⟩
      rw [add_keys]
      rintro (h' | h')
      · exact hne h'
      · exact h.1 h'

theorem add_lookup (g : Diagn) (st : Statuses) (j : ℕ) :
    (Statuses.add g st).lookup j = if j = g.location.file then some ((st.lookup j).getD [] ++ [g]) else st.lookup j := by
  induction st with
  | nil =>
    unfold Statuses.add
    by_cases h : j = g.location.file
    · subst h; simp [List.lookup]
    · have : (j == g.location.file) = false := by simpa using h
      simp [List.lookup, this, h]
  | cons e st ih =>
    obtain ⟨i, gs⟩ := e
    unfold Statuses.add
    by_cases hji : j = i
    · subst hji
      by_cases h : j = g.location.file
      · simp [List.lookup, h]
      · simp [List.lookup, h]
    · have hb : (j == i) = false := by simpa using hji
      by_cases h : i = g.location.file
      · rw [if_pos h]
        have : j ≠ g.location.file := fun h' => hji (h'.trans h.symm)
        simp [List.lookup, hb, this]
      · rw [if_neg h]
        simp only [List.lookup, hb, ih]

theorem lookup_mem {st : Statuses} (h : Distinct st) (i : ℕ) (gs : List Diagn) : (i, gs) ∈ st ↔ st.lookup i = some gs := by
  induction st with
  | nil => simp
  | cons e st ih =>
    obtain ⟨j, gs'⟩ := e
    unfold Distinct at h
    rw [List.map_cons, List.nodup_cons] at h
    rw [List.mem_cons, ih h.2]
    by_cases hij : i = j
    · subst hij
      have : st.lookup i = none := by
        rw [List.lookup_eq_none_iff]
        intro p hp
        simp only [bne_iff_ne, ne_eq]
        rintro rfl
        exact h.1 (List.mem_map.2 ⟨p, hp, rfl⟩)
      simp [List.lookup, this, eq_comm]
    · have hb : (i == j) = false := by simpa using hij
      simp [List.lookup, hb, hij]

theorem addAll_eq {fs gs} : ∀ {st last st' last'}, addAll fs st last gs = some (st', last') →
    st' = gs.foldl (fun s g => Statuses.add g s) st ∧ (gs ≠ [] ∨ publish fs st = some last → publish fs st' = some last') := by
  induction gs with
  | nil => intro st last st' last' h; simp only [addAll, Option.some.injEq, Prod.mk.injEq] at h; obtain ⟨rfl, rfl⟩ := h; simp
  | cons g gs ih =>
    intro st last st' last' h
    simp only [addAll, Option.bind_eq_some_iff] at h
    obtain ⟨p, hp, h⟩ := h
    obtain ⟨h1, h2⟩ := ih h
    exact ⟨h1, fun _ => h2 (.inr hp)⟩

theorem fold_distinct {gs : List Diagn} : ∀ {st : Statuses}, Distinct st → Distinct (gs.foldl (fun s g => Statuses.add g s) st) := by
  induction gs with
  | nil => exact fun h => h
  | cons g gs ih => exact fun h => ih (add_distinct h)

theorem fold_lookup (gs : List Diagn) (i : ℕ) : ∀ st : Statuses, (gs.foldl (fun s g => Statuses.add g s) st).lookup i =
    if gs.filter (fun g => g.location.file = i) = [] then st.lookup i else some ((st.lookup i).getD [] ++ gs.filter (fun g => g.location.file = i)) := by
  induction gs with
  | nil => simp
  | cons g gs ih =>
    intro st
    rw [List.foldl_cons, ih, add_lookup]
    by_cases h : g.location.file = i
    · subst h
      by_cases hf : gs.filter (fun g' => g'.location.file = g.location.file) = []
      · simp [hf]
      · simp [hf]
    · have h' : i ≠ g.location.file := fun e => h e.symm
      simp [h, h']

/-- After a run has added diagnostics, each document with some has been sent exactly its diagnostics, in the order in which they were added, and documents are sent nothing else. Those in the files of Caesar are not shown. -/
theorem C96_publish (fs : Server.Files) (gs : List Diagn) (st : Statuses) (last : List (Server.Doc × List LspDiag)) (hne : gs ≠ [])
    (h : addAll fs [] [] gs = some (st, last)) (d : Server.Doc) (ls : List LspDiag) :
    (d, ls) ∈ last ↔ ∃ i text, IsDoc fs i d text ∧ gs.filter (fun g => g.location.file = i) ≠ [] ∧
      List.Forall₂ (fun g l => asLsp fs g = some (some (d, l))) (gs.filter fun g => g.location.file = i) ls := by
  obtain ⟨rfl, hp⟩ := addAll_eq h
  have hd : Distinct ([] : Statuses) := List.nodup_nil
  rw [publish_mem (hp (.inl hne))]
  have key : ∀ i text, IsDoc fs i d text → ∀ gs' : List Diagn, (∀ g ∈ gs', g.location.file = i) →
      (convertAll fs gs' = some ls ↔ List.Forall₂ (fun g l => asLsp fs g = some (some (d, l))) gs' ls) := by
    intro i text hi gs'
    rw [convertAll_some]
    intro hg
    constructor
    · intro hf
      induction hf with
      | nil => exact .nil
      | cons hx _ ihf =>
        obtain ⟨d', hx⟩ := hx
        refine .cons ?_ (ihf fun g hm => hg g (List.mem_cons_of_mem _ hm))
        obtain ⟨t', hi', _⟩ := (C96_partial _ _ _ _ hx).place
        rw [hg _ List.mem_cons_self] at hi'
        have := hi'.2
        rw [hi.2] at this
        cases this
        exact hx
    · exact fun hf => hf.imp fun _ _ hx => ⟨d, hx⟩
  constructor
  · rintro ⟨i, gs', text, hm, hi, hc⟩
    rw [lookup_mem (fold_distinct hd), fold_lookup] at hm
    split at hm
    · simp at hm
    · rename_i hn
      simp only [List.lookup_nil, Option.getD_none, List.nil_append, Option.some.injEq] at hm
      subst hm
      refine ⟨i, text, hi, hn, (key i text hi _ ?_).1 hc⟩
      intro g hg
      simpa using (List.mem_filter.1 hg).2
  · rintro ⟨i, text, hi, hn, hf⟩
    refine ⟨i, _, text, ?_, hi, (key i text hi _ ?_).2 hf⟩
    · rw [lookup_mem (fold_distinct hd), fold_lookup, if_neg hn]
      simp
    · intro g hg
      simpa using (List.mem_filter.1 hg).2

theorem convertAll_isSome {fs : Server.Files} {d : Server.Doc} {text : String} {i : ℕ} (hi : IsDoc fs i d text) {gs : List Diagn}
    (h : ∀ g ∈ gs, g.location.file = i ∧ Sound fs g.location ∧ ∀ b ∈ g.labels, Sound fs b.span) : ∃ ls, convertAll fs gs = some ls := by
  induction gs with
  | nil => exact ⟨[], rfl⟩
  | cons g gs ih =>
    obtain ⟨ls, hls⟩ := ih fun g' hg => h g' (List.mem_cons_of_mem _ hg)
    obtain ⟨h1, h2, h3⟩ := h g List.mem_cons_self
    obtain ⟨l, hl⟩ := C96_shown fs g d text (by rw [h1]; exact hi) h2 h3
    exact ⟨l :: ls, by simp [convertAll, hl, hls]⟩

/-- All diagnostics of a table have sound spans, in the file of their entry. -/
def AllSound (fs : Server.Files) (st : Statuses) : Prop :=
  ∀ e ∈ st, 0 < e.1 ∧ e.1 ≤ fs.length ∧ ∀ g ∈ e.2, g.location.file = e.1 ∧ Sound fs g.location ∧ ∀ b ∈ g.labels, Sound fs b.span

theorem publish_isSome {fs : Server.Files} {st : Statuses} (h : AllSound fs st) : ∃ p, publish fs st = some p := by
  induction st with
  | nil => exact ⟨[], rfl⟩
  | cons e st ih =>
    obtain ⟨p, hp⟩ := ih fun e' he => h e' (List.mem_cons_of_mem _ he)
    obtain ⟨i, gs⟩ := e
    obtain ⟨h0, hl, hg⟩ := h _ List.mem_cons_self
    have hget : fs.get i = some (fs[i - 1]'(by simp only at h0 hl; omega)) := by
      unfold Server.Files.get
      rw [if_neg (by simp only at h0; omega), List.getElem?_eq_getElem]
    have hidx : fs[i - 1]? = some (fs[i - 1]'(by simp only at h0 hl; omega)) := List.getElem?_eq_getElem _
    simp only [publish, hget, Option.bind_some]
    generalize fs[i - 1]'(by simp only at h0 hl; omega) = f at hidx
    obtain ⟨path, text⟩ := f
    cases path with
    | builtin => exact ⟨p, hp⟩
    | lsp d =>
      obtain ⟨ls, hls⟩ := convertAll_isSome (d := d) (text := text) ⟨h0, hidx⟩ hg
      exact ⟨(d, ls) :: p, by simp [hls, hp]⟩

theorem add_allSound {fs : Server.Files} {g : Diagn} {st : Statuses} (h : AllSound fs st) (hg : Sound fs g.location) (hb : ∀ b ∈ g.labels, Sound fs b.span) :
    AllSound fs (Statuses.add g st) := by
  induction st with
  | nil =>
    intro e he
    simp only [Statuses.add, List.mem_singleton] at he
    subst he
    exact ⟨hg.1, hg.2.1, by simpa using ⟨hg, hb⟩⟩
  | cons e st ih =>
    obtain ⟨i, gs⟩ := e
    have ih' := ih fun e' he => h e' (List.mem_cons_of_mem _ he)
    have h0 := h _ List.mem_cons_self
    unfold Statuses.add
    split
    · rename_i hi
      intro e he
      rcases List.mem_cons.1 he with rfl | he
      · refine ⟨h0.1, h0.2.1, ?_⟩
        intro g' hg'
        rcases List.mem_append.1 hg' with hg' | hg'
        · exact h0.2.2 g' hg'
        · simp only [List.mem_singleton] at hg'
          subst hg'
          exact ⟨hi.symm, hg, hb⟩
      · exact h e (List.mem_cons_of_mem _ he)
    · intro e he
      rcases List.mem_cons.1 he with rfl | he
      · exact h0
      · exact ih' e he

/-- If all spans are in files and do not end before their starts, then adding the diagnostics does not panic. -/
theorem C96_total (fs : Server.Files) (gs : List Diagn) (h : ∀ g ∈ gs, Sound fs g.location ∧ ∀ b ∈ g.labels, Sound fs b.span) :
    addAll fs [] [] gs ≠ none := by
  suffices H : ∀ gs : List Diagn, (∀ g ∈ gs, Sound fs g.location ∧ ∀ b ∈ g.labels, Sound fs b.span) → ∀ st last, AllSound fs st → ∃ r, addAll fs st last gs = some r by
    obtain ⟨r, hr⟩ := H gs h [] [] (by intro e he; simp at he)
    simp [hr]
  intro gs
  induction gs with
  | nil => exact fun _ st last _ => ⟨_, rfl⟩
  | cons g gs ih =>
    intro h st last hst
    have hadd := add_allSound hst (h g List.mem_cons_self).1 (h g List.mem_cons_self).2
    obtain ⟨p, hp⟩ := publish_isSome hadd
    obtain ⟨r, hr⟩ := ih (fun g' hg => h g' (List.mem_cons_of_mem _ hg)) _ p hadd
    exact ⟨r, by simp [addAll, hp, hr]⟩

/-! ## The full claim does not hold -/

/-- A file of the client and one of Caesar. -/
def exFiles : Server.Files := [⟨.lsp ⟨7, 1⟩, "proc p() -> ()\n{ x = 1 }"⟩, ⟨.builtin, "domain"⟩]

/-- An undeclared variable: the label has no message. -/
def exUndeclared : Diagn := ⟨.error, none, some "Not declared: x", none, ⟨1, ⟨17, 18⟩⟩, [⟨⟨1, ⟨17, 18⟩⟩, none⟩], none⟩

/-- Labels without messages are not shown. -/
theorem C96_not_full : ¬ C96_full := by
  intro h
  have he : asLsp exFiles exUndeclared = some (some (⟨7, 1⟩, ⟨⟨⟨1, 2⟩, ⟨1, 3⟩⟩, .error, none, "Not declared: x", [], none⟩)) := by decide
  obtain ⟨x, hx, _⟩ := h _ _ _ _ he ⟨⟨1, ⟨17, 18⟩⟩, none⟩ (List.mem_singleton.2 rfl) ⟨7, 1⟩ ⟨⟨1, 2⟩, ⟨1, 3⟩⟩ (toLspIn_some.1 (by decide))
  cases hx

/-! ## Examples -/

/-- A diagnostic with a label in the document, one in a file of Caesar, one without a message, and a note. -/
def exRich : Diagn := ⟨.warning, some (.string "model checking"), some "m", some "n", ⟨1, ⟨17, 18⟩⟩,
  [⟨⟨1, ⟨5, 6⟩⟩, some "here"⟩, ⟨⟨2, ⟨0, 6⟩⟩, some "there"⟩, ⟨⟨1, ⟨0, 4⟩⟩, none⟩], some [1]⟩

example : asLsp exFiles exRich = some (some (⟨7, 1⟩, ⟨⟨⟨1, 2⟩, ⟨1, 3⟩⟩, .warning, some (.string "model checking"), "m",
    [⟨7, ⟨⟨0, 5⟩, ⟨0, 6⟩⟩, "here"⟩, ⟨7, ⟨⟨1, 2⟩, ⟨1, 3⟩⟩, "Note: n"⟩], some [1]⟩)) := by decide

example : Sound exFiles exRich.location ∧ ∀ b ∈ exRich.labels, Sound exFiles b.span := by
  constructor
  · simp [Sound, exRich, exFiles]
  · intro b hb
    simp only [exRich, List.mem_cons, List.not_mem_nil, or_false] at hb
    rcases hb with rfl | rfl | rfl <;> simp [Sound, exFiles]

/-- A diagnostic in a file of Caesar. -/
def exBuiltin : Diagn := ⟨.error, none, none, none, ⟨2, ⟨0, 3⟩⟩, [], none⟩

example : (addAll exFiles [] [] [exUndeclared, exBuiltin, exRich]).map (fun r => r.2.map fun e => (e.1.uri, e.2.map (·.message))) =
    some [(7, ["Not declared: x", "m"])] := by decide

example : addAll exFiles [] [] [⟨.error, none, none, none, ⟨0, ⟨0, 0⟩⟩, [], none⟩] = none := by
  simp [addAll, Statuses.add, publish, Server.Files.get]

end Caesar.Diag
