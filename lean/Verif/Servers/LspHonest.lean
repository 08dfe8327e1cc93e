import Verif.Servers.LspLemmas

/-! # The documents that the server has stored, and the results it publishes for them -/

namespace Caesar.Server
open Relation

variable {V : Verifier}

/-! ## The stored files -/

/-- Each document is stored at most once. -/
def Files.Unique (fs : Files) : Prop :=
  ∀ (i j : ℕ) (f g : File) (u : ℕ), fs[i]? = some f → fs[j]? = some g → f.hasUri u = true → g.hasUri u = true → i = j

/-- The stored document of a URI. -/
def Files.at (fs : Files) (u : ℕ) : Option File := fs.find? (·.hasUri u)

theorem at_eq_some {fs : Files} (h : fs.Unique) {u : ℕ} {f : File} : fs.at u = some f ↔ f.hasUri u = true ∧ ∃ i : ℕ, fs[i]? = some f := by
  constructor
  · intro hf
    refine ⟨List.find?_some (p := fun f : File => f.hasUri u) hf, ?_⟩
    obtain ⟨i, hi⟩ := List.getElem?_of_mem (List.mem_of_find?_eq_some hf)
    exact ⟨i, hi⟩
  · rintro ⟨h1, i, hi⟩
    cases hf : fs.at u with
    | none =>
      have := List.find?_eq_none.1 hf f (List.mem_of_getElem? hi)
      exact absurd h1 this
    | some g =>
      obtain ⟨j, hj⟩ := List.getElem?_of_mem (List.mem_of_find?_eq_some hf)
      have := h i j f g u hi hj h1 (List.find?_some (p := fun f : File => f.hasUri u) hf)
      subst this
      rw [hi] at hj
      exact hj.symm ▸ rfl

theorem hasUri_lsp (d : Doc) (t : String) (u : ℕ) : (File.mk (.lsp d) t).hasUri u = true ↔ d.uri = u := by
  simp [File.hasUri]

theorem add_spec {fs fs' : Files} {f : File} (h : Files.add fs f = some fs') : fs' = fs ++ [f] ∧ fs.length + 1 < 65536 := by
  unfold Files.add at h
  split at h
  · exact ⟨(Option.some.inj h).symm, ‹_›⟩
  · cases h

theorem getElem?_snoc {fs : Files} {f g : File} {i : ℕ} : (fs ++ [f])[i]? = some g ↔ fs[i]? = some g ∨ i = fs.length ∧ g = f := by
  rw [List.getElem?_append]
  split
  · constructor
    · exact Or.inl
    · rintro (h | ⟨rfl, -⟩)
      exacts [h, absurd ‹_› (Nat.lt_irrefl _)]
  · rename_i hlt
    have hn : fs[i]? = none := List.getElem?_eq_none (Nat.le_of_not_lt hlt)
    rw [hn]
    constructor
    · intro h
      have h0 : i - fs.length = 0 := by
        by_contra hc
        obtain ⟨k, hk⟩ := Nat.exists_eq_succ_of_ne_zero hc
        rw [hk] at h
        simp at h
      rw [h0] at h
      exact Or.inr ⟨by omega, (by simpa using h.symm)⟩
    · rintro (h | ⟨rfl, rfl⟩)
      · cases h
      · simp

theorem addBuiltin_spec {fs fs' : Files} (hu : fs.Unique) (h : Files.add fs ⟨.builtin, ""⟩ = some fs') :
    fs'.Unique ∧ ∀ u, fs'.at u = fs.at u := by
  obtain ⟨rfl, -⟩ := add_spec h
  refine ⟨?_, fun u => ?_⟩
  · intro i j f g u hi hj hf hg
    rcases getElem?_snoc.1 hi with hi | ⟨-, rfl⟩
    · rcases getElem?_snoc.1 hj with hj | ⟨-, rfl⟩
      · exact hu i j f g u hi hj hf hg
      · simp [File.hasUri] at hg
    · simp [File.hasUri] at hf
  · simp [Files.at, List.find?_append, File.hasUri]

theorem addOrUpdate_spec {fs fs' : Files} {d : Doc} {t : String} (hu : fs.Unique) (h : Files.addOrUpdateUri fs d t = some fs') :
    fs'.Unique ∧ fs'.at d.uri = some ⟨.lsp d, t⟩ ∧ (∀ u, u ≠ d.uri → fs'.at u = fs.at u) ∧
    ∀ (i : ℕ) (f : File), fs[i]? = some f → fs'[i]? = some (if f.hasUri d.uri then ⟨.lsp d, t⟩ else f) := by
  have main : fs'.Unique ∧ (∃ i : ℕ, fs'[i]? = some ⟨.lsp d, t⟩) ∧ (∀ (i : ℕ) (f : File), fs'[i]? = some f → f = ⟨.lsp d, t⟩ ∨ fs[i]? = some f ∧ f.hasUri d.uri = false) ∧
      (∀ (i : ℕ) (f : File), fs[i]? = some f → f.hasUri d.uri = false → fs'[i]? = some f) ∧ List.length fs ≤ List.length fs' := by
    unfold Files.addOrUpdateUri at h
    split at h
    · rename_i i hi
      obtain rfl := (Option.some.inj h).symm
      obtain ⟨hlt, hp, -⟩ := List.findIdx?_eq_some_iff_getElem.1 hi
      have hold : fs[i]? = some fs[i] := List.getElem?_eq_getElem hlt
      have h3 : ∀ (j : ℕ) (f : File), (fs.set i ⟨.lsp d, t⟩)[j]? = some f → (j = i ∧ f = ⟨.lsp d, t⟩) ∨ (j ≠ i ∧ fs[j]? = some f) := by
        intro j f hj
        rw [List.getElem?_set] at hj
        split at hj
        · rename_i e
          left
          subst e
          exact ⟨rfl, (Option.some.inj hj).symm⟩
        · rename_i e
          exact Or.inr ⟨fun e' => e e'.symm, hj⟩
      refine ⟨?_, ⟨i, by simp [hlt]⟩, ?_, ?_, by simp⟩
      · intro j k f g u hj hk hf hg
        rcases h3 j f hj with ⟨rfl, rfl⟩ | ⟨hji, hj⟩ <;> rcases h3 k g hk with ⟨rfl, rfl⟩ | ⟨hki, hk⟩
        · rfl
        · rw [hasUri_lsp] at hf
          subst hf
          exact hu _ _ _ _ _ hold hk hp hg
        · rw [hasUri_lsp] at hg
          subst hg
          rename_i hj'
          exact hu _ _ _ _ _ hj' hold hf hp
        · exact hu _ _ _ _ _ hj hk hf hg
      · intro j f hj
        rcases h3 j f hj with ⟨-, rfl⟩ | ⟨hji, hj⟩
        · exact Or.inl rfl
        · right
          refine ⟨hj, ?_⟩
          by_contra hc
          exact hji (hu _ _ _ _ _ hj hold (by simpa using hc) hp)
      · intro j f hj hf
        rw [List.getElem?_set_ne]
        · exact hj
        · rintro rfl
          rw [hold] at hj
          obtain rfl := Option.some.inj hj
          rw [hf] at hp
          cases hp
    · rename_i hn
      have hn' : ∀ f ∈ fs, f.hasUri d.uri = false := by
        intro f hf
        simpa using List.findIdx?_eq_none_iff.1 hn f hf
      obtain ⟨rfl, -⟩ := add_spec h
      refine ⟨?_, ⟨fs.length, by simp⟩, ?_, ?_, by simp⟩
      · intro j k f g u hj hk hf hg
        rcases getElem?_snoc.1 hj with hj | ⟨ej, rfl⟩ <;> rcases getElem?_snoc.1 hk with hk | ⟨ek, rfl⟩
        · exact hu _ _ _ _ _ hj hk hf hg
        · rw [hasUri_lsp] at hg
          subst hg
          rw [hn' f (List.mem_of_getElem? hj)] at hf
          cases hf
        · rw [hasUri_lsp] at hf
          subst hf
          rw [hn' g (List.mem_of_getElem? hk)] at hg
          cases hg
        · rw [ej, ek]
      · intro j f hj
        rcases getElem?_snoc.1 hj with hj | ⟨-, rfl⟩
        · exact Or.inr ⟨hj, hn' f (List.mem_of_getElem? hj)⟩
        · exact Or.inl rfl
      · intro j f hj _
        exact getElem?_snoc.2 (Or.inl hj)
  obtain ⟨h1, ⟨i, hi⟩, h3, h4, h5⟩ := main
  refine ⟨h1, (at_eq_some h1).2 ⟨(hasUri_lsp _ _ _).2 rfl, i, hi⟩, fun u hne => ?_, fun j f hj => ?_⟩
  rotate_left
  · cases hf : f.hasUri d.uri with
    | false => exact h4 j f hj hf
    | true =>
      have hlt : j < List.length fs' := Nat.lt_of_lt_of_le (List.getElem?_eq_some_iff.1 hj).1 h5
      rcases h3 j _ (List.getElem?_eq_getElem hlt) with e | ⟨e, hn⟩
      · rw [List.getElem?_eq_getElem hlt, e]; rfl
      · rw [hj] at e
        rw [← Option.some.inj e, hf] at hn
        cases hn
  apply Option.ext
  intro f
  rw [at_eq_some h1, at_eq_some hu]
  constructor
  · rintro ⟨hf, j, hj⟩
    rcases h3 j f hj with rfl | ⟨hj, -⟩
    · exact absurd ((hasUri_lsp _ _ _).1 hf) (fun e => hne e.symm)
    · exact ⟨hf, j, hj⟩
  · rintro ⟨hf, j, hj⟩
    refine ⟨hf, j, h4 j f hj ?_⟩
    by_contra hc
    have hc : f.hasUri d.uri = true := by simpa using hc
    cases hp : f.path with
    | builtin => simp [File.hasUri, hp] at hf
    | lsp d' =>
      simp [File.hasUri, hp] at hf hc
      exact hne (hf.symm.trans hc)

theorem get_eq_some {fs : Files} {id : ℕ} {f : File} : Files.get fs id = some f ↔ ∃ i, id = i + 1 ∧ fs[i]? = some f := by
  unfold Files.get
  split
  · rename_i h
    constructor
    · intro h'; cases h'
    · rintro ⟨i, rfl, -⟩; omega
  · rename_i h
    constructor
    · intro h'
      exact ⟨id - 1, by omega, h'⟩
    · rintro ⟨i, rfl, h'⟩
      simpa using h'

theorem find_eq_some {fs : Files} {p : Path} {id : ℕ} (h : Files.find fs p = some id) : ∃ f, Files.get fs id = some f ∧ f.path = p := by
  obtain ⟨i, hi, rfl⟩ := Option.map_eq_some_iff.1 h
  obtain ⟨hlt, hp, -⟩ := List.findIdx?_eq_some_iff_getElem.1 hi
  exact ⟨fs[i], get_eq_some.2 ⟨i, rfl, List.getElem?_eq_getElem hlt⟩, by simpa using hp⟩

/-! ## The files are only changed by the client -/

theorem publish_files {s s' : Srv} {mk : Doc → String → Report → Ev} (h : s.publish mk = some s') : s'.files = s.files ∧ s'.reports = s.reports := by
  obtain ⟨evs, rfl, -⟩ := publish_spec h
  exact ⟨rfl, rfl⟩

theorem clear_files {s s' : Srv} {id : ℕ} (h : s.clear id = some s') : s'.files = s.files := by
  unfold Srv.clear at h
  obtain ⟨s1, h1, h2⟩ := Option.bind_eq_some_iff.1 h
  rw [(publish_files h2).1, (publish_files h1).1]
  split <;> rfl

/-- Files of the verifier have been added. -/
def SameDocs (fs fs' : Files) : Prop := fs.Unique → fs'.Unique ∧ ∀ u, fs'.at u = fs.at u

theorem SameDocs.of_eq {fs fs' : Files} (h : fs' = fs) : SameDocs fs fs' := by
  subst h
  exact fun hu => ⟨hu, fun _ => rfl⟩

theorem SameDocs.trans {f1 f2 f3 : Files} (h1 : SameDocs f1 f2) (h2 : SameDocs f2 f3) : SameDocs f1 f3 := by
  intro hu
  obtain ⟨a, b⟩ := h1 hu
  obtain ⟨c, d⟩ := h2 a
  exact ⟨c, fun u => (d u).trans (b u)⟩

theorem call_files {s s' : Srv} {id : ℕ} {c : Call} (h : s.call id c = some s') : SameDocs s.files s'.files := by
  cases c with
  | addBuiltin =>
    obtain ⟨fs, h1, rfl⟩ := Option.map_eq_some_iff.1 h
    exact fun hu => addBuiltin_spec hu h1
  | unitStatus name st =>
    obtain ⟨l, -, h2⟩ := Option.bind_eq_some_iff.1 h
    exact .of_eq (publish_files h2).1
  | fileType t =>
    simp only [Srv.call, Srv.publishStatuses] at h
    exact .of_eq (publish_files h).1
  | diagnostic l =>
    simp only [Srv.call, Srv.publishDiagnostics] at h
    exact .of_eq (publish_files h).1
  | dummyDiagnostic =>
    simp only [Srv.call, Srv.publishDiagnostics] at h
    exact .of_eq (publish_files h).1
  | explanation l =>
    simp only [Srv.call, Srv.publishExplanations] at h
    exact .of_eq (publish_files h).1

theorem handleResult_files {s s' : Srv} {id : ℕ} {r : Result} (h : s.handleResult id r = some s') : SameDocs s.files s'.files := by
  cases r with
  | ok => rw [Option.some.inj h]; exact .of_eq rfl
  | interrupted => rw [Option.some.inj h]; exact .of_eq rfl
  | error => rw [Option.some.inj h]; exact .of_eq rfl
  | diagnostic l =>
    obtain ⟨s1, h1, h2⟩ := Option.bind_eq_some_iff.1 h
    exact (call_files h1).trans (call_files h2)
  | limit =>
    obtain ⟨s1, h1, h2⟩ := Option.bind_eq_some_iff.1 h
    exact (SameDocs.of_eq (publish_files h1).1).trans (call_files h2)

theorem task_files {p q : Srv × Task} (h : ReflTransGen (TaskStep V) p q) : SameDocs p.1.files q.1.files := by
  induction h with
  | refl => exact .of_eq rfl
  | tail _ hs ih =>
    refine ih.trans ?_
    cases hs with
    | start h hv =>
      obtain ⟨f, -, -, -, h4⟩ := start_spec h
      exact .of_eq (clear_files h4 : _ = _)
    | call h => exact call_files h
    | done h =>
      have := handleResult_files h
      exact this

/-- What the client has sent last for a URI. -/
def current (ms : List Msg) (u : ℕ) : Option (Doc × String) :=
  ms.foldl (fun acc m => match m with
    | .note (.didOpen _ d t) => if d.uri = u then some (d, t) else acc
    | .note (.didChange d t) => if d.uri = u then some (d, t) else acc
    | _ => acc) none

/-- Every document that is opened is a HeyVL document. -/
def AllHeyVL (ms : List Msg) : Prop := ∀ d t, Msg.note (.didOpen false d t) ∉ ms

/-- The server has stored what the client has sent last. -/
theorem stored_current {ms : List Msg} {s : Srv} (hv : AllHeyVL ms) (h : HandlesAll V .init ms s) :
    s.files.Unique ∧ ∀ u, s.files.at u = (current ms u).map fun p => ⟨.lsp p.1, p.2⟩ := by
  generalize hi : Srv.init = s0 at h
  induction h with
  | nil => subst hi; exact ⟨by intro i j f g u hi; simp [Srv.init] at hi, fun u => rfl⟩
  | @snoc s1 s2 ms m _ hm ih =>
    subst hi
    have hv' : AllHeyVL ms := fun d t hm => hv d t (List.mem_append_left _ hm)
    obtain ⟨hu, hat⟩ := ih hv'
    cases hm with
    | note h =>
      rename_i n
      cases n with
      | didOpen heyvl d t =>
        cases heyvl with
        | false => exact absurd (List.mem_append_right _ List.mem_cons_self) (hv d t)
        | true =>
          simp only [Srv.handle, if_true] at h
          obtain ⟨fs, h1, rfl⟩ := Option.map_eq_some_iff.1 h
          obtain ⟨a, b, c, -⟩ := addOrUpdate_spec hu h1
          refine ⟨a, fun u => ?_⟩
          simp only [current, List.foldl_append, List.foldl_cons, List.foldl_nil]
          split
          · rename_i e; subst e; exact b
          · rename_i e; rw [c u (fun e' => e e'.symm)]; exact hat u
      | didChange d t =>
        obtain ⟨fs, h1, rfl⟩ := Option.map_eq_some_iff.1 h
        obtain ⟨a, b, c, -⟩ := addOrUpdate_spec hu h1
        refine ⟨a, fun u => ?_⟩
        simp only [current, List.foldl_append, List.foldl_cons, List.foldl_nil]
        split
        · rename_i e; subst e; exact b
        · rename_i e; rw [c u (fun e' => e e'.symm)]; exact hat u
      | didClose uri =>
        obtain ⟨id, -, h2⟩ := Option.bind_eq_some_iff.1 h
        rw [clear_files h2]
        refine ⟨hu, fun u => ?_⟩
        simp only [current, List.foldl_append, List.foldl_cons, List.foldl_nil]
        exact hat u
      | ignored =>
        obtain rfl := Option.some.inj h
        refine ⟨hu, fun u => ?_⟩
        simp only [current, List.foldl_append, List.foldl_cons, List.foldl_nil]
        exact hat u
    | verify h =>
      obtain ⟨a, b⟩ := task_files h hu
      refine ⟨a, fun u => ?_⟩
      simp only [current, List.foldl_append, List.foldl_cons, List.foldl_nil]
      exact (b u).trans (hat u)
    | shutdown =>
      refine ⟨hu, fun u => ?_⟩
      simp only [current, List.foldl_append, List.foldl_cons, List.foldl_nil]
      exact hat u
    | other =>
      refine ⟨hu, fun u => ?_⟩
      simp only [current, List.foldl_append, List.foldl_cons, List.foldl_nil]
      exact hat u

/-! ## The published results -/

/-- The last verification of a document that has been started. -/
def lastStarted (out : List Ev) (u : ℕ) : Option (Doc × String) := ((starts out).filter fun p => p.1.uri = u).getLast?

/-- The event shows results for this document, of which the server has stored this text. -/
def Ev.claims : Ev → Option (Doc × String)
  | .status d t _ l => if l.isEmpty then none else some (d, t)
  | .diagnostics d t l => if l.isEmpty then none else some (d, t)
  | .explanations d t l => if l.isEmpty then none else some (d, t)
  | .response _ | .started _ _ => none

/-- Results are only published for a document if it is its last verification that they are from: this version, and this text. -/
def Honest (out : List Ev) : Prop :=
  ∀ a e b d t, out = a ++ e :: b → e.claims = some (d, t) → lastStarted a d.uri = some (d, t)

/-- The next verification or closing of a document is of this document, if there is one. -/
def NextIs (u : ℕ) : List Msg → Prop
  | [] => True
  | .verify _ d :: _ => d.uri = u
  | .note (.didClose v) :: _ => v = u
  | _ :: ms => NextIs u ms

/-- After a change of a document that has been verified (and not closed since then), no other document is verified or closed before this one is. -/
def Disciplined (verified : List ℕ) : List Msg → Prop
  | [] => True
  | .verify _ d :: ms => Disciplined (d.uri :: verified) ms
  | .note (.didOpen _ d _) :: ms => (d.uri ∈ verified → NextIs d.uri ms) ∧ Disciplined verified ms
  | .note (.didChange d _) :: ms => (d.uri ∈ verified → NextIs d.uri ms) ∧ Disciplined verified ms
  | .note (.didClose u) :: ms => Disciplined (verified.filter (· ≠ u)) ms
  | _ :: ms => Disciplined verified ms

/-- There is something in the report. -/
def Report.Nonempty (r : Report) : Prop := r.statuses ≠ [] ∨ r.diagnostics ≠ [] ∨ r.explanations ≠ []

theorem starts_append (a b : List Ev) : starts (a ++ b) = starts a ++ starts b := List.filterMap_append

theorem starts_publications {evs : List Ev} (h : ∀ e ∈ evs, e.IsPublication) : starts evs = [] := by
  unfold starts
  rw [List.filterMap_eq_nil_iff]
  intro e he
  have := h e he
  cases e <;> simp_all [Ev.IsPublication]

theorem lastStarted_publications {out evs : List Ev} (h : ∀ e ∈ evs, e.IsPublication) (u : ℕ) : lastStarted (out ++ evs) u = lastStarted out u := by
  unfold lastStarted
  rw [starts_append, starts_publications h, List.append_nil]

theorem lastStarted_started (out : List Ev) (d : Doc) (t : String) (u : ℕ) :
    lastStarted (out ++ [.started d t]) u = if d.uri = u then some (d, t) else lastStarted out u := by
  unfold lastStarted
  rw [starts_append]
  split
  · rename_i h
    simp [starts, h]
  · rename_i h
    simp [starts, h]

theorem lastStarted_response (out : List Ev) (id : ℕ) (u : ℕ) : lastStarted (out ++ [.response id]) u = lastStarted out u := by
  unfold lastStarted
  rw [starts_append]
  simp [starts]

theorem honest_snoc {out : List Ev} {e : Ev} (h : Honest out) (he : ∀ d t, e.claims = some (d, t) → lastStarted out d.uri = some (d, t)) : Honest (out ++ [e]) := by
  intro a e' b d t heq hc
  rcases List.eq_nil_or_concat b with rfl | ⟨b', x, rfl⟩
  · obtain ⟨rfl, h2⟩ := List.append_inj' heq rfl
    obtain rfl := List.singleton_inj.1 h2
    exact he d t hc
  · have heq' : out ++ [e] = (a ++ e' :: b') ++ [x] := by simpa using heq
    obtain ⟨h1, -⟩ := List.append_inj' heq' rfl
    exact h a e' b' d t h1 hc

theorem honest_append {out evs : List Ev} (h : Honest out) (hp : ∀ e ∈ evs, e.IsPublication)
    (he : ∀ e ∈ evs, ∀ d t, e.claims = some (d, t) → lastStarted out d.uri = some (d, t)) : Honest (out ++ evs) := by
  induction evs generalizing out with
  | nil => simpa using h
  | cons e evs ih =>
    have h1 : Honest (out ++ [e]) := honest_snoc h (he e List.mem_cons_self)
    have := ih h1 (fun e' he' => hp e' (List.mem_cons_of_mem _ he')) (by
      intro e' he' d t hc
      rw [lastStarted_publications]
      · exact he e' (List.mem_cons_of_mem _ he') d t hc
      · intro x hx
        rw [List.mem_singleton] at hx
        subst hx
        exact hp _ List.mem_cons_self)
    simpa using this

/-! ### The invariant -/

/-- Every report is for a stored document; its results are from the last verification, or its document is the next one to be verified or closed. -/
structure Good (s : Srv) (verified : List ℕ) (rest : List Msg) : Prop where
  honest : Honest s.out
  uniq : s.files.Unique
  nodup : (s.reports.map Prod.fst).Nodup
  rep : ∀ id r, (id, r) ∈ s.reports → ∃ d t, Files.get s.files id = some ⟨.lsp d, t⟩ ∧
    (r.Nonempty → d.uri ∈ verified ∧ (lastStarted s.out d.uri = some (d, t) ∨ NextIs d.uri rest))

/-- The same, and all the results are from the last verification. -/
structure Clean (s : Srv) (verified : List ℕ) : Prop where
  honest : Honest s.out
  uniq : s.files.Unique
  nodup : (s.reports.map Prod.fst).Nodup
  rep : ∀ id r, (id, r) ∈ s.reports → ∃ d t, Files.get s.files id = some ⟨.lsp d, t⟩ ∧
    (r.Nonempty → d.uri ∈ verified ∧ lastStarted s.out d.uri = some (d, t))

theorem Clean.good {s : Srv} {v : List ℕ} (h : Clean s v) (rest : List Msg) : Good s v rest :=
  ⟨h.honest, h.uniq, h.nodup, fun id r hr => by
    obtain ⟨d, t, h1, h2⟩ := h.rep id r hr
    exact ⟨d, t, h1, fun hn => ⟨(h2 hn).1, Or.inl (h2 hn).2⟩⟩⟩

theorem iterSpans_nil_of {l : StatusList} (h : l = []) : iterSpans l = [] := by subst h; rfl

theorem publish_clean {s s' : Srv} {v : List ℕ} {mk : Doc → String → Report → Ev} (h : Clean s v) (hp : s.publish mk = some s')
    (hk : ∀ d t r, (mk d t r).IsPublication) (hmk : ∀ d t r d' t', (mk d t r).claims = some (d', t') → r.Nonempty ∧ d' = d ∧ t' = t) :
    Clean s' v ∧ s'.files = s.files ∧ ∀ u, lastStarted s'.out u = lastStarted s.out u := by
  obtain ⟨evs, rfl, he⟩ := publish_spec hp
  have hpub : ∀ e ∈ evs, e.IsPublication := by
    intro e hx
    obtain ⟨id, r, f, d, -, -, -, rfl⟩ := he e hx
    exact hk _ _ _
  refine ⟨⟨?_, h.uniq, h.nodup, ?_⟩, rfl, fun u => lastStarted_publications hpub u⟩
  · refine honest_append h.honest hpub ?_
    intro e hx d' t' hc
    obtain ⟨id, r, f, d, h1, h2, h3, rfl⟩ := he e hx
    obtain ⟨hn, rfl, rfl⟩ := hmk _ _ _ _ _ hc
    obtain ⟨d1, t1, e1, e2⟩ := h.rep id r h1
    rw [e1] at h2
    obtain rfl := Option.some.inj h2
    cases h3
    exact (e2 hn).2
  · intro id r hr
    obtain ⟨d, t, h1, h2⟩ := h.rep id r hr
    exact ⟨d, t, h1, fun hn => ⟨(h2 hn).1, by rw [lastStarted_publications hpub]; exact (h2 hn).2⟩⟩

theorem statuses_clean {s s' : Srv} {v : List ℕ} (h : Clean s v) (hp : s.publishStatuses = some s') :
    Clean s' v ∧ s'.files = s.files ∧ ∀ u, lastStarted s'.out u = lastStarted s.out u := by
  unfold Srv.publishStatuses at hp
  refine publish_clean h hp (by intro _ _ _; trivial) ?_
  intro d t r d' t' hc
  simp only [Ev.claims] at hc
  split at hc
  · cases hc
  · rename_i hne
    obtain ⟨rfl, rfl⟩ := Prod.mk.inj (Option.some.inj hc)
    refine ⟨Or.inl fun e => hne ?_, rfl, rfl⟩
    rw [e]; rfl

theorem diagnostics_clean {s s' : Srv} {v : List ℕ} (h : Clean s v) (hp : s.publishDiagnostics = some s') :
    Clean s' v ∧ s'.files = s.files ∧ ∀ u, lastStarted s'.out u = lastStarted s.out u := by
  unfold Srv.publishDiagnostics at hp
  refine publish_clean h hp (by intro _ _ _; trivial) ?_
  intro d t r d' t' hc
  simp only [Ev.claims] at hc
  split at hc
  · cases hc
  · rename_i hne
    obtain ⟨rfl, rfl⟩ := Prod.mk.inj (Option.some.inj hc)
    refine ⟨Or.inr (Or.inl fun e => hne ?_), rfl, rfl⟩
    rw [e]; rfl

theorem explanations_clean {s s' : Srv} {v : List ℕ} (h : Clean s v) (hp : s.publishExplanations = some s') :
    Clean s' v ∧ s'.files = s.files ∧ ∀ u, lastStarted s'.out u = lastStarted s.out u := by
  unfold Srv.publishExplanations at hp
  refine publish_clean h hp (by intro _ _ _; trivial) ?_
  intro d t r d' t' hc
  simp only [Ev.claims] at hc
  split at hc
  · cases hc
  · rename_i hne
    obtain ⟨rfl, rfl⟩ := Prod.mk.inj (Option.some.inj hc)
    refine ⟨Or.inr (Or.inr fun e => hne ?_), rfl, rfl⟩
    rw [e]; rfl

theorem mem_insertKey {α β : Type} [DecidableEq α] {l : List (α × β)} {k k' : α} {v v' : β} (hn : (l.map Prod.fst).Nodup) (h : (k', v') ∈ insertKey l k v) :
    (k' = k ∧ v' = v) ∨ (k' ≠ k ∧ (k', v') ∈ l) := by
  induction l with
  | nil =>
    simp only [insertKey, List.mem_singleton, Prod.mk.injEq] at h
    exact Or.inl h
  | cons p l ih =>
    obtain ⟨a, b⟩ := p
    simp only [List.map_cons, List.nodup_cons] at hn
    simp only [insertKey] at h
    split at h
    · rename_i e
      subst e
      rcases List.mem_cons.1 h with e | hl
      · exact Or.inl (Prod.mk.inj e)
      · refine Or.inr ⟨?_, List.mem_cons_of_mem _ hl⟩
        rintro rfl
        exact hn.1 (List.mem_map.2 ⟨(_, v'), hl, rfl⟩)
    · rename_i e
      rcases List.mem_cons.1 h with e' | h
      · obtain ⟨rfl, rfl⟩ := Prod.mk.inj e'
        exact Or.inr ⟨e, List.mem_cons_self⟩
      · rcases ih hn.2 h with h | ⟨h1, h2⟩
        · exact Or.inl h
        · exact Or.inr ⟨h1, List.mem_cons_of_mem _ h2⟩

theorem mem_of_getKey_isNone {α β : Type} [DecidableEq α] {l : List (α × β)} {k : α} (h : ¬ (getKey l k).isSome) {v : β} : (k, v) ∉ l := by
  intro hm
  have : getKey l k = none := by
    cases hg : getKey l k with
    | none => rfl
    | some x => rw [hg] at h; exact absurd rfl h
  exact (getKey_none_iff l k).1 this (List.mem_map.2 ⟨(k, v), hm, rfl⟩)

/-- The invariant of the task of a verification request. -/
structure TaskInv (s : Srv) (v : List ℕ) (file : ℕ) (d : Doc) (t : String) : Prop where
  clean : Clean s v
  mem : d.uri ∈ v
  get : Files.get s.files file = some ⟨.lsp d, t⟩
  last : lastStarted s.out d.uri = some (d, t)

theorem modify_inv {s : Srv} {v : List ℕ} {file : ℕ} {d : Doc} {t : String} (h : TaskInv s v file d t) (g : Report → Report) : TaskInv (s.modify file g) v file d t := by
  refine ⟨⟨h.clean.honest, h.clean.uniq, nodup_insertKey _ _ _ h.clean.nodup, ?_⟩, h.mem, h.get, h.last⟩
  intro id r hr
  rcases mem_insertKey h.clean.nodup hr with ⟨rfl, rfl⟩ | ⟨-, hr⟩
  · exact ⟨d, t, h.get, fun _ => ⟨h.mem, h.last⟩⟩
  · exact h.clean.rep id r hr

theorem inv_of_publish {s s' : Srv} {v : List ℕ} {file : ℕ} {d : Doc} {t : String} (h : TaskInv s v file d t)
    (hp : Clean s' v ∧ s'.files = s.files ∧ ∀ u, lastStarted s'.out u = lastStarted s.out u) : TaskInv s' v file d t :=
  ⟨hp.1, h.mem, by rw [hp.2.1]; exact h.get, by rw [hp.2.2]; exact h.last⟩

theorem get_append {fs : Files} {f g : File} {id : ℕ} (h : Files.get fs id = some f) : Files.get (fs ++ [g] : List File) id = some f := by
  obtain ⟨i, rfl, hi⟩ := get_eq_some.1 h
  exact get_eq_some.2 ⟨i, rfl, getElem?_snoc.2 (Or.inl hi)⟩

theorem call_inv {s s' : Srv} {v : List ℕ} {file : ℕ} {d : Doc} {t : String} {c : Call} (h : TaskInv s v file d t) (hc : s.call file c = some s') : TaskInv s' v file d t := by
  cases c with
  | addBuiltin =>
    obtain ⟨fs, h1, rfl⟩ := Option.map_eq_some_iff.1 hc
    have hu := (addBuiltin_spec h.clean.uniq h1).1
    obtain ⟨rfl, -⟩ := add_spec h1
    refine ⟨⟨h.clean.honest, hu, h.clean.nodup, ?_⟩, h.mem, get_append h.get, h.last⟩
    intro id r hr
    obtain ⟨d', t', e1, e2⟩ := h.clean.rep id r hr
    exact ⟨d', t', get_append e1, e2⟩
  | unitStatus name st =>
    obtain ⟨l, -, h2⟩ := Option.bind_eq_some_iff.1 hc
    exact inv_of_publish (modify_inv h _) (statuses_clean (modify_inv h _).clean h2)
  | fileType ty =>
    simp only [Srv.call] at hc
    exact inv_of_publish (modify_inv h _) (statuses_clean (modify_inv h _).clean hc)
  | diagnostic l =>
    simp only [Srv.call] at hc
    exact inv_of_publish (modify_inv h _) (diagnostics_clean (modify_inv h _).clean hc)
  | explanation l =>
    simp only [Srv.call] at hc
    exact inv_of_publish (modify_inv h _) (explanations_clean (modify_inv h _).clean hc)
  | dummyDiagnostic =>
    exfalso
    simp only [Srv.call, Srv.publishDiagnostics, Srv.publish] at hc
    obtain ⟨evs, h1, -⟩ := Option.bind_eq_some_iff.1 hc
    have key : ∀ (l : List (ℕ × Report)) (evs : List (List Ev)) (r : Report), (0, r) ∈ l →
        (l.mapM fun (id, r) => (Files.get (s.modify 0 fun r => r).files id).map fun f =>
          match f.path with
          | .lsp d => [Ev.diagnostics d f.text r.diagnostics]
          | .builtin => []) ≠ some evs := by
      intro l
      induction l with
      | nil => intro evs r hr; cases hr
      | cons p l ih =>
        intro evs r hr heq
        simp only [List.mapM_cons] at heq
        obtain ⟨x, hx, heq⟩ := Option.bind_eq_some_iff.1 heq
        obtain ⟨y, hy, -⟩ := Option.bind_eq_some_iff.1 heq
        rcases List.mem_cons.1 hr with rfl | hr
        · simp [Files.get] at hx
        · exact ih y r hr hy
    have hg := getKey_insertKey_self s.reports 0 ((getKey s.reports 0).getD .empty)
    have : ∃ r, (0, r) ∈ (s.modify 0 fun r => r).reports := by
      by_contra hcon
      have hnone : getKey (insertKey s.reports 0 ((getKey s.reports 0).getD .empty)) 0 = none := by
        rw [getKey_none_iff]
        intro hm
        obtain ⟨⟨p, r⟩, hp, hp0⟩ := List.mem_map.1 hm
        obtain rfl : p = 0 := hp0
        exact hcon ⟨r, hp⟩
      rw [hg] at hnone
      cases hnone
    obtain ⟨r, hr⟩ := this
    exact key _ _ r hr h1

theorem handleResult_inv {s s' : Srv} {v : List ℕ} {file : ℕ} {d : Doc} {t : String} {r : Result} (h : TaskInv s v file d t) (hc : s.handleResult file r = some s') : TaskInv s' v file d t := by
  cases r with
  | ok => rw [← Option.some.inj hc]; exact h
  | interrupted => rw [← Option.some.inj hc]; exact h
  | error => rw [← Option.some.inj hc]; exact h
  | diagnostic l =>
    obtain ⟨s1, h1, h2⟩ := Option.bind_eq_some_iff.1 hc
    exact call_inv (call_inv h h1) h2
  | limit =>
    obtain ⟨s1, h1, h2⟩ := Option.bind_eq_some_iff.1 hc
    refine call_inv ?_ h2
    have h' : TaskInv ({ s with reports := s.reports.map fun p => (p.1, { p.2 with statuses := timeoutAll p.2.statuses }) } : Srv) v file d t := by
      refine ⟨⟨h.clean.honest, h.clean.uniq, ?_, ?_⟩, h.mem, h.get, h.last⟩
      · have : (s.reports.map fun p : ℕ × Report => (p.1, ({ p.2 with statuses := timeoutAll p.2.statuses } : Report))).map Prod.fst = s.reports.map Prod.fst := by
          rw [List.map_map]; rfl
        rw [this]
        exact h.clean.nodup
      · intro id r hr
        obtain ⟨p, hp, e⟩ := List.mem_map.1 hr
        obtain ⟨d', t', e1, e2⟩ := h.clean.rep p.1 p.2 hp
        obtain ⟨rfl, rfl⟩ := Prod.mk.inj e
        refine ⟨d', t', e1, fun hn => e2 ?_⟩
        rcases hn with hn | hn
        · exact Or.inl fun e => hn (by simp [timeoutAll, e])
        · exact Or.inr hn
    exact inv_of_publish h' (statuses_clean h'.clean h1)

theorem clear_clean {s s' : Srv} {v : List ℕ} {id : ℕ} (h : Clean ({ s with reports := if (getKey s.reports id).isSome then insertKey s.reports id .empty else s.reports } : Srv) v)
    (hc : s.clear id = some s') : Clean s' v ∧ s'.files = s.files ∧ ∀ u, lastStarted s'.out u = lastStarted s.out u := by
  unfold Srv.clear at hc
  obtain ⟨s1, h1, h2⟩ := Option.bind_eq_some_iff.1 hc
  have hs : (if (getKey s.reports id).isSome then ({ s with reports := insertKey s.reports id .empty } : Srv) else s) =
      ({ s with reports := if (getKey s.reports id).isSome then insertKey s.reports id .empty else s.reports } : Srv) := by
    split <;> rfl
  rw [hs] at h1
  obtain ⟨a1, a2, a3⟩ := diagnostics_clean h h1
  obtain ⟨b1, b2, b3⟩ := statuses_clean a1 h2
  exact ⟨b1, b2.trans a2, fun u => (b3 u).trans (a3 u)⟩

theorem empty_not_nonempty : ¬ Report.empty.Nonempty := by
  rintro (h | h | h) <;> exact h rfl

theorem nodup_cleared {s : Srv} (id : ℕ) (h : (s.reports.map Prod.fst).Nodup) :
    ((if (getKey s.reports id).isSome then insertKey s.reports id .empty else s.reports).map Prod.fst).Nodup := by
  split
  · exact nodup_insertKey _ _ _ h
  · exact h

theorem mem_cleared {s : Srv} {id id' : ℕ} {r : Report} (hn : (s.reports.map Prod.fst).Nodup)
    (h : (id', r) ∈ (if (getKey s.reports id).isSome then insertKey s.reports id .empty else s.reports)) (hr : r.Nonempty) : id' ≠ id ∧ (id', r) ∈ s.reports := by
  split at h
  · rcases mem_insertKey hn h with ⟨rfl, rfl⟩ | h
    · exact absurd hr empty_not_nonempty
    · exact h
  · rename_i hk
    refine ⟨?_, h⟩
    rintro rfl
    exact mem_of_getKey_isNone hk h

theorem mem_cleared_key {s : Srv} {id id' : ℕ} {r : Report} (hn : (s.reports.map Prod.fst).Nodup)
    (h : (id', r) ∈ (if (getKey s.reports id).isSome then insertKey s.reports id .empty else s.reports)) : ∃ r', (id', r') ∈ s.reports := by
  split at h
  · rename_i hk
    rcases mem_insertKey hn h with ⟨rfl, rfl⟩ | h
    · by_contra hcon
      have hnone : getKey s.reports id' = none := by
        rw [getKey_none_iff]
        intro hm
        obtain ⟨p, hp, hp0⟩ := List.mem_map.1 hm
        exact hcon ⟨p.2, by rw [← hp0]; exact hp⟩
      rw [hnone] at hk
      cases hk
    · exact ⟨r, h.2⟩
  · exact ⟨r, h⟩

theorem start_inv {s s' : Srv} {v : List ℕ} {rest : List Msg} {mid : ℕ} {d : Doc} {file : ℕ} {text : String} (h : Good s v (.verify mid d :: rest)) (hs : s.start d = some (s', file, text)) :
    TaskInv s' (d.uri :: v) file d text := by
  obtain ⟨f, h1, h2, rfl, h4⟩ := start_spec hs
  obtain ⟨f', g1, g2⟩ := find_eq_some h1
  rw [h2] at g1
  obtain rfl := Option.some.inj g1
  obtain ⟨pf, tf⟩ := f
  obtain rfl : pf = .lsp d := g2
  obtain ⟨i, rfl, hi⟩ := get_eq_some.1 h2
  have hc : Clean ({ ({ s with out := s.out ++ [.started d tf] } : Srv) with reports := if (getKey s.reports (i + 1)).isSome then insertKey s.reports (i + 1) .empty else s.reports } : Srv) (d.uri :: v) := by
    refine ⟨honest_snoc h.honest (by intro d t hc; cases hc), h.uniq, nodup_cleared _ h.nodup, ?_⟩
    intro id r hr
    obtain ⟨r', hr'⟩ := mem_cleared_key h.nodup hr
    obtain ⟨d1, t1, e1, -⟩ := h.rep id r' hr'
    refine ⟨d1, t1, e1, fun hn => ?_⟩
    obtain ⟨hne, hm⟩ := mem_cleared h.nodup hr hn
    obtain ⟨d2, t2, e2, e3⟩ := h.rep id r hm
    rw [e1] at e2
    cases Option.some.inj e2
    obtain ⟨m1, m2⟩ := e3 hn
    refine ⟨List.mem_cons_of_mem _ m1, ?_⟩
    simp only [lastStarted_started]
    have hdu : d.uri ≠ d1.uri := by
      intro e
      obtain ⟨j, rfl, hj⟩ := get_eq_some.1 e1
      have := h.uniq i j _ _ d.uri hi hj ((hasUri_lsp _ _ _).2 rfl) ((hasUri_lsp _ _ _).2 e.symm)
      subst this
      exact hne rfl
    rw [if_neg hdu]
    rcases m2 with m2 | m2
    · exact m2
    · exact absurd m2 hdu
  obtain ⟨c1, c2, c3⟩ := clear_clean (s := ({ s with out := s.out ++ [.started d tf] } : Srv)) hc h4
  refine ⟨c1, List.mem_cons_self, by rw [c2]; exact h2, ?_⟩
  rw [c3, lastStarted_started, if_pos rfl]

/-- The invariant of the states of a task. -/
def TaskGood (s0 : Srv) (v : List ℕ) (d : Doc) : Srv × Task → Prop
  | (s, .pending _ d') => s = s0 ∧ d' = d
  | (s, .verifying _ file _ _) => ∃ t, TaskInv s (d.uri :: v) file d t
  | (s, .finished) => Clean s (d.uri :: v)

theorem task_good {s : Srv} {v : List ℕ} {rest : List Msg} {mid : ℕ} {d : Doc} {q : Srv × Task} (h : Good s v (.verify mid d :: rest))
    (ht : ReflTransGen (TaskStep V) (s, .pending mid d) q) : TaskGood s v d q := by
  induction ht with
  | refl => exact ⟨rfl, rfl⟩
  | @tail b c _ hs ih =>
    cases hs with
    | start hst hv =>
      obtain ⟨rfl, rfl⟩ := ih
      exact ⟨_, start_inv h hst⟩
    | call hc =>
      obtain ⟨t, ih⟩ := ih
      exact ⟨t, call_inv ih hc⟩
    | done hr =>
      obtain ⟨t, ih⟩ := ih
      have := (handleResult_inv ih hr).clean
      refine ⟨honest_snoc this.honest (by intro d t hc; cases hc), this.uniq, this.nodup, ?_⟩
      intro id r hr
      obtain ⟨d', t', e1, e2⟩ := this.rep id r hr
      exact ⟨d', t', e1, fun hn => ⟨(e2 hn).1, by rw [lastStarted_response]; exact (e2 hn).2⟩⟩

theorem Good.weaken {s : Srv} {v : List ℕ} {m : Msg} {rest : List Msg} (h : Good s v (m :: rest)) (hm : ∀ u, NextIs u (m :: rest) = NextIs u rest) : Good s v rest :=
  ⟨h.honest, h.uniq, h.nodup, fun id r hr => by
    obtain ⟨d, t, h1, h2⟩ := h.rep id r hr
    exact ⟨d, t, h1, fun hn => ⟨(h2 hn).1, by have := (h2 hn).2; rwa [hm] at this⟩⟩⟩

theorem edit_good {s : Srv} {fs : Files} {v : List ℕ} {rest : List Msg} {d : Doc} {t : String} (h : Good s v rest) (hd : d.uri ∈ v → NextIs d.uri rest)
    (he : Files.addOrUpdateUri s.files d t = some fs) : Good { s with files := fs } v rest := by
  obtain ⟨a, -, -, b⟩ := addOrUpdate_spec h.uniq he
  refine ⟨h.honest, a, h.nodup, fun id r hr => ?_⟩
  obtain ⟨d', t', h1, h2⟩ := h.rep id r hr
  obtain ⟨i, rfl, hi⟩ := get_eq_some.1 h1
  have := b i _ hi
  split at this
  · rename_i hu
    rw [hasUri_lsp] at hu
    refine ⟨d, t, get_eq_some.2 ⟨i, rfl, this⟩, fun hn => ?_⟩
    rw [← hu]
    exact ⟨(h2 hn).1, Or.inr (hu ▸ hd (hu ▸ (h2 hn).1))⟩
  · exact ⟨d', t', get_eq_some.2 ⟨i, rfl, this⟩, h2⟩

theorem handles_good {s s' : Srv} {v : List ℕ} {m : Msg} {rest : List Msg} (h : Good s v (m :: rest)) (hd : Disciplined v (m :: rest)) (hm : Handles V s m s') :
    ∃ v', Good s' v' rest ∧ Disciplined v' rest := by
  cases hm with
  | note hn =>
    rename_i n
    cases n with
    | didOpen heyvl d t =>
      have hg : Good s v rest := h.weaken fun _ => rfl
      simp only [Srv.handle] at hn
      split at hn
      · obtain ⟨fs, h1, rfl⟩ := Option.map_eq_some_iff.1 hn
        exact ⟨v, edit_good hg hd.1 h1, hd.2⟩
      · obtain rfl := Option.some.inj hn
        exact ⟨v, hg, hd.2⟩
    | didChange d t =>
      have hg : Good s v rest := h.weaken fun _ => rfl
      obtain ⟨fs, h1, rfl⟩ := Option.map_eq_some_iff.1 hn
      exact ⟨v, edit_good hg hd.1 h1, hd.2⟩
    | ignored =>
      obtain rfl := Option.some.inj hn
      exact ⟨v, h.weaken fun _ => rfl, hd⟩
    | didClose u =>
      obtain ⟨id, h1, h2⟩ := Option.bind_eq_some_iff.1 hn
      obtain ⟨i, hi, rfl⟩ := Option.map_eq_some_iff.1 h1
      obtain ⟨hlt, hp, -⟩ := List.findIdx?_eq_some_iff_getElem.1 hi
      have hold := List.getElem?_eq_getElem hlt
      refine ⟨v.filter (· ≠ u), (clear_clean ?_ h2).1.good rest, hd⟩
      refine ⟨h.honest, h.uniq, nodup_cleared _ h.nodup, ?_⟩
      intro id r hr
      obtain ⟨r', hr'⟩ := mem_cleared_key h.nodup hr
      obtain ⟨d1, t1, e1, -⟩ := h.rep id r' hr'
      refine ⟨d1, t1, e1, fun hnn => ?_⟩
      obtain ⟨hne, hmm⟩ := mem_cleared h.nodup hr hnn
      obtain ⟨d2, t2, e2, e3⟩ := h.rep id r hmm
      rw [e1] at e2
      cases Option.some.inj e2
      obtain ⟨m1, m2⟩ := e3 hnn
      have hdu : d1.uri ≠ u := by
        intro e
        obtain ⟨j, rfl, hj⟩ := get_eq_some.1 e1
        have := h.uniq i j _ _ u hold hj hp ((hasUri_lsp _ _ _).2 e)
        subst this
        exact hne rfl
      refine ⟨List.mem_filter.2 ⟨m1, by simpa using hdu⟩, ?_⟩
      rcases m2 with m2 | m2
      · exact m2
      · exact absurd m2.symm hdu
  | verify ht => exact ⟨_, (task_good h ht : Clean _ _).good rest, hd⟩
  | shutdown =>
    have hg : Good s v rest := h.weaken fun _ => rfl
    refine ⟨v, ⟨honest_snoc hg.honest (by intro d t hc; cases hc), hg.uniq, hg.nodup, fun id r hr => ?_⟩, hd⟩
    obtain ⟨d, t, h1, h2⟩ := hg.rep id r hr
    exact ⟨d, t, h1, fun hn => ⟨(h2 hn).1, by rw [lastStarted_response]; exact (h2 hn).2⟩⟩
  | other => exact ⟨v, h.weaken fun _ => rfl, hd⟩

theorem handlesAll_good {ms : List Msg} {s : Srv} (h : HandlesAll V .init ms s) (rest : List Msg) (hd : Disciplined [] (ms ++ rest)) :
    ∃ v, Good s v rest ∧ Disciplined v rest := by
  generalize hi : Srv.init = s0 at h
  induction h generalizing rest with
  | nil =>
    subst hi
    refine ⟨[], ⟨?_, ?_, List.nodup_nil, ?_⟩, hd⟩
    · intro a e b d t heq
      simp [Srv.init] at heq
    · intro i j f g u hi
      simp [Srv.init] at hi
    · intro id r hr
      cases hr
  | @snoc s1 s2 ms m _ hm ih =>
    obtain ⟨v, h1, h2⟩ := ih (m :: rest) (by simpa using hd)
    exact handles_good h1 h2 hm

end Caesar.Server
