import Verif.Servers.LspHonest

/-! # C75: Language server sessions

The server runs a verification in a task while it receives messages. The claims:
* a session is the same as handling the messages one after the other;
* each request gets one response;
* what is verified is what the client has sent last for the document;
* results are published only for the version and the text of the document that they are from;
* no session ends with a panic.
-/

namespace Caesar.Server
open Relation

variable {V : Verifier}

/-! ## One message after the other -/

/-- In every reachable state in which there is no active request, the server is in a state that it would also be in if it handled the messages one after the
other, each one completely. -/
theorem C75_sequential {c : Conf} (h : Reachable V c) (hi : c.phase = .idle) : HandlesAll V .init c.received c.srv := by
  have := sequential_of_reachable h
  unfold Sequential at this
  rwa [hi] at this

/-- While a request is active: the messages before it have been handled, and none of those after it. -/
theorem C75_active {c : Conf} (h : Reachable V c) {t : Task} {q : List Note} (hr : c.phase = .running t q) :
    ∃ a id d b s0, c.received = a ++ .verify id d :: b ∧ HandlesAll V .init a s0 ∧ ReflTransGen (TaskStep V) (s0, .pending id d) (c.srv, t) ∧
      (∀ m ∈ b, (∃ n, m = .note n) ∨ ∃ id, m = .other id) ∧ b.filterMap Msg.asNote = q := by
  have := sequential_of_reachable h
  unfold Sequential at this
  rw [hr] at this
  exact this

/-- If the server panics, then because of a response of the client, or it would also panic if it handled the messages one after the other. -/
theorem C75_dead {c : Conf} (h : Reachable V c) (hd : c.phase = .dead) :
    Msg.response ∈ c.received ∨ ∃ a m b s, c.received = a ++ m :: b ∧ HandlesAll V .init a s ∧ Dies V s m := by
  have := sequential_of_reachable h
  unfold Sequential at this
  rw [hd] at this
  exact this

/-- Conversely, a session in which each message is received after the one before it has been handled is possible. -/
theorem C75_sequential_possible {ms : List Msg} {s : Srv} (h : HandlesAll V .init ms s) :
    ∃ c, Reachable V c ∧ c.received = ms ∧ c.srv = s ∧ (c.phase = .idle ∨ c.phase = .running .finished []) := by
  generalize hi : Srv.init = s0 at h
  induction h with
  | nil => subst hi; exact ⟨_, .refl, rfl, rfl, Or.inl rfl⟩
  | @snoc s1 s2 ms m _ hm ih =>
    obtain ⟨⟨cs, ph, rec⟩, hr, rfl, rfl, hph⟩ := ih
    -- the message is received: the server is idle, or it becomes idle
    have go : ∀ s' ph', cs.receive m = some (s', ph') → Reachable V ⟨s', ph', rec ++ [m]⟩ := by
      intro s' ph' hrec
      rcases hph with hph | hph
      · simp only at hph
        subst hph
        exact hr.tail (.receive hrec)
      · simp only at hph
        subst hph
        exact (hr.tail .waitFinished).tail (.drain (s1 := cs) rfl hrec)
    cases hm with
    | note hn => exact ⟨_, go s2 .idle (by simp [Srv.receive, hn]), rfl, rfl, Or.inl rfl⟩
    | shutdown => exact ⟨_, go _ .idle rfl, rfl, rfl, Or.inl rfl⟩
    | other => exact ⟨_, go _ .idle rfl, rfl, rfl, Or.inl rfl⟩
    | @verify _ id d ht =>
      have h0 := go cs (.running (.pending id d) []) rfl
      have : ∀ p : Srv × Task, ReflTransGen (TaskStep V) (cs, .pending id d) p → Reachable V ⟨p.1, .running p.2 [], rec ++ [.verify id d]⟩ := by
        intro p hp
        induction hp with
        | refl => exact h0
        | @tail b c _ hs ih => exact ih.tail (.task (t := b.2) (t' := c.2) hs)
      exact ⟨_, this _ ht, rfl, rfl, Or.inr rfl⟩

/-! ## Responses -/

/-- The requests that are answered. -/
def Msg.answered : Msg → Option ℕ
  | .verify id _ => some id
  | .shutdown id => some id
  | _ => none

/-- The requests. -/
def Msg.request : Msg → Option ℕ
  | .verify id _ => some id
  | .shutdown id => some id
  | .other id => some id
  | _ => none

/-- The full claim on responses: when the server is idle, each request has got exactly one response. -/
def C75_responses_full : Prop := ∀ (V : Verifier) (c : Conf), Reachable V c → c.phase = .idle → responses c.srv.out = c.received.filterMap Msg.request

theorem handles_responses {s s' : Srv} {m : Msg} (h : Handles V s m s') : responses s'.out = responses s.out ++ m.answered.toList := by
  cases h with
  | note h => simpa [Msg.answered] using (quiet_handle h).responses
  | verify h => simpa [Msg.answered] using (task_sends h : TaskSent _ _ _ _ .finished).1
  | shutdown => simp [responses, Msg.answered]
  | other => simp [Msg.answered]

theorem handlesAll_responses {ms : List Msg} {s : Srv} (h : HandlesAll V .init ms s) : responses s.out = ms.filterMap Msg.answered := by
  generalize hi : Srv.init = s0 at h
  induction h with
  | nil => subst hi; rfl
  | @snoc s1 s2 ms m _ hm ih =>
    rw [handles_responses hm, ih, List.filterMap_append]
    cases hm' : m.answered <;> simp [hm']

/-- When the server is idle, each verification request and each shutdown request has got exactly one response, in the order of the requests. -/
theorem C75_responses_partial {c : Conf} (h : Reachable V c) (hi : c.phase = .idle) : responses c.srv.out = c.received.filterMap Msg.answered :=
  handlesAll_responses (C75_sequential h hi)

/-- Other requests are never answered. -/
theorem C75_responses_not_full : ¬ C75_responses_full := by
  intro h
  have := h (fun _ _ _ => True) ⟨.init, .idle, [.other 0]⟩ (ReflTransGen.tail .refl (.receive rfl)) rfl
  exact absurd this (by decide)

/-! ## What is verified -/

/-- The verification requests, each with what the client has sent last before it for the document. -/
def verifyRequests (before : List Msg) : List Msg → List (Doc × Option (Doc × String))
  | [] => []
  | .verify id d :: ms => (d, current before d.uri) :: verifyRequests (before ++ [.verify id d]) ms
  | m :: ms => verifyRequests (before ++ [m]) ms

/-- The full claim: what is verified for a request is the requested version of the document, and its text is the last one that the client has sent. -/
def C75_text_full : Prop := ∀ (V : Verifier) (ms : List Msg) (s : Srv), HandlesAll V .init ms s →
  verifyRequests [] ms = (starts s.out).map fun p => (p.1, some p)

theorem verifyRequests_append (before a b : List Msg) : verifyRequests before (a ++ b) = verifyRequests before a ++ verifyRequests (before ++ a) b := by
  induction a generalizing before with
  | nil => simp [verifyRequests]
  | cons m a ih =>
    cases m <;> simp [verifyRequests, ih]

/-- If all the documents are HeyVL documents, then what is verified for a request is the requested version of the document, and its text is the last one that
the client has sent. -/
theorem C75_text_partial {ms : List Msg} {s : Srv} (hv : AllHeyVL ms) (h : HandlesAll V .init ms s) :
    verifyRequests [] ms = (starts s.out).map fun p => (p.1, some p) := by
  generalize hi : Srv.init = s0 at h
  induction h with
  | nil => subst hi; rfl
  | @snoc s1 s2 ms m hms hm ih =>
    have hv' : AllHeyVL ms := fun d t hm => hv d t (List.mem_append_left _ hm)
    have ih := ih hv'
    subst hi
    obtain ⟨hu, hat⟩ := stored_current hv' hms
    rw [verifyRequests_append, ih, List.nil_append]
    cases hm with
    | note hn => rw [(quiet_handle hn).starts]; simp [verifyRequests]
    | shutdown => simp [starts, verifyRequests]
    | other => simp [verifyRequests]
    | @verify _ id d ht =>
      obtain ⟨-, file, f, h1, h2, h3⟩ := (task_sends ht : TaskSent _ _ _ _ .finished)
      rw [h3, List.map_append]
      congr 1
      obtain ⟨f', g1, g2⟩ := find_eq_some h1
      rw [h2] at g1
      obtain rfl := Option.some.inj g1
      obtain ⟨pf, tf⟩ := f
      obtain rfl : pf = .lsp d := g2
      obtain ⟨i, -, hi⟩ := get_eq_some.1 h2
      have hs : s1.files.at d.uri = some ⟨.lsp d, tf⟩ := (at_eq_some hu).2 ⟨(hasUri_lsp _ _ _).2 rfl, i, hi⟩
      rw [hat] at hs
      obtain ⟨p, hp, e⟩ := Option.map_eq_some_iff.1 hs
      obtain ⟨p1, p2⟩ := p
      simp only [File.mk.injEq, Path.lsp.injEq] at e
      obtain ⟨rfl, rfl⟩ := e
      simp [verifyRequests, hp]

/-! ## What is published -/

/-- The full claim: results are published only for the version and the text of a document that has been verified last. -/
def C75_honest_full : Prop := ∀ (V : Verifier) (c : Conf), Reachable V c → Honest c.srv.out

/-- The claim for clients which, after a change of a document that has been verified, do not verify or close another document before this one. -/
theorem C75_honest_partial {c : Conf} (h : Reachable V c) (hd : Disciplined [] c.received) (hn : c.phase ≠ .dead) : Honest c.srv.out := by
  have hs := sequential_of_reachable h
  unfold Sequential at hs
  cases hp : c.phase with
  | dead => exact absurd hp hn
  | idle =>
    rw [hp] at hs
    obtain ⟨v, hg, -⟩ := handlesAll_good hs [] (by simpa using hd)
    exact hg.honest
  | running t q =>
    rw [hp] at hs
    obtain ⟨a, id, d, b, s0, h1, h2, h3, -⟩ := hs
    obtain ⟨v, hg, -⟩ := handlesAll_good h2 (.verify id d :: b) (by rwa [← h1])
    have := task_good hg h3
    cases t with
    | pending id' d' => obtain ⟨e, -⟩ := this; rw [e]; exact hg.honest
    | verifying id' file calls r => obtain ⟨t, ht⟩ := this; exact ht.clean.honest
    | finished => exact (this : Clean _ _).honest
  | waiting t q m =>
    rw [hp] at hs
    obtain ⟨a, id, d, b, s0, h1, h2, h3, -⟩ := hs
    obtain ⟨v, hg, -⟩ := handlesAll_good h2 (.verify id d :: (b ++ [m])) (by rwa [← h1])
    have := task_good hg h3
    cases t with
    | pending id' d' => obtain ⟨e, -⟩ := this; rw [e]; exact hg.honest
    | verifying id' file calls r => obtain ⟨t, ht⟩ := this; exact ht.clean.honest
    | finished => exact (this : Clean _ _).honest

/-- The messages are about one document. -/
def OneDocument (u : ℕ) (ms : List Msg) : Prop := ∀ m ∈ ms, match m with
  | .note (.didOpen _ d _) => d.uri = u
  | .note (.didChange d _) => d.uri = u
  | .note (.didClose v) => v = u
  | .verify _ d => d.uri = u
  | _ => True

theorem nextIs_of_one {u : ℕ} {ms : List Msg} (h : OneDocument u ms) : NextIs u ms := by
  induction ms with
  | nil => trivial
  | cons m ms ih =>
    have hm := h m List.mem_cons_self
    have ih := ih fun m hm => h m (List.mem_cons_of_mem _ hm)
    cases m with
    | note n => cases n <;> first | exact hm | exact ih
    | verify id d => exact hm
    | shutdown id => exact ih
    | other id => exact ih
    | response => exact ih

theorem disciplined_of_one {u : ℕ} {ms : List Msg} (h : OneDocument u ms) (v : List ℕ) : Disciplined v ms := by
  induction ms generalizing v with
  | nil => trivial
  | cons m ms ih =>
    have hm := h m List.mem_cons_self
    have h' : OneDocument u ms := fun m hm => h m (List.mem_cons_of_mem _ hm)
    cases m with
    | note n =>
      cases n with
      | didOpen hv d t => exact ⟨fun _ => by rw [show d.uri = u from hm]; exact nextIs_of_one h', ih h' v⟩
      | didChange d t => exact ⟨fun _ => by rw [show d.uri = u from hm]; exact nextIs_of_one h', ih h' v⟩
      | didClose x => exact ih h' _
      | ignored => exact ih h' _
    | verify id d => exact ih h' _
    | shutdown id => exact ih h' _
    | other id => exact ih h' _
    | response => exact ih h' _

/-- The claim for sessions with one document, whatever the client does. -/
theorem C75_honest_one {c : Conf} (h : Reachable V c) {u : ℕ} (ho : OneDocument u c.received) (hn : c.phase ≠ .dead) : Honest c.srv.out :=
  C75_honest_partial h (disciplined_of_one ho []) hn

/-- A verifier which reports one diagnostic and succeeds. -/
def oneDiagnostic (l : Loc) : Verifier := fun _ calls r => calls = [.diagnostic l] ∧ r = .ok

/-- A document is verified, then it is changed, and then another document is verified: the old results are published for the new version. -/
def staleSession : List Msg :=
  [.note (.didOpen true ⟨0, 1⟩ "old"), .verify 0 ⟨0, 1⟩, .note (.didChange ⟨0, 2⟩ "new"), .note (.didOpen true ⟨1, 1⟩ "other"), .verify 1 ⟨1, 1⟩]

/-- What the server has sent at the end. -/
def staleOut (l : Loc) : List Ev :=
  [.started ⟨0, 1⟩ "old", .diagnostics ⟨0, 1⟩ "old" [l], .response 0, .started ⟨1, 1⟩ "other"] ++
  .diagnostics ⟨0, 2⟩ "new" [l] ::
  [.status ⟨0, 2⟩ "new" .todo [], .diagnostics ⟨0, 2⟩ "new" [l], .diagnostics ⟨1, 1⟩ "other" [l], .response 1]

theorem stale_handles (l : Loc) : ∃ s, HandlesAll (oneDiagnostic l) .init staleSession s ∧ s.out = staleOut l := by
  let s1 : Srv := ⟨[⟨.lsp ⟨0, 1⟩, "old"⟩], [], []⟩
  let s2 : Srv := ⟨[⟨.lsp ⟨0, 1⟩, "old"⟩], [], [.started ⟨0, 1⟩ "old"]⟩
  let s3 : Srv := ⟨[⟨.lsp ⟨0, 1⟩, "old"⟩], [(1, ⟨.todo, [], [l], []⟩)], [.started ⟨0, 1⟩ "old", .diagnostics ⟨0, 1⟩ "old" [l]]⟩
  let s4 : Srv := ⟨[⟨.lsp ⟨0, 1⟩, "old"⟩], [(1, ⟨.todo, [], [l], []⟩)], [.started ⟨0, 1⟩ "old", .diagnostics ⟨0, 1⟩ "old" [l], .response 0]⟩
  let s5 : Srv := ⟨[⟨.lsp ⟨0, 2⟩, "new"⟩], s4.reports, s4.out⟩
  let s6 : Srv := ⟨[⟨.lsp ⟨0, 2⟩, "new"⟩, ⟨.lsp ⟨1, 1⟩, "other"⟩], s4.reports, s4.out⟩
  let s7 : Srv := ⟨s6.files, s4.reports, s4.out ++ [.started ⟨1, 1⟩ "other", .diagnostics ⟨0, 2⟩ "new" [l], .status ⟨0, 2⟩ "new" .todo []]⟩
  let s8 : Srv := ⟨s6.files, [(1, ⟨.todo, [], [l], []⟩), (2, ⟨.todo, [], [l], []⟩)], s7.out ++ [.diagnostics ⟨0, 2⟩ "new" [l], .diagnostics ⟨1, 1⟩ "other" [l]]⟩
  have h1 : HandlesAll (oneDiagnostic l) .init [_] s1 := .snoc (ms := []) .nil (.note (n := .didOpen true ⟨0, 1⟩ "old") rfl)
  have t1 : ReflTransGen (TaskStep (oneDiagnostic l)) (s1, .pending 0 ⟨0, 1⟩) (s4, .finished) :=
    ((ReflTransGen.refl.tail (.start (s' := s2) (file := 1) (text := "old") (calls := [.diagnostic l]) (r := .ok) rfl ⟨rfl, rfl⟩)).tail (.call (s' := s3) rfl)).tail (.done (s' := s3) rfl)
  have h2 := HandlesAll.snoc h1 (.verify t1)
  have h3 : HandlesAll (oneDiagnostic l) .init _ s5 := h2.snoc (.note (n := .didChange ⟨0, 2⟩ "new") rfl)
  have h4 : HandlesAll (oneDiagnostic l) .init _ s6 := h3.snoc (.note (n := .didOpen true ⟨1, 1⟩ "other") rfl)
  have t2 : ReflTransGen (TaskStep (oneDiagnostic l)) (s6, .pending 1 ⟨1, 1⟩) ({ s8 with out := s8.out ++ [.response 1] }, .finished) :=
    ((ReflTransGen.refl.tail (.start (s' := s7) (file := 2) (text := "other") (calls := [.diagnostic l]) (r := .ok) rfl ⟨rfl, rfl⟩)).tail (.call (s' := s8) rfl)).tail (.done (s' := s8) rfl)
  exact ⟨_, h4.snoc (.verify t2), rfl⟩

/-- Old results are published for a new version of a document. -/
theorem C75_honest_not_full : ¬ C75_honest_full := by
  intro h
  obtain ⟨s, h1, h2⟩ := stale_handles ⟨0, 0, 0⟩
  obtain ⟨c, hc, -, rfl, -⟩ := C75_sequential_possible h1
  have := h _ c hc
  rw [h2] at this
  have := this _ _ _ ⟨0, 2⟩ "new" rfl rfl
  exact absurd this (by decide)

/-- A session to which the partial claim applies, with changes and two documents. -/
example : Disciplined [] [.note (.didOpen true ⟨0, 1⟩ "a"), .note (.didOpen true ⟨1, 1⟩ "b"), .verify 0 ⟨0, 1⟩, .note (.didChange ⟨0, 2⟩ "c"), .verify 1 ⟨0, 2⟩, .verify 2 ⟨1, 1⟩] ∧
    ¬ Disciplined [] staleSession := by
  constructor
  · simp [Disciplined, NextIs]
  · simp [Disciplined, NextIs, staleSession]

/-- A document is opened again in another language: its old text is verified. -/
theorem C75_text_not_full : ¬ C75_text_full := by
  intro h
  let s1 : Srv := ⟨[⟨.lsp ⟨0, 1⟩, "a"⟩], [], []⟩
  let s2 : Srv := ⟨[⟨.lsp ⟨0, 1⟩, "a"⟩], [], [.started ⟨0, 1⟩ "a"]⟩
  let W : Verifier := fun _ calls r => calls = [] ∧ r = .ok
  have h1 : HandlesAll W .init [_] s1 := .snoc (ms := []) .nil (.note (n := .didOpen true ⟨0, 1⟩ "a") rfl)
  have h2 : HandlesAll W .init _ s1 := h1.snoc (.note (n := .didOpen false ⟨0, 1⟩ "b") rfl)
  have t : ReflTransGen (TaskStep W) (s1, .pending 0 ⟨0, 1⟩) ({ s2 with out := s2.out ++ [.response 0] }, .finished) :=
    (ReflTransGen.refl.tail (.start (s' := s2) (file := 1) (text := "a") (calls := []) (r := .ok) rfl ⟨rfl, rfl⟩)).tail (.done (s' := s2) rfl)
  exact absurd (h W _ _ (h2.snoc (.verify t))) (by decide)

/-! ## Survival -/

/-- The full claim: the server does not panic. -/
def C75_survives_full : Prop := ∀ (V : Verifier) (c : Conf), Reachable V c → c.phase ≠ .dead

/-- The number of files that are added by the calls. -/
def builtins (calls : List Call) : ℕ := calls.countP fun c => match c with
  | .addBuiltin => true
  | _ => false

/-- The number of verification requests. -/
def verifications (ms : List Msg) : ℕ := ms.countP fun m => match m with
  | .verify _ _ => true
  | _ => false

theorem publish_length {s s' : Srv} {mk : Doc → String → Report → Ev} (h : s.publish mk = some s') : s'.files.length = s.files.length := by
  rw [(publish_files h).1]

theorem call_length {s s' : Srv} {file : ℕ} {c : Call} (h : s.call file c = some s') : s'.files.length = s.files.length + builtins [c] := by
  cases c with
  | addBuiltin =>
    obtain ⟨fs, h1, rfl⟩ := Option.map_eq_some_iff.1 h
    obtain ⟨rfl, -⟩ := add_spec h1
    simp [builtins]
  | unitStatus name st =>
    obtain ⟨l, -, h2⟩ := Option.bind_eq_some_iff.1 h
    have := publish_length h2
    exact this
  | fileType t =>
    simp only [Srv.call, Srv.publishStatuses] at h
    have := publish_length h
    exact this
  | diagnostic l =>
    simp only [Srv.call, Srv.publishDiagnostics] at h
    have := publish_length h
    exact this
  | dummyDiagnostic =>
    simp only [Srv.call, Srv.publishDiagnostics] at h
    have := publish_length h
    exact this
  | explanation l =>
    simp only [Srv.call, Srv.publishExplanations] at h
    have := publish_length h
    exact this

theorem call_bound {s s' : Srv} {file : ℕ} {c : Call} (h : s.call file c = some s') (hb : s.files.length ≤ 65535) : s'.files.length ≤ 65535 := by
  by_cases hc : c = .addBuiltin
  · subst hc
    obtain ⟨fs, h1, rfl⟩ := Option.map_eq_some_iff.1 h
    obtain ⟨rfl, h2⟩ := add_spec h1
    simp only [List.length_append, List.length_singleton]
    omega
  · rw [call_length h]
    have : builtins [c] = 0 := by cases c <;> simp_all [builtins]
    omega

theorem handleResult_length {s s' : Srv} {file : ℕ} {r : Result} (h : s.handleResult file r = some s') : s'.files.length = s.files.length := by
  cases r with
  | ok => rw [Option.some.inj h]
  | interrupted => rw [Option.some.inj h]
  | error => rw [Option.some.inj h]
  | diagnostic l =>
    obtain ⟨s1, h1, h2⟩ := Option.bind_eq_some_iff.1 h
    rw [call_length h2, call_length h1]
    rfl
  | limit =>
    obtain ⟨s1, h1, h2⟩ := Option.bind_eq_some_iff.1 h
    rw [call_length h2]
    have := publish_length h1
    exact this

theorem builtins_cons (c : Call) (cs : List Call) : builtins (c :: cs) = builtins [c] + builtins cs := by
  unfold builtins
  rw [show c :: cs = [c] ++ cs from rfl, List.countP_append]

/-- The number of files during a task. -/
def TaskFiles (V : Verifier) (s0 : Srv) : Srv × Task → Prop
  | (s, .pending _ _) => s = s0
  | (s, .verifying _ _ calls r) => ∃ text all, V text all r ∧ s.files.length + builtins calls = s0.files.length + builtins all ∧ (s0.files.length ≤ 65535 → s.files.length ≤ 65535)
  | (s, .finished) => ∃ text all r, V text all r ∧ s.files.length = s0.files.length + builtins all ∧ (s0.files.length ≤ 65535 → s.files.length ≤ 65535)

theorem task_files_length {s0 : Srv} {id : ℕ} {d : Doc} {q : Srv × Task} (h : ReflTransGen (TaskStep V) (s0, .pending id d) q) : TaskFiles V s0 q := by
  induction h with
  | refl => exact rfl
  | @tail b c _ hs ih =>
    cases hs with
    | start hst hv =>
      obtain rfl := ih
      obtain ⟨f, -, -, -, h4⟩ := start_spec hst
      have := clear_files h4
      refine ⟨_, _, hv, by rw [this], fun hb => by rw [this]; exact hb⟩
    | @call _ _ _ _ c cs _ hc =>
      obtain ⟨text, all, h1, h2, h3⟩ := ih
      refine ⟨text, all, h1, ?_, fun hb => call_bound hc (h3 hb)⟩
      have e := builtins_cons c cs
      have e2 := call_length hc
      omega
    | done hr =>
      obtain ⟨text, all, h1, h2, h3⟩ := ih
      have := handleResult_length hr
      exact ⟨text, all, _, h1, by rw [← h2]; exact this, fun hb => by simp only [this]; exact h3 hb⟩

theorem addOrUpdate_length {fs fs' : Files} {d : Doc} {t : String} (h : Files.addOrUpdateUri fs d t = some fs') :
    fs.length ≤ fs'.length ∧ fs'.length ≤ fs.length + 1 ∧ (fs.length ≤ 65535 → fs'.length ≤ 65535) := by
  unfold Files.addOrUpdateUri at h
  split at h
  · obtain rfl := (Option.some.inj h).symm
    simp
  · obtain ⟨rfl, h2⟩ := add_spec h
    simp only [List.length_append, List.length_singleton]
    omega

theorem handle_length {s s' : Srv} {n : Note} (h : s.handle n = some s') : s.files.length ≤ s'.files.length ∧ (s.files.length ≤ 65535 → s'.files.length ≤ 65535) := by
  cases n with
  | didOpen heyvl d text =>
    simp only [Srv.handle] at h
    split at h
    · obtain ⟨fs, h1, rfl⟩ := Option.map_eq_some_iff.1 h
      exact ⟨(addOrUpdate_length h1).1, (addOrUpdate_length h1).2.2⟩
    · rw [Option.some.inj h]; exact ⟨Nat.le_refl _, id⟩
  | didChange d text =>
    obtain ⟨fs, h1, rfl⟩ := Option.map_eq_some_iff.1 h
    exact ⟨(addOrUpdate_length h1).1, (addOrUpdate_length h1).2.2⟩
  | didClose uri =>
    obtain ⟨id, -, h2⟩ := Option.bind_eq_some_iff.1 h
    rw [clear_files h2]
    exact ⟨Nat.le_refl _, fun x => x⟩
  | ignored => rw [Option.some.inj h]; exact ⟨Nat.le_refl _, id⟩

theorem verifications_snoc (ms : List Msg) (m : Msg) : verifications (ms ++ [m]) = verifications ms + verifications [m] := by
  unfold verifications
  rw [List.countP_append]

/-- Each verification adds `k` files, and none is ever removed. There are at most 65535 files, so the number of verifications in a session is bounded. -/
theorem C75_exhausted {k : ℕ} (hk : ∀ text calls r, V text calls r → k ≤ builtins calls) {ms : List Msg} {s : Srv} (h : HandlesAll V .init ms s) :
    k * verifications ms ≤ 65535 := by
  suffices H : k * verifications ms ≤ s.files.length ∧ s.files.length ≤ 65535 from Nat.le_trans H.1 H.2
  generalize hi : Srv.init = s0 at h
  induction h with
  | nil => subst hi; simp [verifications, Srv.init]
  | @snoc s1 s2 ms m _ hm ih =>
    rw [verifications_snoc]
    cases hm with
    | note hn =>
      have := handle_length hn
      simp only [verifications, List.countP_singleton] at ih ⊢
      exact ⟨by simpa using Nat.le_trans ih.1 this.1, this.2 ih.2⟩
    | shutdown => simpa [verifications] using ih
    | other => simpa [verifications] using ih
    | @verify _ id d ht =>
      obtain ⟨text, all, r, h1, h2, h3⟩ := (task_files_length ht : TaskFiles V _ (_, .finished))
      refine ⟨?_, h3 ih.2⟩
      have := hk _ _ _ h1
      rw [h2, Nat.mul_add]
      have h4 : verifications [Msg.verify id d] = 1 := rfl
      rw [h4]
      omega

/-- With the 13 files of the standard annotations, calculi and distributions, the 5042nd verification of a session is not completed. -/
theorem C75_exhausted_13 (hk : ∀ text calls r, V text calls r → 13 ≤ builtins calls) {ms : List Msg} {s : Srv} (h : HandlesAll V .init ms s) : verifications ms ≤ 5041 := by
  have := C75_exhausted hk h
  omega

/-! ### Sessions that survive -/

/-- The statuses of the units after the calls. -/
def statusesAfter : StatusList → List Call → Option StatusList
  | l, [] => some l
  | l, .unitStatus name st :: cs => do statusesAfter (← updateStatus l name st) cs
  | l, _ :: cs => statusesAfter l cs

/-- The verifier registers the units before it changes their status, it reports no diagnostic without a position, and it adds at most `k` files. -/
structure GoodVerifier (V : Verifier) (k : ℕ) : Prop where
  units : ∀ text calls r, V text calls r → (statusesAfter [] calls).isSome
  positions : ∀ text calls r, V text calls r → Call.dummyDiagnostic ∉ calls
  files : ∀ text calls r, V text calls r → builtins calls ≤ k

/-- The client sends no responses, it verifies only the current version of a document that it has opened, it closes only documents that it has opened, and they are all HeyVL documents. -/
def GoodClient (ms : List Msg) : Prop := ∀ a m b, ms = a ++ m :: b → match m with
  | .verify _ d => ∃ t, current a d.uri = some (d, t)
  | .note (.didClose u) => current a u ≠ none
  | .note (.didOpen heyvl _ _) => heyvl = true
  | .response => False
  | _ => True

/-- The number of messages with a text. -/
def edits (ms : List Msg) : ℕ := ms.countP fun m => match m with
  | .note (.didOpen _ _ _) | .note (.didChange _ _) => true
  | _ => false

/-- The reports are for stored files. -/
def Valid (s : Srv) : Prop := ∀ p ∈ s.reports, 1 ≤ p.1 ∧ p.1 ≤ s.files.length

theorem get_of_valid {fs : Files} {id : ℕ} (h : 1 ≤ id ∧ id ≤ fs.length) : ∃ f, Files.get fs id = some f := by
  have hlt : id - 1 < List.length fs := by omega
  exact ⟨_, get_eq_some.2 ⟨id - 1, by omega, List.getElem?_eq_getElem hlt⟩⟩

theorem publish_succeeds {s : Srv} (h : Valid s) (mk : Doc → String → Report → Ev) : ∃ s', s.publish mk = some s' ∧ s'.files = s.files ∧ s'.reports = s.reports := by
  have key : ∀ l : List (ℕ × Report), (∀ p ∈ l, 1 ≤ p.1 ∧ p.1 ≤ s.files.length) → ∃ evs, (l.mapM fun (id, r) => (Files.get s.files id).map fun f =>
      match f.path with
      | .lsp d => [mk d f.text r]
      | .builtin => []) = some evs := by
    intro l
    induction l with
    | nil => intro _; exact ⟨_, rfl⟩
    | cons p l ih =>
      intro hl
      obtain ⟨f, hf⟩ := get_of_valid (hl p List.mem_cons_self)
      obtain ⟨evs, hevs⟩ := ih fun p hp => hl p (List.mem_cons_of_mem _ hp)
      refine ⟨(match f.path with | .lsp d => [mk d f.text p.2] | .builtin => []) :: evs, ?_⟩
      simp only [List.mapM_cons, hevs, hf]
      rfl
  obtain ⟨evs, hevs⟩ := key s.reports h
  refine ⟨{ s with out := s.out ++ evs.flatten }, ?_, rfl, rfl⟩
  unfold Srv.publish
  exact Option.bind_eq_some_iff.2 ⟨evs, hevs, rfl⟩

theorem mem_insertKey' {α β : Type} [DecidableEq α] {l : List (α × β)} {k : α} {v : β} {p : α × β} (h : p ∈ insertKey l k v) : p = (k, v) ∨ p ∈ l := by
  induction l with
  | nil => exact Or.inl (List.mem_singleton.1 h)
  | cons q l ih =>
    obtain ⟨a, b⟩ := q
    simp only [insertKey] at h
    split at h
    · rename_i e
      subst e
      rcases List.mem_cons.1 h with h | h
      · exact Or.inl h
      · exact Or.inr (List.mem_cons_of_mem _ h)
    · rcases List.mem_cons.1 h with h | h
      · exact Or.inr (h ▸ List.mem_cons_self)
      · rcases ih h with h | h
        · exact Or.inl h
        · exact Or.inr (List.mem_cons_of_mem _ h)

theorem modify_valid {s : Srv} {file : ℕ} (h : Valid s) (hf : 1 ≤ file ∧ file ≤ s.files.length) (g : Report → Report) : Valid (s.modify file g) := by
  intro p hp
  rcases mem_insertKey' hp with rfl | hp
  · exact hf
  · exact h p hp

/-- The statuses of the units of a file. -/
def statusesOf (s : Srv) (file : ℕ) : StatusList := ((getKey s.reports file).getD .empty).statuses

theorem statusesOf_modify (s : Srv) (file : ℕ) (g : Report → Report) : statusesOf (s.modify file g) file = (g ((getKey s.reports file).getD .empty)).statuses := by
  unfold statusesOf Srv.modify
  simp only [getKey_insertKey_self, Option.getD_some]

/-- The invariant of a task that does not panic. -/
structure Running (s : Srv) (file : ℕ) (calls : List Call) : Prop where
  valid : Valid s
  stored : 1 ≤ file ∧ file ≤ s.files.length
  units : (statusesAfter (statusesOf s file) calls).isSome
  positions : Call.dummyDiagnostic ∉ calls
  length : s.files.length + builtins calls ≤ 65535

theorem call_succeeds {s : Srv} {file : ℕ} {c : Call} {calls : List Call} (h : Running s file (c :: calls)) : ∃ s', s.call file c = some s' ∧ Running s' file calls := by
  have hp : Call.dummyDiagnostic ∉ calls := fun hm => h.positions (List.mem_cons_of_mem _ hm)
  have hl : s.files.length + builtins calls ≤ 65535 := by have := h.length; rw [builtins_cons] at this; omega
  -- a change of the report, and a publication
  have upd : ∀ (g : Report → Report) (mk : Doc → String → Report → Ev), (statusesAfter (g ((getKey s.reports file).getD .empty)).statuses calls).isSome →
      ∃ s', (s.modify file g).publish mk = some s' ∧ Running s' file calls := by
    intro g mk hu
    obtain ⟨s', h1, h2, h3⟩ := publish_succeeds (modify_valid h.valid h.stored g) mk
    refine ⟨s', h1, ?_, ?_, ?_, hp, ?_⟩
    · intro p hp
      rw [h3] at hp
      rw [h2]
      exact modify_valid h.valid h.stored g p hp
    · rw [h2]; exact h.stored
    · unfold statusesOf
      rw [h3]
      have := statusesOf_modify s file g
      unfold statusesOf at this
      rw [this]
      exact hu
    · rw [h2]; exact hl
  cases c with
  | addBuiltin =>
    have hlen := h.length
    rw [builtins_cons] at hlen
    have h1 : builtins [Call.addBuiltin] = 1 := rfl
    rw [h1] at hlen
    have hadd : Files.add s.files ⟨.builtin, ""⟩ = some (s.files ++ [⟨.builtin, ""⟩]) := by
      unfold Files.add
      rw [if_pos]
      omega
    refine ⟨{ s with files := s.files ++ [⟨.builtin, ""⟩] }, ?_, ?_⟩
    · simp only [Srv.call, hadd, Option.map_some]
    · refine ⟨?_, ?_, h.units, hp, ?_⟩
      · intro p hp
        have := h.valid p hp
        simp only [List.length_append, List.length_singleton]
        omega
      · have := h.stored
        simp only [List.length_append, List.length_singleton]
        omega
      · simp only [List.length_append, List.length_singleton]
        omega
  | unitStatus name st =>
    have hu := h.units
    simp only [statusesAfter] at hu
    obtain ⟨l, hl'⟩ := Option.isSome_iff_exists.1 hu
    obtain ⟨l1, h1, h2⟩ := Option.bind_eq_some_iff.1 hl'
    obtain ⟨s', hs', hr⟩ := upd (fun r => { r with statuses := l1 }) (fun d t r => .status d t r.type (iterSpans r.statuses)) (by simp only; rw [h2]; rfl)
    refine ⟨s', ?_, hr⟩
    have h1 : updateStatus ((getKey s.reports file).getD .empty).statuses name st = some l1 := h1
    simp only [Srv.call, h1, Srv.publishStatuses]
    exact hs'
  | fileType t => exact upd (fun r => { r with type := t }) (fun d t r => .status d t r.type (iterSpans r.statuses)) h.units
  | diagnostic l => exact upd (fun r => { r with diagnostics := r.diagnostics ++ [l] }) (fun d t r => .diagnostics d t r.diagnostics) h.units
  | explanation l => exact upd (fun r => { r with explanations := r.explanations ++ [l] }) (fun d t r => .explanations d t r.explanations) h.units
  | dummyDiagnostic => exact absurd List.mem_cons_self h.positions

theorem handleResult_succeeds {s : Srv} {file : ℕ} {r : Result} (h : Running s file []) : ∃ s', s.handleResult file r = some s' ∧ Valid s' := by
  cases r with
  | ok => exact ⟨s, rfl, h.valid⟩
  | interrupted => exact ⟨s, rfl, h.valid⟩
  | error => exact ⟨s, rfl, h.valid⟩
  | diagnostic l =>
    obtain ⟨s1, h1, r1⟩ := call_succeeds (c := .diagnostic l) (calls := [.fileType .invalid]) ⟨h.valid, h.stored, rfl, by simp, by simpa [builtins] using h.length⟩
    obtain ⟨s2, h2, r2⟩ := call_succeeds r1
    exact ⟨s2, by simp only [Srv.handleResult, h1]; exact h2, r2.valid⟩
  | limit =>
    have hv : Valid ({ s with reports := s.reports.map fun p => (p.1, { p.2 with statuses := timeoutAll p.2.statuses }) } : Srv) := by
      intro p hp
      obtain ⟨q, hq, rfl⟩ := List.mem_map.1 hp
      exact h.valid q hq
    obtain ⟨s1, h1, f1, f2⟩ := publish_succeeds hv fun d t r => .status d t r.type (iterSpans r.statuses)
    have r1 : Running s1 file [.fileType .timeout] := by
      refine ⟨?_, ?_, rfl, by simp, ?_⟩
      · intro p hp
        rw [f2] at hp
        rw [f1]
        exact hv p hp
      · rw [f1]; exact h.stored
      · rw [f1]; simpa [builtins] using h.length
    obtain ⟨s2, h2, r2⟩ := call_succeeds r1
    refine ⟨s2, ?_, r2.valid⟩
    simp only [Srv.handleResult, Srv.publishStatuses, h1]
    exact h2

theorem clear_succeeds {s : Srv} {id : ℕ} (h : Valid s) : ∃ s', s.clear id = some s' ∧ Valid s' ∧ s'.files = s.files ∧ statusesOf s' id = [] := by
  let s0 : Srv := if (getKey s.reports id).isSome then { s with reports := insertKey s.reports id .empty } else s
  have hf : s0.files = s.files := by simp only [s0]; split <;> rfl
  have hv : Valid s0 := by
    intro p hp
    rw [hf]
    simp only [s0] at hp
    split at hp
    · rename_i hk
      rcases mem_insertKey' hp with rfl | hp
      · have hmem : id ∈ s.reports.map Prod.fst := by
          by_contra hc
          rw [(getKey_none_iff s.reports id).2 hc] at hk
          cases hk
        obtain ⟨q, hq, hq0⟩ := List.mem_map.1 hmem
        rw [← hq0]
        exact h q hq
      · exact h p hp
    · exact h p hp
  have hst : statusesOf s0 id = [] := by
    unfold statusesOf
    simp only [s0]
    split
    · simp only [getKey_insertKey_self]; rfl
    · rename_i hk
      cases hg : getKey s.reports id with
      | none => rfl
      | some x => rw [hg] at hk; exact absurd rfl hk
  obtain ⟨s1, h1, a1, b1⟩ := publish_succeeds hv fun d t r => .diagnostics d t r.diagnostics
  have hv1 : Valid s1 := by intro p hp; rw [b1] at hp; rw [a1]; exact hv p hp
  obtain ⟨s2, h2, a2, b2⟩ := publish_succeeds hv1 fun d t r => .status d t r.type (iterSpans r.statuses)
  refine ⟨s2, ?_, ?_, a2.trans (a1.trans hf), ?_⟩
  · unfold Srv.clear
    have h1' : s0.publishDiagnostics = some s1 := h1
    exact Option.bind_eq_some_iff.2 ⟨s1, h1', h2⟩
  · intro p hp
    rw [b2] at hp
    rw [a2]
    exact hv1 p hp
  · unfold statusesOf
    rw [b2, b1]
    exact hst

/-- The invariant of the states of a task that does not panic. -/
def Survives (s0 : Srv) (d : Doc) : Srv × Task → Prop
  | (s, .pending _ d') => s = s0 ∧ d' = d
  | (s, .verifying _ file calls _) => Running s file calls
  | (s, .finished) => Valid s

/-- A task does not panic if its document is stored, and it can add its files. -/
theorem task_survives {s0 : Srv} {id : ℕ} {d : Doc} {t : String} {k : ℕ} (hV : GoodVerifier V k) (hv : Valid s0) (hu : s0.files.Unique)
    (hd : s0.files.at d.uri = some ⟨.lsp d, t⟩) (hl : s0.files.length + k ≤ 65535) {q : Srv × Task} (h : ReflTransGen (TaskStep V) (s0, .pending id d) q) :
    Survives s0 d q ∧ ¬ TaskPanics q.1 q.2 := by
  have hstart : ∃ s' file text, s0.start d = some (s', file, text) ∧ Valid s' ∧ s'.files = s0.files ∧ statusesOf s' file = [] ∧ 1 ≤ file ∧ file ≤ s0.files.length := by
    obtain ⟨-, i, hi⟩ := (at_eq_some hu).1 hd
    have hsome : ((s0.files.findIdx? fun f => f.path = .lsp d)).isSome := by
      rw [List.findIdx?_isSome]
      exact List.any_eq_true.2 ⟨_, List.mem_of_getElem? hi, by simp⟩
    obtain ⟨j, hj⟩ := Option.isSome_iff_exists.1 hsome
    obtain ⟨hlt, -, -⟩ := List.findIdx?_eq_some_iff_getElem.1 hj
    have hfind : Files.find s0.files (.lsp d) = some (j + 1) := by unfold Files.find; rw [hj]; rfl
    obtain ⟨f, hf, -⟩ := find_eq_some hfind
    have hv' : Valid ({ s0 with out := s0.out ++ [.started d f.text] } : Srv) := hv
    obtain ⟨s', h1, h2, h3, h4⟩ := clear_succeeds (id := j + 1) hv'
    refine ⟨s', j + 1, f.text, ?_, h2, h3, h4, by omega, by omega⟩
    unfold Srv.start
    simp [hfind, hf, h1]
  have main : Survives s0 d q := by
    induction h with
    | refl => exact ⟨rfl, rfl⟩
    | @tail b c _ hs ih =>
      cases hs with
      | start hst hv =>
        obtain ⟨rfl, rfl⟩ := ih
        obtain ⟨s', file, text, h1, h2, h3, h4, h5⟩ := hstart
        rw [h1] at hst
        obtain ⟨rfl, rfl, rfl⟩ : s' = _ ∧ file = _ ∧ text = _ := by simpa using hst
        exact ⟨h2, by rw [h3]; exact h5, by rw [h4]; exact hV.units _ _ _ hv, hV.positions _ _ _ hv, by rw [h3]; have := hV.files _ _ _ hv; omega⟩
      | call hc =>
        obtain ⟨s', h1, h2⟩ := call_succeeds ih
        rw [h1] at hc
        obtain rfl := Option.some.inj hc
        exact h2
      | done hr =>
        obtain ⟨s', h1, h2⟩ := handleResult_succeeds ih
        rw [h1] at hr
        obtain rfl := Option.some.inj hr
        exact h2
  refine ⟨main, fun hp => ?_⟩
  obtain ⟨s, t⟩ := q
  cases hp with
  | start hn =>
    obtain ⟨rfl, rfl⟩ := main
    obtain ⟨s', file, text, h1, -⟩ := hstart
    rw [h1] at hn
    cases hn
  | call hn =>
    obtain ⟨s', h1, -⟩ := call_succeeds main
    rw [h1] at hn
    cases hn
  | done hn =>
    obtain ⟨s', h1, -⟩ := handleResult_succeeds main
    rw [h1] at hn
    cases hn

theorem GoodClient.prefix {a b : List Msg} (h : GoodClient (a ++ b)) : GoodClient a := by
  intro x m y e
  exact h x m (y ++ b) (by rw [e]; simp)

theorem GoodClient.heyvl {ms : List Msg} (h : GoodClient ms) : AllHeyVL ms := by
  intro d t hm
  obtain ⟨a, b, rfl⟩ := List.append_of_mem hm
  have := h a _ b rfl
  cases this

theorem edits_snoc (ms : List Msg) (m : Msg) : edits (ms ++ [m]) = edits ms + edits [m] := by
  unfold edits
  rw [List.countP_append]

theorem survive_all {k : ℕ} (hV : GoodVerifier V k) {ms : List Msg} {s : Srv} (h : HandlesAll V .init ms s) (hc : GoodClient ms) (hn : edits ms + k * verifications ms ≤ 65535) :
    Valid s ∧ s.files.length ≤ edits ms + k * verifications ms := by
  generalize hi : Srv.init = s0 at h
  induction h with
  | nil => subst hi; exact ⟨fun p hp => absurd hp List.not_mem_nil, Nat.zero_le _⟩
  | @snoc s1 s2 ms m hms hm ih =>
    rw [edits_snoc, verifications_snoc, Nat.mul_add] at hn
    obtain ⟨hv, hl⟩ := ih hc.prefix (by omega)
    subst hi
    rw [edits_snoc, verifications_snoc, Nat.mul_add]
    have edit : ∀ (d : Doc) (t : String) (fs : Files), Files.addOrUpdateUri s1.files d t = some fs → Valid { s1 with files := fs } ∧ fs.length ≤ edits ms + 1 + k * verifications ms := by
      intro d t fs h1
      have := addOrUpdate_length h1
      refine ⟨fun p hp => ?_, by omega⟩
      have := hv p hp
      simp only
      omega
    cases hm with
    | note hn' =>
      rename_i n
      cases n with
      | didOpen heyvl d t =>
        have e1 : edits [Msg.note (.didOpen heyvl d t)] = 1 := rfl
        have e2 : verifications [Msg.note (.didOpen heyvl d t)] = 0 := rfl
        rw [e1, e2]
        simp only [Srv.handle] at hn'
        split at hn'
        · obtain ⟨fs, h1, rfl⟩ := Option.map_eq_some_iff.1 hn'
          exact edit d t fs h1
        · obtain rfl := Option.some.inj hn'
          exact ⟨hv, by omega⟩
      | didChange d t =>
        have e1 : edits [Msg.note (.didChange d t)] = 1 := rfl
        have e2 : verifications [Msg.note (.didChange d t)] = 0 := rfl
        rw [e1, e2]
        obtain ⟨fs, h1, rfl⟩ := Option.map_eq_some_iff.1 hn'
        exact edit d t fs h1
      | didClose u =>
        obtain ⟨id, -, h2⟩ := Option.bind_eq_some_iff.1 hn'
        obtain ⟨s', h3, h4, h5, -⟩ := clear_succeeds (id := id) hv
        rw [h2] at h3
        obtain rfl := Option.some.inj h3
        exact ⟨h4, by rw [h5]; omega⟩
      | ignored =>
        obtain rfl := Option.some.inj hn'
        exact ⟨hv, by omega⟩
    | shutdown => exact ⟨hv, by simp only; omega⟩
    | other => exact ⟨hv, by omega⟩
    | @verify _ id d ht =>
      have e1 : edits [Msg.verify id d] = 0 := rfl
      have e2 : verifications [Msg.verify id d] = 1 := rfl
      rw [e1, e2] at hn ⊢
      obtain ⟨t, ht'⟩ := hc ms _ [] rfl
      obtain ⟨hu, hat⟩ := stored_current hc.prefix.heyvl hms
      have hd : s1.files.at d.uri = some ⟨.lsp d, t⟩ := by rw [hat, ht']; rfl
      refine ⟨(task_survives hV hv hu hd (by omega) ht).1, ?_⟩
      obtain ⟨text, all, r, h1, h2, -⟩ := (task_files_length ht : TaskFiles V _ (_, .finished))
      have := hV.files _ _ _ h1
      omega

/-- The claim for good clients and verifiers, as long as the number of files is bounded. -/
theorem C75_survives_partial {k : ℕ} (hV : GoodVerifier V k) {c : Conf} (h : Reachable V c) (hc : GoodClient c.received)
    (hn : edits c.received + k * verifications c.received ≤ 65535) : c.phase ≠ .dead := by
  intro hd
  rcases C75_dead h hd with hr | ⟨a, m, b, s, hr, hs, hm⟩
  · obtain ⟨a, b, hr⟩ := List.append_of_mem hr
    exact hc a _ b hr
  · rw [hr] at hc hn
    have ha : edits a ≤ edits (a ++ m :: b) ∧ verifications a + verifications [m] ≤ verifications (a ++ m :: b) ∧ edits a + edits [m] ≤ edits (a ++ m :: b) := by
      rw [show a ++ m :: b = a ++ ([m] ++ b) from by simp]
      unfold edits verifications
      simp only [List.countP_append]
      omega
    have hk : k * verifications a + k * verifications [m] ≤ k * verifications (a ++ m :: b) := by
      rw [← Nat.mul_add]
      exact Nat.mul_le_mul_left k ha.2.1
    obtain ⟨hv, hl⟩ := survive_all hV hs hc.prefix (by omega)
    obtain ⟨hu, hat⟩ := stored_current hc.prefix.heyvl hs
    have edit : ∀ (d : Doc) (t : String), edits [m] = 1 → Files.addOrUpdateUri s.files d t ≠ none := by
      intro d t he hnone
      unfold Files.addOrUpdateUri at hnone
      split at hnone
      · cases hnone
      · unfold Files.add at hnone
        rw [if_pos (by omega)] at hnone
        cases hnone
    cases hm with
    | response => exact hc a _ b rfl
    | note hnone =>
      rename_i n
      cases n with
      | didOpen heyvl d t =>
        simp only [Srv.handle] at hnone
        split at hnone
        · exact edit d t rfl (Option.map_eq_none_iff.1 hnone)
        · cases hnone
      | didChange d t => exact edit d t rfl (Option.map_eq_none_iff.1 hnone)
      | didClose u =>
        have hcu : current a u ≠ none := hc a _ b rfl
        obtain ⟨p, hp⟩ := Option.ne_none_iff_exists'.1 hcu
        have hat' := hat u
        rw [hp] at hat'
        obtain ⟨h1, i, hi⟩ := (at_eq_some hu).1 hat'
        have hsome : (s.files.findIdx? (·.hasUri u)).isSome := by
          rw [List.findIdx?_isSome]
          exact List.any_eq_true.2 ⟨_, List.mem_of_getElem? hi, h1⟩
        obtain ⟨j, hj⟩ := Option.isSome_iff_exists.1 hsome
        obtain ⟨s', h2, -⟩ := clear_succeeds (id := j + 1) hv
        simp [Srv.handle, Files.findUri, hj, h2] at hnone
      | ignored => cases hnone
    | @verify _ _ id d ht hp =>
      have e2 : verifications [Msg.verify id d] = 1 := rfl
      rw [e2] at hk
      obtain ⟨t, ht'⟩ := hc a _ b rfl
      have hd : s.files.at d.uri = some ⟨.lsp d, t⟩ := by rw [hat, ht']; rfl
      exact (task_survives hV hv hu hd (by omega) ht).2 hp

/-- A request for a version that the server does not have, here because the notification of the change is not sent, ends the server. -/
theorem C75_survives_not_full : ¬ C75_survives_full := by
  intro h
  let s1 : Srv := ⟨[⟨.lsp ⟨0, 1⟩, "a"⟩], [], []⟩
  have h1 : Reachable (fun _ _ _ => True) ⟨s1, .idle, [.note (.didOpen true ⟨0, 1⟩ "a")]⟩ := ReflTransGen.refl.tail (.receive rfl)
  have h2 : Reachable (fun _ _ _ => True) ⟨s1, .running (.pending 0 ⟨0, 2⟩) [], [.note (.didOpen true ⟨0, 1⟩ "a"), .verify 0 ⟨0, 2⟩]⟩ := h1.tail (.receive rfl)
  exact h _ _ (h2.tail (.taskDead (.start rfl))) rfl

/-- A session with good messages, and a good verifier. -/
example : GoodClient staleSession ∧ edits staleSession + 13 * verifications staleSession ≤ 65535 ∧ GoodVerifier (oneDiagnostic ⟨0, 0, 0⟩) 13 := by
  refine ⟨?_, by decide, ?_⟩
  · intro a m b h
    unfold staleSession at h
    rcases a with _ | ⟨a1, _ | ⟨a2, _ | ⟨a3, _ | ⟨a4, _ | ⟨a5, a⟩⟩⟩⟩⟩ <;> simp at h
    · obtain ⟨rfl, rfl⟩ := h; rfl
    · obtain ⟨rfl, rfl, rfl⟩ := h; exact ⟨"old", rfl⟩
    · obtain ⟨rfl, rfl, rfl, rfl⟩ := h; trivial
    · obtain ⟨rfl, rfl, rfl, rfl, rfl⟩ := h; rfl
    · obtain ⟨rfl, rfl, rfl, rfl, rfl, rfl⟩ := h; exact ⟨"other", rfl⟩
  · refine ⟨?_, ?_, ?_⟩ <;> rintro text calls r ⟨rfl, rfl⟩
    · rfl
    · simp
    · simp [builtins]

end Caesar.Server
