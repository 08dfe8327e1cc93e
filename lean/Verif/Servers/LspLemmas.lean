import Verif.Servers.Lsp

/-! # Lemmas on the language server -/

namespace Caesar.Server
open Relation

variable {V : Verifier}

/-! ## The loop handles one message after the other -/

/-- The notification of a message. -/
def Msg.asNote : Msg → Option Note
  | .note n => some n
  | _ => none

/-- These messages have been received while a request was active, and these are the queued notifications. -/
def Queued (b : List Msg) (q : List Note) : Prop :=
  (∀ m ∈ b, (∃ n, m = .note n) ∨ ∃ id, m = .other id) ∧ b.filterMap Msg.asNote = q

/-- The server has panicked because of a response, or while it handled one of the messages. -/
def DiedOf (V : Verifier) (ms : List Msg) : Prop :=
  Msg.response ∈ ms ∨ ∃ a m b s, ms = a ++ m :: b ∧ HandlesAll V .init a s ∧ Dies V s m

/-- The state is that of a server which has handled the messages one after the other; the last one may be in progress. -/
def Sequential (V : Verifier) (c : Conf) : Prop :=
  match c.phase with
  | .idle => HandlesAll V .init c.received c.srv
  | .running t q => ∃ a id d b s0, c.received = a ++ .verify id d :: b ∧ HandlesAll V .init a s0 ∧
      ReflTransGen (TaskStep V) (s0, .pending id d) (c.srv, t) ∧ Queued b q
  | .waiting t q m => ∃ a id d b s0, c.received = a ++ .verify id d :: (b ++ [m]) ∧ HandlesAll V .init a s0 ∧
      ReflTransGen (TaskStep V) (s0, .pending id d) (c.srv, t) ∧ Queued b q
  | .dead => DiedOf V c.received

theorem handleAll_seq (b : List Msg) (q : List Note) (h : Queued b q) (a : List Msg) (s : Srv) (hs : HandlesAll V .init a s) :
    (∀ s1, s.handleAll q = some s1 → HandlesAll V .init (a ++ b) s1) ∧
    (s.handleAll q = none → ∃ b1 m b2 s1, b = b1 ++ m :: b2 ∧ HandlesAll V .init (a ++ b1) s1 ∧ Dies V s1 m) := by
  induction b generalizing q a s with
  | nil =>
    obtain ⟨-, rfl⟩ := h
    simp only [List.filterMap_nil, Srv.handleAll, List.foldlM_nil]
    refine ⟨fun s1 h1 => ?_, fun h1 => by simp at h1⟩
    obtain rfl : s = s1 := Option.some.inj h1
    simpa using hs
  | cons m b ih =>
    obtain ⟨hall, hq⟩ := h
    rcases hall m List.mem_cons_self with ⟨n, rfl⟩ | ⟨id, rfl⟩
    · simp only [List.filterMap_cons, Msg.asNote] at hq
      subst hq
      cases hn : s.handle n with
      | none =>
        refine ⟨fun s1 h1 => ?_, fun _ => ⟨[], .note n, b, s, rfl, by simpa using hs, .note hn⟩⟩
        simp [Srv.handleAll, List.foldlM_cons, hn] at h1
      | some s' =>
        have := ih _ ⟨fun m hm => hall m (List.mem_cons_of_mem _ hm), rfl⟩ (a ++ [.note n]) s' (.snoc hs (.note hn))
        refine ⟨fun s1 h1 => ?_, fun h1 => ?_⟩
        · simpa using this.1 s1 (by simpa [Srv.handleAll, List.foldlM_cons, hn] using h1)
        · obtain ⟨b1, m, b2, s1, e1, e2, e3⟩ := this.2 (by simpa [Srv.handleAll, List.foldlM_cons, hn] using h1)
          exact ⟨.note n :: b1, m, b2, s1, by rw [e1]; rfl, by simpa using e2, e3⟩
    · simp only [List.filterMap_cons, Msg.asNote] at hq
      have := ih q ⟨fun m hm => hall m (List.mem_cons_of_mem _ hm), hq⟩ (a ++ [.other id]) s (.snoc hs .other)
      refine ⟨fun s1 h1 => by simpa using this.1 s1 h1, fun h1 => ?_⟩
      obtain ⟨b1, m, b2, s1, e1, e2, e3⟩ := this.2 h1
      exact ⟨.other id :: b1, m, b2, s1, by rw [e1]; rfl, by simpa using e2, e3⟩

theorem receive_seq {s s' : Srv} {m : Msg} {ph : Phase} {ms : List Msg} (h : s.receive m = some (s', ph)) (hs : HandlesAll V .init ms s) :
    Sequential V ⟨s', ph, ms ++ [m]⟩ := by
  cases m with
  | note n =>
    obtain ⟨s1, h1, h2⟩ := Option.map_eq_some_iff.1 h
    obtain ⟨rfl, rfl⟩ := Prod.mk.inj h2
    exact .snoc hs (.note h1)
  | verify id d =>
    obtain ⟨rfl, rfl⟩ := Prod.mk.inj (Option.some.inj h)
    exact ⟨ms, id, d, [], s, rfl, hs, .refl, by simp, rfl⟩
  | shutdown id =>
    obtain ⟨rfl, rfl⟩ := Prod.mk.inj (Option.some.inj h)
    exact .snoc hs .shutdown
  | other id =>
    obtain ⟨rfl, rfl⟩ := Prod.mk.inj (Option.some.inj h)
    exact .snoc hs .other
  | response => cases h

theorem receive_dies {s : Srv} {m : Msg} (h : s.receive m = none) : Dies V s m := by
  cases m with
  | note n => exact .note (Option.map_eq_none_iff.1 h)
  | response => exact .response
  | verify id d => cases h
  | shutdown id => cases h
  | other id => cases h

theorem sequential_step {c c' : Conf} (h : Step V c c') (hc : Sequential V c) : Sequential V c' := by
  cases h with
  | receive h => exact receive_seq h hc
  | @receiveDead s ms m h => exact Or.inr ⟨_, _, [], _, rfl, hc, receive_dies h⟩
  | @queue s t q ms n =>
    obtain ⟨a, id, d, b, s0, h1, h2, h3, h4, h5⟩ := hc
    simp only at h1
    refine ⟨a, id, d, b ++ [.note n], s0, by simp [h1], h2, h3, ?_, ?_⟩
    · intro m hm
      rcases List.mem_append.1 hm with hm | hm
      · exact h4 m hm
      · exact Or.inl ⟨n, List.mem_singleton.1 hm⟩
    · simp [List.filterMap_append, h5, Msg.asNote]
  | @ignore s t q ms id' =>
    obtain ⟨a, id, d, b, s0, h1, h2, h3, h4, h5⟩ := hc
    simp only at h1
    refine ⟨a, id, d, b ++ [.other id'], s0, by simp [h1], h2, h3, ?_, ?_⟩
    · intro m hm
      rcases List.mem_append.1 hm with hm | hm
      · exact h4 m hm
      · exact Or.inr ⟨id', List.mem_singleton.1 hm⟩
    · simp [List.filterMap_append, h5, Msg.asNote]
  | response => exact Or.inl (by simp)
  | wait h =>
    obtain ⟨a, id, d, b, s0, h1, h2, h3, h4⟩ := hc
    exact ⟨a, id, d, b, s0, by simp only at h1; simp [h1], h2, h3, h4⟩
  | waitFinished =>
    obtain ⟨a, id, d, b, s0, h1, h2, h3, h4⟩ := hc
    exact ⟨a, id, d, b, s0, by simp only at h1; simp [h1], h2, h3, h4⟩
  | @drain s s1 s2 q ms m ph h1 h2 =>
    obtain ⟨a, id, d, b, s0, e1, e2, e3, e4⟩ := hc
    have hv : HandlesAll V .init (a ++ [.verify id d]) s := .snoc e2 (.verify e3)
    have := receive_seq h2 ((handleAll_seq b q e4 _ s hv).1 s1 h1)
    simp only at e1
    rw [e1]
    simpa using this
  | @drainDead s q ms m h =>
    obtain ⟨a, id, d, b, s0, e1, e2, e3, e4⟩ := hc
    have hv : HandlesAll V .init (a ++ [.verify id d]) s := .snoc e2 (.verify e3)
    simp only at e1
    cases hq : s.handleAll q with
    | none =>
      obtain ⟨b1, m', b2, s1, f1, f2, f3⟩ := (handleAll_seq b q e4 _ s hv).2 hq
      exact Or.inr ⟨a ++ [.verify id d] ++ b1, m', b2 ++ [m], s1, by simp [e1, f1], f2, f3⟩
    | some s1 =>
      exact Or.inr ⟨_, m, [], s1, by simp [e1], (handleAll_seq b q e4 _ s hv).1 s1 hq, receive_dies (h s1 hq)⟩
  | task h =>
    obtain ⟨a, id, d, b, s0, e1, e2, e3, e4⟩ := hc
    exact ⟨a, id, d, b, s0, e1, e2, e3.tail h, e4⟩
  | taskWaiting h =>
    obtain ⟨a, id, d, b, s0, e1, e2, e3, e4⟩ := hc
    exact ⟨a, id, d, b, s0, e1, e2, e3.tail h, e4⟩
  | taskDead h =>
    obtain ⟨a, id, d, b, s0, e1, e2, e3, e4⟩ := hc
    exact Or.inr ⟨a, _, b, s0, e1, e2, .verify e3 h⟩
  | @taskWaitingDead s t q ms m h =>
    obtain ⟨a, id, d, b, s0, e1, e2, e3, e4⟩ := hc
    exact Or.inr ⟨a, _, b ++ [m], s0, e1, e2, .verify e3 h⟩

theorem sequential_of_reachable {c : Conf} (h : Reachable V c) : Sequential V c := by
  induction h with
  | refl => exact HandlesAll.nil
  | tail _ hs ih => exact sequential_step hs ih

/-! ## What is sent -/

/-- The event is a publication. -/
def Ev.IsPublication : Ev → Prop
  | .status .. | .diagnostics .. | .explanations .. => True
  | .response _ | .started .. => False

theorem publish_spec {s s' : Srv} {mk : Doc → String → Report → Ev} (h : s.publish mk = some s') :
    ∃ evs, s' = { s with out := s.out ++ evs } ∧ ∀ e ∈ evs, ∃ id r f d, (id, r) ∈ s.reports ∧ Files.get s.files id = some f ∧ f.path = .lsp d ∧ e = mk d f.text r := by
  unfold Srv.publish at h
  obtain ⟨evs, h1, h2⟩ := Option.bind_eq_some_iff.1 h
  refine ⟨evs.flatten, (Option.some.inj h2).symm, fun e he => ?_⟩
  obtain ⟨l, hl, hel⟩ := List.mem_flatten.1 he
  have key : ∀ (rs : List (ℕ × Report)) (evs : List (List Ev)), (rs.mapM fun (id, r) => (Files.get s.files id).map fun f =>
      match f.path with
      | .lsp d => [mk d f.text r]
      | .builtin => []) = some evs → ∀ l ∈ evs, ∀ e ∈ l, ∃ id r f d, (id, r) ∈ rs ∧ Files.get s.files id = some f ∧ f.path = .lsp d ∧ e = mk d f.text r := by
    intro rs
    induction rs with
    | nil =>
      intro evs hevs l hl
      simp only [List.mapM_nil] at hevs
      obtain rfl : [] = evs := Option.some.inj hevs
      cases hl
    | cons p rs ih =>
      obtain ⟨id, r⟩ := p
      intro evs hevs l hl e he
      simp only [List.mapM_cons] at hevs
      obtain ⟨l0, h0, hevs⟩ := Option.bind_eq_some_iff.1 hevs
      obtain ⟨evs', h1, hevs⟩ := Option.bind_eq_some_iff.1 hevs
      obtain rfl : l0 :: evs' = evs := Option.some.inj hevs
      obtain ⟨f, hf, rfl⟩ := Option.map_eq_some_iff.1 h0
      rcases List.mem_cons.1 hl with rfl | hl
      · cases hp : f.path with
        | builtin => simp [hp] at he
        | lsp d =>
          simp only [hp, List.mem_singleton] at he
          exact ⟨id, r, f, d, List.mem_cons_self, hf, hp, he⟩
      · obtain ⟨id', r', f', d', e1, e2⟩ := ih evs' h1 l hl e he
        exact ⟨id', r', f', d', List.mem_cons_of_mem _ e1, e2⟩
  exact key _ _ h1 l hl e hel

/-- Only publications have been sent. -/
def Quiet (s s' : Srv) : Prop := ∃ evs, s'.out = s.out ++ evs ∧ ∀ e ∈ evs, e.IsPublication

theorem Quiet.refl (s : Srv) : Quiet s s := ⟨[], by simp⟩

theorem Quiet.of_out {s s' : Srv} (h : s'.out = s.out) : Quiet s s' := ⟨[], by simp [h]⟩

theorem Quiet.trans {s1 s2 s3 : Srv} (h1 : Quiet s1 s2) (h2 : Quiet s2 s3) : Quiet s1 s3 := by
  obtain ⟨e1, f1, g1⟩ := h1
  obtain ⟨e2, f2, g2⟩ := h2
  refine ⟨e1 ++ e2, by simp [f2, f1], fun e he => ?_⟩
  rcases List.mem_append.1 he with he | he
  exacts [g1 e he, g2 e he]

theorem quiet_publish {s s' : Srv} {mk : Doc → String → Report → Ev} (hmk : ∀ d t r, (mk d t r).IsPublication) (h : s.publish mk = some s') : Quiet s s' := by
  obtain ⟨evs, rfl, h2⟩ := publish_spec h
  refine ⟨evs, rfl, fun e he => ?_⟩
  obtain ⟨id, r, f, d, -, -, -, rfl⟩ := h2 e he
  exact hmk _ _ _

theorem quiet_statuses {s s' : Srv} (h : s.publishStatuses = some s') : Quiet s s' := by
  unfold Srv.publishStatuses at h
  exact quiet_publish (by intro _ _ _; trivial) h
theorem quiet_diagnostics {s s' : Srv} (h : s.publishDiagnostics = some s') : Quiet s s' := by
  unfold Srv.publishDiagnostics at h
  exact quiet_publish (by intro _ _ _; trivial) h
theorem quiet_explanations {s s' : Srv} (h : s.publishExplanations = some s') : Quiet s s' := by
  unfold Srv.publishExplanations at h
  exact quiet_publish (by intro _ _ _; trivial) h

theorem quiet_clear {s s' : Srv} {id : ℕ} (h : s.clear id = some s') : Quiet s s' := by
  unfold Srv.clear at h
  obtain ⟨s1, h1, h2⟩ := Option.bind_eq_some_iff.1 h
  refine Quiet.trans (Quiet.trans (Quiet.of_out ?_) (quiet_diagnostics h1)) (quiet_statuses h2)
  split <;> rfl

theorem quiet_handle {s s' : Srv} {n : Note} (h : s.handle n = some s') : Quiet s s' := by
  cases n with
  | didOpen heyvl d text =>
    simp only [Srv.handle] at h
    split at h
    · obtain ⟨fs, -, rfl⟩ := Option.map_eq_some_iff.1 h
      exact Quiet.of_out rfl
    · rw [Option.some.inj h]; exact Quiet.refl _
  | didChange d text =>
    obtain ⟨fs, -, rfl⟩ := Option.map_eq_some_iff.1 h
    exact Quiet.of_out rfl
  | didClose uri =>
    obtain ⟨id, -, h2⟩ := Option.bind_eq_some_iff.1 h
    exact quiet_clear h2
  | ignored => rw [Option.some.inj h]; exact Quiet.refl _

theorem quiet_call {s s' : Srv} {id : ℕ} {c : Call} (h : s.call id c = some s') : Quiet s s' := by
  cases c with
  | addBuiltin =>
    obtain ⟨fs, -, rfl⟩ := Option.map_eq_some_iff.1 h
    exact Quiet.of_out rfl
  | unitStatus name st =>
    obtain ⟨l, -, h2⟩ := Option.bind_eq_some_iff.1 h
    exact Quiet.trans (Quiet.of_out (s := s) (s' := s.modify _ _) rfl) (quiet_statuses h2)
  | fileType t => exact Quiet.trans (Quiet.of_out (s := s) (s' := s.modify _ _) rfl) (quiet_statuses h)
  | diagnostic l => exact Quiet.trans (Quiet.of_out (s := s) (s' := s.modify _ _) rfl) (quiet_diagnostics h)
  | dummyDiagnostic => exact Quiet.trans (Quiet.of_out (s := s) (s' := s.modify _ _) rfl) (quiet_diagnostics h)
  | explanation l => exact Quiet.trans (Quiet.of_out (s := s) (s' := s.modify _ _) rfl) (quiet_explanations h)

theorem quiet_handleResult {s s' : Srv} {id : ℕ} {r : Result} (h : s.handleResult id r = some s') : Quiet s s' := by
  cases r with
  | ok => rw [Option.some.inj h]; exact Quiet.refl _
  | interrupted => rw [Option.some.inj h]; exact Quiet.refl _
  | error => rw [Option.some.inj h]; exact Quiet.refl _
  | diagnostic l =>
    obtain ⟨s1, h1, h2⟩ := Option.bind_eq_some_iff.1 h
    exact (quiet_call h1).trans (quiet_call h2)
  | limit =>
    obtain ⟨s1, h1, h2⟩ := Option.bind_eq_some_iff.1 h
    exact ((Quiet.of_out rfl).trans (quiet_statuses h1)).trans (quiet_call h2)

/-- What the start of a task does. -/
theorem start_spec {s s' : Srv} {d : Doc} {id : ℕ} {text : String} (h : s.start d = some (s', id, text)) :
    ∃ f, Files.find s.files (.lsp d) = some id ∧ Files.get s.files id = some f ∧ text = f.text ∧
      ({ s with out := s.out ++ [.started d f.text] } : Srv).clear id = some s' := by
  unfold Srv.start at h
  obtain ⟨id', h1, h⟩ := Option.bind_eq_some_iff.1 h
  obtain ⟨f, h2, h⟩ := Option.bind_eq_some_iff.1 h
  obtain ⟨s1, h3, h⟩ := Option.bind_eq_some_iff.1 h
  simp only [Option.some.injEq, Prod.mk.injEq] at h
  obtain ⟨rfl, rfl, rfl⟩ := h
  exact ⟨f, h1, h2, rfl, h3⟩

/-- The responses that have been sent. -/
def responses (out : List Ev) : List ℕ := out.filterMap fun e => match e with
  | .response id => some id
  | _ => none

/-- The tasks that have been started. -/
def starts (out : List Ev) : List (Doc × String) := out.filterMap fun e => match e with
  | .started d t => some (d, t)
  | _ => none

theorem Quiet.responses {s s' : Srv} (h : Quiet s s') : responses s'.out = responses s.out := by
  obtain ⟨evs, h1, h2⟩ := h
  rw [h1]
  simp only [Server.responses, List.filterMap_append, List.append_right_eq_self, List.filterMap_eq_nil_iff]
  intro e he
  have := h2 e he
  cases e <;> simp_all [Ev.IsPublication]

theorem Quiet.starts {s s' : Srv} (h : Quiet s s') : starts s'.out = starts s.out := by
  obtain ⟨evs, h1, h2⟩ := h
  rw [h1]
  simp only [Server.starts, List.filterMap_append, List.append_right_eq_self, List.filterMap_eq_nil_iff]
  intro e he
  have := h2 e he
  cases e <;> simp_all [Ev.IsPublication]

/-- What a task has sent. -/
def TaskSent (s : Srv) (id : ℕ) (d : Doc) (s' : Srv) (t : Task) : Prop :=
    match t with
    | .pending id' d' => s' = s ∧ id' = id ∧ d' = d
    | .verifying id' file _ _ => id' = id ∧ responses s'.out = responses s.out ∧
        ∃ f, Files.find s.files (.lsp d) = some file ∧ Files.get s.files file = some f ∧ starts s'.out = starts s.out ++ [(d, f.text)]
    | .finished => responses s'.out = responses s.out ++ [id] ∧
        ∃ file f, Files.find s.files (.lsp d) = some file ∧ Files.get s.files file = some f ∧ starts s'.out = starts s.out ++ [(d, f.text)]

/-- A complete task sends one response and starts once, with the text of the file at the start. -/
theorem task_sends {s s' : Srv} {id : ℕ} {d : Doc} {t : Task} (h : ReflTransGen (TaskStep V) (s, .pending id d) (s', t)) : TaskSent s id d s' t := by
  suffices H : ∀ p, ReflTransGen (TaskStep V) (s, .pending id d) p → ∀ s' t, (s', t) = p → TaskSent s id d s' t from H _ h _ _ rfl
  clear h s' t
  intro p h
  induction h with
  | refl =>
    intro s' t hp
    obtain ⟨rfl, rfl⟩ := Prod.mk.inj hp; exact ⟨rfl, rfl, rfl⟩
  | @tail b c hs hstep ih =>
    intro s' t hp
    subst hp
    obtain ⟨sb, tb⟩ := b
    have := ih sb tb rfl
    cases hstep with
    | @start _ _ _ _ file text calls r hst hv =>
      obtain ⟨rfl, rfl, rfl⟩ := this
      obtain ⟨f, h1, h2, rfl, h4⟩ := start_spec hst
      refine ⟨rfl, ?_, f, h1, h2, ?_⟩
      · rw [(quiet_clear h4).responses]; simp [responses]
      · rw [(quiet_clear h4).starts]; simp [starts]
    | @call _ _ _ file c calls r hc =>
      obtain ⟨rfl, h2, f, h3, h4, h5⟩ := this
      exact ⟨rfl, by rw [(quiet_call hc).responses, h2], f, h3, h4, by rw [(quiet_call hc).starts, h5]⟩
    | @done _ s1 _ file r hr =>
      obtain ⟨rfl, h2, f, h3, h4, h5⟩ := this
      refine ⟨?_, file, f, h3, h4, ?_⟩
      · have := (quiet_handleResult hr).responses
        rw [← h2, ← this]
        simp [responses]
      · have := (quiet_handleResult hr).starts
        rw [← h5, ← this]
        simp [starts]

end Caesar.Server
