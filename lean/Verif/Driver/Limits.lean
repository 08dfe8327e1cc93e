import Mathlib.Logic.Relation
import Mathlib.Data.Nat.Notation

/-!
# Resource limits (`src/resource_limits.rs`)

`LimitsRef` is shared by all the threads. The state is an atomic cell, the subscribers are protected by a mutex, and each watcher thread has a channel of capacity 1.
The model interleaves the steps of any number of threads.
-/

namespace Caesar.Limits

/-- `LimitError` (`src/resource_limits.rs:38-48`). -/
inductive Err where
  | timeout | oom | interrupted
deriving DecidableEq

/-- Who has called `check_limits` or `set_error`, i.e. what is done with the result. -/
inductive Then where
  /-- `check_limits`, `interrupted_error` or `cancel`, called by the verifier or the server -/
  | client
  /-- the end of `await_with_resource_limits` with this error (`src/resource_limits.rs:77-80`) -/
  | await (e : Err)
  /-- the first check of a watcher (`src/resource_limits.rs:232`) -/
  | first
  /-- the second check of a watcher, after it has received a message (`src/resource_limits.rs:244`) -/
  | second
deriving DecidableEq

/-- The points in the code at which a thread can be. -/
inductive Pc where
  /-- the thread has not been used -/
  | fresh
  /-- the thread is not in this module -/
  | idle
  /-- before the load in `check_limits` (`src/resource_limits.rs:194`) -/
  | chk (k : Then)
  /-- before the comparison with the current time (`src/resource_limits.rs:197-201`) -/
  | chkTime (k : Then)
  /-- before the `compare_exchange` in `set_error` (`src/resource_limits.rs:164`) -/
  | cas (e : Err) (k : Then)
  /-- after a successful one, before the lock (`src/resource_limits.rs:166`) -/
  | setLock (e : Err) (k : Then)
  /-- with the lock, in `retain`: the subscribers that are left and those that are kept (`src/resource_limits.rs:168`) -/
  | setSend (e : Err) (rest kept : List ℕ) (k : Then)
  /-- after a failed one, before the load (`src/resource_limits.rs:171`) -/
  | load (k : Then)
  /-- a watcher whose first check has failed, before `unsubscribe` (`src/resource_limits.rs:233`) -/
  | stopping
  /-- a watcher in `select!` (`src/resource_limits.rs:238`) -/
  | waiting
  /-- a watcher that has been notified that the work is done, before `unsubscribe` (`src/resource_limits.rs:240`) -/
  | gotDone
  /-- a watcher that has received an error, before `unsubscribe` (`src/resource_limits.rs:243`) -/
  | gotStop
  /-- a watcher that has finished -/
  | finished
deriving DecidableEq

/-- Where the thread that has started a watcher is (`run_prover_interruptibly`, `src/slicing/solver.rs:729-746`): before the check of the solver, in it, or after it has sent the done message. -/
inductive Phase where
  | before | during | after
deriving DecidableEq

/-- The shared state (`LimitsRefData`, `src/resource_limits.rs:132-138`), the channels and the threads. The channel of a watcher is named by the thread of the watcher. -/
structure Cfg where
  /-- `state` -/
  state : Option Err
  /-- `subscribers` -/
  subs : List ℕ
  /-- whether the mutex is locked -/
  locked : Bool
  /-- the messages in the channels -/
  buf : ℕ → Option Err
  /-- where the work is that a watcher guards -/
  phase : ℕ → Phase
  pc : ℕ → Pc
  now : ℕ
  /-- (ghost) the results of `check_limits` and `set_error`, with the time -/
  log : List (Option Err × ℕ)
  /-- (ghost) the errors which `await_with_resource_limits` has returned -/
  awaited : List Err
  /-- (ghost) the errors with which the clients have called `set_error` -/
  requested : List Err
  /-- (ghost) the watchers whose `on_stop` has been called, and where the guarded work was then -/
  stopped : List (ℕ × Phase)

/-- The receiver of a watcher is dropped when it has finished. -/
def Cfg.alive (c : Cfg) (w : ℕ) : Bool := c.pc w ≠ .finished

/-- A function, changed at one argument. -/
def upd {α : Type} (f : ℕ → α) (t : ℕ) (a : α) : ℕ → α := fun x => if x = t then a else f x

/-- The thread `t` goes on at `p`. -/
def Cfg.goto (c : Cfg) (t : ℕ) (p : Pc) : Cfg := { c with pc := upd c.pc t p }

/-- What is done with the result of `check_limits` or `set_error` (`src/resource_limits.rs:77-80`, `232-236`, `244-246`). -/
def Cfg.ret (c : Cfg) (t : ℕ) (r : Option Err) : Then → Cfg
  | .client => { c.goto t .idle with log := (r, c.now) :: c.log }
  | .await e => { c.goto t .idle with awaited := e :: c.awaited }
  | .first => c.goto t (if r.isSome then .stopping else .waiting)
  | .second => if r.isSome then { c.goto t .finished with stopped := (t, c.phase t) :: c.stopped } else c.goto t .finished

/-- `unsubscribe` (`src/resource_limits.rs:158-161`). -/
def Cfg.unsubscribe (c : Cfg) (w : ℕ) : Cfg := { c with subs := c.subs.filter (· ≠ w) }

/-- `subscribe` (`src/resource_limits.rs:147-156`), a critical section with one load. -/
def Cfg.subscribe (c : Cfg) (w : ℕ) : Cfg :=
  match c.state with
  | some e => { c with buf := upd c.buf w (some e) }
  | none => { c with subs := c.subs ++ [w] }

/-- The thread is in the program: a client can call a function. -/
def Pc.free : Pc → Bool
  | .fresh | .idle => true
  | _ => false

/-- The steps. The deadline is `D`. -/
inductive Step (D : Option ℕ) : Cfg → Cfg → Prop where
  /-- time passes -/
  | tick {c n} : Step D c { c with now := c.now + n }
  /-- a client calls `check_limits` or `interrupted_error` -/
  | check {c t} (h : (c.pc t).free) : Step D c (c.goto t (.chk .client))
  /-- a client calls `cancel` (`src/resource_limits.rs:211-213`) -/
  | cancel {c t} (h : (c.pc t).free) : Step D c { c.goto t (.cas .interrupted .client) with requested := .interrupted :: c.requested }
  /-- `await_with_resource_limits` fails: the hard timeout, or too much memory (`src/resource_limits.rs:65-80`) -/
  | await {c t e} (h : (c.pc t).free) (he : e ≠ .interrupted) : Step D c { c.goto t (.cas e (.await e)) with requested := e :: c.requested }
  /-- `spawn_until_stopped_or_done` (`src/resource_limits.rs:224-251`): the channel is subscribed, and a thread for the watcher starts -/
  | spawn {c w} (h : c.pc w = .fresh) (hl : c.locked = false) : Step D c ((c.subscribe w).goto w (.chk .first))
  /-- the guarded check begins (`src/slicing/solver.rs:742`) -/
  | begin {c w} (h : c.pc w ≠ .fresh) (hp : c.phase w = .before) : Step D c { c with phase := upd c.phase w .during }
  /-- the work is done: the done message is sent (`src/slicing/solver.rs:743`) -/
  | done {c w} (hp : c.phase w = .during) : Step D c { c with phase := upd c.phase w .after }
  /-- `check_limits` (`src/resource_limits.rs:191-203`) -/
  | chkErr {c t k e} (h : c.pc t = .chk k) (hs : c.state = some e) : Step D c (c.ret t (some e) k)
  | chkOk {c t k} (h : c.pc t = .chk k) (hs : c.state = none) : Step D c (c.goto t (.chkTime k))
  | chkLate {c t k d} (h : c.pc t = .chkTime k) (hd : D = some d) (hn : d ≤ c.now) : Step D c (c.goto t (.cas .timeout k))
  | chkTimely {c t k} (h : c.pc t = .chkTime k) (hn : ∀ d, D = some d → c.now < d) : Step D c (c.ret t none k)
  /-- `set_error` (`src/resource_limits.rs:163-173`) -/
  | casOk {c t e k} (h : c.pc t = .cas e k) (hs : c.state = none) : Step D c { c.goto t (.setLock e k) with state := some e }
  | casFail {c t e k} (h : c.pc t = .cas e k) (hs : c.state ≠ none) : Step D c (c.goto t (.load k))
  | load {c t k e} (h : c.pc t = .load k) (hs : c.state = some e) : Step D c (c.ret t (some e) k)
  | lock {c t e k} (h : c.pc t = .setLock e k) (hl : c.locked = false) : Step D c { c.goto t (.setSend e c.subs [] k) with locked := true }
  /-- a message is sent; this blocks while the channel is full -/
  | send {c t e w rest kept k} (h : c.pc t = .setSend e (w :: rest) kept k) (ha : c.alive w) (hb : c.buf w = none) :
    Step D c { c.goto t (.setSend e rest (kept ++ [w]) k) with buf := upd c.buf w (some e) }
  /-- the receiver has been dropped -/
  | sendErr {c t e w rest kept k} (h : c.pc t = .setSend e (w :: rest) kept k) (ha : c.alive w = false) : Step D c (c.goto t (.setSend e rest kept k))
  | unlock {c t e kept k} (h : c.pc t = .setSend e [] kept k) : Step D c (({ c with subs := kept, locked := false } : Cfg).ret t (some e) k)
  /-- the watcher (`src/resource_limits.rs:231-249`) -/
  | stop {c w} (h : c.pc w = .stopping) (hl : c.locked = false) : Step D c { (c.unsubscribe w).goto w .finished with stopped := (w, c.phase w) :: c.stopped }
  | recvDone {c w} (h : c.pc w = .waiting) (hd : c.phase w = .after) : Step D c (c.goto w .gotDone)
  | recvStop {c w e} (h : c.pc w = .waiting) (hb : c.buf w = some e) : Step D c { c.goto w .gotStop with buf := upd c.buf w none }
  | finish {c w} (h : c.pc w = .gotDone) (hl : c.locked = false) : Step D c ((c.unsubscribe w).goto w .finished)
  | recheck {c w} (h : c.pc w = .gotStop) (hl : c.locked = false) : Step D c ((c.unsubscribe w).goto w (.chk .second))

/-- `LimitsRef::new` (`src/resource_limits.rs:182-189`). -/
def Cfg.init : Cfg := ⟨none, [], false, fun _ => none, fun _ => .before, fun _ => .fresh, 0, [], [], [], []⟩

/-- The states that can be reached. -/
def Reachable (D : Option ℕ) (c : Cfg) : Prop := Relation.ReflTransGen (Step D) .init c

end Caesar.Limits
