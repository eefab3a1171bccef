import Verif.Util
import Mathlib.Algebra.BigOperators.Group.Finset.Basic

/-!
Termination detection of the asynchronous engine: the voting protocol of
`CheckTermination` (graph/termination.go 31-101) together with the thread loop that calls it
(`ReceiveMessages` and `ProcessMessages`, graph/run-async.go 109-176; the loops of
`ConvergeAsyncThread`, run-async.go 198-243, and `ConvergeDynamicThread`, run-dynamic.go 160-340).

What a notification asks for is irrelevant here, so a notification is only a slot of a queue, and
processing a batch of notifications (or of topology events) is any number of sends.  Every read and
every write of an array cell shared between threads (`TerminateData`, `TerminateView`,
`TerminateVotes`, queue slots) is a step of its own, and steps of different threads interleave
arbitrarily (sequentially consistent memory).  Simplifications:

* counters are natural numbers (`int64`/`uint64` in the code);
* queues never fill up (a full queue only delays the writer between claiming and filling a slot);
* the test for back pressure (run-async.go 132) is nondeterministic;
* commands, epochs and super-steps (which stop all threads before `ResetTerminationState`,
  termination.go 103) are not part of the machine; a phase begins in any state with the three
  arrays zeroed.

Fields marked "ghost" are never read by a step except to compute other ghost fields.
-/

namespace Verif.Term

/-- A claimed position of a `NotificationQueue` (`RingBuffMPSC`, utils/ring-buffer.go): claimed by
thread `src` with an atomic add, and `full` once the value has been stored.  `cnt` (ghost) is the
number of actions `src` had completed when claiming. -/
structure Slot where
  src : Nat
  cnt : Nat
  full : Bool
deriving DecidableEq, Repr

/-- What a working thread is doing: notifications (`ProcessMessages`, run-async.go 152), topology
events after polling notifications (run-dynamic.go 217-262), or topology/remit work in an iteration
that does not go on to process notifications (run-dynamic.go 174-201, 238-256). -/
inductive Kind where
  | msgs | events | eventsOnly
deriving DecidableEq, Repr

/-- Program counter of a thread; `k` is `algCount`, the notifications in hand. -/
inductive PC where
  /-- Top of the loop, run-async.go 208, run-dynamic.go 160. -/
  | top (k : Nat)
  /-- Popping from `NotificationBuff`, run-async.go 111-120. -/
  | pullB (k : Nat)
  /-- Popping from `NotificationQueue`, run-async.go 123-129. -/
  | pullQ (k : Nat)
  /-- Draining the queue into `NotificationBuff`, run-async.go 137-145. -/
  | drain (k : Nat)
  /-- About to test for back pressure, run-async.go 132. -/
  | polled (k : Nat)
  /-- `ReceiveMessages` has returned `k`, run-async.go 147. -/
  | recvd (k : Nat)
  /-- Working on a batch of `k` notifications or `e` events, with `sent` messages sent so far. -/
  | work (w : Kind) (k e sent : Nat)
  /-- A slot of queue `q` is claimed and not yet filled. -/
  | put (w : Kind) (k e sent q : Nat)
  /-- termination.go 34, the report of our own actions. -/
  | report
  /-- termination.go 38-40. -/
  | sum (i acc : Nat)
  /-- termination.go 43-44. -/
  | cmp (acc : Nat)
  /-- About to set the own vote to 0: termination.go 45 (`true`: our view moved) or 52. -/
  | reset (moved : Bool)
  /-- termination.go 50-51. -/
  | views (i acc : Nat)
  /-- termination.go 58-60. -/
  | begin
  /-- termination.go 63-64. -/
  | zeros (i : Nat)
  /-- About to set the own vote to `x`: termination.go 65, 80, 82. -/
  | lower (x : Nat)
  /-- termination.go 71-73. -/
  | two
  /-- termination.go 76-77. -/
  | ready (i : Nat)
  /-- termination.go 78-79. -/
  | fall (i : Nat)
  /-- termination.go 91. -/
  | three
  /-- termination.go 92-93. -/
  | all (i : Nat)
  /-- `CheckTermination` has returned true, termination.go 100; the thread leaves its loop. -/
  | done
deriving DecidableEq, Repr

/-- The shared state (and ghosts).  `data`, `view`, `votes` are `TerminateData`, `TerminateView` and
`TerminateVotes` (graph.go 54-56); `msgSend`, `msgRecv`, `events` the counters of each thread
(graph.go `GraphThread`); `closed t` is `strucClosed && remitClosed` (run-dynamic.go 264; always
true in static runs). -/
structure St where
  pc : Nat → PC
  queue : Nat → List Slot
  buff : Nat → List Slot
  msgSend : Nat → Nat
  msgRecv : Nat → Nat
  events : Nat → Nat
  closed : Nat → Bool
  data : Nat → Nat
  view : Nat → Nat
  votes : Nat → Nat
  /-- ghost: the whole `TerminateData` array when the thread last passed the top of its loop. -/
  cand : Nat → Nat → Nat
  /-- ghost: the values read by the current `sum` loop. -/
  xs : Nat → Nat → Nat
  /-- ghost: the values whose sum is the own view. -/
  rd : Nat → Nat → Nat
  /-- ghost: `cand` of the last check that found the own view unchanged. -/
  mark : Nat → Nat → Nat
  /-- ghost: there was such a check. -/
  inst : Nat → Bool
  /-- ghost: when the thread first took a notification after `mark`. -/
  ptime : Nat → Nat
  /-- ghost. -/
  clock : Nat

/-- Actions completed by a thread: the sum of termination.go 34. -/
def St.acts (s : St) (t : Nat) : Nat := s.msgSend t + s.msgRecv t + s.events t

/-- Number of threads, and `MSG_MAX` (graph.go 35). -/
structure Cfg where
  n : Nat
  max : Nat

/-- `go t`: the next instruction of thread `t`; the others are choices made by the environment or by
the user's algorithm: draining the queue, beginning work on `e` events, sending to thread `q`,
looping back after events without processing notifications (run-dynamic.go 251, 256), and the
discovery that the topology stream has ended. -/
inductive Act where
  | go (t : Nat)
  | drain (t : Nat)
  | events (t e : Nat)
  | send (t q : Nat)
  | cont (t : Nat)
  | close (t : Nat)
deriving DecidableEq, Repr

/-- Move the program counter. -/
def St.at (s : St) (t : Nat) (p : PC) : St := { s with pc := upd s.pc t p }

/-- ghost: the first pull since `mark` is stamped. -/
def St.stamp (s : St) (t k : Nat) : St :=
  { s with ptime := if k = 0 ∧ s.acts t ≤ s.mark t t then upd s.ptime t s.clock else s.ptime
           clock := s.clock + 1 }

/-- After receiving: process notifications, or check for termination if that is allowed, or start
over (run-async.go 152-176, run-dynamic.go 260-270). -/
def St.proceed (s : St) (t k : Nat) : St :=
  s.at t (if k ≠ 0 then .work .msgs k 0 0 else if s.closed t = true then .report else .top 0)

/-- The deterministic part of a thread. -/
def goStep (c : Cfg) (s : St) (t : Nat) : Option St :=
  match s.pc t with
  | .top k => some { s.at t (.pullB k) with cand := upd s.cand t s.data }
  | .pullB k =>
    match s.buff t with
    | _ :: rest =>
      if k < c.max then some { (s.stamp t k).at t (.pullB (k + 1)) with buff := upd s.buff t rest }
      else some (s.at t (.pullQ k))
    | [] => some (s.at t (.pullQ k))
  | .pullQ k =>
    match s.queue t with
    | sl :: rest =>
      if k < c.max ∧ sl.full = true then
        some { (s.stamp t k).at t (.pullQ (k + 1)) with queue := upd s.queue t rest }
      else some (s.at t (.polled k))
    | [] => some (s.at t (.polled k))
  | .drain k =>
    match s.queue t with
    | sl :: rest =>
      if sl.full = true then
        some { s with queue := upd s.queue t rest, buff := upd s.buff t (s.buff t ++ [sl]) }
      else some (s.at t (.recvd k))
    | [] => some (s.at t (.recvd k))
  | .polled k => some (s.at t (.recvd k))
  | .recvd k => some (s.proceed t k)
  | .work .msgs k _ sent =>
    some { s.at t (.top 0) with msgSend := upd s.msgSend t (s.msgSend t + sent)
                                msgRecv := upd s.msgRecv t (s.msgRecv t + k) }
  | .work .events k e sent =>
    some ({ s with msgSend := upd s.msgSend t (s.msgSend t + sent)
                   events := upd s.events t (s.events t + e) }.proceed t k)
  | .work .eventsOnly k e sent =>
    some { s.at t (.top k) with msgSend := upd s.msgSend t (s.msgSend t + sent)
                                events := upd s.events t (s.events t + e) }
  | .put w k e sent q =>
    some { s.at t (.work w k e sent) with
             queue := upd s.queue q ((s.queue q).map fun sl =>
               if sl.src = t then { sl with full := true } else sl) }
  | .report => some { s.at t (.sum 0 0) with data := upd s.data t (s.acts t) }
  | .sum i acc =>
    if i < c.n then some { s.at t (.sum (i + 1) (acc + s.data i)) with
                             xs := upd s.xs t (upd (s.xs t) i (s.data i)) }
    else some (s.at t (.cmp acc))
  | .cmp acc =>
    if s.view t ≠ acc then
      some { s.at t (.reset true) with view := upd s.view t acc, rd := upd s.rd t (s.xs t) }
    else some { s.at t (.views 0 acc) with
                  mark := upd s.mark t (s.cand t), inst := upd s.inst t true }
  | .reset _ => some { s.at t (.top 0) with votes := upd s.votes t 0 }
  | .views i acc =>
    if i < c.n then
      if s.view i ≠ acc then some (s.at t (.reset false)) else some (s.at t (.views (i + 1) acc))
    else some (s.at t .begin)
  | .begin => some { s.at t (.zeros 0) with
                       votes := if s.votes t = 0 then upd s.votes t 1 else s.votes }
  | .zeros i =>
    if i < c.n then
      if s.votes i = 0 then some (s.at t (.lower 1)) else some (s.at t (.zeros (i + 1)))
    else some (s.at t .two)
  | .lower x => some { s.at t (.top 0) with votes := upd s.votes t x }
  | .two =>
    if s.votes t = 1 then some { s.at t (.top 0) with votes := upd s.votes t 2 }
    else some (s.at t (.ready 0))
  | .ready i =>
    if i < c.n then
      if s.votes i < 2 then some (s.at t (.fall i)) else some (s.at t (.ready (i + 1)))
    else some (s.at t .three)
  | .fall i =>
    if s.votes t = 3 then some (s.at t (.lower (if s.votes i = 0 then 1 else 2)))
    else some (s.at t (.top 0))
  | .three => some { s.at t (.all 0) with votes := upd s.votes t 3 }
  | .all i =>
    if i < c.n then
      if s.votes i ≠ 3 then some (s.at t (.top 0)) else some (s.at t (.all (i + 1)))
    else some (s.at t .done)
  | .done => none

/-- One step; `none` when the action is not possible. -/
def step (c : Cfg) (s : St) : Act → Option St
  | .go t => if t < c.n then goStep c s t else none
  | .drain t =>
    match s.pc t with
    | .polled k => if t < c.n then some (s.at t (.drain k)) else none
    | _ => none
  | .events t e =>
    if t < c.n ∧ s.closed t = false ∧ 0 < e then
      match s.pc t with
      | .recvd k => some (s.at t (.work .events k e 0))
      | .top k => some (s.at t (.work .eventsOnly k e 0))
      | _ => none
    else none
  | .send t q =>
    match s.pc t with
    | .work w k e sent =>
      if t < c.n ∧ q < c.n then
        some { s.at t (.put w k e (sent + 1) q) with
                 queue := upd s.queue q (s.queue q ++ [⟨t, s.acts t, false⟩]) }
      else none
    | _ => none
  | .cont t =>
    match s.pc t with
    | .work .events k e sent => if t < c.n then some (s.at t (.work .eventsOnly k e sent)) else none
    | _ => none
  | .close t => if t < c.n then some { s with closed := upd s.closed t true } else none

/-- Run a list of actions. -/
def run (c : Cfg) (s : St) : List Act → Option St
  | [] => some s
  | a :: as => (step c s a).bind fun s' => run c s' as

/-- The start of a phase: the termination arrays are zero (`ResetTerminationState`,
termination.go 103-109, or freshly allocated, graph.go 160-162), all threads are at the top of their
loops with nothing in hand and nothing in `NotificationBuff`; notifications sent beforehand
(`SendInitialMail`, run-async.go 14-104) are in the queues and counted. -/
structure Start (c : Cfg) (s : St) : Prop where
  pc : ∀ t, s.pc t = .top 0
  buff : ∀ t, s.buff t = []
  full : ∀ t, ∀ sl ∈ s.queue t, sl.full = true ∧ sl.src < c.n ∧ sl.cnt < s.acts sl.src
  data : ∀ t, s.data t = 0
  view : ∀ t, s.view t = 0
  votes : ∀ t, s.votes t = 0
  cand : ∀ t u, s.cand t u = 0
  rd : ∀ t u, s.rd t u = 0
  mark : ∀ t u, s.mark t u = 0
  inst : ∀ t, s.inst t = false
  ptime : ∀ t, s.ptime t = 0
  balance : ((Finset.range c.n).sum fun t => s.msgSend t) =
    (Finset.range c.n).sum fun t => s.msgRecv t + (s.queue t).length

end Verif.Term
