import Verif.Async
import Verif.Terminate

/-!
# The asynchronous engine: an algorithm and the detection of its end

`Verif/Async.lean` says what callbacks do, `Verif/Terminate.lean` how the threads find out that there is nothing
left to do. This machine runs both together: `ConvergeAsyncThread` (`graph/run-async.go:198-243`) and the part of
`ConvergeDynamicThread` (`graph/run-dynamic.go:160-340`) that receives, processes and checks. The queues of the
second machine carry the notifications of the first: a vertex and its note.

The simplifications are those of the two machines. Working on topology events is any number of `init`, `add` and
`del` actions of the first machine between the beginning and the end of a batch of events of the second.
-/

namespace Verif.Engine

open Verif.Async (Alg Edge Prog Task)

/-- `term`: state of the loops, queues and counters; `alg`: state of the algorithm; `queue t`, `buff t`: the
contents of `NotificationQueue` and `NotificationBuff` of thread `t` (`graph.go:74-76`), the former with the
positions they occupy; `hand t`: what is left of `Notifications` (`graph.go:77`), the batch in hand. -/
structure St (P M N E : Type) where
  term : Term.St
  alg : Async.St P M N E
  queue : Nat → List (Term.Slot × Nat × N)
  buff : Nat → List (Nat × N)
  hand : Nat → List (Nat × N)

/-- `loop`: a step that does not touch the algorithm; `take t i`: thread `t` begins with the next notification of
its batch (`i`: its place among the outstanding notifications of its vertex); `topo`: a topology event begins to
take effect; `work t`: the callback goes on; `claim t`, `fill t`: sending a notification. -/
inductive Act (E : Type) where
  | loop (x : Term.Act)
  | take (t i : Nat)
  | topo (x : Async.Act E)
  | work (t : Nat)
  | claim (t : Nat)
  | fill (t : Nat)

variable {P M N E : Type}

def isIdle : Task P M N E → Bool
  | .idle => true
  | _ => false

/-- Thread and vertex of a topology event. -/
def topoThread : Async.Act E → Option Nat
  | .init t _ | .add t _ _ | .del t _ _ => some t
  | _ => none

/-- The batch is done. -/
def batchDone (s : St P M N E) (t : Nat) : Term.PC → Bool
  | .work .msgs _ _ _ => isIdle (s.alg.task t) && (s.hand t).isEmpty
  | .work .. => isIdle (s.alg.task t)
  | .put .. => false
  | _ => true

/-- Where notifications go when a thread receives (`ReceiveMessages`, `run-async.go:109-148`). -/
def move (max : Nat) (s : St P M N E) (t : Nat) : Term.PC → St P M N E
  | .pullB k =>
    match s.buff t with
    | m :: rest => if k < max then { s with buff := upd s.buff t rest, hand := upd s.hand t (s.hand t ++ [m]) } else s
    | [] => s
  | .pullQ k =>
    match s.queue t with
    | (sl, m) :: rest => if k < max ∧ sl.full = true then { s with queue := upd s.queue t rest, hand := upd s.hand t (s.hand t ++ [m]) } else s
    | [] => s
  | .drain _ =>
    match s.queue t with
    | (sl, m) :: rest => if sl.full = true then { s with queue := upd s.queue t rest, buff := upd s.buff t (s.buff t ++ [m]) } else s
    | [] => s
  | _ => s

def step [DecidableEq N] (a : Alg P M N E) (c : Async.Cfg M N) (max : Nat) (s : St P M N E) : Act E → Option (St P M N E)
  | .loop x =>
    match x with
    | .go t =>
      if batchDone s t (s.term.pc t) then
        (Term.step ⟨c.T, max⟩ s.term (.go t)).map fun τ => { move max s t (s.term.pc t) with term := τ }
      else none
    | .send _ _ => none
    | .cont t => if isIdle (s.alg.task t) then (Term.step ⟨c.T, max⟩ s.term (.cont t)).map fun τ => { s with term := τ } else none
    | x => (Term.step ⟨c.T, max⟩ s.term x).map fun τ => { s with term := τ }
  | .take t i =>
    -- `ProcessMessages` (`run-async.go:156-161`)
    match s.term.pc t, s.hand t with
    | .work .msgs _ _ _, (v, n) :: rest =>
      if (s.alg.pend v)[i]? = some n then
        (Async.step a c s.alg (.recv t v i)).map fun α => { s with alg := α, hand := upd s.hand t rest }
      else none
    | _, _ => none
  | .topo x =>
    -- `EnactTopologyEvents` (`stream-enact-events.go:196-402`)
    match topoThread x with
    | none => none
    | some t =>
      match s.term.pc t with
      | .work .msgs _ _ _ => none
      | .work _ _ _ _ => (Async.step a c s.alg x).map fun α => { s with alg := α }
      | _ => none
  | .work t =>
    match s.term.pc t, s.alg.task t with
    | .work _ _ _ _, .put _ _ _ _ => none
    | .work _ _ _ _, _ => (Async.step a c s.alg (.go t)).map fun α => { s with alg := α }
    | _, _ => none
  | .claim t =>
    -- `PutFastMP` / `PutSlowMP`: claiming a position (`utils/ring-buffer.go`)
    match s.alg.task t with
    | .put _ w n _ =>
      (Term.step ⟨c.T, max⟩ s.term (.send t (c.own w))).map fun τ =>
        { s with term := τ, queue := upd s.queue (c.own w) (s.queue (c.own w) ++ [(⟨t, s.term.acts t, false⟩, w, n)]) }
    | _ => none
  | .fill t =>
    match s.term.pc t, s.alg.task t with
    | .put _ _ _ _ q, .put _ _ _ _ =>
      (Term.step ⟨c.T, max⟩ s.term (.go t)).bind fun τ => (Async.step a c s.alg (.go t)).map fun α =>
        { s with term := τ, alg := α, queue := upd s.queue q ((s.queue q).map fun x => if x.1.src = t then ({ x.1 with full := true }, x.2) else x) }
    | _, _ => none

def run [DecidableEq N] (a : Alg P M N E) (c : Async.Cfg M N) (max : Nat) : St P M N E → List (Act E) → Option (St P M N E)
  | s, [] => some s
  | s, x :: xs => (step a c max s x).bind fun s' => run a c max s' xs

/-- The topology events of a run, in order. -/
def topos (xs : List (Act E)) : List (Async.Act E) := xs.filterMap fun x => match x with
  | .topo y => some y
  | _ => none

/-- The topology events of a run of the algorithm, in order. -/
def changes (ys : List (Async.Act E)) : List (Async.Act E) := ys.filter fun y => (topoThread y).isSome

end Verif.Engine
