import Verif.AsyncSupport

/-!
# Notification queues of bounded size

`Verif/Async.lean` lets a notification be put at any time. Here the queue of each thread holds at most
`cap` notifications (`graph.go:125-141`: a ring buffer allocated once, of
`BASE_SIZE * 2^m * (THREAD_MAX / NumThreads)` entries); `EnsureSend` (`algorithm.go:61-74`) waits in
`PutSlowMP` (`ring-buffer.go:355-365`) until there is room. Only the owner of the queue takes from it
(`ReceiveMessages`, `run-async.go:109-148`), between callbacks.

Simplifications: claiming a slot and filling it is one step (C03); the back-pressure buffer and the
bundle of notifications being processed are one collection, `held`.
-/

namespace Verif.SendCapacity

open Verif.Async (Edge Prog Alg Task Cfg)

/-- `queue t`: targets of the notifications in the queue of thread `t`; `held t`: those it has taken out
and not processed (`gt.Notifications`, `gt.NotificationBuff`). -/
structure St (P M N E : Type) where
  base : Async.St P M N E
  queue : Nat → List Nat
  held : Nat → List Nat

variable {P M N E : Type}

def start (a : Alg P M N E) (es0 : Nat → List (Edge E)) : St P M N E :=
  { base := Async.start a es0, queue := fun _ => [], held := fun _ => [] }

/-- `pull t`: thread `t` takes the next notification out of its queue (`ReceiveMessages`). -/
inductive Act (E : Type) where
  | pull (t : Nat)
  | base (x : Async.Act E)

/-- The target of the notification that is about to be put. -/
def target : Task P M N E → Option Nat
  | .put _ w _ _ => some w
  | _ => none

def step (a : Alg P M N E) (c : Cfg M N) (cap : Nat) (s : St P M N E) : Act E → Option (St P M N E)
  | .pull t =>
    -- `run-async.go:124-130, 138-145`
    if t < c.T ∧ (s.base.task t).isIdle = true then
      match s.queue t with
      | [] => none
      | w :: q => some { s with queue := upd s.queue t q, held := upd s.held t (s.held t ++ [w]) }
    else none
  | .base (.go t) =>
    match target (s.base.task t) with
    | some w =>
      -- `PutFastMP` or, until there is room, `PutSlowMP`
      if (s.queue (c.own w)).length < cap then
        (Async.step a c s.base (.go t)).map fun b => { s with base := b, queue := upd s.queue (c.own w) (s.queue (c.own w) ++ [w]) }
      else none
    | none => (Async.step a c s.base (.go t)).map fun b => { s with base := b }
  | .base (.recv t v i) =>
    -- `ProcessMessages` (`run-async.go:152-162`)
    if v ∈ s.held t then
      (Async.step a c s.base (.recv t v i)).map fun b => { s with base := b, held := upd s.held t ((s.held t).erase v) }
    else none
  | .base x => (Async.step a c s.base x).map fun b => { s with base := b }

def run (a : Alg P M N E) (c : Cfg M N) (cap : Nat) : St P M N E → List (Act E) → Option (St P M N E)
  | s, [] => some s
  | s, x :: xs => (step a c cap s x).bind fun s' => run a c cap s' xs

/-- The vertices of thread `t`. -/
def mine (c : Cfg M N) (n t : Nat) : List Nat := (List.range n).filter fun v => decide (c.own v = t)

end Verif.SendCapacity
