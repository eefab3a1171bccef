import Verif.AsyncSupport

/-!
# Synchronous execution

`ConvergeSync` (`graph/run-sync.go:17-50`) and `ConvergeSyncPrevOnly` (55-106), on a graph loaded
before, for an arbitrary algorithm. Callbacks and their programs are those of `Verif/Async.lean`; threads
interleave at every atomic operation within a parallel loop (`NodeParallelFor`,
`graph-vertex.go:194-209`), and wait for each other at its end.

Simplifications:
* `SendInitialMail` (`run-async.go:14-104`) treats the vertices in any order, each by its own thread.
* Claiming a slot of a queue and filling it is one step.
-/

namespace Verif.Sync

open Verif.Async (Edge Prog Alg Task)

/-- The run: vertices `0, …, n-1`, threads, owner of each vertex, the vertices of each thread in order
(`gt.Vertices`), initial mail, whether only mail of the previous iteration is used, and the size of
the notification queues (`graph.go:141`). -/
structure Cfg (M : Type) where
  n : Nat
  T : Nat
  own : Nat → Nat
  verts : Nat → List Nat
  initMail : Nat → Option M
  prev : Bool
  cap : Nat

/-- Every vertex is in the list of its owner, which is one of the threads. -/
structure Cfg.Ok {M : Type} (c : Cfg M) : Prop where
  mem : ∀ t v, v ∈ c.verts t ↔ v < c.n ∧ c.own v = t
  own : ∀ v, v < c.n → c.own v < c.T

/-- Before the first iteration (15-18, 56-59) / first parallel loop of an iteration of
`ConvergeSyncPrevOnly` (67-79) / the loop that visits (28-42, 80-93) / after the last iteration. -/
inductive Phase where
  | init | collect | visit | stopped
  deriving DecidableEq, Repr

/-- `pos t`: position of thread `t` in its loop over its vertices; `sent t`: what it has sent in this
loop (`tActivity`); `last`, `front`: `mailLast`, `frontier` (64-65), indexed by vertex; `queue t`:
targets of the notifications in the queue of thread `t`. -/
structure St (P M N E : Type) where
  prop : Nat → P
  edges : Nat → List (Edge E)
  inbox : Nat → M
  act : Nat → Int
  inited : Nat → Bool
  task : Nat → Task P M N E
  queue : Nat → List Nat
  phase : Phase
  pos : Nat → Nat
  sent : Nat → Nat
  last : Nat → M
  front : Nat → Bool
  iteration : Nat

variable {P M N E : Type}

def start (a : Alg P M N E) (es0 : Nat → List (Edge E)) : St P M N E :=
  { prop := fun _ => a.newP, edges := es0, inbox := fun _ => a.newM, act := fun _ => 0, inited := fun _ => false,
    task := fun _ => .idle, queue := fun _ => [], phase := .init, pos := fun _ => 0, sent := fun _ => 0,
    last := fun _ => a.newM, front := fun _ => false, iteration := 0 }

/-- `init t v`: thread `t` sends the initial mail of `v`; `scan t`: it looks at the next vertex in its
loop; `go t`: next step of its current callback; `barrier`: all threads have finished their loops. -/
inductive Act where
  | init (t v : Nat)
  | scan (t : Nat)
  | go (t : Nat)
  | barrier
  deriving DecidableEq, Repr

/-- Next step of a callback (as `Async.goStep`; notifications go to the queue of the target's thread, and
are counted by the sender). -/
def goStep (a : Alg P M N E) (c : Cfg M) (s : St P M N E) (t : Nat) : Task P M N E → Option (St P M N E)
  | .idle => none
  | .load v h =>
    let r := a.retrieve (s.inbox v) (s.prop v)
    let q := h (s.prop v) (s.edges v) r.2
    some { s with inbox := upd s.inbox v r.1, prop := upd s.prop v q.1, task := upd s.task t (.run v q.2) }
  | .run _ .done => some { s with task := upd s.task t .idle }
  | .run v (.post w m k) =>
    let r := a.merge m v (s.inbox w)
    if r.2 then some { s with inbox := upd s.inbox w r.1, task := upd s.task t (.cas v w k) }
    else some { s with inbox := upd s.inbox w r.1, task := upd s.task t (.run v (k false)) }
  | .run v (.send w n k) => some { s with act := upd s.act w (s.act w + 1), task := upd s.task t (.put v w n k) }
  | .cas v w k =>
    if s.act w = 0 then some { s with act := upd s.act w 1, task := upd s.task t (.put v w a.noNote (k true)) }
    else some { s with task := upd s.task t (.run v (k false)) }
  | .put v w _ k =>
    -- waits in `PutSlowMP` for room
    if (s.queue (c.own w)).length < c.cap then
      some { s with queue := upd s.queue (c.own w) (s.queue (c.own w) ++ [w]), sent := upd s.sent t (s.sent t + 1),
                    task := upd s.task t (.run v k) }
    else none

/-- All threads are done with their loops. -/
def atEnd (c : Cfg M) (s : St P M N E) : Bool :=
  (List.range c.T).all fun t => (s.task t).isIdle && decide (s.pos t = (c.verts t).length)

/-- All initial mail is sent. -/
def loaded (c : Cfg M) (s : St P M N E) : Bool :=
  ((List.range c.T).all fun t => (s.task t).isIdle) && (List.range c.n).all fun v => s.inited v

/-- Sum of the loop results (`activity`). -/
def activity (c : Cfg M) (s : St P M N E) : Nat := ((List.range c.T).map s.sent).sum

/-- Begin a parallel loop. -/
def loop (s : St P M N E) (p : Phase) : St P M N E :=
  { s with phase := p, pos := fun _ => 0, sent := fun _ => 0 }

def step (a : Alg P M N E) (c : Cfg M) (s : St P M N E) : Act → Option (St P M N E)
  | .init t v =>
    if s.phase = .init ∧ t < c.T ∧ v < c.n ∧ c.own v = t ∧ (s.task t).isIdle = true ∧ s.inited v = false then
      match c.initMail v with
      | some m =>
        let r := a.merge m v (s.inbox v)
        if r.2 then
          some { s with inited := upd s.inited v true, inbox := upd s.inbox v r.1,
                        task := upd s.task t (.load v fun p es m => a.onUpdate v p es a.noNote 0 m) }
        else some { s with inited := upd s.inited v true, inbox := upd s.inbox v r.1 }
      | none => some { s with inited := upd s.inited v true }
    else none
  | .scan t =>
    if t < c.T ∧ (s.task t).isIdle = true then
      match (c.verts t)[s.pos t]? with
      | none => none
      | some v =>
        match s.phase with
        | .collect =>
          -- 69-76; `Accept` discards a notification if there is one
          if s.act v = 1 then
            let r := a.retrieve (s.inbox v) (s.prop v)
            some { s with pos := upd s.pos t (s.pos t + 1), act := upd s.act v 0, queue := upd s.queue t (s.queue t).tail,
                          inbox := upd s.inbox v r.1, last := upd s.last v r.2, front := upd s.front v true }
          else some { s with pos := upd s.pos t (s.pos t + 1), act := upd s.act v 0 }
        | .visit =>
          if c.prev then
            -- 82-90
            if s.front v then
              let q := a.onUpdate v (s.prop v) (s.edges v) a.noNote 0 (s.last v)
              some { s with pos := upd s.pos t (s.pos t + 1), front := upd s.front v false, prop := upd s.prop v q.1,
                            task := upd s.task t (.run v q.2) }
            else some { s with pos := upd s.pos t (s.pos t + 1) }
          else
            -- 30-39
            if s.act v = 1 then
              some { s with pos := upd s.pos t (s.pos t + 1), act := upd s.act v 0, queue := upd s.queue t (s.queue t).tail,
                            task := upd s.task t (.load v fun p es m => a.onUpdate v p es a.noNote 0 m) }
            else some { s with pos := upd s.pos t (s.pos t + 1), act := upd s.act v 0 }
        | _ => none
    else none
  | .go t => if t < c.T then goStep a c s t (s.task t) else none
  | .barrier =>
    match s.phase with
    | .init => if loaded c s then some { loop s (if c.prev then .collect else .visit) with iteration := 1 } else none
    | .collect => if atEnd c s then some (loop s .visit) else none
    | .visit =>
      if atEnd c s then
        if activity c s = 0 then some { s with phase := .stopped }
        else some { loop s (if c.prev then .collect else .visit) with iteration := s.iteration + 1 }
      else none
    | .stopped => none

def run (a : Alg P M N E) (c : Cfg M) : St P M N E → List Act → Option (St P M N E)
  | s, [] => some s
  | s, x :: xs => (step a c s x).bind fun s' => run a c s' xs

end Verif.Sync
