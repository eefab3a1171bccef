import Verif.Util

/-!
# Queries while the graph is changing

The remitter (`stream.go:123-133`) stops at a query (`ExecuteQuery`, `graph.go:208-214`) until
`LogTimeSeries` (`queries.go:26-145`) has answered it. `LogTimeSeries` sends a command to every graph
thread (`Broadcast`, `graph.go:196-200`), waits for their acknowledgements (`AwaitAck`, 202-206), looks at
the graph, and sends `RESUME`. The threads are those of `ConvergeDynamicThread`
(`run-dynamic.go:125-347`) with `LogTimeseries` set (238-256 loops back after topology events).

One step is one operation on a channel, or one part of the loop of a thread. Vertex properties are
represented by one number per thread that changes whenever the thread processes a notification or an
event, notifications by their number.

Simplifications:
* An abstract termination check: a thread may find the algorithm terminated only if every thread has
  reached its own check in this phase (`ready`) and no notification is in flight. This is what C35 says of
  `CheckTermination` (which violates it if a thread is delayed between two stores, see C35).
* `Accept` on a topology queue fails if it is empty, or once after it has grown (`miss`, C99). Such a look does not
  lead to a vote (`votes`): the check that follows it is the first since the thread has acted, which only
  reports a new view (`termination.go:34-47`; `EventActions` counts), and the next look is truthful
  (`C04_deliverable_partial`). This is `C59_vote_empty` on a machine of its own (`Verif/Looks.lean`). `checkToRemit` is one step.
* No super-steps (`superstep.go`), no `TOP_SYNC` (not sent by anybody), `processAlg` is true (dynamic run).
-/

namespace Verif.Query

/-- What `LogTimeSeries` sends (`queries.go:68-79`). -/
inductive Mode where
  | epoch | blockAll | blockTop
  deriving DecidableEq, Repr

/-- `T` threads; event `i` of the stream belongs to thread `own i`; `len` events; `mustFinish`: the algorithm
has an `OnFinish`. -/
structure Cfg where
  T : Nat
  len : Nat
  own : Nat → Nat
  mode : Mode
  mustFinish : Bool

/-- `graph.go:185-194`. -/
inductive Cmd where
  | ask | resume
  deriving DecidableEq, Repr

/-- Place of a thread in its loop: `top` 160, `body` 176 (remit), `tops` 201 (topology), `alg` 272;
`ackAll`, `ackTop` 101, 108; `ackEpoch` 291; `parkAll`, `parkEpoch` 102, 293; `panic` 104, 295, 303. -/
inductive PC where
  | top | body | tops | alg | ackAll | ackTop | ackEpoch | parkAll | parkEpoch | panic | dead
  deriving DecidableEq, Repr

/-- Place of `LogTimeSeries`: 47, 71-77 to thread `i`, 75/78 from `i`, 95-99 and view of thread `i`
(102-121), 114 (hand over), 133 (reset), 134 to thread `i`. -/
inductive CPC where
  | idle | send (i : Nat) | await (i : Nat) | view (i : Nat) | hand | reset | resume (i : Nat)
  deriving DecidableEq, Repr

/-- What a query reports: after how many events it was asked, for each thread the events seen in its part
of the graph and its properties, and the counters. -/
structure Result where
  asked : Nat
  evs : Nat → List Nat
  prop : Nat → Nat
  num : Nat → Nat

/-- `queue`, `applied`: events in the topology queue of a thread and in its part of the graph; `notes`:
notifications for its vertices in flight; `remits`: events it has remitted (in-edge side of the graph);
`closed`, `strucClosed`, `remitClosed`: as in the code; `topZero`: `topCount == 0`; `waiting`: the remitter
is in `ExecuteQuery`; `buf`, `cur`: the counters in `currG`, `nextG` and which one is current; `fin`: what
`QueryFinishConcurrent` works on (next thread, buffer, query); `quiet` (ghost): termination was found in
this phase. -/
structure St where
  emitted : Nat
  waiting : Bool
  closed : Bool
  queue : Nat → List Nat
  grown : Nat → Bool
  applied : Nat → List Nat
  prop : Nat → Nat
  notes : Nat → Nat
  remits : Nat → Nat
  pc : Nat → PC
  cmd : Nat → Option Cmd
  resp : Nat → Bool
  epoch : Nat → Bool
  blockTop : Nat → Bool
  strucClosed : Nat → Bool
  remitClosed : Nat → Bool
  topZero : Nat → Bool
  ready : Nat → Bool
  quiet : Bool
  ctl : CPC
  part : Nat → List Nat × Nat
  buf : Bool → Nat → Nat
  cur : Bool
  fin : Option (Nat × Bool × Nat)
  fpart : Nat → List Nat × Nat
  log : List Result

def start : St :=
  { emitted := 0, waiting := false, closed := false, queue := fun _ => [], grown := fun _ => false, applied := fun _ => [], prop := fun _ => 0,
    notes := fun _ => 0, remits := fun _ => 0, pc := fun _ => .top, cmd := fun _ => none, resp := fun _ => false,
    epoch := fun _ => false, blockTop := fun _ => false, strucClosed := fun _ => false, remitClosed := fun _ => false,
    topZero := fun _ => true, ready := fun _ => false, quiet := false, ctl := .idle, part := fun _ => ([], 0),
    buf := fun _ _ => 0, cur := false, fin := none, fpart := fun _ => ([], 0), log := [] }

/-- `emit`, `grow`, `query`, `close`: the remitter passes on the next event, makes the queue of a thread grow
meanwhile (`PutSlow`), asks a query, or closes the topology queues; `ctl`: `LogTimeSeries`; `finish`: `QueryFinishConcurrent`; `poll t` … : the parts of the loop of
thread `t`; `out`: the threads that are sent notifications; `drop`: this was the last event to remit. -/
inductive Act where
  | emit | query | close | ctl | finish
  | grow (t : Nat)
  | poll (t : Nat)
  | ack (t : Nat)
  | wake (t : Nat)
  | remit (t k : Nat) (drop : Bool)
  | topology (t k : Nat) (out : List Nat)
  | miss (t : Nat)
  | alg (t k : Nat) (out : List Nat)
  | complete (t : Nat)
  deriving DecidableEq, Repr

/-- Send notifications. -/
def deliver (notes : Nat → Nat) (out : List Nat) : Nat → Nat := fun t => notes t + out.count t

/-- `run-dynamic.go:276-278`. -/
def checkTerm (s : St) (t : Nat) : Bool :=
  (s.strucClosed t && s.remitClosed t) || (s.epoch t && s.topZero t)

/-- The check of a thread leads to its vote: not after a look at a queue that has only grown. -/
def votes (s : St) (t : Nat) : Bool := checkTerm s t && (!s.epoch t || (s.queue t).isEmpty)

/-- `LogTimeSeries`. -/
def ctlStep (c : Cfg) (s : St) : Option St :=
  match s.ctl with
  | .idle => none
  | .send i =>
    if i < c.T then
      -- the command channel holds one command
      if s.cmd i = none then some { s with cmd := upd s.cmd i (some .ask), ctl := .send (i + 1) } else none
    else some { s with ctl := .await 0 }
  | .await i =>
    if i < c.T then
      if s.resp i = true then some { s with resp := upd s.resp i false, ctl := .await (i + 1) } else none
    else some { s with ctl := .view 0 }
  | .view i =>
    if i < c.T then
      some { s with part := upd s.part i (s.applied i, s.prop i),
                    buf := upd s.buf s.cur (upd (s.buf s.cur) i (s.applied i).length), ctl := .view (i + 1) }
    else if c.mustFinish then some { s with ctl := .hand }
    else
      -- `QueryFinalize`, 120
      some { s with log := s.log ++ [⟨s.emitted, fun t => (s.part t).1, fun t => (s.part t).2, s.buf s.cur⟩], ctl := .reset }
  | .hand =>
    -- an unbuffered channel: the other side must have finished the query before
    if s.fin = none then some { s with fin := some (0, s.cur, s.emitted), cur := !s.cur, ctl := .reset } else none
  | .reset => some { s with ready := fun _ => false, quiet := false, ctl := .resume 0 }
  | .resume i =>
    if i < c.T then
      if s.cmd i = none then some { s with cmd := upd s.cmd i (some .resume), ctl := .resume (i + 1) } else none
    else some { s with ctl := .idle, waiting := false }

/-- `QueryFinishConcurrent` (`queries.go:149-166`): `OnFinish` reads the properties of each vertex from the
graph itself (`*writeProp = *originProp`, `pagerank.go:203-206`) and the edges through a shallow copy (108). -/
def finishStep (c : Cfg) (s : St) : Option St :=
  match s.fin with
  | none => none
  | some (i, b, q) =>
    if i < c.T then some { s with fpart := upd s.fpart i (s.applied i, s.prop i), fin := some (i + 1, b, q) }
    else some { s with log := s.log ++ [⟨q, fun t => (s.fpart t).1, fun t => (s.fpart t).2, s.buf b⟩], fin := none }

/-- `checkCommandsDynamic` (98-123). -/
def pollStep (c : Cfg) (s : St) (t : Nat) : Option St :=
  match s.cmd t with
  | none => some { s with pc := upd s.pc t .body }
  | some .resume => some { s with cmd := upd s.cmd t none, blockTop := upd s.blockTop t false, pc := upd s.pc t .body }
  | some .ask =>
    match c.mode with
    | .epoch => some { s with cmd := upd s.cmd t none, epoch := upd s.epoch t true, pc := upd s.pc t .body }
    | .blockAll => some { s with cmd := upd s.cmd t none, pc := upd s.pc t .ackAll }
    | .blockTop => some { s with cmd := upd s.cmd t none, blockTop := upd s.blockTop t true, pc := upd s.pc t .ackTop }

def step (c : Cfg) (s : St) : Act → Option St
  | .emit =>
    if s.waiting = false ∧ s.emitted < c.len then
      some { s with queue := upd s.queue (c.own s.emitted) (s.queue (c.own s.emitted) ++ [s.emitted]), emitted := s.emitted + 1 }
    else none
  | .grow t => if s.waiting = false ∧ s.closed = false then some { s with grown := upd s.grown t true } else none
  | .query =>
    -- only after an event
    if s.waiting = false ∧ s.closed = false ∧ 0 < s.emitted ∧ s.ctl = .idle then some { s with waiting := true, ctl := .send 0 } else none
  | .close => if s.waiting = false ∧ s.emitted = c.len then some { s with closed := true } else none
  | .ctl => ctlStep c s
  | .finish => finishStep c s
  | .poll t => if t < c.T ∧ s.pc t = .top then pollStep c s t else none
  | .ack t =>
    -- the response channel holds one acknowledgement
    if t < c.T ∧ s.resp t = false then
      match s.pc t with
      | .ackAll => some { s with resp := upd s.resp t true, pc := upd s.pc t .parkAll }
      | .ackTop => some { s with resp := upd s.resp t true, pc := upd s.pc t .body }
      | .ackEpoch => some { s with resp := upd s.resp t true, pc := upd s.pc t .parkEpoch }
      | _ => none
    else none
  | .wake t =>
    if t < c.T then
      match s.pc t, s.cmd t with
      | .parkAll, some .resume => some { s with cmd := upd s.cmd t none, pc := upd s.pc t .body }
      | .parkAll, some .ask => some { s with cmd := upd s.cmd t none, pc := upd s.pc t .panic }
      | .parkEpoch, some .resume => some { s with cmd := upd s.cmd t none, epoch := upd s.epoch t false, pc := upd s.pc t .top }
      | .parkEpoch, some .ask => some { s with cmd := upd s.cmd t none, pc := upd s.pc t .panic }
      | _, _ => none
    else none
  | .remit t k drop =>
    if t < c.T ∧ s.pc t = .body then
      if s.epoch t = false ∧ s.remitClosed t = false ∧ s.blockTop t = false then
        some { s with remits := upd s.remits t (s.remits t + k), remitClosed := upd s.remitClosed t drop, pc := upd s.pc t .tops }
      else some { s with pc := upd s.pc t .tops }
    else none
  | .topology t k out =>
    if t < c.T ∧ s.pc t = .tops then
      if s.strucClosed t = false ∧ s.blockTop t = false then
        if k = 0 then
          -- `Accept` fails
          if s.queue t = [] then
            some { s with topZero := upd s.topZero t true, strucClosed := upd s.strucClosed t s.closed, pc := upd s.pc t .alg }
          else none
        else if k ≤ (s.queue t).length then
          some { s with applied := upd s.applied t (s.applied t ++ (s.queue t).take k), queue := upd s.queue t ((s.queue t).drop k),
                        prop := upd s.prop t (s.prop t + k), notes := deliver s.notes out, topZero := upd s.topZero t false,
                        pc := upd s.pc t .top }
        else none
      else some { s with pc := upd s.pc t .alg }
    else none
  | .miss t =>
    -- `Accept` finds that the queue has grown (`ring-buffer.go:509-513`); `IsClosed` is false, as there are events (208)
    if t < c.T ∧ s.pc t = .tops ∧ s.strucClosed t = false ∧ s.blockTop t = false ∧ s.queue t ≠ [] ∧ s.grown t = true then
      some { s with topZero := upd s.topZero t true, grown := upd s.grown t false, pc := upd s.pc t .alg }
    else none
  | .alg t k out =>
    if t < c.T ∧ s.pc t = .alg ∧ k ≤ s.notes t then
      if k = 0 then some { s with ready := if votes s t then upd s.ready t true else s.ready, pc := upd s.pc t .top }
      else some { s with notes := deliver (upd s.notes t (s.notes t - k)) out, prop := upd s.prop t (s.prop t + k), pc := upd s.pc t .top }
    else none
  | .complete t =>
    if t < c.T ∧ s.pc t = .alg ∧ votes s t = true ∧ (∀ u < c.T, (s.ready u = true ∨ u = t) ∧ s.notes u = 0) then
      let r := upd s.ready t true
      if s.epoch t = true then some { s with ready := r, quiet := true, pc := upd s.pc t .ackEpoch }
      else if s.blockTop t = true then some { s with ready := r, quiet := true, pc := upd s.pc t .panic }
      else some { s with ready := r, quiet := true, pc := upd s.pc t .dead }
    else none

def run (c : Cfg) : St → List Act → Option St
  | s, [] => some s
  | s, x :: xs => (step c s x).bind fun s' => run c s' xs

end Verif.Query
