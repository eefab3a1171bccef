import Verif.Loader

/-!
# The construction pipeline: emitter, graph threads, remitter

`graph/stream.go:85-245`, `graph/stream-enact-events.go:15-118, 210-222`,
`graph/run-dynamic.go:174-224`, `graph/graph.go:208-214`.

Every event visits the thread of its destination (which knows or creates the destination vertex
and hands out the in-edge position), then the remitter, then the thread of its source. The
emitter records in the queue `order` which destination thread comes next.

Simplifications:
* The stream that the emitter presents is a fixed list (C21, C22 say which).
* The queues are lists that keep everything ever put, plus the number of items taken; that they
  are first-in first-out and lose nothing is C01, C48. Each has a capacity; a put into a full
  queue blocks. For the growing queues the capacity is the final one, after all growths.
* The graph threads' `GetSlow` on the queues `order` and `FromEmitQueue` (growable) report closed
  only when everything was received (C48). `ToRemitQueue` is the simple queue, whose blocking
  receive makes two separate tests - empty? then closed? - so here too these are two steps.
* An internal id is the pair of thread and index; C18 shows that the 32-bit encoding is injective
  for fewer than 2^27 vertices per thread. In-edge positions are naturals (`uint32` in the code);
  `none` is `^uint32(0)`.
* A graph thread takes source events one at a time; the code takes a batch, during which it does
  not run `checkToRemit` (fewer schedules). What is done with the edge lists is in
  `Verif/Enact.lean`. The callbacks into the algorithm are left out.
* A query waits until every thread has applied the events it was sent: with convergence (`EPOCH`),
  a thread answers only when its topology queue is empty (`run-dynamic.go:277-280`).
-/

namespace Verif.Pipeline

open Verif.Loader (Typ Ev)

variable {E : Type}

/-- `RawEdgeEvent` (`stream.go:68-73`): the event with destination id and position. -/
structure REv (E : Type) where
  typ : Typ
  idx : Nat
  src : UInt32
  dst : UInt32
  prop : E
  didx : Nat × Nat
  pos : Option Nat
  deriving DecidableEq, Repr

/-- `VertexStructure` (`graph-vertex.go:10-15`) without `PendingIdx`. -/
structure Vx where
  raw : UInt32
  createEvent : Nat
  inPos : Nat
  deriving DecidableEq, Repr

/-- The vertex tables of a graph thread: `VertexMap` and `VertexStructures`. -/
structure Th where
  vmap : UInt32 → Option Nat
  verts : List Vx

/-- `NewVertex` (`stream-enact-events.go:15-40`): new index and tables. -/
def newVertex (th : Th) (raw : UInt32) (eventIdx : Nat) : Th × Nat :=
  ({ vmap := upd th.vmap raw (some th.verts.length), verts := th.verts ++ [⟨raw, eventIdx, 0⟩] }, th.verts.length)

/-- Look a raw id up, creating it if unknown (96-98, 217-219). -/
def lookup (th : Th) (raw : UInt32) (eventIdx : Nat) : Th × Nat :=
  match th.vmap raw with
  | some i => (th, i)
  | none => newVertex th raw eventIdx

/-- The loop body of `checkToRemit` (93-112) on thread `t`. -/
def convert (t : Nat) (th : Th) (e : Ev E) : Option (Th × REv E) :=
  let (th, i) := lookup th e.dst e.idx
  match e.typ with
  | .add =>
    match th.verts[i]? with
    | none => none
    | some v =>
      some ({ th with verts := th.verts.set i { v with inPos := v.inPos + 1 } },
        { typ := e.typ, idx := e.idx, src := e.src, dst := e.dst, prop := e.prop, didx := (t, i), pos := some v.inPos })
  | .del =>
    some (th, { typ := e.typ, idx := e.idx, src := e.src, dst := e.dst, prop := e.prop, didx := (t, i), pos := none })

/-- Where the remitter is in its loop (105-148). -/
inductive Rem (E : Type) where
  | idle
  | want (t : Nat)
  | sawEmpty (t : Nat)
  | hold (e : REv E)
  | querying
  | stopped

/-- Constants of a run: threads, queue capacities, query interval (`none`: no time series by
event count), and the zero value of the edge property. -/
structure Params (E : Type) where
  T : Nat
  capFrom : Nat
  capOrder : Nat
  capTo : Nat
  capTop : Nat
  interval : Option Nat
  zero : E

/-- The thread a raw id belongs to: `Within` (`stream-parse.go:13-15`). -/
def owner (T : Nat) (raw : UInt32) : Nat := raw.toNat % T

structure St (E : Type) where
  emitted : Nat
  ordered : Nat
  /-- how many of the queues `FromEmitQueue[0..T-1]`, `order` the emitter has closed (238-242) -/
  closing : Nat
  fe : Nat → List (Ev E)
  feN : Nat → Nat
  ord : List Nat
  ordN : Nat
  tr : Nat → List (REv E)
  trN : Nat → Nat
  trClosed : Nat → Bool
  rem : Rem E
  /-- everything the remitter has put into topology queues, in order (its length is `remitted`) -/
  remitted : List (REv E)
  nextTarget : Nat
  /-- for each query: `remitted` and how many events each thread had applied -/
  queries : List (Nat × List Nat)
  topo : Nat → List (REv E)
  topoN : Nat → Nat
  th : Nat → Th
  /-- per thread: the events applied, with the index of the source vertex -/
  enacted : Nat → List (Nat × REv E)

def start (p : Params E) : St E :=
  { emitted := 0, ordered := 0, closing := 0, fe := fun _ => [], feN := fun _ => 0, ord := [], ordN := 0,
    tr := fun _ => [], trN := fun _ => 0, trClosed := fun _ => false, rem := .idle, remitted := [],
    nextTarget := p.interval.getD 0, queries := [], topo := fun _ => [], topoN := fun _ => 0,
    th := fun _ => { vmap := fun _ => none, verts := [] }, enacted := fun _ => [] }

/-- `emitPut`/`emitOrder`/`emitClose`: emitter (196-204, 238-242); `convert t`: thread `t` passes
one event (94-112); `threadClose t`: it saw its `FromEmitQueue` closed and drained and closes its
`ToRemitQueue` (`run-dynamic.go:178-184`); `rem...`: remitter; `enact t`: thread `t` applies one
event from its `TopologyQueue`. -/
inductive Act where
  | emitPut
  | emitOrder
  | emitClose
  | convert (t : Nat)
  | threadClose (t : Nat)
  | remTake
  | remStop
  | remGet
  | remLook
  | remRetry
  | remGiveUp
  | remPut
  | remQuery
  | enact (t : Nat)
  deriving DecidableEq, Repr

/-- The event that a receive from a closed, empty queue returns: all fields zero (type `ADD`).
`stream.go:112` ignores that the receive reported "closed". -/
def zeroEv (p : Params E) : REv E :=
  { typ := .add, idx := 0, src := 0, dst := 0, prop := p.zero, didx := (0, 0), pos := some 0 }

def step (p : Params E) (stream : List (Ev E)) (s : St E) : Act → Option (St E)
  | .emitPut =>
    match stream[s.emitted]? with
    | none => none
    | some e =>
      let t := owner p.T e.dst
      if s.emitted = s.ordered ∧ (s.fe t).length - s.feN t < p.capFrom then
        some { s with emitted := s.emitted + 1, fe := upd s.fe t (s.fe t ++ [e]) }
      else none
  | .emitOrder =>
    match stream[s.ordered]? with
    | none => none
    | some e =>
      if s.emitted = s.ordered + 1 ∧ s.ord.length - s.ordN < p.capOrder then
        some { s with ordered := s.ordered + 1, ord := s.ord ++ [owner p.T e.dst] }
      else none
  | .emitClose =>
    if s.emitted = stream.length ∧ s.ordered = stream.length ∧ s.closing < p.T + 1 then
      some { s with closing := s.closing + 1 }
    else none
  | .convert t =>
    if t < p.T ∧ (s.tr t).length - s.trN t < p.capTo then
      match (s.fe t)[s.feN t]? with
      | none => none
      | some e =>
        match convert t (s.th t) e with
        | none => none
        | some (th, r) =>
          some { s with feN := upd s.feN t (s.feN t + 1), th := upd s.th t th, tr := upd s.tr t (s.tr t ++ [r]) }
    else none
  | .threadClose t =>
    if t < p.T ∧ t < s.closing ∧ s.feN t = (s.fe t).length then
      some { s with trClosed := upd s.trClosed t true }
    else none
  | .remTake =>
    match s.rem, s.ord[s.ordN]? with
    | .idle, some t => some { s with ordN := s.ordN + 1, rem := .want t }
    | _, _ => none
  | .remStop =>
    match s.rem with
    | .idle => if s.closing = p.T + 1 ∧ s.ordN = s.ord.length then some { s with rem := .stopped } else none
    | _ => none
  | .remGet =>
    match s.rem with
    | .want t =>
      match (s.tr t)[s.trN t]? with
      | none => none
      | some r => some { s with trN := upd s.trN t (s.trN t + 1), rem := .hold r }
    | _ => none
  | .remLook =>
    match s.rem with
    | .want t => if s.trN t = (s.tr t).length then some { s with rem := .sawEmpty t } else none
    | _ => none
  | .remRetry =>
    match s.rem with
    | .sawEmpty t => if s.trClosed t = false then some { s with rem := .want t } else none
    | _ => none
  | .remGiveUp =>
    match s.rem with
    | .sawEmpty t => if s.trClosed t = true then some { s with rem := .hold (zeroEv p) } else none
    | _ => none
  | .remPut =>
    match s.rem with
    | .hold r =>
      let t := owner p.T r.src
      if (s.topo t).length - s.topoN t < p.capTop then
        let s := { s with topo := upd s.topo t (s.topo t ++ [r]), remitted := s.remitted ++ [r] }
        match p.interval with
        | none => some { s with rem := .idle }
        | some k =>
          if s.remitted.length ≥ s.nextTarget then
            some { s with rem := .querying, nextTarget := s.nextTarget + k }
          else some { s with rem := .idle }
      else none
    | _ => none
  | .remQuery =>
    match s.rem with
    | .querying =>
      if (List.range p.T).all (fun t => decide (s.topoN t = (s.topo t).length)) then
        some { s with rem := .idle, queries := s.queries ++ [(s.remitted.length, (List.range p.T).map s.topoN)] }
      else none
    | _ => none
  | .enact t =>
    if t < p.T then
      match (s.topo t)[s.topoN t]? with
      | none => none
      | some r =>
        let (th, i) := lookup (s.th t) r.src r.idx
        some { s with topoN := upd s.topoN t (s.topoN t + 1), th := upd s.th t th, enacted := upd s.enacted t (s.enacted t ++ [(i, r)]) }
    else none

/-- A schedule. -/
def run (p : Params E) (stream : List (Ev E)) : St E → List Act → Option (St E)
  | s, [] => some s
  | s, a :: as => (step p stream s a).bind fun s' => run p stream s' as

/-- `NodeVertexFromRaw` (`graph-vertex.go:115-120`): the id of a raw vertex. -/
def fromRaw (p : Params E) (s : St E) (raw : UInt32) : Option (Nat × Nat) :=
  ((s.th (owner p.T raw)).vmap raw).map fun i => (owner p.T raw, i)

/-- `NodeVertexRawID` (`graph-vertex.go:156-159`). -/
def rawId (s : St E) (id : Nat × Nat) : Option UInt32 := ((s.th id.1).verts[id.2]?).map Vx.raw

end Verif.Pipeline
