import Verif.Built

/-!
# Comparing two graphs, and graphs built from test events

`CheckGraphStructureEquality` (`graph/graph.go:401-420`), with which the tests agree the graph of a run on test events
(`DynamicGraphExecutionFromTestEvents`, `graph/algorithm.go:227-266`) with that of a run on a file.

Simplifications: a panic is a result that says which one it is. Log messages are left out. An index is the pair of thread
and index (C18). Of the edges of a vertex only their number is read.
-/

namespace Verif.SameGraph

open Verif.Pipeline (Params REv owner)
open Verif.Loader (Typ Ev)
open Verif.Props.EndToEnd (taken)

variable {E : Type}

/-- What the check reads of a graph: `NumThreads`, the vertex tables of the threads, `len(OutEdges)`. -/
structure G where
  T : Nat
  th : Nat → Pipeline.Th
  deg : Nat × Nat → Nat

/-- `NodeVertexCount` (`graph-vertex.go:164-170`). -/
def count (g : G) : Nat := ((List.range g.T).map fun t => (g.th t).verts.length).sum

/-- The order of `NodeForEachVertex` (`graph-vertex.go:174-185`). -/
def vertices (g : G) : List (Nat × Nat) := (List.range g.T).flatMap fun t => (List.range (g.th t).verts.length).map fun i => (t, i)

/-- `NodeVertexFromRaw` (`graph-vertex.go:110-115`). -/
def fromRaw (g : G) (raw : UInt32) : Option (Nat × Nat) := ((g.th (owner g.T raw)).vmap raw).map fun i => (owner g.T raw, i)

/-- How the check ends: it returns; it panics because of the counts of vertices (403), because of `g2v.OutEdges` of a
vertex that is not there (410), because of the numbers of edges (415). -/
inductive Res where
  | same
  | counts
  | missing (raw : UInt32)
  | edges (raw : UInt32)
  deriving DecidableEq, Repr

/-- The loop over the vertices of the first graph (406-417). -/
def agree (g1 g2 : G) : List (Nat × Nat) → Res
  | [] => .same
  | v :: vs =>
    match (g1.th v.1).verts[v.2]? with
    | none => .same
    | some x =>
      match fromRaw g2 x.raw with
      | none => .missing x.raw
      | some w => if g1.deg v ≠ g2.deg w then .edges x.raw else agree g1 g2 vs

/-- `CheckGraphStructureEquality` (401-420). -/
def check (g1 g2 : G) : Res := if count g1 ≠ count g2 then .counts else agree g1 g2 (vertices g1)

/-- The graph that threads have built: tables of `s`, edges of `S`. -/
def built (p : Params E) (s : Pipeline.St E) (S : Nat → Enact.Th E) : G := ⟨p.T, s.th, fun v => ((S v.1).verts v.2).length⟩

/-- A test event: `TypeAndEventIdx`, `SrcRaw`, `DstRaw`, `EdgeProperty` (`stream.go:60-65`). -/
structure TestEv (E : Type) where
  word : UInt64
  src : UInt32
  dst : UInt32
  prop : E

/-- `SendAdd`, `SendDel` (`stream.go:343-367`): event index 0, type as given; to the thread of the destination, then into
`order` (steps `emitPut`, `emitOrder` of `Verif/Pipeline.lean`). -/
def send (typ : Typ) (src dst : UInt32) (prop : E) : Ev E := ⟨typ, 0, src, dst, prop⟩

/-- What is sent for one test event (`algorithm.go:242-256`): nothing for types other than `ADD`, `DEL`; the other
direction with the same property. -/
def sendOne (undirected : Bool) (e : TestEv E) : List (Ev E) :=
  if e.word &&& 3 = 0 then send .add e.src e.dst e.prop :: if undirected then [send .add e.dst e.src e.prop] else []
  else if e.word &&& 3 = 1 then send .del e.src e.dst e.prop :: if undirected then [send .del e.dst e.src e.prop] else []
  else []

/-- The stream of `DynamicGraphExecutionFromTestEvents` (239-256). Then the queues are closed as by the emitter
(258-261). -/
def sent (undirected : Bool) (scs : List (TestEv E)) : List (Ev E) := scs.flatMap (sendOne undirected)

/-- A stream was emitted, the remitter has stopped, and the threads have applied all they were sent; `S t` is thread `t`
after that. `races`: may the race on closing `ToRemitQueue` have happened (`C52_statement_false`)? -/
structure Done (races : Prop) (p : Params E) (tm : E → UInt64 × UInt64) (o : Enact.Opts) (stream : List (Ev E)) (s : Pipeline.St E)
    (S : Nat → Enact.Th E) : Prop where
  threads : 0 < p.T
  run : ∃ bs, (¬ races → Pipeline.Act.remGiveUp ∉ bs) ∧ Pipeline.run p stream (Pipeline.start p) bs = some s
  stopped : s.rem = .stopped
  drained : ∀ t, t < p.T → s.topoN t = (s.topo t).length
  enacted : ∀ t, t < p.T → ∃ others slots cap zero bs, bs.flatten = taken tm s t ∧ (∀ b ∈ bs, b.length ≤ cap) ∧
    Enact.enactAll o others (Enact.start slots cap zero) bs = some (S t)

end Verif.SameGraph
