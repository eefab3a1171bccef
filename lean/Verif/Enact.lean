import Verif.Loader
import Verif.Util
import Verif.StableSort

/-!
# Applying topology events to the edge lists

Source: `/repo/graph/stream-enact-events.go` (`InjectExpired` 121-185, `checkInsertPending` 188-207,
`EnactTopologyEvents` 210-402), `/repo/graph/graph-edge.go` (17-21), `/repo/graph/graph.go` (92-105,
136-151).

One graph thread applies batches of events to the edge lists of its own vertices. Simplifications:

* vertices are named by their index inside the thread; the batch carries the index of the source
  (the lookup of 217-219 is part of `Verif.Pipeline`);
* the algorithm's callbacks (`OnEdgeAdd` 258, `OnEdgeDel` 386) are recorded in `calls`, with the
  edges they are told about; what they send is not modelled here;
* edge properties are a timestamp, an end time and other data. `CheckAssumptions`
  (`algorithm.go:269-284`) tries whether timestamps (end times) can be replaced if they are read or counted. It does not for a
  window without timestamps, so with `window` it is an assumption here that the type stores them (C102);
* the log messages are left out. `g.warnSelectDelete` is shared by all threads and only ever goes
  from 0 to 1: `others n` says whether some other thread has set it before this thread's `n`-th run
  of deletes ends;
* `g.warnOutOfOrderInput` is set only just before a panic (142-147), so the sort of 154-159 never
  runs;
* `sort.SliceStable` is `Verif.stableSort`;
* `none` is a panic.
-/

namespace Verif.Enact

open Verif.Loader (Typ)

variable {D : Type}

/-- `Edge` (`graph-edge.go:17-21`). -/
structure Edge (D : Type) where
  didx : Nat × Nat
  pos : UInt32
  ts : UInt64
  endT : UInt64
  data : D
  deriving DecidableEq, Repr

/-- What is used of `RawEdgeEvent` here: type and edge. -/
structure Change (D : Type) where
  typ : Typ
  edge : Edge D
  deriving DecidableEq, Repr

/-- `Options.TimeRange`, `canCheckTimestamp` (212), `delOnExpire`. -/
structure Opts where
  timeRange : Bool
  canTs : Bool
  window : UInt64

/-- `1 << 31` (287). -/
def posFlag : UInt32 := 0x80000000
/-- `1 << 63` (321). -/
def timeFlag : UInt64 := 0x8000000000000000

/-- `Pos & (1<<31) != 0` (281, 295). -/
def Edge.marked (e : Edge D) : Bool := (e.pos &&& posFlag) != 0
/-- `Pos |= (1 << 31)` (287, 296). -/
def Edge.mark (e : Edge D) : Edge D := { e with pos := e.pos ||| posFlag }
/-- `Pos &= (1 << 31) - 1` (350). -/
def Edge.unmark (e : Edge D) : Edge D := { e with pos := e.pos &&& (posFlag - 1) }

/-- The linear search (294-301): flag the first unflagged edge to `d`. -/
def searchMark (d : Nat × Nat) : List (Edge D) → Option (List (Edge D) × Nat)
  | [] => none
  | e :: es =>
    if e.didx = d ∧ e.marked = false then some (e.mark :: es, 0)
    else (searchMark d es).map fun r => (e :: r.1, r.2 + 1)

/-- State of a run of deletes: `src.OutEdges`, `deleteIdx`, `deleteEdgesIdx`, `warnSelectDelete`. -/
structure DelSt (D : Type) where
  edges : List (Edge D)
  k : Nat
  idxs : List Nat
  warn : Bool

/-- One delete (278-311). -/
def delOne (s : DelSt D) (d : Nat × Nat) : Option (DelSt D) :=
  match s.edges[s.k]? with
  | none => none
  | some e =>
    if e.didx = d ∧ e.marked = false then
      some { s with edges := s.edges.set s.k e.mark, k := s.k + 1, idxs := s.idxs ++ [s.k] }
    else
      match searchMark d s.edges with
      | none => none
      | some (es, i) => some { edges := es, k := s.k + 1, idxs := s.idxs ++ [i], warn := true }

/-- The loop over a run of deletes (276-315). -/
def delRun (s : DelSt D) : List (Change D) → Option (DelSt D)
  | [] => some s
  | c :: cs => (delOne s c.edge.didx).bind fun s' => delRun s' cs

/-- Flag the times of the edges to delete (320-323). -/
def flagTimes (es : List (Edge D)) : List Nat → List (Edge D)
  | [] => es
  | i :: is => flagTimes (es.modify i (fun e => { e with ts := e.ts ||| timeFlag })) is

/-- The end of a run of deletes (316-351): remaining edges and deleted edges. -/
def finish (canTs warn : Bool) (s : DelSt D) : List (Edge D) × List (Edge D) :=
  if warn = false then
    (s.edges.drop s.k, (s.edges.take s.k).map Edge.unmark)
  else if canTs then
    let es := stableSort (fun a b => decide (a.ts ≤ b.ts)) (flagTimes s.edges s.idxs)
    (es.take (es.length - s.k),
      ((es.drop (es.length - s.k)).map (fun e => { e with ts := e.ts &&& (timeFlag - 1) })).map Edge.unmark)
  else
    let es := stableSort (fun a b => decide (a.pos &&& posFlag ≤ b.pos &&& posFlag)) s.edges
    (es.take (es.length - s.k), (es.drop (es.length - s.k)).map Edge.unmark)

/-- Skip edges that have ended (360-362). -/
def skipEnded (es : List (Edge D)) (k : Nat) : Option Nat :=
  match h : es[k]? with
  | none => none
  | some e => if e.endT = 0 then some k else skipEnded es (k + 1)
termination_by es.length - k
decreasing_by have := List.getElem?_eq_some_iff.1 h; obtain ⟨h, -⟩ := this; omega

/-- The linear search of time range mode (374-381). -/
def searchEnd (c : Edge D) : List (Edge D) → Option (List (Edge D) × Edge D)
  | [] => none
  | e :: es =>
    if e.didx = c.didx ∧ e.endT = 0 ∧ e.ts = c.ts then some ({ e with endT := c.endT } :: es, { e with endT := c.endT })
    else (searchEnd c es).map fun r => (e :: r.1, r.2)

/-- A run of deletes in time range mode (353-389): edges, `deleteIdx`, ended edges. -/
def rangeRun (es : List (Edge D)) (k : Nat) (del : List (Edge D)) : List (Change D) → Option (List (Edge D) × List (Edge D))
  | [] => some (es, del)
  | c :: cs =>
    match skipEnded es k with
    | none => none
    | some k =>
      match es[k]? with
      | none => none
      | some e =>
        if e.didx = c.edge.didx then
          rangeRun (es.set k { e with endT := c.edge.endT }) (k + 1) (del ++ [{ e with endT := c.edge.endT }]) cs
        else
          match searchEnd c.edge es with
          | none => none
          | some (es', e') => rangeRun es' k (del ++ [e']) cs

/-- A callback of the algorithm. -/
inductive Call (D : Type) where
  | add (es : List (Edge D))
  | del (es : List (Edge D))
  deriving DecidableEq, Repr

/-- Edge list of one vertex, callbacks so far, `warnSelectDelete`, runs of deletes so far. -/
structure VSt (D : Type) where
  edges : List (Edge D)
  calls : List (Call D)
  warn : Bool
  runs : Nat

def isAdd (c : Change D) : Bool := decide (c.typ = .add)

/-- Lines 246-262: append a run of adds. -/
def applyAdds (s : VSt D) (cs : List (Change D)) : VSt D :=
  if cs = [] then s
  else { s with edges := s.edges ++ cs.map (·.edge), calls := s.calls ++ [.add (cs.map (·.edge))] }

/-- Lines 264-391: a run of deletes. -/
def applyDels (o : Opts) (others : Nat → Bool) (s : VSt D) (cs : List (Change D)) : Option (VSt D) :=
  if cs = [] then some s
  else if o.timeRange then
    (rangeRun s.edges 0 [] cs).map fun r => { s with edges := r.1, calls := s.calls ++ [.del r.2], runs := s.runs + 1 }
  else
    (delRun { edges := s.edges, k := 0, idxs := [], warn := s.warn } cs).map fun d =>
      let w := d.warn || others s.runs
      let r := finish o.canTs w d
      { edges := r.1, calls := s.calls ++ [.del r.2], warn := w, runs := s.runs + 1 }

/-- Lines 243-392: all changes of one vertex, in alternating runs of adds and deletes. -/
def applyAll (o : Opts) (others : Nat → Bool) (s : VSt D) (cs : List (Change D)) : Option (VSt D) :=
  match cs with
  | [] => some s
  | c :: cs' =>
    (applyDels o others (applyAdds s ((c :: cs').takeWhile isAdd)) (((c :: cs').dropWhile isAdd).takeWhile (fun c => !isAdd c))).bind fun s' =>
      applyAll o others s' (((c :: cs').dropWhile isAdd).dropWhile (fun c => !isAdd c))
termination_by cs.length
decreasing_by
  have h1 : (((c :: cs').dropWhile isAdd).dropWhile (fun c => !isAdd c)).length ≤ cs'.length := by
    cases hc : isAdd c with
    | true =>
      rw [List.dropWhile_cons_of_pos hc]
      exact Nat.le_trans (List.dropWhile_sublist _).length_le (List.dropWhile_sublist _).length_le
    | false =>
      rw [List.dropWhile_cons_of_neg (by simp [hc]), List.dropWhile_cons_of_pos (by simp [hc])]
      exact (List.dropWhile_sublist _).length_le
  simp only [List.length_cons]; omega

/-- State of a thread: edge lists (`Vertices`), `PendingIdx` of the vertices, `VertexPendingBuff`,
`NumUnique`, `TopologyEventBuff`, `ExpiredEdges`, `warnSelectDelete`; callbacks with the vertex they
are for. -/
structure Th (D : Type) where
  verts : Nat → List (Edge D)
  pendIdx : Nat → Nat
  pend : List (List Nat)
  numUnique : Nat
  buff : List (Change D)
  expired : List (Nat × Change D)
  warn : Bool
  runs : Nat
  calls : List (Nat × Call D)

/-- `checkInsertPending` (188-207). -/
def insertPending (s : Th D) (sidx pending uniq : Nat) : Option (Th D × Nat) :=
  if s.pendIdx sidx < s.numUnique then
    some ({ s with
      pendIdx := upd s.pendIdx sidx (uniq + s.numUnique),
      pend := if s.pend.length ≤ uniq then s.pend ++ [[sidx, pending]] else s.pend.modify uniq (· ++ [sidx, pending]) }, uniq + 1)
  else
    match s.pend[s.pendIdx sidx - s.numUnique]? with
    | none => none
    | some l => some ({ s with pend := s.pend.set (s.pendIdx sidx - s.numUnique) (l ++ [pending]) }, uniq)

/-- The first loop of `EnactTopologyEvents` (216-227); `i` counts the events. -/
def group (o : Opts) (s : Th D) (i uniq : Nat) : List (Nat × Change D) → Option (Th D × Nat)
  | [] => some (s, uniq)
  | (sidx, c) :: cs =>
    (insertPending s sidx i uniq).bind fun r =>
      let s := r.1
      let s := if 0 < o.window ∧ c.typ = .add then { s with expired := s.expired ++ [(sidx, c)] } else s
      group o s (i + 1) r.2 cs

/-- Adjusting the copied edges (128-152): the entry for event `i` of `n` is looked up at
`len(ExpiredEdges) - n + i`. -/
def adjust (o : Opts) (latest : UInt64) (n : Nat) : Nat → List (Change D) → List (Nat × Change D) → Option (List (Nat × Change D))
  | _, [], ex => some ex
  | i, c :: cs, ex =>
    if c.typ = .add then
      if n ≤ ex.length + i then
        match ex[ex.length + i - n]? with
        | none => none
        | some (v, c') =>
          if c'.edge.ts > latest then none
          else
            let ts := c'.edge.ts + o.window
            let e : Edge D := { c'.edge with ts := ts, endT := if o.timeRange then ts else c'.edge.endT }
            adjust o latest n (i + 1) cs (ex.set (ex.length + i - n) (v, { typ := .del, edge := e }))
      else none
    else adjust o latest n (i + 1) cs ex

/-- The injection loop (161-182): `i` is `expiredIndex`, `ex` the entries from there on. Returns
the number of entries passed. -/
def inject (o : Opts) (latest : UInt64) (n : Nat) (s : Th D) (uniq i : Nat) : List (Nat × Change D) → Option (Th D × Nat × Nat)
  | [] => some (s, uniq, i)
  | (v, c) :: ex =>
    if c.typ ≠ .del then inject o latest n s uniq (i + 1) ex
    else if c.edge.ts > latest then some (s, uniq, i)
    else
      let c' : Change D := { c with edge := { c.edge with ts := c.edge.ts - o.window } }
      (insertPending s v (n + i) uniq).bind fun r =>
        let s := r.1
        let s := { s with buff := if s.buff.length ≤ n + i then s.buff ++ [c'] else s.buff.set (n + i) c' }
        inject o latest n s r.2 (i + 1) ex

/-- `InjectExpired` (121-185). -/
def injectExpired (o : Opts) (s : Th D) (n uniq : Nat) : Option (Th D × Nat) :=
  match s.buff[n - 1]? with
  | none => none
  | some last =>
    (adjust o last.edge.ts n 0 (s.buff.take n) s.expired).bind fun ex =>
      (inject o last.edge.ts n s uniq 0 ex).map fun r =>
        ({ r.1 with expired := ex.drop r.2.2 }, r.2.1)

/-- Changes of a pending list: the first entry is the vertex (240), the others are indices into
`TopologyEventBuff` (247). -/
def fetch (buff : List (Change D)) : List Nat → Option (List (Change D))
  | [] => some []
  | i :: is => (buff[i]?).bind fun c => (fetch buff is).map (c :: ·)

/-- The body of the loop over vertices (236-397). -/
def applyOne (o : Opts) (others : Nat → Bool) (s : Th D) (u : Nat) : Option (Th D) :=
  match s.pend[u]? with
  | none => none
  | some [] => none
  | some (v :: is) =>
    (fetch s.buff is).bind fun cs =>
      (applyAll o others { edges := s.verts v, calls := [], warn := s.warn, runs := s.runs } cs).map fun r =>
        { s with verts := upd s.verts v r.edges, warn := r.warn, runs := r.runs,
                 calls := s.calls ++ r.calls.map (fun c => (v, c)), pend := s.pend.set u [] }

/-- The loop over vertices (236-397) for `u, u+1, ..., u+k-1`. -/
def applyGroups (o : Opts) (others : Nat → Bool) (s : Th D) (u : Nat) : Nat → Option (Th D)
  | 0 => some s
  | k + 1 => (applyOne o others s u).bind fun s' => applyGroups o others s' (u + 1) k

/-- Writing a batch into `TopologyEventBuff` (`run-dynamic.go:208-209`); the batch fits. -/
def load (buff : List (Change D)) (cs : List (Change D)) : Option (List (Change D)) :=
  if cs.length ≤ buff.length then some (cs ++ buff.drop cs.length) else none

/-- `EnactTopologyEvents` (210-402) on a non-empty batch of events with their source vertex. -/
def enact (o : Opts) (others : Nat → Bool) (s : Th D) (batch : List (Nat × Change D)) : Option (Th D) :=
  (load s.buff (batch.map Prod.snd)).bind fun buff =>
    (group o { s with buff := buff } 0 0 batch).bind fun r =>
      (if 0 < o.window then injectExpired o r.1 batch.length r.2 else some r).bind fun r =>
        applyGroups o others { r.1 with numUnique := r.1.numUnique + r.2 } 0 r.2

/-- Any number of batches. -/
def enactAll (o : Opts) (others : Nat → Bool) : Th D → List (List (Nat × Change D)) → Option (Th D)
  | s, [] => some s
  | s, b :: bs => (enact o others s b).bind fun s' => enactAll o others s' bs

/-- A thread after `Init` (`graph.go:136-151`): `slots` pending lists (1024), a buffer of `cap`
entries. -/
def start (slots cap : Nat) (zero : Change D) : Th D :=
  { verts := fun _ => [], pendIdx := fun _ => 0, pend := List.replicate slots [], numUnique := 1,
    buff := List.replicate cap zero, expired := [], warn := false, runs := 0, calls := [] }

end Verif.Enact
