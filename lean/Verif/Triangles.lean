import Verif.Util

/-!
# Triangle counting

`cmd/lp-tc/tc.go`, with the parts of the graph it depends on: the emitter doubles every input edge
(`graph/stream.go:190-222`, `Undirected`), the owner of the destination sees each event first
(`checkToRemit`, `graph/stream-enact-events.go:85-118`, which runs `OnInEdgeAdd`), then the owner of the
source appends it to its out-edges (`EnactTopologyEvents`, 210-262, `OnEdgeAdd`); notifications are
active ones (`ActiveNotification`, `graph/algorithm.go:87-91`).

One step is one operation on shared memory: a callback works on vertices of its own thread, so that its
effect is one step, followed by the sends one by one (count, then put). Threads interleave freely.

Simplifications:
* Vertices are given by their raw ids (C45); counters are unbounded; the order of events is that of the
  stream at each vertex (C50, C52), and any number of events at once may be appended to a vertex.
* Outstanding notifications of a vertex are a collection from which any may be taken next.
* No deletions (`OnEdgeDel` panics).
-/

namespace Verif.Triangles

/-- `tc.go:15-17`. -/
def EMPTY : Nat := 2 ^ 32 - 1
def FLAG : Nat := 2 ^ 31
def MASK : Nat := 2 ^ 31 - 1

/-- `Edge` (`graph-edge.go:18-22`): `dst` for `Didx`, `raw` for `Property.Raw`. -/
structure OutEdge where
  dst : Nat
  raw : Nat
  pos : Nat
  deriving DecidableEq, Repr

/-- `Note` (`tc.go:35-38`). -/
structure Note where
  newEdges : List OutEdge
  pos : Nat
  deriving DecidableEq, Repr

/-- `es`: the lines of the input; `dynamic`: the algorithm runs while the graph is built (otherwise the graph is
built first, by `blankAlg` with this `OnInEdgeAdd`, `algorithm.go:184-199`). -/
structure Cfg where
  T : Nat
  own : Nat → Nat
  es : List (Nat × Nat)
  dynamic : Bool

/-- Number of events (`stream.go:206-222`: two for each line, the second one reversed). -/
def count (c : Cfg) : Nat := 2 * c.es.length
def src (c : Cfg) (i : Nat) : Nat := if i % 2 = 0 then (c.es.getD (i / 2) (0, 0)).1 else (c.es.getD (i / 2) (0, 0)).2
def dst (c : Cfg) (i : Nat) : Nat := if i % 2 = 0 then (c.es.getD (i / 2) (0, 0)).2 else (c.es.getD (i / 2) (0, 0)).1

/-- `run q`: has `q` left to send; `put w n q`: has counted a notification of `w`, about to put it into the queue. -/
inductive Task where
  | idle
  | run (q : List (Nat × Note))
  | put (w : Nat) (n : Note) (q : List (Nat × Note))
  deriving DecidableEq, Repr

/-- `inCur d`: events before this one have been seen by `d` as destination; `inPos`: `InEventPos`; `map`:
`MapEdgesToPos`; `tab`: events that have passed `checkToRemit`, with their edge; `outCur v`: events before this one
have been appended to the out-edges `out v`; `updAt`: `UpdateAt`; `leader`: `NumLeader`; `act`: `Activity`;
`pend`: notifications in the queue. -/
structure St where
  inCur : Nat → Nat
  inPos : Nat → Nat
  map : Nat → Nat → Option Nat
  tab : Nat → Option OutEdge
  outCur : Nat → Nat
  out : Nat → List OutEdge
  updAt : Nat → Nat
  leader : Nat → Nat
  act : Nat → Int
  pend : Nat → List Note
  inited : Nat → Bool
  task : Nat → Task

def start : St :=
  { inCur := fun _ => 0, inPos := fun _ => 0, map := fun _ _ => none, tab := fun _ => none, outCur := fun _ => 0,
    out := fun _ => [], updAt := fun _ => 0, leader := fun _ => 0, act := fun _ => 0, pend := fun _ => [],
    inited := fun _ => false, task := fun _ => .idle }

/-- `OnInEdgeAdd` (`tc.go:96-107`) for event `i` from `x` to `d`: the map and what becomes of the raw id. -/
def onIn (m : Nat → Option Nat) (i x d pos : Nat) : (Nat → Option Nat) × Nat :=
  if d = x then (m, EMPTY)
  else if m x = none then (upd m x (some pos), if i % 2 = 0 then d ||| FLAG else d)
  else (m, EMPTY)

/-- The check of a notification in `OnUpdateVertex` (64-73). -/
def lead (m : Nat → Option Nat) (n : Note) : Nat :=
  n.newEdges.countP fun e => decide (e.raw ≠ EMPTY) &&
    match m (e.raw &&& MASK) with
    | none => false
    | some q => decide (q < n.pos)

/-- 83-90 and 117-124: to the edges between `start` and `stop`, what comes after `start`. -/
def sendOld (l : List OutEdge) (start stop : Nat) : List (Nat × Note) :=
  (List.range stop).filterMap fun e =>
    if start + 1 ≤ e then
      match l[e]? with
      | none => none
      | some o => if o.raw.testBit 31 then none else some (o.dst, ⟨(l.drop start).take (e - start), o.pos⟩)
    else none

/-- 127-134: to the new edges. -/
def sendNew (l : List OutEdge) (eidxStart u : Nat) : List (Nat × Note) :=
  (List.range l.length).filterMap fun e =>
    if eidxStart ≤ e then
      match l[e]? with
      | none => none
      | some o => if o.raw.testBit 31 then none else some (o.dst, ⟨l.take (min u e), o.pos⟩)
    else none

/-- The rest of `OnUpdateVertex` (79-91): `UpdateAt` and what is sent. -/
def onUpdate (l : List OutEdge) (u : Nat) (activity : Int) : Nat × List (Nat × Note) :=
  if activity = 0 ∧ u < l.length then (l.length, sendOld l u l.length) else (u, [])

/-- `OnEdgeAdd` (110-136). -/
def onAdd (l : List OutEdge) (u eidxStart : Nat) (activity : Int) : Nat × List (Nat × Note) :=
  if activity = 0 then (l.length, sendOld l u eidxStart ++ sendNew l eidxStart l.length)
  else (u, sendNew l eidxStart u)

/-- All events have arrived. -/
def loaded (c : Cfg) (s : St) : Bool := (List.range (count c)).all fun i => decide (i < s.outCur (src c i))

/-- `obs t d i`: thread `t` sees event `i`, the next one with destination `d`; `add t v m`: it appends the events of
`v` before `m` that are not there yet; `init t v`: initial notification; `recv t v i`: it takes the `i`-th outstanding
notification of `v`; `go t`: next step of its sends. -/
inductive Act where
  | obs (t d i : Nat)
  | add (t v m : Nat)
  | init (t v : Nat)
  | recv (t v i : Nat)
  | go (t : Nat)
  deriving DecidableEq, Repr

def free (c : Cfg) (s : St) (t v : Nat) : Bool := decide (t < c.T) && decide (c.own v = t) && decide (s.task t = .idle)

/-- The events of `v` from `a` on and before `m`. -/
def batch (c : Cfg) (v a m : Nat) : List Nat := (List.range m).filter fun i => decide (a ≤ i) && decide (src c i = v)

def step (c : Cfg) (s : St) : Act → Option St
  | .obs t d i =>
    -- `checkToRemit`
    if free c s t d ∧ s.inCur d ≤ i ∧ i < count c ∧ dst c i = d ∧ (∀ j < i, s.inCur d ≤ j → dst c j ≠ d) then
      let r := onIn (s.map d) i (src c i) d (s.inPos d)
      some { s with inCur := upd s.inCur d (i + 1), inPos := upd s.inPos d (s.inPos d + 1), map := upd s.map d r.1,
                    tab := upd s.tab i (some ⟨d, r.2, s.inPos d⟩) }
    else none
  | .add t v m =>
    -- `EnactTopologyEvents`
    let b := batch c v (s.outCur v) m
    if free c s t v ∧ m ≤ count c ∧ b ≠ [] ∧ ∀ i ∈ b, (s.tab i).isSome then
      let l := s.out v ++ b.filterMap s.tab
      let s' := { s with outCur := upd s.outCur v m, out := upd s.out v l }
      if c.dynamic then
        let r := onAdd l (s.updAt v) (s.out v).length (s.act v)
        some { s' with updAt := upd s.updAt v r.1, task := upd s.task t (.run r.2) }
      else some s'
    else none
  | .init t v =>
    -- `NewVertex` (`stream-enact-events.go:65-79`), `SendInitialMail` (`run-async.go:29-104`)
    if free c s t v ∧ s.inited v = false ∧ (c.dynamic = true ∨ loaded c s = true) then
      some { s with inited := upd s.inited v true, act := upd s.act v (s.act v + 1), task := upd s.task t (.put v ⟨[], 0⟩ []) }
    else none
  | .recv t v i =>
    -- `ProcessMessages` (`run-async.go:156-161`)
    if free c s t v then
      match (s.pend v)[i]? with
      | none => none
      | some n =>
        let left := s.act v - 1
        let r := onUpdate (s.out v) (s.updAt v) left
        some { s with pend := upd s.pend v ((s.pend v).eraseIdx i), act := upd s.act v left,
                      leader := upd s.leader v (s.leader v + lead (s.map v) n), updAt := upd s.updAt v r.1,
                      task := upd s.task t (.run r.2) }
    else none
  | .go t =>
    if t < c.T then
      match s.task t with
      | .idle => none
      | .run [] => some { s with task := upd s.task t .idle }
      | .run ((w, n) :: q) => some { s with act := upd s.act w (s.act w + 1), task := upd s.task t (.put w n q) }
      | .put w n q => some { s with pend := upd s.pend w (s.pend w ++ [n]), task := upd s.task t (.run q) }
    else none

def run (c : Cfg) : St → List Act → Option St
  | s, [] => some s
  | s, x :: xs => (step c s x).bind fun s' => run c s' xs

/-- The run is over: all events have arrived and nothing is on its way. -/
def Done (c : Cfg) (s : St) : Prop :=
  loaded c s = true ∧ (∀ t, t < c.T → s.task t = .idle) ∧ (∀ v, s.pend v = []) ∧ (c.dynamic = false → ∀ i, i < count c → s.inited (src c i) = true)

end Verif.Triangles
