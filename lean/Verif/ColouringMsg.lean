import Verif.Colouring

/-!
# Message-passing graph colouring

`cmd/lp-colouring/colouring-msg.go` on a graph that has been loaded before the run (`OnEdgeAdd` and `OnEdgeDel` panic).
The machine is that of `Verif/Async.lean` without mailboxes, except that a vertex takes its notifications in the order
of arrival: the algorithm needs that (a neighbour's old colour must not overwrite a newer one), and the queue and the
back-pressure buffer keep it (C03, C07).

Simplifications:
* Vertices are `0 … n - 1`; the run starts after `SendInitialMail` (`run-async.go:14-104`): `BaseVertexMailbox` of all
  vertices has run, and each vertex has its initial notification in the queue.
* A visit writes only the property of its own vertex, in one step; each notification is then counted and put into the
  queue of its target in two steps.
* `ColoursIndexed` is the set of the colours put into it, and `FirstUnused` its least missing number (C09).
* Colours are natural numbers; that they stay below 2^32 - 2 is part of what is proved.
-/

namespace Verif.ColouringMsg

open Verif.Colouring (comparePriority hash firstUnused)

/-- `MAGIC_VAL_MSG` (`colouring-msg.go:16`). -/
def MAGIC : Nat := 4294967294

/-- `EMPTY_VAL_MSG` (17). -/
def EMPTY : Nat := 4294967295

/-- `VPropMsg` (19-24), without `ColoursIndexed`. -/
structure VP where
  colour : Nat
  scratch : List Nat
  wait : Int
  deriving DecidableEq, Repr

/-- `NoteMsg` (33-37). -/
structure Note where
  pos : Nat
  colour : Nat
  prio : Bool
  deriving DecidableEq, Repr

/-- An out-edge with `EPropMsg` (26-29). -/
structure OutEdge where
  dst : Nat
  pos : Nat
  prio : Bool
  deriving DecidableEq, Repr

/-- The graph (source, target, position among the in-edges of the target), vertices, threads, owners, and
`UseWaitCount`. -/
structure Cfg where
  es : List (Nat × Nat × Nat)
  n : Nat
  T : Nat
  own : Nat → Nat
  wait : Bool

/-- Out-edges as loaded. -/
def links (c : Cfg) (v : Nat) : List (Nat × Nat) := (c.es.filter fun a => decide (a.1 = v)).map fun a => a.2

/-- `InEventPos` (`graph-vertex.go`). -/
def inDeg (c : Cfg) (v : Nat) : Nat := c.es.countP fun a => decide (a.2.1 = v)

/-- The out-edges after `BaseVertexMailbox` (53-59): the first `InEventPos` are labelled. -/
def edges (c : Cfg) (v : Nat) : List OutEdge :=
  (links c v).mapIdx fun i e => ⟨e.1, e.2, decide (i < inDeg c v) && comparePriority (hash e.1) (hash v) e.1 v⟩

/-- The neighbours `BaseVertexMailbox` looks at (54-56). -/
def looked (c : Cfg) (v : Nat) : List (Nat × Nat) := (links c v).take (inDeg c v)

/-- `BaseVertexMailbox` (48-73). -/
def base (c : Cfg) (v : Nat) : VP :=
  { colour := EMPTY,
    scratch := (looked c v).map fun e => if comparePriority (hash e.1) (hash v) e.1 v = true then MAGIC else EMPTY,
    wait := if c.wait = true then ((looked c v).countP fun e => comparePriority (hash e.1) (hash v) e.1 v : Nat) else 0 }

/-- `BaseVertexMailbox` indexes `OutEdges` out of range (55). -/
def basePanics (c : Cfg) (v : Nat) : Bool := decide ((links c v).length < inDeg c v)

/-- `InitAllNote` (76-79). -/
def initNote : Note := { pos := EMPTY, colour := 0, prio := false }

/-- `OnUpdateVertex`, up to the colouring (90-116); `none`: panic (103). -/
def note (wait : Bool) (p : VP) (n : Note) : Option VP :=
  if n.pos = EMPTY then some p
  else
    match p.scratch[n.pos]? with
    | none => none
    | some prev =>
      let p := { p with scratch := p.scratch.set n.pos n.colour }
      if n.prio = true then
        let p := if n.colour = p.colour then { p with colour := EMPTY } else p
        some (if wait = true ∧ prev = MAGIC then { p with wait := p.wait - 1 } else p)
      else some p

/-- The colours put into `ColoursIndexed` (124-130). -/
def used (ns : List Nat) : List Nat := ns.filter fun x => decide (x ≤ ns.length)

/-- The notification along an edge (132-136). -/
def tell (colour : Nat) (e : OutEdge) : Nat × Note := (e.dst, { pos := e.pos, colour := colour, prio := !e.prio })

/-- `OnUpdateVertex`, the colouring (118-142). -/
def colour (wait : Bool) (p : VP) (es : List OutEdge) (activity : Int) : VP × List (Nat × Note) :=
  if activity > 0 ∨ (wait = true ∧ p.wait > 0) then (p, [])
  else if p.colour = EMPTY then
    let best := firstUnused (used p.scratch)
    ({ p with colour := best }, es.map (tell best))
  else (p, [])

/-- What a thread is doing. `visit v n left`: has taken notification `n` of `v`; `run v l`: in the visit of `v` with `l`
left to send; `put v w n l`: has counted a notification of `w`, about to put it into the queue. -/
inductive Task where
  | idle
  | visit (v : Nat) (n : Note) (left : Int)
  | run (v : Nat) (l : List (Nat × Note))
  | put (v w : Nat) (n : Note) (l : List (Nat × Note))
  deriving DecidableEq, Repr

structure St where
  vp : Nat → VP
  act : Nat → Int
  queue : Nat → List Note
  task : Nat → Task
  crashed : Bool

/-- `recv t v`: thread `t` takes the first notification of its vertex `v`; `go t`: it does the next step of its visit. -/
inductive Act where
  | recv (t v : Nat)
  | go (t : Nat)
  deriving DecidableEq, Repr

/-- After `SendInitialMail` (`run-async.go:14-104`). -/
def start (c : Cfg) : St :=
  { vp := base c, act := fun v => if v < c.n then 1 else 0, queue := fun v => if v < c.n then [initNote] else [],
    task := fun _ => .idle, crashed := (List.range c.n).any (basePanics c) }

/-- Next step of a visit. -/
def goStep (c : Cfg) (s : St) (t : Nat) : Task → Option St
  | .idle => none
  | .visit v n left =>
    match note c.wait (s.vp v) n with
    | none => some { s with crashed := true }
    | some p =>
      let r := colour c.wait p (edges c v) left
      some { s with vp := upd s.vp v r.1, task := upd s.task t (.run v r.2) }
  | .run _ [] => some { s with task := upd s.task t .idle }
  | .run v ((w, n) :: l) =>
    -- `ActiveNotification` (`graph/algorithm.go:87-91`)
    some { s with act := upd s.act w (s.act w + 1), task := upd s.task t (.put v w n l) }
  | .put v w n l => some { s with queue := upd s.queue w (s.queue w ++ [n]), task := upd s.task t (.run v l) }

def step (c : Cfg) (s : St) : Act → Option St
  | .recv t v =>
    -- `ProcessMessages` (`run-async.go:156-161`)
    if s.crashed = false ∧ t < c.T ∧ c.own v = t ∧ s.task t = .idle then
      match s.queue v with
      | [] => none
      | n :: q => some { s with queue := upd s.queue v q, act := upd s.act v (s.act v - 1), task := upd s.task t (.visit v n (s.act v - 1)) }
    else none
  | .go t => if s.crashed = false ∧ t < c.T then goStep c s t (s.task t) else none

def run (c : Cfg) : St → List Act → Option St
  | s, [] => some s
  | s, x :: xs => (step c s x).bind fun s' => run c s' xs

/-- Nothing outstanding. -/
def Quiet (c : Cfg) (s : St) : Prop := (∀ t, t < c.T → s.task t = .idle) ∧ ∀ v, s.queue v = []

end Verif.ColouringMsg
