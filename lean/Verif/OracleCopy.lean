import Verif.Util

/-!
# Comparing a graph with an oracle

`CompareToOracle` (`graph/oracle-compare.go:15-154`): a second graph is put together that shares the
structure of the first (vertex map, vertex structures, edge arrays) and has its own vertex properties and
mailboxes; the algorithm converges on it; both are finished (`OnFinish`) and handed to `OnOracleCompare`;
at last the properties of the first are put back.

What can go wrong is sharing, so memory is explicit: properties, mailboxes and edges live in cells that
are reached through the addresses of buckets and arrays (`graph.go:68-85`).

Simplifications:
* The graph threads are blocked during the comparison (that they need not be is the subject of
  `Verif/OracleRace.lean`), and `ConvergeAsync` and `OnFinish` are arbitrary functions of the contents of the
  graph they are given, writing to the cells of its vertices.
* Vertex structures (not written by anybody here) are values; timers, logging and counters are left out.
* The cells of the first graph's property and mailbox that belong to no vertex yet are not looked at.
-/

namespace Verif.OracleCopy

/-- `BUCKET_SIZE` (`graph.go:41`). -/
def bucketSize : Nat := 4096

/-- The memory: cells of property buckets, cells of mailbox buckets (`Inbox`, `Activity`), edge arrays, and
the next address that is not in use. -/
structure Heap (V M E : Type) where
  prop : Nat × Nat → V
  mail : Nat × Nat → M × Int
  edge : Nat → List E
  next : Nat

/-- The parts of a `GraphThread` (`graph.go:62-100`) that are copied: for each vertex the address of its edge
array and its structure, the addresses of the buckets, `NumEdges` and `AtEvent`. -/
structure Thread (S : Type) where
  verts : List (Nat × S)
  props : List Nat
  mails : List Nat
  numEdges : Nat
  atEvent : Nat

/-- `GraphThreads`, `Options.CheckCorrectness` and `OracleCache` of a `Graph`. -/
structure Graph (S : Type) where
  threads : List (Thread S)
  check : Bool
  cache : Option (List (Thread S))

/-- `VertexProperty(i)` (`graph-vertex.go:70-74`): the cell of the property of vertex `i` of a thread. -/
def propCell {S : Type} (t : Thread S) (i : Nat) : Nat × Nat := (t.props.getD (i / bucketSize) 0, i % bucketSize)

/-- `VertexMailbox(i)` (`graph-vertex.go:84-88`). -/
def mailCell {S : Type} (t : Thread S) (i : Nat) : Nat × Nat := (t.mails.getD (i / bucketSize) 0, i % bucketSize)

/-- What the algorithm sees of a vertex. -/
structure Seen (V M E S : Type) where
  prop : V
  mail : M × Int
  edges : List E
  struc : S
  deriving DecidableEq, Repr

/-- The vertices in the order of `NodeForEachVertex` (`graph-vertex.go:163-174`): thread by thread. -/
def vertices {S : Type} (ts : List (Thread S)) : List (Thread S × Nat) :=
  ts.flatMap fun t => (List.range t.verts.length).map fun i => (t, i)

/-- The contents of a vertex. -/
def look [Inhabited S] (h : Heap V M E) (p : Thread S × Nat) : Seen V M E S :=
  let v := p.1.verts.getD p.2 (0, default)
  ⟨h.prop (propCell p.1 p.2), h.mail (mailCell p.1 p.2), h.edge v.1, v.2⟩

/-- The contents of a graph. -/
def view [Inhabited S] (h : Heap V M E) (ts : List (Thread S)) : List (Seen V M E S) := (vertices ts).map (look h)

/-- `*prop = x` for the vertices in turn. -/
def setProps (h : Heap V M E) (ws : List ((Thread S × Nat) × V)) : Heap V M E :=
  { h with prop := ws.foldl (fun m w => upd m (propCell w.1.1 w.1.2) w.2) h.prop }

/-- `*mailbox = x` for the vertices in turn. -/
def setMails (h : Heap V M E) (ws : List ((Thread S × Nat) × (M × Int))) : Heap V M E :=
  { h with mail := ws.foldl (fun m w => upd m (mailCell w.1.1 w.1.2) w.2) h.mail }

/-- `OutEdges[…] = x` for the vertices in turn. -/
def setEdges [Inhabited S] (h : Heap V M E) (ws : List ((Thread S × Nat) × List E)) : Heap V M E :=
  { h with edge := ws.foldl (fun m w => upd m (w.1.1.verts.getD w.1.2 (0, default)).1 w.2) h.edge }

/-- `NodeCopyVertexPropsInto` (`graph-vertex.go:230-242`): `old` are the buckets the other side has; where it
has none a new one is allocated; the whole bucket is copied. -/
def copyProps (h : Heap V M E) : List Nat → List Nat → Heap V M E × List Nat
  | [], old => (h, old)
  | b :: bs, [] =>
    let r := copyProps { h with prop := fun c => if c.1 = h.next then h.prop (b, c.2) else h.prop c, next := h.next + 1 } bs []
    (r.1, h.next :: r.2)
  | b :: bs, o :: os =>
    let r := copyProps { h with prop := fun c => if c.1 = o then h.prop (b, c.2) else h.prop c } bs os
    (r.1, o :: r.2)

/-- `NodeCopyVertexMailboxes` (`graph-vertex.go:212-218`): new buckets, as many as there are; `zero` is the zero
value of a mailbox. -/
def copyMails (zero : M) (h : Heap V M E) : List Nat → Heap V M E × List Nat
  | [] => (h, [])
  | _ :: bs =>
    let r := copyMails zero { h with mail := fun c => if c.1 = h.next then (zero, 0) else h.mail c, next := h.next + 1 } bs
    (r.1, h.next :: r.2)

/-- `oracle-compare.go:58-71` for one thread. `NodeCopyVerticesInto` (`graph-vertex.go:221-227`) copies the
headers of the edge slices: the arrays are shared. -/
def copyThread (zero : M) (h : Heap V M E) (t : Thread S) : Heap V M E × Thread S :=
  let p := copyProps h t.props []
  let m := copyMails zero p.1 t.mails
  (m.1, { t with props := p.2, mails := m.2 })

/-- `oracle-compare.go:57-72`: all threads. -/
def copyThreads (zero : M) (h : Heap V M E) : List (Thread S) → Heap V M E × List (Thread S)
  | [] => (h, [])
  | t :: ts =>
    let r := copyThread zero h t
    let q := copyThreads zero r.1 ts
    (q.1, r.2 :: q.2)

/-- An algorithm: `New()` of properties and mail, `CopyForOracle` (oracle's property, given one),
`ConvergeAsync` and `OnFinish` (with `maxAtEvent`) as functions of the contents of the graph, and which of
`OnOracleCompare` and `OnCheckCorrectness` it has. `converge` gives property, mailbox and edges of each vertex. -/
structure Alg (V M E S : Type) where
  zeroMail : M
  newProp : V
  newMail : M
  copyFor : Option (V → V → V)
  converge : List (Seen V M E S) → List (V × (M × Int) × List E)
  finish : Option (Nat → List (Seen V M E S) → List V)
  compares : Bool
  checks : Bool

/-- What the algorithm is shown (`OnOracleCompare`, `OnCheckCorrectness`): the given graph and the oracle. -/
abbrev Shown (V M E S : Type) := List (Seen V M E S) × List (Seen V M E S)

/-- `oracle-compare.go:42-82`: the graph on which the oracle will be computed. -/
def prepare [Inhabited S] (a : Alg V M E S) (h : Heap V M E) (ts : List (Thread S)) : Heap V M E × List (Thread S) :=
  let r := copyThreads a.zeroMail h ts
  let os := vertices r.2
  -- 74-78
  let h1 := setProps r.1 (os.map fun p => (p, a.newProp))
  let h2 := setMails h1 (os.map fun p => (p, (a.newMail, (h1.mail (mailCell p.1 p.2)).2)))
  -- 80-84
  let h3 := match a.copyFor with
    | some f => setProps h2 ((os.zip (vertices ts)).map fun p => (p.1, f (h2.prop (propCell p.1.1 p.1.2)) (h2.prop (propCell p.2.1 p.2.2))))
    | none => h2
  (h3, r.2)

/-- `ConvergeAsync` on a graph (86): the results are written to its properties, mailboxes and edges. -/
def converge [Inhabited S] (a : Alg V M E S) (h : Heap V M E) (ts : List (Thread S)) : Heap V M E :=
  let ws := (vertices ts).zip (a.converge (view h ts))
  setEdges (setMails (setProps h (ws.map fun w => (w.1, w.2.1))) (ws.map fun w => (w.1, w.2.2.1))) (ws.map fun w => (w.1, w.2.2.2))

/-- `OnFinish(g, g, maxAtEvent)`. -/
def finish [Inhabited S] (f : Nat → List (Seen V M E S) → List V) (atEvent : Nat) (h : Heap V M E) (ts : List (Thread S)) : Heap V M E :=
  setProps h ((vertices ts).zip (f atEvent (view h ts)))

/-- `oracle-compare.go:37-40`. -/
def maxAtEvent (ts : List (Thread S)) : Nat := (ts.map (·.atEvent)).foldl max 0

/-- `oracle-compare.go:42-104`: the oracle, from the cache or computed. -/
def oracle [Inhabited S] (a : Alg V M E S) (cache : Bool) (h : Heap V M E) (g : Graph S) : Heap V M E × Graph S × List (Thread S) :=
  match g.cache with
  | some os => (h, g, os)
  | none =>
    let p := prepare a h g.threads
    let h1 := converge a p.1 p.2
    let h2 := match a.finish with
      | some f => finish f (maxAtEvent g.threads) h1 p.2
      | none => h1
    (h2, if cache then { g with cache := some p.2 } else g, p.2)

/-- `CompareToOracle` (`oracle-compare.go:15-154`); `none`: panic. The list is what the algorithm is shown, in
order: first by `OnOracleCompare`, then by `OnCheckCorrectness` (`OracleCheckCorrectness`, 156-166). -/
def compareToOracle [Inhabited S] (a : Alg V M E S) (finishOriginal cache : Bool) (h : Heap V M E) (g : Graph S) :
    Option (Heap V M E × Graph S × List (Shown V M E S)) :=
  let r := oracle a cache h g
  let h1 := r.1
  let g1 := r.2.1
  let os := r.2.2
  if a.compares then
    match a.finish with
    | some f =>
      let stash := (vertices g1.threads).map fun p => h1.prop (propCell p.1 p.2)
      let h2 := if finishOriginal then finish f (maxAtEvent g.threads) h1 g1.threads else h1
      let shown := (view h2 g1.threads, view h2 os)
      let h3 := if finishOriginal then setProps h2 ((vertices g1.threads).zip stash) else h2
      some (h3, g1, shown :: if g1.check && a.checks then [shown] else [])
    | none =>
      let shown := (view h1 g1.threads, view h1 os)
      some (h1, g1, shown :: if g1.check && a.checks then [shown] else [])
  else if a.checks then some (h1, { g1 with check := true }, [(view h1 g1.threads, view h1 os)])
  else none

end Verif.OracleCopy
