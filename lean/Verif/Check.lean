import Verif.MinLabel
import Verif.Colouring
import Verif.PageRankFinish
import Verif.TempPaths

/-!
# The checks of results (`-c`): `OnCheckCorrectness` of each algorithm

Each check passes over the vertices of a finished run, ends the program (`log.Panic`) if it finds something wrong, and
otherwise logs a report. Here `none` is the panic.

Simplifications:
* A vertex is identified with its internal id, below `n`; raw ids are distinct, so `InitMails` is a function of the
  vertex and comparing raw ids is comparing vertices.
* Which thread passes over which vertex does not matter for the panics, as a panic of one thread ends the program; where
  it matters for the report (triangles) the threads are explicit.
* Numbers are exact; `EMPTY_VAL` of distances is `⊤`.
* Log lines other than the reported numbers are left out.
-/

namespace Verif.Check

open Verif Verif.Async Verif.MinLabel

/-! ## Shortest paths -/

/-- The part of the loop that may panic, for one vertex (`cmd/lp-sssp/main.go:45-60`; `sssp-msg.go:124-139` with the
initial value 0). -/
def ssspVertex (edges : Nat → List (Edge ℚ)) (init : Nat → Option Dist) (val : Nat → Dist) (v : Nat) : Bool :=
  (match init v with
    | some x => decide (val v = x)
    | none => true) &&
  (decide (val v = ⊤) || (edges v).all fun e => !decide (val e.dst > val v + (e.data : Dist)))

/-- What is logged (64-66). -/
structure SsspReport where
  visited : Nat
  longest : Dist
  zero : Nat
  deriving DecidableEq

/-- `OnCheckCorrectness` (`cmd/lp-sssp/main.go:14-67`, `sssp-msg.go:92-146`). `longest` starts at 0 (15, 30); of the five
counters of small distances only the first is here. -/
def ssspCheck (n : Nat) (edges : Nat → List (Edge ℚ)) (init : Nat → Option Dist) (val : Nat → Dist) : Option SsspReport :=
  if (List.range n).all (ssspVertex edges init val) = true then
    let seen := (List.range n).filter fun v => decide (val v < ⊤)
    some { visited := seen.length, longest := seen.foldl (fun m v => max m (val v)) 0, zero := (List.range n).countP fun v => decide (val v = 0) }
  else none

/-! ## Connected components -/

/-- `EMPTY_VAL` of labels (`cmd/lp-cc/cc.go:15`). -/
def noLabel : Label := ⟨4294967295, by decide⟩

/-- One vertex (`cmd/lp-cc/main.go:16-28`), as far as it may panic. -/
def ccVertex (edges : Nat → List (Edge Unit)) (label : Nat → Label) (v : Nat) : Bool :=
  !decide (label v = noLabel) && (edges v).all fun e => !decide (label e.dst ≠ label v)

/-- `uniqueComponents[ourValue] = true` unless present (20-22): the keys of the map. -/
def keep (m : List Label) (x : Label) : List Label := if x ∈ m then m else x :: m

/-- `OnCheckCorrectness` (`cmd/lp-cc/main.go:11-31`); the result is the number logged. -/
def ccCheck (n : Nat) (edges : Nat → List (Edge Unit)) (label : Nat → Label) : Option Nat :=
  if (List.range n).all (ccVertex edges label) = true then some (((List.range n).map label).foldl keep []).length else none

/-! ## Colouring -/

/-- What the check looks at. `arrived v` is `InEventPos` of `v`; `room v` the length of `NbrScratch` in its mailbox. Edge data
is the position at the destination. -/
structure Coloured where
  n : Nat
  edges : Nat → List (Edge Nat)
  colour : Nat → Nat
  arrived : Nat → Nat
  room : Nat → Nat

/-- One edge of `v` (`cmd/lp-colouring/main.go:52-73`): true if it does not panic. Two vertices with the same colour only
panic here if the edge has a reverse edge, or if indexing `NbrScratch` (59) does. -/
def colourEdge (c : Coloured) (v : Nat) (e : Edge Nat) : Bool :=
  if c.colour v = c.colour e.dst ∧ e.dst ≠ v then
    decide (e.data < c.room e.dst) && (c.edges e.dst).all fun te => !decide (te.dst = v)
  else true

/-- One vertex (38-74). -/
def colourVertex (c : Coloured) (v : Nat) : Bool :=
  if c.colour v = Colouring.EMPTY then false
  else if c.colour v > (c.edges v).length ∧ c.colour v > c.arrived v then false
  else (c.edges v).all (colourEdge c v)

/-- `ComputeGraphColouringStat` (18-35): `allColours` and `maxColour`. -/
def colourStat (colours : List Nat) : List Nat × Nat :=
  colours.foldl (fun r x =>
    let all := if x ≥ r.1.length then r.1 ++ List.replicate (x + 1 - r.1.length) 0 else r.1
    (all.modify x (· + 1), if x > r.2 then x else r.2)) ([0], 0)

/-- `OnCheckCorrectness` (37-77). -/
def colourCheck (c : Coloured) : Option (List Nat × Nat) :=
  if (List.range c.n).all (colourVertex c) = true then some (colourStat ((List.range c.n).map c.colour)) else none

/-! ## Triangles -/

/-- A vertex as the check sees it: `NumLeader`, `UpdateAt`, number of out-edges. -/
structure Corner where
  leader : Nat
  updAt : Nat
  out : Nat
  deriving DecidableEq

/-- The sum of one thread, a `uint32` (`cmd/lp-tc/main.go:14-17`). -/
def threadSum (vs : List Corner) : Nat := vs.foldl (fun s v => (s + v.leader) % 2 ^ 32) 0

/-- `OnCheckCorrectness` (11-28): the number logged. -/
def tcCheck (threads : List (List Corner)) : Option Nat :=
  if (threads.all fun vs => vs.all fun v => !decide (v.updAt ≠ v.out)) = true then some ((threads.map threadSum).sum) else none

/-! ## PageRank -/

/-- `FloatEquals` (`utils/helpers.go:31-37`); nothing is equal to a result that is not a number. -/
def floatEquals (a : Option ℚ) (b variance : ℚ) : Bool :=
  match a with
  | none => false
  | some a => decide (|a - b| < variance)

/-- `OnCheckCorrectness` (`cmd/lp-pagerank/correctness.go:47-83`) with `NORMALIZE` and not `PPR`, for the final masses
(`none`: not all are numbers, then neither is the sum) and the flows left by `OnFinish` (`pagerank.go:212`); the result is
`totalAbs`, `some none` if that is not a number. -/
def rankCheck (masses : Option (List ℚ)) (flows : List ℚ) : Option (Option ℚ) :=
  let total := masses.map fun rs => rs.sum / 1 + flows.sum / flows.length
  if floatEquals total 1 PageRank.epsilon = true then some (masses.map fun rs => rs.sum / 1) else none

/-! ## Temporal paths -/

open TempPaths in
/-- One window of a vertex, one edge, one window of the target (`cmd/lp-temporal-paths/correctness.go:83-124`): false is the
panic of line 119. -/
def pathEdge (w : Path) (e : Link) (tw : Path) : Bool :=
  if e.ts ≤ w.start then true
  else if e.upto < e.ts then true
  else
    let provideEnd := if w.stop > e.upto then e.upto else w.stop
    if e.ts ≥ provideEnd then true
    else if w.stop ≤ tw.start then true
    else if w.stop < tw.stop then true
    else !(decide (tw.start > e.ts) && decide (tw.stop ≤ provideEnd))

open TempPaths in
/-- A pair of windows of a vertex at different positions (130-153, with `EXTEND_TO_EDGE_END`). -/
def pathPair (a b : Path) : Bool :=
  !(decide (a.start ≥ b.start) && decide (a.stop ≤ b.stop)) && !(decide (a.start ≥ b.start) && decide (a.start < b.stop))

open TempPaths in
/-- One vertex (78-154). -/
def pathVertex (edges : Nat → List (Edge Link)) (windows : Nat → List Path) (v : Nat) : Bool :=
  ((windows v).all fun w => (edges v).all fun e => (windows e.dst).all fun tw => pathEdge w e.data tw) &&
  (List.range (windows v).length).all fun i => (List.range (windows v).length).all fun j =>
    decide (i = j) || pathPair ((windows v).getD i noPath) ((windows v).getD j noPath)

open TempPaths in
/-- `OnCheckCorrectness` (74-156; with `EXTEND_TO_EDGE_END` there is nothing after that, 158-163). -/
def pathCheck (n : Nat) (edges : Nat → List (Edge Link)) (windows : Nat → List Path) : Bool :=
  (List.range n).all (pathVertex edges windows)

end Verif.Check
