import Verif.Sorting
import Mathlib.Algebra.Order.Ring.Rat

/-!
# Statistics printed with the time series

`FunStatistics` (`cmd/lp-temporal-paths/timeseries.go:106-255`) and the comparison of consecutive queries in
`PrintTimeSeries` of the colouring (`cmd/lp-colouring/timeseries.go:88-208`). Percentages are exact rationals; `none` is
the NaN (or infinity) of a division by 0.
-/

namespace Verif.Stats

/-- `math.MaxUint64`. -/
def maxU : Nat := 2 ^ 64 - 1

/-- `float64(a) / float64(b) * 100.0`. -/
def pct (a b : Nat) : Option ℚ := if b = 0 then none else some ((a : ℚ) / b * 100)

/-! ## Temporal paths -/

/-- A window of a vertex; `stop` is `End`. -/
structure Window where
  start : Nat
  stop : Nat
  deriving DecidableEq, Repr

/-- A vertex: `CreateEvent`, the `End` of its out-edges, `Windows`. -/
structure Vertex where
  create : Nat
  ends : List Nat
  windows : List Window
  deriving DecidableEq, Repr

/-- What one thread gathers in the first `NodeParallelFor` (115-157). -/
structure Part where
  visit : Nat
  now : Nat
  count : Nat
  active : Nat
  both : Nat
  maxWin : Nat
  deriving DecidableEq, Repr

/-- The body of its loop (122-151). -/
def visit (at_ : Nat) (p : Part) (v : Vertex) : Part :=
  if v.create > at_ then p else
  let active := v.ends.any (· == 0)
  let p := { p with count := p.count + 1, active := if active then p.active + 1 else p.active }
  if 0 < v.windows.length then
    { p with both := if active then p.both + 1 else p.both, visit := p.visit + 1, maxWin := max p.maxWin v.windows.length,
             now := if v.windows.any (·.stop == maxU) then p.now + 1 else p.now }
  else p

def part (at_ : Nat) (vs : List Vertex) : Part := vs.foldl (visit at_) ⟨0, 0, 0, 0, 0, 0⟩

/-- What one thread gathers for window 0 (191-217): largest start, smallest start but 0, all starts. -/
structure Zero where
  maxStart : Nat
  minStart : Nat
  all : List Nat
  deriving DecidableEq, Repr

def zeroStep (at_ : Nat) (z : Zero) (v : Vertex) : Zero :=
  if v.create > at_ then z else
  match v.windows with
  | [] => z
  | w :: _ => { maxStart := max z.maxStart w.start, minStart := if w.start ≠ 0 then min z.minStart w.start else z.minStart,
                all := z.all ++ [w.start] }

def zero (at_ : Nat) (vs : List Vertex) : Zero := vs.foldl (zeroStep at_) ⟨0, maxU, []⟩

/-- The result (106); the order of the fields is that of the code. -/
structure Result where
  wZMin : Nat
  wZMedian : Int
  wZMax : Nat
  maxWC : Nat
  pctVisitedNow : Option ℚ
  visited : Nat
  wZPctCurrVCould : Option ℚ
  realVertexCount : Nat
  activeVertices : Nat
  pctOfActiveIsCurrentVisitable : Option ℚ
  deriving DecidableEq

/-- `FunStatistics` for the vertices of each thread; `none` is a panic. The three results about window 0 stay 0 if no
vertex has a window (187). `MaxSlice` and `MinSlice` (`helpers.go:66-80`) are folds; the sums of the threads' counts are
atomic additions (152-155). The loop over the further windows only prints. -/
def funStatistics (at_ : Nat) (threads : List (List Vertex)) : Option Result :=
  let ps := threads.map (part at_)
  let zs := threads.map (zero at_)
  let sum := fun f : Part → Nat => (ps.map f).sum
  let maxWC := (ps.map (·.maxWin)).foldl max 0
  match (if 0 < maxWC then Sorting.median ((zs.map (·.all)).flatten.map Int.ofNat) else some 0) with
  | none => none
  | some med => some
    { wZMin := if 0 < maxWC then (zs.map (·.minStart)).foldl min maxU else 0
      wZMedian := med
      wZMax := if 0 < maxWC then (zs.map (·.maxStart)).foldl max 0 else 0
      maxWC := maxWC
      pctVisitedNow := pct (sum (·.now)) (sum (·.visit))
      visited := sum (·.visit)
      wZPctCurrVCould := pct (sum (·.visit)) (sum (·.count))
      realVertexCount := sum (·.count)
      activeVertices := sum (·.active)
      -- 167: `numActiveAndVisitable` is not used
      pctOfActiveIsCurrentVisitable := pct (sum (·.now)) (sum (·.active)) }

/-! ## Colouring -/

/-- `EntryAll` (67-78): raw id and colour of the vertices created by the time of the query; a Go map, with one entry per raw id. -/
def entryAll (at_ : Nat) (vs : List (Nat × Nat × Nat)) : List (Nat × Nat) :=
  (vs.filter fun v => decide (v.2.1 ≤ at_)).map fun v => (v.1, v.2.2)

/-- The comparison of a vertex with the query before (161-168). -/
def changeStep (prev : List (Nat × Nat)) (n : Nat × Nat) (p : Nat × Nat) : Nat × Nat :=
  match prev.lookup p.1 with
  | none => n
  | some c => if p.2 = c then (n.1 + 1, n.2) else (n.1, n.2 + 1)

/-- `same` and `different` (153-169). -/
def changes (prev cur : List (Nat × Nat)) : Nat × Nat := cur.foldl (changeStep prev) (0, 0)

/-- The keys of `colours` (175, 181). -/
def colours (cur : List (Nat × Nat)) : List Nat := cur.foldl (fun m p => if p.2 ∈ m then m else m ++ [p.2]) []

/-- `pctSame`, `matchedVertices`, `same`, `different`, and in the snapshot file `colourCount` (170, 190-191). -/
structure Line where
  pctSame : Option ℚ
  matched : Nat
  same : Nat
  different : Nat
  colourCount : Nat
  deriving DecidableEq

/-- Line `i` of the snapshots (153-192): for the first one nothing is counted, not even the colours (178-180). -/
def line (db : List (List (Nat × Nat))) : Nat → Line
  | 0 => ⟨pct 0 0, 0, 0, 0, 0⟩
  | i + 1 =>
    let n := changes (db.getD i []) (db.getD (i + 1) [])
    ⟨pct n.1 (n.1 + n.2), n.1 + n.2, n.1, n.2, (colours (db.getD (i + 1) [])).length⟩

end Verif.Stats
