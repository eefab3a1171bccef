import Verif.EnactAny
import Verif.Pipeline
import Verif.Sorting
import Mathlib.Data.List.Dedup

/-!
# Statistics of the graph

Source: `/repo/graph/graph.go` (`ComputeGraphStats` 258-314, `InEdgesStats` 318-338, `GraphThread.NumEdges` 76,
`NumOutAdds`, `NumOutDels` 95-96), `/repo/graph/run-dynamic.go` (223-230), `/repo/utils/helpers.go` (52-91).

Simplified: percentages are left out; a log line is a field of the result; the threads of `NodeParallelFor`
(`graph-vertex.go:194-209`) write to places of their own, so they are taken one after the other (C20). The median is that
of `Verif/Sorting.lean`. `none` is a panic.
-/

namespace Verif.GraphStats

open Verif.Enact (Th Call Change Opts enact)

variable {D : Type}

/-- The counters of a thread (`graph.go:76, 95-96`). -/
structure Counts where
  outAdds : UInt32
  outDels : UInt32
  numEdges : UInt32
  deriving DecidableEq, Repr

/-- `addEvents` (`stream-enact-events.go:260`): what the callbacks `OnEdgeAdd` were given. -/
def addEvents (calls : List (Nat × Call D)) : UInt32 :=
  calls.foldl (fun n c => match c.2 with | .add es => n + UInt32.ofNat es.length | .del _ => n) 0

/-- `delEvents` (`stream-enact-events.go:387`): what the callbacks `OnEdgeDel` were given. -/
def delEvents (calls : List (Nat × Call D)) : UInt32 :=
  calls.foldl (fun n c => match c.2 with | .add _ => n | .del es => n + UInt32.ofNat es.length) 0

/-- Applying a batch and counting (`run-dynamic.go:223-230`). -/
def drive (o : Opts) (others : Nat → Bool) (s : Th D) (c : Counts) (b : List (Nat × Change D)) : Option (Th D × Counts) :=
  (enact o others s b).map fun s' =>
    let calls := s'.calls.drop s.calls.length
    (s', { outAdds := c.outAdds + addEvents calls, outDels := c.outDels + delEvents calls,
           numEdges := c.numEdges + (addEvents calls - delEvents calls) })

/-- Any number of batches. -/
def driveAll (o : Opts) (others : Nat → Bool) : Th D → Counts → List (List (Nat × Change D)) → Option (Th D × Counts)
  | s, c, [] => some (s, c)
  | s, c, b :: bs => (drive o others s c b).bind fun r => driveAll o others r.1 r.2 bs

/-- What the statistics (`graph.go:277-298`) read of a thread: out-degrees, raw ids and `InEventPos` of its vertices, and its counters. -/
structure View where
  degs : List UInt32
  raws : List UInt32
  inPos : List UInt32
  counts : Counts

/-- The thread at the end of a run: `numOutEdges` (280), `RawId`, `InEventPos`. -/
def viewOf (th : Pipeline.Th) (S : Th D) (c : Counts) : View :=
  { degs := (List.range th.verts.length).map fun i => UInt32.ofNat (S.verts i).length
    raws := th.verts.map (·.raw)
    inPos := th.verts.map fun v => UInt32.ofNat v.inPos
    counts := c }

/-- `Max` (`helpers.go:52-57`). -/
def umax (a b : UInt32) : UInt32 := if a < b then b else a

/-- `MaxSlice` (`helpers.go:66-72`). -/
def maxSlice : List UInt32 → Option UInt32
  | [] => none
  | x :: xs => some ((x :: xs).foldl umax x)

/-- `Sum` (`helpers.go:82-87`). -/
def usum (l : List UInt32) : UInt32 := l.foldl (· + ·) 0

/-- `maxOutDegree[t]`, `maxInDegree[t]`, `maxRawId[t]` (281, 285, 290). -/
def maxOf (l : List UInt32) : UInt32 := l.foldl umax 0

/-- `numSinks[t]`, `numHeads[t]` (286-288, 293-295). -/
def zeros (l : List UInt32) : UInt32 := l.foldl (fun n d => if d = 0 then n + 1 else n) 0

/-- The lines that are printed only if there were no deletes (308-312). -/
structure Ins where
  heads : UInt32
  maxIn : UInt32
  medianIn : Int
  deriving DecidableEq, Repr

/-- The lines of `ComputeGraphStats`. -/
structure Stats where
  vertices : Nat
  largestRaw : UInt32
  edges : UInt32
  sinks : UInt32
  maxOut : UInt32
  medianOut : Int
  ins : Option Ins
  deriving DecidableEq, Repr

/-- `Median` compares and adds; on degrees, as integers. -/
def ints (l : List UInt32) : List Int := l.map fun x => (x.toNat : Int)

/-- `ComputeGraphStats` (258-314). -/
def computeStats (timeRange : Bool) (ths : List View) : Option Stats :=
  let numDels := usum (ths.map fun v => v.counts.outDels)
  let numEdges := usum (ths.map fun v => v.counts.numEdges)
  let shown := decide (numDels = 0) || timeRange
  (maxSlice (ths.map fun v => maxOf v.raws)).bind fun largest =>
  (maxSlice (ths.map fun v => maxOf v.degs)).bind fun maxOut =>
  (Sorting.median (ints (ths.flatMap fun v => v.degs))).bind fun medOut =>
  (if shown then
    (maxSlice (ths.map fun v => maxOf v.inPos)).bind fun maxIn =>
    (Sorting.median (ints (ths.flatMap fun v => v.inPos))).map fun medIn =>
      some { heads := usum (ths.map fun v => zeros v.inPos), maxIn := maxIn, medianIn := medIn }
   else some none).map fun ins =>
    { vertices := (ths.map fun v => v.degs.length).sum, largestRaw := largest, edges := numEdges,
      sinks := usum (ths.map fun v => zeros v.degs), maxOut := maxOut, medianOut := medOut, ins := ins }

/-- `InEdgesStats` (318-338) on the targets of all edges: `vertInEdges` has an entry for each vertex that is the target
of an edge. Its order does not matter to what is printed: `MaxInDeg` and `MedianInDeg`. -/
def inEdgesStats (targets : List (Nat × Nat)) : Option (Nat × Int) :=
  let listInDegree := targets.dedup.map fun v => targets.count v
  (Sorting.median (listInDegree.map fun n => (n : Int))).map fun m => (listInDegree.foldl max 0, m)

end Verif.GraphStats
