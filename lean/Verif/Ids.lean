/-!
# Internal vertex ids, buckets, event words, whole-graph iteration

`graph/graph.go:26-42`, `graph/graph-vertex.go:49-66, 163-209`, `graph/stream.go:22-44, 193,
209-210`, `graph/stream-enact-events.go:16-17`.
Machine integers are `UInt32`/`UInt64`, so wrap-around is as in Go.
-/

namespace Verif.Ids

/-- `THREAD_SHIFT` (`graph.go:28`). -/
def threadShift : UInt32 := 27
/-- `THREAD_MASK` (`graph.go:29`). -/
def threadMask : UInt32 := ((1 : UInt32) <<< 27) - 1
/-- `THREAD_ID_MASK` (`graph.go:30`). -/
def threadIdMask : UInt32 := (((1 : UInt32) <<< 5) - 1) <<< 27
/-- `BUCKET_SHIFT` (`graph.go:40`). -/
def bucketShift : UInt32 := 12
/-- `BUCKET_MASK` (`graph.go:41-42`). -/
def bucketMask : UInt32 := ((1 : UInt32) <<< 12) - 1

/-- The id given to the `idx`-th vertex of thread `tidx` (`stream-enact-events.go:16-17`). -/
def newVidx (tidx idx : UInt32) : UInt32 := (tidx <<< threadShift) + idx

/-- The id built while iterating (`graph-vertex.go:178, 181`). -/
def orVidx (tidx i : UInt32) : UInt32 := (tidx <<< threadShift) ||| i

/-- `InternalExpand` (`graph-vertex.go:57-61`): `(idx, tidx)`. -/
def internalExpand (internalId : UInt32) : UInt32 × UInt32 :=
  (internalId &&& threadMask, internalId >>> threadShift)

/-- `SameTidx` (`graph-vertex.go:64-66`). -/
def sameTidx (a b : UInt32) : Bool := (a &&& threadIdMask) == (b &&& threadIdMask)

/-- `idxToBucket` (`graph-vertex.go:50-54`): `(b, p)`. -/
def idxToBucket (idx : UInt32) : UInt32 × UInt32 := (idx >>> bucketShift, idx &&& bucketMask)

/-- `EVENT_TYPE_MASK` (`stream.go:22-23`). -/
def eventTypeMask : UInt64 := ((1 : UInt64) <<< 2) - 1

/-- `EventType()` (`stream.go:27-29, 37-39`). -/
def eventType (w : UInt64) : UInt64 := w &&& eventTypeMask

/-- `EventIdx()` (`stream.go:32-34, 42-44`). -/
def eventIdx (w : UInt64) : UInt64 := w >>> 2

/-- The emitter's stamping of a freshly parsed word (`stream.go:193`). -/
def stamp (w idx : UInt64) : UInt64 := w ||| (idx <<< 2)

/-- The word of the mirrored event (`stream.go:209-210`). -/
def mirrorWord (w idx : UInt64) : UInt64 := (w &&& eventTypeMask) ||| (idx <<< 2)

/-- The inner loop of `NodeForEachVertex` (179-183) over one thread's vertices, starting at local
index `i` with the ordinal counter `count`; yields the applicator calls and the new counter. -/
def eachInThread {β : Type} (tidx : UInt32) :
    List β → (i count : UInt32) → List (UInt32 × UInt32 × β) × UInt32
  | [], _, count => ([], count)
  | v :: vs, i, count =>
    let (rest, c) := eachInThread tidx vs (i + 1) (count + 1)
    ((count, orVidx tidx i, v) :: rest, c)

/-- `NodeForEachVertex` (174-185): applicator calls `(ordinal, internalId, vertex)` in order;
`threads` lists the vertex arrays of threads `tidx, tidx+1, ...`. -/
def forEachVertex {β : Type} :
    List (List β) → (tidx count : UInt32) → List (UInt32 × UInt32 × β)
  | [], _, _ => []
  | t :: ts, tidx, count =>
    let (calls, c) := eachInThread tidx t 0 count
    calls ++ forEachVertex ts (tidx + 1) c

/-- The per-thread arguments of `NodeParallelFor` (197-204): `(ordinalStart, threadOffset)`. -/
def parallelStarts {β : Type} :
    List (List β) → (tidx ordinalStart : UInt32) → List (UInt32 × UInt32)
  | [], _, _ => []
  | t :: ts, tidx, o =>
    (o, tidx <<< threadShift) :: parallelStarts ts (tidx + 1) (o + UInt32.ofNat t.length)

end Verif.Ids
