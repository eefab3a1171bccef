import Verif.Async
import Mathlib.Algebra.Order.Ring.Rat
import Mathlib.Algebra.Order.Ring.Unbundled.Rat

/-!
# PageRank

`cmd/lp-pagerank/pagerank.go:13-172` as an algorithm for `Verif/Async.lean`.

Simplification: exact rational arithmetic instead of `float64`. The damping factor and the threshold are
parameters in the general definitions; `pagerank` has the values of the code.
-/

namespace Verif.PageRank

open Verif.Async

/-- `VertexProperty` (`pagerank.go:38-41`). -/
structure PR where
  inflow : ℚ
  mass : ℚ
  deriving DecidableEq, Repr

/-- `MailMerge` and, if it says so, `UniqueNotification`, for the given targets in order (90-95 and the
other loops). -/
def shareAll : List (Nat × ℚ) → Prog ℚ Unit
  | [] => .done
  | (w, x) :: ws => .post w x fun _ => shareAll ws

/-- `MailMerge` (65-68): add; news if the magnitude crosses the threshold. -/
def merge (ε : ℚ) (incoming existing : ℚ) : ℚ × Bool :=
  (existing + incoming, decide (|existing| < ε) && decide (|existing + incoming| > ε))

variable {E : Type}

/-- `OnUpdateVertex` (78-100). -/
def onUpdate (d ε : ℚ) (p : PR) (es : List (Edge E)) (m : ℚ) : PR × Prog ℚ Unit :=
  let inflow := p.inflow + m
  if |inflow| > ε then
    let toDistribute := d * inflow
    let toAbsorb := (1 - d) * inflow
    ({ inflow := 0, mass := p.mass + toAbsorb },
      if es.length > 0 then shareAll (es.map fun e => (e.dst, toDistribute / es.length)) else .done)
  else ({ p with inflow := inflow }, .done)

/-- `OnEdgeAdd` (105-138). -/
def onEdgeAdd (d : ℚ) (p : PR) (es : List (Edge E)) (eidxStart : Nat) (m : ℚ) : PR × Prog ℚ Unit :=
  let distAllPrev := p.mass * (d / (1 - d))
  let inflow := p.inflow + m
  let toDistribute := d * inflow
  let toAbsorb := (1 - d) * inflow
  let distribute := toDistribute / es.length
  let distNew := distAllPrev / es.length
  let old := if eidxStart ≠ 0 then
      let distOld := distAllPrev / eidxStart
      let distDelta := distNew - distOld
      (es.take eidxStart).map fun e => (e.dst, distDelta + distribute)
    else []
  let new := (es.drop eidxStart).map fun e => (e.dst, distNew + distribute)
  ({ inflow := 0, mass := p.mass + toAbsorb }, shareAll (old ++ new))

/-- `OnEdgeDel` (141-172). -/
def onEdgeDel (d : ℚ) (p : PR) (es deleted : List (Edge E)) (m : ℚ) : PR × Prog ℚ Unit :=
  let distAllPrev := p.mass * (d / (1 - d))
  let inflow := p.inflow + m
  let toDistribute := d * inflow
  let toAbsorb := (1 - d) * inflow
  let kept := if es.length > 0 then
      let distribute := toDistribute / es.length
      let distOld := distAllPrev / ((es.length + deleted.length : Nat) : ℚ)
      let distNew := distAllPrev / es.length
      let distDelta := distNew - distOld
      es.map fun e => (e.dst, distDelta + distribute)
    else []
  let distOldEdges := -1 * distAllPrev / ((es.length + deleted.length : Nat) : ℚ)
  ({ inflow := 0, mass := p.mass + toAbsorb }, shareAll (kept ++ deleted.map fun e => (e.dst, distOldEdges)))

/-- The algorithm with damping factor `d` and threshold `ε`; `MailRetrieve` (73-76) empties the mailbox. -/
def alg (d ε : ℚ) : Alg PR ℚ Unit E :=
  { newP := { inflow := 0, mass := 0 }, newM := 0, noNote := (),
    merge := fun incoming _ existing => merge ε incoming existing,
    retrieve := fun existing _ => (0, existing),
    onUpdate := fun _ p es _ _ m => onUpdate d ε p es m,
    onEdgeAdd := fun _ p es st m => onEdgeAdd d p es st m,
    onEdgeDel := fun _ p es ds m => onEdgeDel d p es ds m }

/-- `DAMPINGFACTOR` (13). -/
def damping : ℚ := 17 / 20

/-- `EPSILON` (36): `INITMASS * 1e-3 / (1 - DAMPINGFACTOR)`. -/
def epsilon : ℚ := 1 / 1000 / (1 - damping)

/-- `PageRank` (11). -/
def pagerank : Alg PR ℚ Unit E := alg damping epsilon

/-- `InitAllMail` (61-63): every vertex starts with `INITMASS`. -/
def cfg (T : Nat) (own : Nat → Nat) : Cfg ℚ Unit := { T := T, own := own, initMail := fun _ => some 1, initNote := fun _ => none }

end Verif.PageRank
