import Verif.ColouringInv

/-!
# Graph colouring with wait counts

`cmd/lp-colouring/colouring.go` with `UseWaitCount` (the option `-WaitCount`, for static graphs): a vertex waits until
all its neighbours with priority have told it their colour.

`MailMerge` is not one step here. Its accesses to the mailbox are posts of their own, so that those of different
threads interleave: storing the colour (`store`), testing the count (`test`), subtracting one (`sub`), and the last
store when the subtraction gave zero (`last`), which is also where it reports new information. What a thread has read
in an earlier access (`saw`, `hit`: the positions of the edges whose test was positive and whose subtraction gave
zero) is kept with the mailbox, because a program cannot remember it.

Simplifications: those of `Verif/Colouring.lean` other than the above. A mailbox is as `BaseVertexMailbox` leaves it
from the first access on.
-/

namespace Verif.ColouringWait

open Verif.Async Verif.MinLabel
open Verif.Colouring (EMPTY MASK MSB hash comparePriority used mark firstUnused prior Added load0)

/-- An access of `MailMerge` to the mailbox. -/
inductive Op where
  /-- mail to itself (92-97) -/
  | self
  /-- the colour (105-121) -/
  | store
  /-- `LoadUint32(&existing.Colour) > 0` (131) -/
  | test
  /-- `AddUint32(&existing.Colour, ^uint32(0))` (132) -/
  | sub
  /-- `StoreUint32(&existing.Colour, ^uint32(0))` (133-136) -/
  | last
  deriving DecidableEq, Repr

/-- `Mail` (29-34): `op`, `pos`, `colour` and `box` (the vertex the mailbox belongs to) of mail; `scratch` and `count`
(`Colour`) of a mailbox. -/
structure Mail where
  op : Op := .self
  pos : Nat := 0
  colour : Nat := 0
  box : Nat := 0
  made : Bool := false
  scratch : List Nat := []
  count : Nat := 0
  saw : List Nat := []
  hit : List Nat := []
  deriving DecidableEq, Repr

/-- `^uint32(0)`. -/
def MAX : Nat := 4294967295

/-- Edges into a vertex: `InEventPos` (`graph-vertex.go`), for a graph that has been loaded. -/
def inDeg (U : Added) (v : Nat) : Nat := U.countP fun a => decide (a.2.1 = v)

/-- The loop of `BaseVertexMailbox` (66-74): out-edges to neighbours with priority. -/
def waits (U : Added) (v : Nat) : Nat :=
  (load0 U v).foldl (fun n e => if comparePriority (hash e.dst) (hash v) e.dst v = true then (n + 1) % 4294967296 else n) 0

/-- `BaseVertexMailbox` (61-83). -/
def base (U : Added) (v : Nat) : Mail := { made := true, scratch := List.replicate (inDeg U v) EMPTY, count := waits U v }

/-- The mailbox of `v`. -/
def opened (U : Added) (v : Nat) (m : Mail) : Mail := if m.made = true then m else base U v

/-- The entries after the colour has been stored (105-121). -/
def put (ns : List Nat) (pos colour : Nat) : List Nat :=
  if ns.length ≤ pos then (ns ++ List.replicate (pos + 1 - ns.length) EMPTY).set pos colour
  else if ns[pos]? ≠ some colour then ns.set pos colour
  else ns

/-- `MailMerge` (90-139), one access at a time. -/
def merge (U : Added) (incoming : Mail) (sidx : Nat) (mailbox : Mail) : Mail × Bool :=
  let didx := incoming.box
  let existing := opened U didx mailbox
  match incoming.op with
  | .self => (existing, decide (existing.count = 0))
  | .store =>
    let targetPriority := comparePriority (hash didx) (hash sidx) didx sidx
    let colour := if targetPriority = false then incoming.colour ||| MSB else incoming.colour
    ({ existing with scratch := put existing.scratch incoming.pos colour }, false)
  | .test => ({ existing with saw := if 0 < existing.count then incoming.pos :: existing.saw else existing.saw.filter (· ≠ incoming.pos) }, false)
  | .sub =>
    if incoming.pos ∈ existing.saw then
      let new := (existing.count + MAX) % 4294967296
      ({ existing with count := new, hit := if new = 0 then incoming.pos :: existing.hit else existing.hit.filter (· ≠ incoming.pos) }, false)
    else ({ existing with hit := existing.hit.filter (· ≠ incoming.pos) }, false)
  | .last => if incoming.pos ∈ existing.hit then ({ existing with count := MAX }, true) else (existing, false)

/-- The accesses of `MailMerge` for a colour sent along an edge (92-139). -/
def calls (sidx colour : Nat) (e : Edge Nat) : List (Nat × Mail) :=
  let mail (op : Op) : Nat × Mail := (e.dst, { op := op, pos := e.data, colour := colour, box := e.dst })
  if sidx = e.dst then [mail .self]
  else if comparePriority (hash e.dst) (hash sidx) e.dst sidx = true then [mail .store]
  else [mail .store, mail .test, mail .sub, mail .last]

/-- `OnUpdateVertex` (166-182). -/
def update (sidx p : Nat) (es : List (Edge Nat)) (m : Mail) (k : Bool → Prog Mail Unit) : Nat × Prog Mail Unit :=
  let best := firstUnused (used m.scratch)
  if mark m.scratch p = best then (best, k false)
  else (best, postAll (es.flatMap (calls sidx best)) false k)

/-- `OnEdgeAdd` (187-206). -/
def onEdgeAdd (sidx p : Nat) (es : List (Edge Nat)) (eidxStart : Nat) (m : Mail) : Nat × Prog Mail Unit :=
  let colour := firstUnused (used m.scratch)
  update sidx p es m fun sent =>
    if sent = true then .done
    else postAll (((es.drop eidxStart).filter fun e => comparePriority (hash sidx) (hash e.dst) sidx e.dst).flatMap (calls sidx colour)) false fun _ => .done

/-- `OnEdgeDel` (209-222). -/
def onEdgeDel (sidx p : Nat) (es deleted : List (Edge Nat)) (m : Mail) : Nat × Prog Mail Unit :=
  update sidx p es m fun _ => postAll (deleted.flatMap (calls sidx EMPTY)) false fun _ => .done

/-- `Colouring` (12-222) with `UseWaitCount`, on a graph that has been loaded. -/
def waiting (U : Added) : Alg Nat Mail Unit Nat :=
  { newP := EMPTY, newM := {}, noNote := (),
    merge := merge U,
    retrieve := fun existing _ => (existing, existing),
    onUpdate := fun v p es _ _ m => update v p es m fun _ => .done,
    onEdgeAdd := fun v p es i m => onEdgeAdd v p es i m,
    onEdgeDel := fun v p es ds m => onEdgeDel v p es ds m }

/-- `InitAllMail` (86-88). -/
def cfg (T : Nat) (own : Nat → Nat) : Cfg Mail Unit :=
  { T := T, own := own, initMail := fun v => some { op := .self, box := v }, initNote := fun _ => none }

end Verif.ColouringWait
