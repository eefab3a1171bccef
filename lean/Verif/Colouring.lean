import Verif.MinLabel

/-!
# Graph colouring

`cmd/lp-colouring/colouring.go` as an algorithm for `Verif/Async.lean`, without `UseWaitCount` (a
command line option for static graphs, off by default, `main.go:14`).

Simplifications:
* `MailRetrieve` reads all entries of `NbrScratch` in one step (in the code one after the other, under the
  read lock, while other threads may store into entries).
* `coloursIndexed` is the set of the colours put into it, and `FirstUnused` its least missing number:
  that the bitmap is that set is C09. `MailRetrieve` writes it into the property; here it is computed
  from the mail it returns.
* `existing.Pos` is the internal id of the vertex the mailbox belongs to, written by `BaseVertexMailbox`
  before anybody posts; here it travels with the mail as `box`.
* Colours and positions are natural numbers; that they stay below 2^31 is part of what is proved.
-/

namespace Verif.Colouring

open Verif.Async Verif.MinLabel

/-- `EMPTY_VAL` (`colouring.go:14`). -/
def EMPTY : Nat := 4294967295 >>> 1

/-- `MSB_MASK` (15). -/
def MASK : Nat := 1 <<< 31 - 1

/-- `MSB` (16). -/
def MSB : Nat := 1 <<< 31

/-- `Mail` (29-34). -/
structure Mail where
  scratch : List Nat
  pos : Nat
  colour : Nat
  box : Nat
  deriving DecidableEq, Repr

/-- `hash` (51-53), `THREAD_MASK` (`graph.go:29`). -/
def hash (id : Nat) : Nat := id &&& (1 <<< 27 - 1)

/-- `comparePriority` (57-59). -/
def comparePriority (p1 p2 id1 id2 : Nat) : Bool := decide (p1 < p2) || (decide (p1 = p2) && decide (id1 < id2))

/-- `MailMerge` (90-139). -/
def merge (incoming : Mail) (sidx : Nat) (existing : Mail) : Mail × Bool :=
  let didx := incoming.box
  if sidx = didx then (existing, true)
  else
    let targetPriority := comparePriority (hash didx) (hash sidx) didx sidx
    let colour := if targetPriority = false then incoming.colour ||| MSB else incoming.colour
    if existing.scratch.length ≤ incoming.pos then
      ({ existing with scratch := (existing.scratch ++ List.replicate (incoming.pos + 1 - existing.scratch.length) EMPTY).set incoming.pos colour }, !targetPriority)
    else if existing.scratch[incoming.pos]? ≠ some colour then
      ({ existing with scratch := existing.scratch.set incoming.pos colour }, !targetPriority)
    else (existing, false)

/-- The colours that `MailRetrieve` puts into `coloursIndexed` (141-163). -/
def used (ns : List Nat) : List Nat := (ns.map fun nsc => nsc &&& MASK).filter fun col => decide (col ≤ ns.length)

/-- What `MailRetrieve` leaves in `prop.Colour` (155-157). -/
def mark (ns : List Nat) (ourColour : Nat) : Nat :=
  if (ns.any fun nsc => decide (nsc &&& MASK ≤ ns.length) && decide (nsc &&& MSB ≠ 0) && decide (nsc &&& MASK = ourColour)) = true then EMPTY else ourColour

/-- `FirstUnused` (`utils/bitmap.go:64-71`). -/
def firstUnused (l : List Nat) : Nat := ((List.range (l.length + 1)).find? fun n => !l.contains n).getD 0

/-- Mail to the other end of an edge. -/
def tell (colour : Nat) (e : Edge Nat) : Nat × Mail := (e.dst, { scratch := [], pos := e.data, colour := colour, box := e.dst })

/-- `OnUpdateVertex` (166-182); the continuation gets `sent != 0`. -/
def update (p : Nat) (es : List (Edge Nat)) (m : Mail) (k : Bool → Prog Mail Unit) : Nat × Prog Mail Unit :=
  let best := firstUnused (used m.scratch)
  if mark m.scratch p = best then (best, k false)
  else (best, postAll (es.map (tell best)) false k)

/-- `OnEdgeAdd` (187-206). -/
def onEdgeAdd (sidx p : Nat) (es : List (Edge Nat)) (eidxStart : Nat) (m : Mail) : Nat × Prog Mail Unit :=
  let colour := firstUnused (used m.scratch)
  update p es m fun sent =>
    if sent = true then .done
    else postAll (((es.drop eidxStart).filter fun e => comparePriority (hash sidx) (hash e.dst) sidx e.dst).map (tell colour)) false fun _ => .done

/-- `OnEdgeDel` (209-222). -/
def onEdgeDel (p : Nat) (es deleted : List (Edge Nat)) (m : Mail) : Nat × Prog Mail Unit :=
  update p es m fun _ => postAll (deleted.map (tell EMPTY)) false fun _ => .done

/-- `Colouring` (12-222). -/
def colouring : Alg Nat Mail Unit Nat :=
  { newP := EMPTY, newM := { scratch := [], pos := 0, colour := 0, box := 0 }, noNote := (),
    merge := merge,
    retrieve := fun existing _ => (existing, existing),
    onUpdate := fun _ p es _ _ m => update p es m fun _ => .done,
    onEdgeAdd := fun v p es i m => onEdgeAdd v p es i m,
    onEdgeDel := fun _ p es ds m => onEdgeDel p es ds m }

/-- `InitAllMail` (86-88): mail of every vertex to itself. -/
def cfg (T : Nat) (own : Nat → Nat) : Cfg Mail Unit :=
  { T := T, own := own, initMail := fun v => some { scratch := [], pos := 0, colour := 0, box := v }, initNote := fun _ => none }

end Verif.Colouring
