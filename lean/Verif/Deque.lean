import Verif.Util

/-!
# The deque (`utils/deque.go`)

A pointer-level model: nodes live in a memory `mem` indexed by addresses, `next` is the address
the next allocation returns (unreachable nodes simply stay in `mem`, as garbage). `isNil` says
that `head` and `tail` are nil. `z` is Go's zero value of the item type; `tz` says that the
`tZero` pointer has been set by `Init`. `int` fields that never become negative are naturals;
`spareLinks` is an integer. `none` is a panic.
-/

namespace Verif.Deque

/-- `node` (82-91). -/
structure Node (α : Type) where
  v : List α
  n : Nat
  p : Nat

/-- `Deque` (69-78). -/
structure Dq (α : Type) where
  mem : Nat → Node α
  next : Nat
  isNil : Bool
  head : Nat
  tail : Nat
  hp : Nat
  hlp : Nat
  tp : Nat
  len : Nat
  spare : Int
  tz : Bool

variable {α : Type}

/-- `firstSliceSize` (34). -/
def firstSliceSize : Nat := 4
/-- `sliceGrowthFactor` (43). -/
def sliceGrowthFactor : Nat := 4
/-- `maxFirstSliceSize` (46). -/
def maxFirstSliceSize : Nat := 64
/-- `maxInternalSliceSize` (49). -/
def maxInternalSliceSize : Nat := 256
/-- `maxSpareLinks` (64). -/
def maxSpareLinks : Int := 5

/-- The zero value of `Deque`. -/
def zeroDq : Dq α :=
  { mem := fun _ => ⟨[], 0, 0⟩, next := 0, isNil := true, head := 0, tail := 0, hp := 0, hlp := 0,
    tp := 0, len := 0, spare := 0, tz := false }

/-- `Init` (94-98). -/
def init (d : Dq α) : Dq α := { (zeroDq : Dq α) with mem := d.mem, next := d.next, tz := true }

/-- `x.n = y`. -/
def setN (mem : Nat → Node α) (x y : Nat) : Nat → Node α := upd mem x { mem x with n := y }
/-- `x.p = y`. -/
def setP (mem : Nat → Node α) (x y : Nat) : Nat → Node α := upd mem x { mem x with p := y }
/-- `x.v = l`. -/
def setV (mem : Nat → Node α) (x : Nat) (l : List α) : Nat → Node α := upd mem x { mem x with v := l }

/-- `x.v[i] = y` with the bounds check. -/
def store (d : Dq α) (x i : Nat) (y : α) : Option (Dq α) :=
  if i < (d.mem x).v.length then some { d with mem := setV d.mem x ((d.mem x).v.set i y) } else none

/-- `copy(dst[off:], src)`. -/
def copyAt (dst : List α) (off : Nat) (src : List α) : List α :=
  dst.take off ++ src.take (dst.length - off) ++ dst.drop (off + src.length)

/-- `Front` (109-114). -/
def front (z : α) (d : Dq α) : Option (α × Bool) :=
  if d.len = 0 then (if d.tz then some (z, false) else none)
  else (d.mem d.head).v[d.hp]?.map (·, true)

/-- `Back` (120-125). -/
def back (z : α) (d : Dq α) : Option (α × Bool) :=
  if d.len = 0 then (if d.tz then some (z, false) else none)
  else if d.tp = 0 then none else (d.mem d.tail).v[d.tp - 1]?.map (·, true)

/-- First case of the pushes (131-140, 191-199): the first node, linked to itself. -/
def firstNode (z : α) (d : Dq α) : Dq α :=
  { d with mem := upd d.mem d.next ⟨List.replicate firstSliceSize z, d.next, d.next⟩,
           next := d.next + 1, isNil := false, head := d.next, tail := d.next }

/-- The `switch` of `PushFront` (130-182): makes room before the first element. -/
def frontPrep (z : α) (d : Dq α) : Dq α :=
  if d.isNil then
    { firstNode z d with tp := firstSliceSize, hp := firstSliceSize - 1, hlp := firstSliceSize - 1 }
  else if 0 < d.hp then { d with hp := d.hp - 1 }
  else if (d.mem d.head).p ≠ d.tail then
    let h := (d.mem d.head).p
    let l := (d.mem h).v.length
    let d' := { d with head := h, hp := l - 1, hlp := l - 1, spare := d.spare - 1 }
    if d.len = 0 then { d' with tail := h, tp := l } else d'
  else if (d.mem d.head).v.length < maxFirstSliceSize then
    let l := (d.mem d.head).v.length
    let nl := l * sliceGrowthFactor
    let diff := nl - l
    let hp := d.hp + diff
    { d with tp := d.tp + diff, hlp := nl - 1,
             mem := setV d.mem d.head (copyAt (List.replicate nl z) hp (d.mem d.head).v),
             hp := hp - 1 }
  else if d.len = 0 then
    let l := (d.mem d.head).v.length
    { d with tail := d.head, tp := l, hp := l - 1, hlp := l - 1 }
  else
    let n := d.next
    let mem := upd d.mem n ⟨List.replicate maxInternalSliceSize z, d.head, d.tail⟩
    let mem := setP mem d.head n
    let mem := setN mem d.tail n
    { d with mem, next := d.next + 1, head := n, hp := maxInternalSliceSize - 1,
             hlp := maxInternalSliceSize - 1 }

/-- `PushFront` (129-185). -/
def pushFront (z : α) (d : Dq α) (x : α) : Option (Dq α) :=
  let d1 := frontPrep z d
  store { d1 with len := d1.len + 1 } d1.head d1.hp x

/-- The last case of the back pushes (220-229, 280-289): a new node after the tail. -/
def newTail (z : α) (d : Dq α) (x : α) : Option (Dq α) :=
  let n := d.next
  let mem := upd d.mem n ⟨List.replicate maxInternalSliceSize z, d.head, d.tail⟩
  let mem := setN mem d.tail n
  let mem := setP mem d.head n
  store { d with mem, next := d.next + 1, tail := n, tp := 1, len := d.len + 1 } n 0 x

/-- Growing the first slice at the back (204-211, 269-275). -/
def growTail (z : α) (d : Dq α) (x : α) : Option (Dq α) :=
  let v := (d.mem d.tail).v
  let nv := copyAt (List.replicate (v.length * sliceGrowthFactor) z) 0 v
  store { d with mem := setV d.mem d.tail nv, tp := d.tp + 1, hlp := nv.length - 1, len := d.len + 1 }
    d.tail d.tp x

/-- The first back push (191-199, 260-268). -/
def firstBack (z : α) (d : Dq α) (x : α) : Option (Dq α) :=
  store { firstNode z d with hlp := firstSliceSize - 1, tp := 1, len := d.len + 1 } d.next 0 x

/-- Moving to the spare node after the tail (212-218, 245-252). -/
def spareTail (d : Dq α) (x : α) : Option (Dq α) :=
  let n := (d.mem d.tail).n
  store { d with spare := d.spare - 1, tail := n, tp := 1, len := d.len + 1 } n 0 x

/-- `PushBack` (189-232). -/
def pushBack (z : α) (d : Dq α) (x : α) : Option (Dq α) :=
  if d.isNil then firstBack z d x
  else if d.tp < (d.mem d.tail).v.length then
    store { d with tp := d.tp + 1, len := d.len + 1 } d.tail d.tp x
  else if d.tp < maxFirstSliceSize then growTail z d x
  else if (d.mem d.tail).n ≠ d.head then spareTail d x
  else newTail z d x

/-- `FastPushBack` (234-256): new state and `ok`. -/
def fastPushBack (d : Dq α) (x : α) : Option (Dq α × Bool) :=
  if d.isNil then some (d, false)
  else if d.tp < (d.mem d.tail).v.length then
    (store { d with tp := d.tp + 1, len := d.len + 1 } d.tail d.tp x).map (·, true)
  else if (d.mem d.tail).n ≠ d.head then (spareTail d x).map (·, true)
  else some (d, false)

/-- `SlowPushBack` (258-291). -/
def slowPushBack (z : α) (d : Dq α) (x : α) : Option (Dq α) :=
  if d.isNil then firstBack z d x
  else if d.tp < maxFirstSliceSize then growTail z d x
  else newTail z d x

/-- The use of the two functions (`run-async.go:141-143`): fast, else slow. -/
def fastSlowPushBack (z : α) (d : Dq α) (x : α) : Option (Dq α) :=
  (fastPushBack d x).bind fun r => if r.2 then some r.1 else slowPushBack z r.1 x

/-- `TryPopFront` (331-340). -/
def tryPopFront (z : α) (d : Dq α) : Option (Dq α × α × Bool) :=
  if d.len = 0 then (if d.tz then some (d, z, false) else none)
  else
    match (d.mem d.head).v[d.hp]? with
    | none => none
    | some v =>
      if d.tz then (store { d with len := d.len - 1 } d.head d.hp z).map (·, v, true) else none

/-- `UpdatePopFront` (342-365). -/
def updatePopFront (d : Dq α) : Dq α :=
  if d.hp < d.hlp then { d with hp := d.hp + 1 }
  else if d.head = d.tail then { d with tp := d.hp }
  else
    let d := { d with hp := 0 }
    let d :=
      if maxSpareLinks ≤ d.spare then
        let mem := setN d.mem (d.mem d.head).p (d.mem d.head).n
        let mem := setP mem (mem d.head).n (mem d.head).p
        { d with mem }
      else { d with spare := d.spare + 1 }
    let d := { d with head := (d.mem d.head).n }
    { d with hlp := (d.mem d.head).v.length - 1 }

/-- `PopFront` (297-329). -/
def popFront (z : α) (d : Dq α) : Option (Dq α × α × Bool) :=
  if d.len = 0 then (if d.tz then some (d, z, false) else none)
  else
    match (d.mem d.head).v[d.hp]? with
    | none => none
    | some v =>
      if d.tz then
        (store { d with len := d.len - 1 } d.head d.hp z).map fun d =>
          let d :=
            if d.hp < d.hlp then { d with hp := d.hp + 1 }
            else if d.head = d.tail then { d with tp := d.hp }
            else if maxSpareLinks ≤ d.spare then
              let mem := setN d.mem (d.mem d.head).p (d.mem d.head).n
              let mem := setP mem (mem d.head).n (mem d.head).p
              let h := (mem d.head).n
              { d with hp := 0, mem, head := h, hlp := (mem h).v.length - 1 }
            else
              let h := (d.mem d.head).n
              { d with hp := 0, head := h, spare := d.spare + 1, hlp := (d.mem h).v.length - 1 }
          (d, v, true)
      else none

/-- `PopBack` (371-400); `tp = 0` would index at -1. -/
def popBack (z : α) (d : Dq α) : Option (Dq α × α × Bool) :=
  if d.len = 0 then (if d.tz then some (d, z, false) else none)
  else if d.tp = 0 then none
  else
    let d := { d with len := d.len - 1, tp := d.tp - 1 }
    match (d.mem d.tail).v[d.tp]? with
    | none => none
    | some v =>
      if d.tz then
        (store d d.tail d.tp z).map fun d =>
          let d :=
            if 0 < d.tp then d
            else if d.head = d.tail then d
            else if maxSpareLinks ≤ d.spare then
              let mem := setN d.mem (d.mem d.tail).p (d.mem d.tail).n
              let mem := setP mem (mem d.tail).n (mem d.tail).p
              let t := (mem d.tail).p
              { d with mem, tail := t, tp := (mem t).v.length }
            else
              let t := (d.mem d.tail).p
              { d with spare := d.spare + 1, tail := t, tp := (d.mem t).v.length }
          (d, v, true)
      else none

/-- API calls. `tryUpdate` is `TryPopFront` followed, when it succeeded, by `UpdatePopFront`
(`run-async.go:113-117`). -/
inductive Op (α : Type) where
  | init
  | pushFront (x : α)
  | pushBack (x : α)
  | fastSlow (x : α)
  | popFront
  | tryUpdate
  | popBack
  | front
  | back
  | len

/-- Results. -/
inductive Out (α : Type) where
  | unit
  | item (x : α) (ok : Bool)
  | num (n : Nat)
  deriving DecidableEq

/-- One call. -/
def step (z : α) (d : Dq α) : Op α → Option (Dq α × Out α)
  | .init => some (init d, .unit)
  | .pushFront x => (pushFront z d x).map (·, .unit)
  | .pushBack x => (pushBack z d x).map (·, .unit)
  | .fastSlow x => (fastSlowPushBack z d x).map (·, .unit)
  | .popFront => (popFront z d).map fun r => (r.1, .item r.2.1 r.2.2)
  | .tryUpdate => (tryPopFront z d).map fun r =>
      (if r.2.2 then updatePopFront r.1 else r.1, .item r.2.1 r.2.2)
  | .popBack => (popBack z d).map fun r => (r.1, .item r.2.1 r.2.2)
  | .front => (front z d).map fun r => (d, .item r.1 r.2)
  | .back => (back z d).map fun r => (d, .item r.1 r.2)
  | .len => some (d, .num d.len)

/-- A sequence of calls: final state and results. -/
def run (z : α) (d : Dq α) : List (Op α) → Option (Dq α × List (Out α))
  | [] => some (d, [])
  | o :: os =>
    match step z d o with
    | none => none
    | some (d', r) => (run z d' os).map fun p => (p.1, r :: p.2)

end Verif.Deque
