import Verif.RoundUp

/-!
# The bitmap (`utils/bitmap.go`)

A Go slice is modelled with its backing array: `mem` is the backing array (`cap` words), `len`
the visible length. `nil` is modelled by a flag because `Grow` tests it. Indexing beyond `len`
is a panic, which never happens in these functions (each index is tested or grown first); the
model keeps the test explicit where the code has it.
-/

namespace Verif.Bitmap
open Verif.RoundUp

/-- `type Bitmap []uint64` (`bitmap.go:12`) with its backing array. -/
structure Bm where
  mem : List UInt64
  len : Nat
  isNil : Bool
  deriving Repr, DecidableEq

/-- `var b Bitmap`: the nil slice. -/
def nilBm : Bm := ⟨[], 0, true⟩

/-- The growth loop of `resize` (86-88). The `0 < capacity` test guards against overflow of
`int`; here capacities are naturals and at least 256. -/
def resizeLoop (capacity v : Nat) : Nat :=
  if h : 0 < capacity ∧ capacity < v + 1 then
    resizeLoop (capacity + (capacity + 3 * 256) / 4) v
  else capacity
termination_by v + 1 - capacity
decreasing_by omega

/-- `resize` (74-91). -/
def resize (capacity v : Nat) : Nat :=
  if v < 256 then (roundUpPow (UInt64.ofNat (v + 1))).toNat
  else
    let capacity := if capacity < 256 then 256 else capacity
    resizeLoop capacity v

/-- `grow` (52-61). `make(Bitmap, idx+1, c)` is `c` zero words with length `idx+1` (it would
panic if `c < idx+1`, hence the option); `copy` copies the `len` visible old words. -/
def growTo (b : Bm) (idx : Nat) : Option Bm :=
  if idx < b.mem.length then
    some { b with len := idx + 1 }
  else
    let c := resize b.mem.length (idx + 1)
    if idx + 1 ≤ c then
      some { mem := b.mem.take b.len ++ List.replicate (c - b.len) 0, len := idx + 1, isNil := false }
    else none

/-- `(*bitmap)[idx] |= (1 << bit)`. -/
def orBit (b : Bm) (idx : Nat) (bit : UInt32) : Bm :=
  { b with mem := b.mem.set idx (b.mem.getD idx 0 ||| ((1 : UInt64) <<< UInt64.ofNat bit.toNat)) }

/-- `QuickSet` (15-23). -/
def quickSet (b : Bm) (x : UInt32) : Bm × Bool :=
  let idx := (x >>> 6).toNat
  if b.len ≤ idx then (b, false) else (orBit b idx (x % 64), true)

/-- `Set` (26-33). -/
def set (b : Bm) (x : UInt32) : Option Bm :=
  let idx := (x >>> 6).toNat
  if b.len ≤ idx then
    (growTo b idx).map (fun b' => orBit b' idx (x % 64))
  else some (orBit b idx (x % 64))

/-- `Zeroes` (36-40): clears the visible words. -/
def zeroes (b : Bm) : Bm :=
  { b with mem := List.replicate b.len 0 ++ b.mem.drop b.len }

/-- `Grow` (43-49). -/
def grow (b : Bm) (desiredBit : UInt32) : Option Bm :=
  let idx := (desiredBit >>> 6).toNat
  if b.len < idx ∨ b.isNil = true then growTo b idx else some b

/-- `bits.TrailingZeros64` (Go standard library): position of the lowest one bit, 64 if none.
Modelled as the obvious search. -/
def trailingZeros (w : UInt64) : Nat → Nat
  | 0 => 64
  | n + 1 => if w.toNat.testBit (64 - (n + 1)) then 64 - (n + 1) else trailingZeros w n

/-- The loop of `FirstUnused` (64-71) over the visible words from index `i`. -/
def firstUnusedFrom : List UInt64 → Nat → UInt32
  | [], i => UInt32.ofNat (i <<< 6)
  | w :: ws, i =>
    if w ≠ 0xFFFFFFFFFFFFFFFF then UInt32.ofNat (i <<< 6 + trailingZeros (~~~w) 64)
    else firstUnusedFrom ws (i + 1)

/-- `FirstUnused` (64-71). -/
def firstUnused (b : Bm) : UInt32 := firstUnusedFrom (b.mem.take b.len) 0

/-- The mutating API calls. -/
inductive Op where
  | set (x : UInt32)
  | quickSet (x : UInt32)
  | zeroes
  | grow (x : UInt32)
  deriving Repr, DecidableEq

/-- One call: new bitmap and the returned boolean (`true` for calls without a result);
`none` is a panic. -/
def step (b : Bm) : Op → Option (Bm × Bool)
  | .set x => (set b x).map (·, true)
  | .quickSet x => some (quickSet b x)
  | .zeroes => some (zeroes b, true)
  | .grow x => (grow b x).map (·, true)

/-- A sequence of calls; the log pairs each call with its result. -/
def run (b : Bm) : List Op → Option (Bm × List (Op × Bool))
  | [] => some (b, [])
  | o :: os =>
    match step b o with
    | none => none
    | some (b', r) => (run b' os).map (fun p => (p.1, (o, r) :: p.2))

end Verif.Bitmap
