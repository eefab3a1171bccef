import Verif.Loader

/-!
# Edge properties with a time (`graph/graph-edge.go:79-122, 157-188`)

The methods of `WithTimestamp` and `TimeRangeEdge`, and the reading of a timestamp. For weights see
`Verif/Weights.lean`.
-/

namespace Verif.EdgeProps

open Verif.Loader (Ops)

/-- `c` is an ASCII digit. -/
def isDigit (c : UInt8) : Bool := decide (48 ≤ c ∧ c ≤ 57)

/-- The loop of `strconv.ParseUint(s, 10, 64)` of the standard library, with the value it returns beside an error: 0 when
a byte is not a digit, the largest number as soon as there is no room for the digits read so far. -/
def parseLoop : UInt64 → List UInt8 → UInt64
  | n, [] => n
  | n, c :: cs =>
    if isDigit c = true then
      if n ≥ 1844674407370955162 then 18446744073709551615
      else if n * 10 + (c - 48).toUInt64 < n * 10 then 18446744073709551615
      else parseLoop (n * 10 + (c - 48).toUInt64) cs
    else 0

/-- `e.Ts, _ = strconv.ParseUint(fields[tPos], 10, 64)` (99, 186): the error is dropped. -/
def parseUint (s : List UInt8) : UInt64 := parseLoop 0 s

/-- `TimeRangeEdge` (159-162). -/
structure TimeRange where
  ts : UInt64
  stop : UInt64
  deriving DecidableEq, Repr

/-- The methods of `TimeRangeEdge` (164-188) with `NoRaw` (119-122), as lp-temporal-paths has it
(`temporal-paths.go:49-52`). A timestamp given is a `uint64`. -/
def rangeOps : Ops TimeRange :=
  { zero := ⟨0, 0⟩, defaultWeight := id,
    parse := fun _ t e => match t with | some s => { e with ts := parseUint s } | none => e,
    replaceTs := fun n e => { e with ts := UInt64.ofNat n },
    getTs := fun e => e.ts.toNat, replaceRaw := fun _ => id }

/-- `GetTimestamp` and `GetEndTime` (164-170). -/
def rangeTimes (e : TimeRange) : UInt64 × UInt64 := (e.ts, e.stop)

/-- The methods of `WithTimestamp` (81-101) with `NoWeight` and `NoRaw`, as lp-colouring has it (`colouring.go:23-27`). -/
def stampOps : Ops UInt64 :=
  { zero := 0, defaultWeight := id,
    parse := fun _ t e => match t with | some s => parseUint s | none => e,
    replaceTs := fun n _ => UInt64.ofNat n,
    getTs := fun e => e.toNat, replaceRaw := fun _ => id }

/-- `GetTimestamp` and `GetEndTime` (85-89). -/
def stampTimes (e : UInt64) : UInt64 × UInt64 := (e, 0)

end Verif.EdgeProps
