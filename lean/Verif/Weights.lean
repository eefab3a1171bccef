import Verif.EdgeProps
import Mathlib.Data.Int.Log
import Mathlib.Data.Rat.Floor

/-!
# Edge properties with a weight (`graph/graph-edge.go:57-77`)

The methods of `WithWeight`, and the reading of a weight by `strconv.ParseFloat(s, 32)` of the standard library. Numbers
are exact; `-0` is 0. A token with an underscore or an `x` may be a number with separators or a hexadecimal one: what is
read for it is left open (`other`).
-/

namespace Verif.Weights

open Verif.Loader (Ops)
open Verif.EdgeProps (isDigit)

/-- A `float64`. -/
inductive Flt where
  | fin (q : ℚ)
  | inf (neg : Bool)
  | nan
  deriving DecidableEq

/-- The nearest integer, the even one of two. -/
def roundEven (x : ℚ) : ℤ :=
  if x - ⌊x⌋ < 1 / 2 then ⌊x⌋ else if 1 / 2 < x - ⌊x⌋ then ⌊x⌋ + 1 else if ⌊x⌋ % 2 = 0 then ⌊x⌋ else ⌊x⌋ + 1

/-- The distance of the `float32` numbers around `q`: 24 bits, smallest exponent -126. -/
def ulp (q : ℚ) : ℚ := 2 ^ (max (Int.log 2 |q|) (-126) - 23)

/-- The `float32` next to `q`, as a `float64`. -/
def round32 (q : ℚ) : Flt :=
  if 2 ^ 128 ≤ |roundEven (q / ulp q) * ulp q| then .inf (q < 0) else .fin (roundEven (q / ulp q) * ulp q)

/-- The value of a digit. -/
def digitVal (c : UInt8) : Nat := (c - 48).toNat

/-- The loop of `readFloat` over the mantissa: digits so far, of these behind the point, whether there was a point and a
digit; with the rest of the text. -/
def mantissa : List UInt8 → Nat → Nat → Bool → Bool → Nat × Nat × Bool × List UInt8
  | [], n, f, _, seen => (n, f, seen, [])
  | c :: cs, n, f, dot, seen =>
    if c = 46 then if dot then (n, f, seen, c :: cs) else mantissa cs n f true seen
    else if isDigit c = true then mantissa cs (10 * n + digitVal c) (if dot then f + 1 else f) dot true
    else (n, f, seen, c :: cs)

/-- The loop of `readFloat` over the exponent, which stops counting at 10000. -/
def expDigits : List UInt8 → Nat → Nat × List UInt8
  | [], e => (e, [])
  | c :: cs, e => if isDigit c = true then expDigits cs (if e < 10000 then 10 * e + digitVal c else e) else (e, c :: cs)

/-- A sign, if there is one: whether it is a minus. -/
def sign : List UInt8 → Bool × List UInt8
  | [] => (false, [])
  | c :: cs => if c = 43 then (false, cs) else if c = 45 then (true, cs) else (false, c :: cs)

/-- The exponent, if there is one; an `e` needs a digit. -/
def exponent : List UInt8 → Option (ℤ × List UInt8)
  | [] => some (0, [])
  | c :: cs =>
    if c = 101 ∨ c = 69 then
      match (sign cs).2 with
      | [] => none
      | d :: ds => if isDigit d = true then
          let r := expDigits (d :: ds) 0
          some (if (sign cs).1 then -(r.1 : ℤ) else r.1, r.2)
        else none
    else some (0, c :: cs)

/-- `readFloat`, with the check of `ParseFloat` that all is read. -/
def readFloat (s : List UInt8) : Option ℚ :=
  let m := mantissa (sign s).2 0 0 false false
  if m.2.2.1 = true then
    match exponent m.2.2.2 with
    | some (e, []) => some ((if (sign s).1 then -1 else 1) * m.1 * 10 ^ (e - m.2.1))
    | _ => none
  else none

/-- `lower`, for letters. -/
def lower (c : UInt8) : UInt8 := if 65 ≤ c ∧ c ≤ 90 then c + 32 else c

/-- `special`, with the check of `ParseFloat` that all is read: "inf" and "infinity" with or without a sign, "nan". -/
def special (s : List UInt8) : Option Flt :=
  if (sign s).2.map lower = [105, 110, 102] ∨ (sign s).2.map lower = [105, 110, 102, 105, 110, 105, 116, 121] then some (.inf (sign s).1)
  else if s.map lower = [110, 97, 110] then some .nan
  else none

/-- `e.Weight, _ = strconv.ParseFloat(fields[wPos], 32)` (70): the error is dropped, with the value 0 for what is not a
number and an infinity for what is too large. -/
def parseFloat (other : List UInt8 → Flt) (s : List UInt8) : Flt :=
  if s.any (fun c => c == 95 || c == 120 || c == 88) then other s
  else match special s with
    | some v => v
    | none => match readFloat s with
      | some q => round32 q
      | none => .fin 0

/-- The methods of `WithWeight` (63-72) with `NoTimestamp` and `NoRaw`, as lp-sssp has it (`sssp.go:18-22`);
`DEFAULT_WEIGHT` (11) is 1. -/
def weightOps (other : List UInt8 → Flt) : Ops Flt :=
  { zero := .fin 0, defaultWeight := fun _ => .fin 1,
    parse := fun w _ e => match w with | some s => parseFloat other s | none => e,
    replaceTs := fun _ => id, getTs := fun _ => 0, replaceRaw := fun _ => id }

/-- The number of a finite weight. -/
def Flt.val : Flt → ℚ
  | .fin q => q
  | _ => 0

end Verif.Weights
