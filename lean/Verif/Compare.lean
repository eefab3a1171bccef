import Mathlib.Data.Rat.Defs
import Mathlib.Algebra.Order.Ring.Unbundled.Rat
import Mathlib.Algebra.Order.Group.Unbundled.Abs

/-!
# Comparing two results (`utils/helpers.go:133-161`)

`ResultCompare` is how a run is judged against its oracle (`graph/oracle-compare.go:199`,
`cmd/lp-pagerank/correctness.go:105`). Floating-point arithmetic is exact here (`Rat`, no NaN).
-/

namespace Verif.Compare

/-- The three results (136): average, median and 95th percentile of the L1 differences. -/
structure Report where
  avg : Rat
  median : Rat
  p95 : Rat
deriving DecidableEq

/-- `math.Abs(float64(b[i] - a[i]))` (145) for a float type: the subtraction is exact. -/
def l1Exact (a b : Rat) : Rat := |b - a|

/-- `math.Abs(float64(b[i] - a[i]))` (145) for an unsigned type of `w` bits: the subtraction is
done in `T` and wraps around before the conversion; `Abs` has nothing left to do. -/
def l1Unsigned (w : Nat) (a b : BitVec w) : Rat := ((b - a).toNat : Rat)

/-- Reading a slice at a Go `int` (`none`: index out of range panic). -/
def index (s : List Rat) (i : Int) : Option Rat := if 0 ≤ i then s[i.toNat]? else none

/-- `sort.Float64s` (150): a sorted copy. -/
def sorted (d : List Rat) : List Rat := d.mergeSort (fun a b => decide (a ≤ b))

/-- `helpers.go:148-160`, from the list of differences on. `ignoreSize` counts vertices, so it is
not negative; Go's `/` truncates. Simplified: `int(float64(n)*0.95)` is the exact floor of
`95n/100` (the rounding of `0.95` and of the product cannot reach the next integer below `2^40`). -/
def ofDiffs (d : List Rat) (ignoreSize : Nat) : Option Report :=
  let n : Int := d.length
  let s := sorted d
  let medianIdx := (n - ignoreSize).tdiv 2
  match index s (medianIdx + ignoreSize) with
  | none => none
  | some m0 =>
    let median := if d.length % 2 = 1 then
        (index s (medianIdx + ignoreSize - 1)).map (fun x => (x + m0) / 2)
      else some m0
    match median with
    | none => none
    | some m =>
      match index s ((95 * (n - ignoreSize)).tdiv 100 + ignoreSize) with
      | none => none
      | some p => some ⟨d.foldl (· + ·) 0 / d.length, m, p⟩

/-- `ResultCompare` (136-161); `l1` is line 145 for the type at hand. An index panic at `b[i]`
is `none` too. -/
def resultCompare {T : Type} (l1 : T → T → Rat) (a b : List T) (ignoreSize : Nat) : Option Report :=
  if a.isEmpty then some ⟨0, 0, 0⟩
  else if b.length < a.length then none
  else ofDiffs (List.zipWith l1 a b) ignoreSize

end Verif.Compare
