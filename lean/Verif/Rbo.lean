import Mathlib.Algebra.Order.Field.Rat
import Mathlib.Tactic.Ring
import Mathlib.Tactic.FieldSimp
import Mathlib.Tactic.Linarith
import Mathlib.Tactic.Positivity

/-!
# Rank-biased overlap (`utils/rbo.go`)

`float64` values are modelled by exact rationals with one extra value `none` for "not a number"
(a division by zero; every later arithmetic result that uses it is `none` too). Rounding is not
modelled. Items are integers as in the code.
-/

namespace Verif.Rbo

/-- Float division: a zero divisor gives a non-finite value. -/
def fdiv (a b : Rat) : Option Rat := if b = 0 then none else some (a / b)

/-- `x + y` on possibly non-finite values. -/
def fadd (x y : Option Rat) : Option Rat := x.bind fun a => y.map fun b => a + b

/-- `x * y` on possibly non-finite values. -/
def fmul (x y : Option Rat) : Option Rat := x.bind fun a => y.map fun b => a * b

/-- `RBOState` (22-31). `seen` is the key set of the map. -/
structure St where
  depth : Int
  overlap : Int
  wgt : Option Rat
  rbo : Option Rat
  p : Rat
  seen : Int → Bool
  shortDepth : Int
  shortOverlap : Int

/-- `New` (34-42). -/
def new (p : Rat) : St :=
  { depth := 0, overlap := 0, wgt := fdiv (1 - p) p, rbo := some 0, p,
    seen := fun _ => false, shortDepth := -1, shortOverlap := -1 }

/-- Set or delete a key of the map. -/
def upd (m : Int → Bool) (k : Int) (b : Bool) : Int → Bool := fun x => if x = k then b else m x

/-- The `if _, ok := s.seen[e]` blocks of `Update` (53-58, 60-65). -/
def toggle (s : St) (e : Int) : St :=
  if s.seen e then { s with seen := upd s.seen e false, overlap := s.overlap + 1 }
  else { s with seen := upd s.seen e true }

/-- `depth++; wgt *= p; rbo += overlap/depth * wgt` (67-69, 89-92). -/
def advance (s : St) : St :=
  let depth := s.depth + 1
  let wgt := fmul s.wgt (some s.p)
  { s with depth, wgt, rbo := fadd s.rbo (fmul (fdiv s.overlap depth) wgt) }

/-- `Update` (45-70); `none` is the panic. -/
def update (s : St) (e1 e2 : Int) : Option St :=
  if s.shortDepth ≠ -1 then none
  else
    let s := if e1 = e2 then { s with overlap := s.overlap + 1 } else toggle (toggle s e1) e2
    some (advance s)

/-- `EndShort` (73-76). -/
def endShort (s : St) : St := { s with shortDepth := s.depth, shortOverlap := s.overlap }

/-- `UpdateUneven` (79-96); `none` is the panic. -/
def updateUneven (s : St) (e : Int) : Option St :=
  if s.shortDepth = -1 then none
  else
    let s := if s.seen e then { s with overlap := s.overlap + 1, seen := upd s.seen e false } else s
    let s := advance s
    some { s with rbo := fadd s.rbo (fmul
      (fdiv ((s.shortOverlap * (s.depth - s.shortDepth) : Int)) ((s.depth * s.shortDepth : Int))) s.wgt) }

/-- `CalcExtrapolated` (99-108). -/
def calcExtrapolated (s : St) : Option Rat :=
  let pl := s.p ^ s.depth.toNat
  let s := if s.shortDepth = -1 then endShort s else s
  fadd s.rbo (fmul (fadd (fdiv ((s.overlap - s.shortOverlap : Int)) s.depth)
    (fdiv s.shortOverlap s.shortDepth)) (some pl))

/-- The loop 121-123; `none` is a panic (`t` shorter than `s` does not happen after the swap). -/
def updates (st : St) : List Int → List Int → Option St
  | [], _ => some st
  | _ :: _, [] => none
  | v :: vs, w :: ws => (update st v w).bind fun st' => updates st' vs ws

/-- The loop 131-133. -/
def unevens (st : St) : List Int → Option St
  | [] => some st
  | v :: vs => (updateUneven st v).bind fun st' => unevens st' vs

/-- Body of `CalculateRBO` after the swap (120-138): outer `none` is a panic. -/
def calcOrdered (s t : List Int) (p : Rat) : Option (Option Rat) :=
  (updates (new p) s t).bind fun st =>
    (unevens (endShort st) (t.drop s.length)).map calcExtrapolated

/-- `CalculateRBO` (111-139). -/
def calculateRBO (s t : List Int) (p : Rat) : Option (Option Rat) :=
  if t.length < s.length then calcOrdered t s p else calcOrdered s t p

end Verif.Rbo
