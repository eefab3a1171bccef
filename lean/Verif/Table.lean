import Verif.Sorting
import Mathlib.Algebra.Order.Ring.Rat

/-!
# The table of top ranks over time (`cmd/lp-pagerank/timeseries.go`)

`OnApplyTimeSeries` keeps the ten best vertices of each query; `PrintTimeSeries` prints one line per query with a column
for each vertex that was ever among them. With `logDerivative` the cells are rates of change instead. Masses are exact
rationals, raw ids numbers; the columns before the masses (times, counts) are left out. `USE_INTEREST_ARRAY` is false.
-/

namespace Verif.Table

/-- Raw id and `Mass` of each vertex, by ordinal (50-52). -/
abbrev View := List (Nat × ℚ)

/-- `NamedEntry.Entry` (17). -/
abbrev Entry := List (Nat × ℚ)

def lt (a b : ℚ) : Bool := decide (a < b)

/-- `OnApplyTimeSeries` (43-90): `topN` is 10, or the number of vertices if smaller (64-66), but `res` has been made
with length 10 (62); the rest of it stays `{0, 0}`. `none` is a panic. -/
def capture (v : View) : Option Entry :=
  let topN := if v.length < 10 then v.length else 10
  match Sorting.findTopN lt (v.map Prod.snd).toArray topN with
  | none => none
  | some ranking => some (ranking.map (fun p => ((v.getD p.1 (0, 0)).1, p.2)) ++ List.replicate (10 - ranking.length) (0, 0))

/-- Columns (113-121): `allVerticesMap` sends a raw id to its place in this list. -/
def addColumns (cols : List Nat) (e : Entry) : List Nat :=
  e.foldl (fun cols p => if p.1 ∈ cols then cols else cols ++ [p.1]) cols

def columns (db : List Entry) : List Nat := db.foldl addColumns []

/-- `arr[allVerticesMap[e.First]] = e.Second` for the entries of a query (152-154, 165-167, 178-180). -/
def fill (cols : List Nat) (a : List ℚ) (e : Entry) : List ℚ := e.foldl (fun a p => a.set (cols.idxOf p.1) p.2) a

/-- A cell is left blank for 0 (155-161). -/
def cell (m : ℚ) : Option ℚ := if m ≠ 0 then some m else none

/-- The masses of one line (134-136, 150-161). -/
def row (cols : List Nat) (e : Entry) : List (Option ℚ) := (fill cols (List.replicate cols.length 0) e).map cell

/-- `PrintTimeSeries` (94-200) without `logDerivative`. -/
def table (db : List Entry) : List (List (Option ℚ)) := db.map (row (columns db))

/-- A cell with `logDerivative` (170-175); `days` is the time between the queries before and after. -/
def rate (days : ℚ) (last next : ℚ) : Option ℚ := if next ≠ 0 ∧ last ≠ 0 then some (100 * (next - last) / days) else none

/-- The lines `i`, `i + 1`, … with `logDerivative` (162-187): `k` lines remain, `last` and `curr` as in the code (`next` is
all zeros at the start of a line: 130, 185). `none`: the line has no cells and no date (163). `name i` is the time of query
`i` in days. -/
def rates (cols : List Nat) (db : List Entry) (name : Nat → ℚ) : Nat → Nat → List ℚ → List ℚ → List (Option (List (Option ℚ)))
  | 0, _, _, _ => []
  | k + 1, i, last, curr =>
    match db[i + 1]? with
    | none => none :: rates cols db name k (i + 1) last curr
    | some e =>
      let next := fill cols (List.replicate last.length 0) e
      if 0 < i then some (List.zipWith (rate (name (i + 1) - name (i - 1))) last next) :: rates cols db name k (i + 1) curr next
      else some [] :: rates cols db name k (i + 1) (fill cols curr (db.getD i [])) next

/-- `PrintTimeSeries` with `logDerivative`. -/
def rateTable (db : List Entry) (name : Nat → ℚ) : List (Option (List (Option ℚ))) :=
  rates (columns db) db name db.length 0 (List.replicate (columns db).length 0) (List.replicate (columns db).length 0)

end Verif.Table
