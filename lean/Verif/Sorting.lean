import Verif.PQ

/-!
# Index sorting, top-N, percentile, shuffling (`utils/sorting.go`, `utils/helpers.go`)

Go's standard library is not part of /repo: `sort.Stable`/`sort.Slice` are modelled by the
stable `List.mergeSort` of Lean's core, and `container/heap` by the routines of `Verif.PQ`
(container/heap's `up`/`down`/`Init`/`Pop`/`Fix` are the text `utils/priority-queue.go` copies).
Values are any type with a decidable strict order `lt` (for `float64`: no NaN).
-/

namespace Verif.Sorting
open Verif.PQ

variable {α : Type}

/-- `indexedSf.Less` (36) on index values: `Input[i] < Input[j]`. -/
def lessSf (lt : α → α → Bool) (a : Array α) (i j : Fin a.size) : Bool := lt a[i] a[j]

/-- `indexedLf.Less` (44): `Input[i] > Input[j]`. -/
def lessLf (lt : α → α → Bool) (a : Array α) (i j : Fin a.size) : Bool := lt a[j] a[i]

/-- `sort.Stable(data)` for the interface whose `Less` compares elements by `less`: a stable
sort of the elements (`le x y` is `!(y < x)`). -/
def sortStable {β : Type} (less : β → β → Bool) (l : List β) : List β :=
  l.mergeSort (fun x y => !less y x)

/-- `SortGiveIndexesSmallestFirst` (48-53); `Init` (22-28) fills the identity. -/
def sortGiveIndexesSf (lt : α → α → Bool) (a : Array α) : List (Fin a.size) :=
  sortStable (lessSf lt a) (List.finRange a.size)

/-- `SortGiveIndexesLargestFirst` (57-62). -/
def sortGiveIndexesLf (lt : α → α → Bool) (a : Array α) : List (Fin a.size) :=
  sortStable (lessLf lt a) (List.finRange a.size)

/-- The scan of `FindTopNInArray` (82-88) over the remaining indexes; `none` is the panic of
`Peek` (`Index[0]`, 124-126) on an empty queue. `Replace(0, i)` is 128-131. -/
def topScan (lt : α → α → Bool) (a : Array α) (h : Array (Fin a.size)) :
    List (Fin a.size) → Option (Array (Fin a.size))
  | [] => some h
  | i :: is =>
    match h[0]? with
    | none => none
    | some p =>
      if lt a[p] a[i] then
        match fix (lessSf lt a) h 0 i with
        | none => none
        | some h' => topScan lt a h' is
      else topScan lt a h is

/-- The extraction loop (90-95): `k` pops, the first popped written last. -/
def topExtract (lt : α → α → Bool) (a : Array α) (h : Array (Fin a.size)) :
    Nat → List (Nat × α) → Option (List (Nat × α))
  | 0, acc => some acc
  | k + 1, acc =>
    match pop (lessSf lt a) h with
    | none => none
    | some (i, h') => topExtract lt a h' k ((i.val, a[i]) :: acc)

/-- `FindTopNInArray` (67-97). Simplified: `uint32(len(array))` is taken as exact (the array
has fewer than 2^32 elements). -/
def findTopN (lt : α → α → Bool) (a : Array α) (topCount : Nat) : Option (List (Nat × α)) :=
  let topCount := if topCount > a.size then a.size else topCount
  let h := init (lessSf lt a) ((List.finRange a.size).take topCount).toArray
  match topScan lt a h ((List.finRange a.size).drop topCount) with
  | none => none
  | some h' => topExtract lt a h' topCount []

/-- `Percentile` (`helpers.go:93-117`) on integers, without the `reverse` option;
`none` is an index panic. Simplified: the float expression `percentile/100.0 * len` is computed
exactly before truncation; integers do not overflow. Go's `/` truncates. -/
def percentile (n : List Int) (p : Nat) : Option Int :=
  match n with
  | [] => some 0
  | [x] => some x
  | _ =>
    let s := n.mergeSort (fun a b => decide (a ≤ b))
    let idx := p * s.length / 100
    if s.length % 2 = 0 ∨ idx = 0 then s[idx]?
    else
      match s[idx - 1]?, s[idx]? with
      | some a, some b => if a = b then some b else some ((a + b).tdiv 2)
      | _, _ => none

/-- `Median` (`helpers.go:89-91`). -/
def median (n : List Int) : Option Int := percentile n 50

/-- The loop of `Shuffle` (`helpers.go:119-124`); `rand` lists the successive results of
`rand.Intn(i+1)`; `none` when a result is out of the range `Intn` guarantees. -/
def shuffleLoop (s : Array α) (i : Nat) : List Nat → Option (Array α)
  | [] => if i = s.size then some s else none
  | j :: rs =>
    if h : i < s.size ∧ j ≤ i then
      shuffleLoop (s.swap i j h.1 (by omega)) (i + 1) rs
    else none

/-- `Shuffle` (119-124). -/
def shuffle (s : Array α) (rand : List Nat) : Option (Array α) := shuffleLoop s 0 rand

/-- `RemoveRandomElement` (126-131) when `rand.Intn` returned `idx`; `none` is a panic
(empty slice: `Intn(0)` panics). -/
def removeRandomElement (s : Array α) (idx : Nat) : Option (α × Array α) :=
  if h : idx < s.size then
    some (s[idx], (s.set idx (s[s.size - 1]'(by omega)) h).pop)
  else none

end Verif.Sorting
