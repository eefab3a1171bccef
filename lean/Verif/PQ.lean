/-!
# The priority queue (`utils/priority-queue.go`) and binary search

The heap is an array; every index used in a comparison or swap carries a proof of being in
bounds, so the model has no totalised reads. `less` is the item type's `Less`.
-/

namespace Verif.PQ

variable {α : Type}

/-- The child of `i` that `down` compares with (64-70): the right child if it exists and is
less than the left child, else the left child. -/
def child (less : α → α → Bool) (h : Array α) (i n : Nat) (hn : n ≤ h.size) (_hj : 2 * i + 1 < n) : Nat :=
  if h2 : 2 * i + 2 < n then
    if less (h[2 * i + 2]'(by omega)) (h[2 * i + 1]'(by omega)) then 2 * i + 2 else 2 * i + 1
  else 2 * i + 1

theorem child_bounds (less : α → α → Bool) (h : Array α) (i n : Nat) (hn : n ≤ h.size)
    (hj : 2 * i + 1 < n) : i < child less h i n hn hj ∧ child less h i n hn hj < n := by
  unfold child; split
  · split <;> omega
  · omega

/-- The loop of `down` (59-78): final array and final position (`i`); the code's result is
`i > i0`. The test `j1 < 0` (int overflow) cannot fire on naturals. -/
def down (less : α → α → Bool) (h : Array α) (i n : Nat) (hn : n ≤ h.size) : Array α × Nat :=
  if hj : 2 * i + 1 < n then
    let j := child less h i n hn hj
    have hb := child_bounds less h i n hn hj
    if less (h[j]'(by omega)) (h[i]'(by omega)) then
      down less (h.swap i j (by omega) (by omega)) j n (by simpa using hn)
    else (h, i)
  else (h, i)
termination_by n - i
decreasing_by omega

/-- `up` (48-57). Go's `(0-1)/2` is `0`, as is `(0-1)/2` on naturals. -/
def up (less : α → α → Bool) (h : Array α) (j : Nat) (hj : j < h.size) : Array α :=
  let i := (j - 1) / 2
  if hb : i = j ∨ ¬ less h[j] (h[i]'(by omega)) then h
  else up less (h.swap i j (by omega) hj) i (by simp only [Array.size_swap]; omega)
termination_by j
decreasing_by
  have : (j - 1) / 2 ≠ j := fun e => hb (Or.inl e)
  omega

theorem down_size (less : α → α → Bool) (h : Array α) (i n : Nat) (hn : n ≤ h.size) :
    (down less h i n hn).1.size = h.size := by
  fun_induction down less h i n hn with
  | case1 h i hn hj j hb hl ih => rw [ih]; simp
  | case2 => rfl
  | case3 => rfl

theorem up_size (less : α → α → Bool) (h : Array α) (j : Nat) (hj : j < h.size) :
    (up less h j hj).size = h.size := by
  fun_induction up less h j hj with
  | case1 => rfl
  | case2 h j hj i hb ih => rw [ih]; simp

/-- The loop of `Init` (15-17): `down` at `k-1, k-2, ..., 0`. -/
def initLoop (less : α → α → Bool) (h : Array α) : Nat → Array α
  | 0 => h
  | k + 1 => initLoop less (down less h k h.size (Nat.le_refl _)).1 k

/-- `Init` (13-18). -/
def init (less : α → α → Bool) (h : Array α) : Array α := initLoop less h (h.size / 2)

/-- `Push` (22-25). -/
def push (less : α → α → Bool) (h : Array α) (x : α) : Array α :=
  up less (h.push x) h.size (by simp)

/-- `Pop` (29-38); `none` is the panic on an empty heap (`(*h)[0]` out of range). -/
def pop (less : α → α → Bool) (h : Array α) : Option (α × Array α) :=
  if hs : 0 < h.size then
    let n := h.size - 1
    let h1 := h.swap 0 n hs (by omega)
    let h2 := (down less h1 0 n (by simp only [h1, Array.size_swap]; omega)).1
    some (h2[h2.size - 1]'(by
      have : h2.size = h.size := by simp only [h2, down_size, h1, Array.size_swap]
      omega), h2.pop)
  else none

/-- `Fix` (42-46), together with the preceding change of the element at `i` to `x`;
`none` is the panic for an index out of range. -/
def fix (less : α → α → Bool) (h : Array α) (i : Nat) (x : α) : Option (Array α) :=
  if hi : i < h.size then
    let h0 := h.set i x
    let d := down less h0 i h0.size (Nat.le_refl _)
    if d.2 > i then some d.1
    else some (up less d.1 i (by simp only [d, down_size, h0, Array.size_set]; omega))
  else none

/-- The loop of `BinarySearchIdxFunc` (94-103); `neg h` is `cmp(h, target) < 0`. -/
def bsLoop (neg : Nat → Bool) (i j : Nat) : Nat :=
  if i < j then
    let h := (i + j) / 2
    if neg h then bsLoop neg (h + 1) j else bsLoop neg i h
  else i
termination_by j - i
decreasing_by all_goals omega

/-- `BinarySearchIdxFunc` (89-106); `cmp h` is `cmp(h, target)` as an integer. -/
def binarySearchIdx (n : Nat) (cmp : Nat → Int) : Nat × Bool :=
  let i := bsLoop (fun h => decide (cmp h < 0)) 0 n
  (i, decide (i < n) && decide (cmp i = 0))

end Verif.PQ

namespace Verif.PQ

/-- API calls on a priority queue. -/
inductive Op (α : Type) where
  | init (a : Array α)        -- the queue is replaced by slice `a` and `Init` is called
  | push (x : α)
  | pop
  | fix (i : Nat) (x : α)     -- element `i` is overwritten by `x` and `Fix(i)` is called

/-- One call: new queue and popped item if any; `none` is a panic. -/
def step {α : Type} (less : α → α → Bool) (h : Array α) : Op α → Option (Array α × Option α)
  | .init a => some (init less a, none)
  | .push x => some (push less h x, none)
  | .pop => (pop less h).map (fun p => (p.2, some p.1))
  | .fix i x => (fix less h i x).map (fun h' => (h', none))

/-- A sequence of calls. -/
def run {α : Type} (less : α → α → Bool) (h : Array α) : List (Op α) → Option (Array α)
  | [] => some h
  | o :: os => (step less h o).bind (fun p => run less p.1 os)

end Verif.PQ
