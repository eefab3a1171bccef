import Verif.PQLemmas

/-!
# The priority queue of indexes (`utils/sorting.go` 98-143)

`container/heap` is not part of /repo: its `up`, `down`, `Init`, `Push`, `Pop`, `Fix` are the text that `utils/priority-queue.go`
copies (`Verif.PQ`). Here a comparison can panic (an index out of range of `Input`), so the routines are written
again with comparisons that may give `none`.
-/

namespace Verif.IndexQueue

open Verif.PQ

variable {α β : Type}

/-- The child of `i` that `down` compares with, as `PQ.child`. -/
def child (less : β → β → Option Bool) (h : Array β) (i n : Nat) (hn : n ≤ h.size) (hj : 2 * i + 1 < n) : Option { j : Nat // i < j ∧ j < n } :=
  if h2 : 2 * i + 2 < n then
    (less (h[2 * i + 2]'(by omega)) (h[2 * i + 1]'(by omega))).map fun b => if b then ⟨2 * i + 2, by omega⟩ else ⟨2 * i + 1, by omega⟩
  else some ⟨2 * i + 1, by omega⟩

/-- `down`, as `PQ.down`. -/
def down (less : β → β → Option Bool) (h : Array β) (i n : Nat) (hn : n ≤ h.size) : Option (Array β × Nat) :=
  if hj : 2 * i + 1 < n then
    (child less h i n hn hj).bind fun j =>
      (less (h[j.1]'(by have := j.2; omega)) (h[i]'(by omega))).bind fun b =>
        if b then down less (h.swap i j.1 (by omega) (by have := j.2; omega)) j.1 n (by simpa using hn)
        else some (h, i)
  else some (h, i)
termination_by n - i
decreasing_by have := j.2; omega

/-- `up`, as `PQ.up`. -/
def up (less : β → β → Option Bool) (h : Array β) (j : Nat) (hj : j < h.size) : Option (Array β) :=
  if he : (j - 1) / 2 = j then some h
  else
    (less h[j] (h[(j - 1) / 2]'(by omega))).bind fun b =>
      if b then up less (h.swap ((j - 1) / 2) j (by omega) hj) ((j - 1) / 2) (by simp only [Array.size_swap]; omega)
      else some h
termination_by j
decreasing_by omega

/-- The loop of `heap.Init`: `down` at `k-1, ..., 0`. -/
def initLoop (less : β → β → Option Bool) (h : Array β) : Nat → Option (Array β)
  | 0 => some h
  | k + 1 => (down less h k h.size (Nat.le_refl _)).bind fun p => initLoop less p.1 k

/-- The queue (`indexed` 12-15): positions in `Input`, and the values. -/
structure St (α : Type) where
  input : Array α
  index : Array Int
deriving DecidableEq

/-- `Input[i]`; `none` is the panic for an index out of range. -/
def at? (a : Array α) (i : Int) : Option α := if 0 ≤ i then a[i.toNat]? else none

/-- `indexedSf.Less` (36) on two elements of `Index`. -/
def less (lt : α → α → Bool) (a : Array α) (i j : Int) : Option Bool :=
  (at? a i).bind fun x => (at? a j).map fun y => lt x y

/-- The zero value of `PriorityQueueSf`. -/
def empty : St α := ⟨#[], #[]⟩

/-- The calls of the API. -/
inductive Op (α : Type) where
  | init (a : Array α) (size : Nat)
  | insert (v : α)
  | extract
  | peek
  | replace (pos : Nat) (idx : Int)

/-- `Init` (107-110) with `indexed.Init` (22-28). -/
def init (lt : α → α → Bool) (a : Array α) (size : Nat) : Option (St α) :=
  (initLoop (less lt a) ((List.range size).map fun i : Nat => (i : Int)).toArray (size / 2)).map fun h => ⟨a, h⟩

/-- `Insert` (112-114): `heap.Push` calls `Push` (131-135), whose second line evaluates `len(pq.Index)-1` before it appends, then `up`. -/
def insert (lt : α → α → Bool) (s : St α) (v : α) : Option (St α) :=
  (up (less lt (s.input.push v)) (s.index.push ((s.index.size : Int) - 1)) s.index.size (by simp)).map fun h => ⟨s.input.push v, h⟩

/-- `Extract` (116-118): `heap.Pop` swaps first and last, calls `down`, then `Pop` (137-142); `none` is also the panic of `Swap(0, -1)`. -/
def extract (lt : α → α → Bool) (s : St α) : Option (St α × Int) :=
  if hs : 0 < s.index.size then
    (down (less lt s.input) (s.index.swap 0 (s.index.size - 1) hs (by omega)) 0 (s.index.size - 1) (by simp only [Array.size_swap]; omega)).bind fun p =>
      p.1[p.1.size - 1]?.map fun i => (⟨s.input, p.1.pop⟩, i)
  else none

/-- `Replace` (124-127): `heap.Fix` calls `up` if `down` did not move the element. -/
def replace (lt : α → α → Bool) (s : St α) (pos : Nat) (idx : Int) : Option (St α) :=
  if hi : pos < s.index.size then
    (down (less lt s.input) (s.index.set pos idx) pos (s.index.set pos idx).size (Nat.le_refl _)).bind fun p =>
      if p.2 > pos then some ⟨s.input, p.1⟩
      else if hp : pos < p.1.size then (up (less lt s.input) p.1 pos hp).map fun h => ⟨s.input, h⟩ else none
  else none

/-- One call: the queue after it, and what it returned; `none` is a panic. -/
def step (lt : α → α → Bool) (s : St α) : Op α → Option (St α × Option Int)
  | .init a size => (init lt a size).map fun s' => (s', none)
  | .insert v => (insert lt s v).map fun s' => (s', none)
  | .extract => (extract lt s).map fun p => (p.1, some p.2)
  | .peek => s.index[0]?.map fun i => (s, some i)  -- 120-122
  | .replace pos idx => (replace lt s pos idx).map fun s' => (s', none)

/-- A sequence of calls, and what they returned. -/
def run (lt : α → α → Bool) (s : St α) : List (Op α) → Option (St α × List Int)
  | [] => some (s, [])
  | o :: os => (step lt s o).bind fun p => (run lt p.1 os).map fun q => (q.1, p.2.toList ++ q.2)

/-! ## Without panics the routines are those of `Verif.PQ` -/

/-- `less` does not panic on elements of `h`, and is `t`. -/
def Agree (less : β → β → Option Bool) (t : β → β → Bool) (h : Array β) : Prop := ∀ x ∈ h, ∀ y ∈ h, less x y = some (t x y)

theorem Agree.perm {less : β → β → Option Bool} {t : β → β → Bool} {h h' : Array β} (ha : Agree less t h) (hp : h'.Perm h) : Agree less t h' :=
  fun x hx y hy => ha x (hp.mem_iff.1 hx) y (hp.mem_iff.1 hy)

theorem child_agree {less : β → β → Option Bool} {t : β → β → Bool} {h : Array β} (ha : Agree less t h) (i n : Nat) (hn : n ≤ h.size) (hj : 2 * i + 1 < n) :
    child less h i n hn hj = some ⟨PQ.child t h i n hn hj, PQ.child_bounds t h i n hn hj⟩ := by
  unfold child
  split
  · rename_i h2
    rw [ha _ (by simp) _ (by simp), Option.map_some, Option.some.injEq]
    apply Subtype.ext
    simp only [PQ.child, h2, dif_pos]
    split <;> rfl
  · rename_i h2
    rw [Option.some.injEq]
    apply Subtype.ext
    simp only [PQ.child, h2, dif_neg, not_false_eq_true]

theorem down_agree {less : β → β → Option Bool} {t : β → β → Bool} {h : Array β} (ha : Agree less t h) (i n : Nat) (hn : n ≤ h.size) :
    down less h i n hn = some (PQ.down t h i n hn) := by
  fun_induction PQ.down t h i n hn with
  | case1 h i hn hj j hb hl ih =>
    rw [down, dif_pos hj, child_agree ha, Option.bind_some, ha _ (by simp) _ (by simp), Option.bind_some, if_pos hl]
    exact ih (ha.perm (Array.swap_perm _ _))
  | case2 h i hn hj j hb hl =>
    rw [down, dif_pos hj, child_agree ha, Option.bind_some, ha _ (by simp) _ (by simp), Option.bind_some, if_neg hl]
  | case3 h i hn hj => rw [down, dif_neg hj]

theorem up_agree {less : β → β → Option Bool} {t : β → β → Bool} {h : Array β} (ha : Agree less t h) (j : Nat) (hj : j < h.size) :
    up less h j hj = some (PQ.up t h j hj) := by
  fun_induction PQ.up t h j hj with
  | case1 h j hj i hb =>
    rw [up]
    split
    · rfl
    · rename_i he
      rw [ha _ (by simp) _ (by simp), Option.bind_some]
      rcases hb with hb | hb
      · exact absurd hb he
      · rw [if_neg hb]
  | case2 h j hj i hb ih =>
    have he : ¬ (j - 1) / 2 = j := fun e => hb (.inl e)
    have hl : t h[j] (h[(j - 1) / 2]'(by omega)) = true :=
      Decidable.of_not_not fun hc => hb (.inr hc)
    rw [up, dif_neg he, ha _ (by simp) _ (by simp), Option.bind_some, if_pos hl]
    exact ih (ha.perm (Array.swap_perm _ _))

theorem initLoop_agree {less : β → β → Option Bool} {t : β → β → Bool} (k : Nat) : ∀ {h : Array β}, Agree less t h → initLoop less h k = some (PQ.initLoop t h k) := by
  induction k with
  | zero => intro h _; rfl
  | succ k ih =>
    intro h ha
    rw [initLoop, down_agree ha, Option.bind_some, ih (ha.perm (PQ.down_perm _ _ _ _))]
    rfl

end Verif.IndexQueue
