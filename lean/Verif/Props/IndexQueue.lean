import Verif.IndexQueue

/-!
# C94: the priority queue of indexes

The specification is a bag of positions in `Input`, the content of the exported field `Index` in any order.
-/

namespace Verif.Props.IndexQueue

open Verif Verif.IndexQueue
open Verif.PQ (SWO HeapFrom)

variable {α : Type}

/-- The value at position `i` is not less than the one at `j`. -/
def NotLess (lt : α → α → Bool) (a : Array α) (i j : Int) : Prop := ∀ x y, at? a i = some x → at? a j = some y → lt x y = false

/-- Calls as the comments of the API ask for: sizes and positions in range, nothing is taken from an empty queue. -/
def Allowed (s : St α) : Op α → Prop
  | .init a size => size ≤ a.size
  | .insert _ => True
  | .extract => s.index ≠ #[]
  | .peek => s.index ≠ #[]
  | .replace pos idx => pos < s.index.size ∧ 0 ≤ idx ∧ idx < s.input.size

/-- What a call does to the bag of positions, and what it returns. -/
def Wanted (lt : α → α → Bool) (s s' : St α) : Op α → Option Int → Prop
  | .init a size, none => s'.input = a ∧ s'.index.toList.Perm ((List.range size).map fun i : Nat => (i : Int))
  | .insert v, none => s'.input = s.input.push v ∧ s'.index.toList.Perm ((s.input.size : Int) :: s.index.toList)
  | .extract, some i => s'.input = s.input ∧ s.index.toList.Perm (i :: s'.index.toList) ∧ ∀ j ∈ s.index.toList, NotLess lt s.input j i
  | .peek, some i => s' = s ∧ i ∈ s.index.toList ∧ ∀ j ∈ s.index.toList, NotLess lt s.input j i
  | .replace pos idx, none => s'.input = s.input ∧ ∃ old rest, s.index.toList[pos]? = some old ∧ s.index.toList.Perm (old :: rest) ∧ s'.index.toList.Perm (idx :: rest)
  | _, _ => False

/-- Calls that are allowed when they are made. -/
def AllAllowed (lt : α → α → Bool) : St α → List (Op α) → Prop
  | _, [] => True
  | s, o :: os => Allowed s o ∧ ∀ s' r, step lt s o = some (s', r) → AllAllowed lt s' os

/-- **C94** (with `P` for all calls): after allowed calls, an allowed call does not panic and does to the bag what it should. -/
def QueueRight (P : ∀ α : Type, Op α → Prop) : Prop :=
  ∀ (α : Type) (lt : α → α → Bool), SWO lt → ∀ (os : List (Op α)) (s : St α) (rs : List Int), (∀ o ∈ os, P α o) → AllAllowed lt empty os → run lt empty os = some (s, rs) →
    ∀ o, P α o → Allowed s o → ∃ s' r, step lt s o = some (s', r) ∧ Wanted lt s s' o r

/-- **C94**, in full. -/
def C94Statement : Prop := QueueRight fun _ _ => True

/-! ## Invariant -/

/-- The order on positions; `d` stands for values out of range. -/
def ord (lt : α → α → Bool) (a : Array α) (d : α) (i j : Int) : Bool := lt ((at? a i).getD d) ((at? a j).getD d)

theorem ord_swo {lt : α → α → Bool} (hw : SWO lt) (a : Array α) (d : α) : SWO (ord lt a d) :=
  ⟨fun _ _ h => hw.asymm _ _ h, fun _ _ _ h h' => hw.trans _ _ _ h h'⟩

/-- All positions are in range, in heap order. -/
structure Good (lt : α → α → Bool) (s : St α) : Prop where
  range : ∀ i ∈ s.index, 0 ≤ i ∧ i < s.input.size
  heap : ∀ d, HeapFrom (ord lt s.input d) s.index 0 s.index.size

theorem at_some {a : Array α} {i : Int} (h : 0 ≤ i ∧ i < a.size) : ∃ x, at? a i = some x := by
  unfold at?
  rw [if_pos h.1]
  exact ⟨_, Array.getElem?_eq_getElem (by omega)⟩

theorem agree (lt : α → α → Bool) (a : Array α) (d : α) (h : Array Int) (hr : ∀ i ∈ h, 0 ≤ i ∧ i < a.size) : Agree (less lt a) (ord lt a d) h := by
  intro i hi j hj
  obtain ⟨x, hx⟩ := at_some (hr i hi)
  obtain ⟨y, hy⟩ := at_some (hr j hj)
  unfold less ord
  rw [hx, hy]
  rfl

theorem notLess_of_ord {lt : α → α → Bool} {a : Array α} {i j : Int} {d : α} (h : ord lt a d i j = false) : NotLess lt a i j := by
  intro x y hx hy
  unfold ord at h
  rw [hx, hy] at h
  exact h

theorem good_empty (lt : α → α → Bool) : Good lt (empty : St α) :=
  ⟨fun i hi => by simp [empty] at hi, fun d c _ hc _ => by simp [empty] at hc⟩

/-- With a position in the queue there is a value. -/
theorem Good.value {lt : α → α → Bool} {s : St α} (h : Good lt s) (hne : 0 < s.index.size) : Nonempty α := by
  obtain ⟨x, -⟩ := at_some (h.range s.index[0] (by simp))
  exact ⟨x⟩

theorem mem_range_map {n : Nat} {a : Array α} (hn : n ≤ a.size) (i : Int) (hi : i ∈ ((List.range n).map fun i : Nat => (i : Int)).toArray) : 0 ≤ i ∧ i < a.size := by
  simp only [List.mem_toArray, List.mem_map, List.mem_range] at hi
  obtain ⟨k, hk, rfl⟩ := hi
  omega

theorem init_right {lt : α → α → Bool} (hw : SWO lt) (s : St α) (a : Array α) (n : Nat) (hn : n ≤ a.size) :
    ∃ s', step lt s (.init a n) = some (s', none) ∧ Wanted lt s s' (.init a n) none ∧ Good lt s' := by
  rcases Nat.eq_zero_or_pos n with h0 | h0
  · subst h0
    refine ⟨⟨a, #[]⟩, rfl, ⟨rfl, List.Perm.refl _⟩, ⟨fun i hi => by simp at hi, fun d c _ hc _ => by simp at hc⟩⟩
  · have hi : ∀ d, init lt a n = some ⟨a, PQ.init (ord lt a d) ((List.range n).map fun i : Nat => (i : Int)).toArray⟩ := by
      intro d
      unfold IndexQueue.init PQ.init
      rw [initLoop_agree _ (agree lt a d _ (mem_range_map hn))]
      simp
    have d0 : α := a[0]
    have hp := PQ.init_perm (less := ord lt a d0) ((List.range n).map fun i : Nat => (i : Int)).toArray
    refine ⟨_, by rw [step, hi d0]; rfl, ⟨rfl, Array.perm_iff_toList_perm.1 hp⟩, ⟨fun i hm => mem_range_map hn i (hp.mem_iff.1 hm), fun d => ?_⟩⟩
    have e := (hi d0).symm.trans (hi d)
    simp only [Option.some.injEq, St.mk.injEq, true_and] at e
    rw [e]
    exact PQ.init_heap (ord_swo hw a d) _

theorem extract_eq {lt : α → α → Bool} {s : St α} (hg : Good lt s) (d : α) : extract lt s = (PQ.pop (ord lt s.input d) s.index).map fun p => (⟨s.input, p.2⟩, p.1) := by
  unfold extract PQ.pop
  by_cases hs : 0 < s.index.size
  · rw [dif_pos hs, dif_pos hs, down_agree ((agree lt s.input d s.index hg.range).perm (Array.swap_perm _ _)), Option.bind_some, Array.getElem?_eq_getElem]
    rfl
  · rw [dif_neg hs, dif_neg hs]
    rfl

theorem root {lt : α → α → Bool} (hw : SWO lt) {s : St α} (hg : Good lt s) {i : Int} (h0 : s.index[0]? = some i) : ∀ j ∈ s.index.toList, NotLess lt s.input j i := by
  intro j hj x y hx hy
  obtain ⟨k, hk, hkj⟩ := List.mem_iff_getElem.1 hj
  have hk' : k < s.index.size := by simpa using hk
  exact notLess_of_ord (PQ.heap_root (ord_swo hw s.input x) (Nat.le_refl _) (hg.heap x) k hk' j i (by rw [← hkj]; simp [hk']) h0) x y hx hy

theorem extract_right {lt : α → α → Bool} (hw : SWO lt) {s : St α} (hg : Good lt s) (hne : s.index ≠ #[]) :
    ∃ s' r, step lt s .extract = some (s', r) ∧ Wanted lt s s' .extract r ∧ Good lt s' := by
  have hs : 0 < s.index.size := Array.size_pos_iff.2 hne
  obtain ⟨d0⟩ := hg.value hs
  obtain ⟨i, h', e1, e2, e3, -⟩ := PQ.pop_spec (ord_swo hw s.input d0) s.index (hg.heap d0) hs
  have he : extract lt s = some (⟨s.input, h'⟩, i) := by rw [extract_eq hg d0, e1]; rfl
  refine ⟨⟨s.input, h'⟩, some i, by rw [step, he]; rfl, ⟨rfl, ?_, root hw hg e2⟩, ⟨fun j hj => hg.range j (e3.mem_iff.1 (by simp [hj])), fun d => ?_⟩⟩
  · have := Array.perm_iff_toList_perm.1 e3
    rw [Array.toList_push] at this
    exact this.symm.trans (List.perm_append_singleton _ _)
  · obtain ⟨i', h'', f1, -, -, f4⟩ := PQ.pop_spec (ord_swo hw s.input d) s.index (hg.heap d) hs
    rw [extract_eq hg d, f1] at he
    simp only [Option.map_some, Option.some.injEq, Prod.mk.injEq, St.mk.injEq, true_and] at he
    rw [← he.1]
    exact f4

theorem replace_eq {lt : α → α → Bool} {s : St α} (hg : Good lt s) (d : α) (pos : Nat) (idx : Int) (hi : 0 ≤ idx ∧ idx < s.input.size) :
    replace lt s pos idx = (PQ.fix (ord lt s.input d) s.index pos idx).map fun h => ⟨s.input, h⟩ := by
  unfold replace PQ.fix
  by_cases hp : pos < s.index.size
  · have hr : ∀ i ∈ s.index.set pos idx, 0 ≤ i ∧ i < s.input.size := by
      intro i h
      rcases Array.mem_or_eq_of_mem_set h with h | h
      · exact hg.range i h
      · subst h; exact hi
    have ha := agree lt s.input d _ hr
    rw [dif_pos hp, dif_pos hp, down_agree ha, Option.bind_some]
    dsimp only
    split
    · rfl
    · rw [dif_pos (by rw [PQ.down_size, Array.size_set]; exact hp), up_agree (ha.perm (PQ.down_perm _ _ _ _))]
  · rw [dif_neg hp, dif_neg hp]
    rfl

theorem replace_right {lt : α → α → Bool} (hw : SWO lt) {s : St α} (hg : Good lt s) (pos : Nat) (idx : Int) (hp : pos < s.index.size) (hi : 0 ≤ idx ∧ idx < s.input.size) :
    ∃ s' r, step lt s (.replace pos idx) = some (s', r) ∧ Wanted lt s s' (.replace pos idx) r ∧ Good lt s' := by
  obtain ⟨d0⟩ := hg.value (by omega)
  obtain ⟨h', e1, e2, -⟩ := PQ.fix_spec (ord_swo hw s.input d0) s.index pos idx (hg.heap d0) hp
  have he : replace lt s pos idx = some ⟨s.input, h'⟩ := by rw [replace_eq hg d0 pos idx hi, e1]; rfl
  refine ⟨⟨s.input, h'⟩, none, by rw [step, he]; rfl, ⟨rfl, ?_⟩, ⟨fun j hj => ?_, fun d => ?_⟩⟩
  · have hl : pos < s.index.toList.length := by simpa using hp
    have := Array.perm_iff_toList_perm.1 e2
    rw [Array.toList_set] at this
    exact ⟨_, _, List.getElem?_eq_getElem hl, PQ.perm_cons_eraseIdx _ pos hl, this.trans (PQ.set_perm _ pos hl idx)⟩
  · rcases Array.mem_or_eq_of_mem_set (e2.mem_iff.1 hj) with h | h
    · exact hg.range j h
    · subst h; exact hi
  · obtain ⟨h'', f1, -, f4⟩ := PQ.fix_spec (ord_swo hw s.input d) s.index pos idx (hg.heap d) hp
    rw [replace_eq hg d pos idx hi, f1] at he
    simp only [Option.map_some, Option.some.injEq, St.mk.injEq, true_and] at he
    rw [← he]
    exact f4

/-- The calls other than `Insert`. -/
def NotInsert : Op α → Prop
  | .insert _ => False
  | _ => True

theorem step_right {lt : α → α → Bool} (hw : SWO lt) {s : St α} (hg : Good lt s) (o : Op α) (hn : NotInsert o) (ha : Allowed s o) :
    ∃ s' r, step lt s o = some (s', r) ∧ Wanted lt s s' o r ∧ Good lt s' := by
  cases o with
  | init a n =>
    obtain ⟨s', h1, h2, h3⟩ := init_right hw s a n ha
    exact ⟨s', _, h1, h2, h3⟩
  | insert v => exact hn.elim
  | extract => exact extract_right hw hg ha
  | peek =>
    have hs : 0 < s.index.size := Array.size_pos_iff.2 ha
    have h0 := Array.getElem?_eq_getElem hs
    exact ⟨s, some s.index[0], by rw [step, h0]; rfl, ⟨rfl, by simp, root hw hg h0⟩, hg⟩
  | replace pos idx => exact replace_right hw hg pos idx ha.1 ha.2

theorem run_good {lt : α → α → Bool} (hw : SWO lt) : ∀ (os : List (Op α)) (s s' : St α) (rs : List Int), Good lt s → (∀ o ∈ os, NotInsert o) → AllAllowed lt s os →
    run lt s os = some (s', rs) → Good lt s'
  | [], s, s', rs, hg, _, _, h => by
    simp only [run, Option.some.injEq, Prod.mk.injEq] at h
    rw [← h.1]
    exact hg
  | o :: os, s, s', rs, hg, hn, ha, h => by
    obtain ⟨s1, r, h1, -, h3⟩ := step_right hw hg o (hn o (by simp)) ha.1
    rw [run, h1, Option.bind_some, Option.map_eq_some_iff] at h
    obtain ⟨q, h4, h5⟩ := h
    simp only [Prod.mk.injEq] at h5
    exact run_good hw os s1 s' q.2 h3 (fun o ho => hn o (by simp [ho])) (ha.2 s1 r h1) (by rw [h4, ← h5.1])

/-- **C94** (missing: `Insert`, see `C94_statement_false` and `C94_insert`): after any calls other than `Insert`, each does not panic and
does what it should: `Extract` and `Peek` return the position of a value than which none in the queue is less. -/
theorem C94_queue_partial : QueueRight fun _ => NotInsert := by
  intro α lt hw os s rs hn ha hr o ho hal
  obtain ⟨s', r, h1, h2, -⟩ := step_right hw (run_good hw os empty s rs (good_empty lt) hn ha hr) o ho hal
  exact ⟨s', r, h1, h2⟩

/-- **C94**, the same for calls that include `Insert` up to the last `Init`. -/
theorem C94_since_init {lt : α → α → Bool} (hw : SWO lt) (s0 : St α) (a : Array α) (n : Nat) (os : List (Op α)) (s : St α) (rs : List Int) (hn : ∀ o ∈ os, NotInsert o)
    (ha : AllAllowed lt s0 (.init a n :: os)) (hr : run lt s0 (.init a n :: os) = some (s, rs)) (o : Op α) (ho : NotInsert o) (hal : Allowed s o) :
    ∃ s' r, step lt s o = some (s', r) ∧ Wanted lt s s' o r := by
  obtain ⟨s1, h1, -, h3⟩ := init_right hw s0 a n ha.1
  rw [run, h1, Option.bind_some, Option.map_eq_some_iff] at hr
  obtain ⟨q, h4, h5⟩ := hr
  simp only [Prod.mk.injEq] at h5
  obtain ⟨s', r, e1, e2, -⟩ := step_right hw (run_good hw os s1 s q.2 h3 hn (ha.2 s1 none h1) (by rw [h4, ← h5.1])) o ho hal
  exact ⟨s', r, e1, e2⟩

/-- **C94**, what `Insert` does instead: while the positions are in range and there are no more of them than values, the new value is
appended to `Input`, but the position that joins the queue is one less than the number of queued ones, never that of the new value;
on an empty queue it is -1. -/
theorem C94_insert {lt : α → α → Bool} {s : St α} (hr : ∀ i ∈ s.index, 0 ≤ i ∧ i < s.input.size) (hs : s.index.size ≤ s.input.size) (v : α) :
    ∃ s', step lt s (.insert v) = some (s', none) ∧ s'.input = s.input.push v ∧ s'.index.toList.Perm (((s.index.size : Int) - 1) :: s.index.toList) ∧
      (s.input.size : Int) ∉ s'.index.toList := by
  have hnot : (s.input.size : Int) ∉ (((s.index.size : Int) - 1) :: s.index.toList) := by
    intro h
    rcases List.mem_cons.1 h with h | h
    · omega
    · have := hr _ (Array.mem_toList_iff.1 h)
      omega
  suffices h : ∃ h', up (less lt (s.input.push v)) (s.index.push ((s.index.size : Int) - 1)) s.index.size (by simp) = some h' ∧ h'.Perm (s.index.push ((s.index.size : Int) - 1)) by
    obtain ⟨h', h1, h2⟩ := h
    have h3 := Array.perm_iff_toList_perm.1 h2
    rw [Array.toList_push] at h3
    have h4 := h3.trans (List.perm_append_singleton _ _)
    exact ⟨⟨s.input.push v, h'⟩, by rw [step, IndexQueue.insert, h1]; rfl, rfl, h4, fun h => hnot (h4.mem_iff.1 h)⟩
  rcases Nat.eq_zero_or_pos s.index.size with h0 | h0
  · refine ⟨_, ?_, Array.Perm.refl _⟩
    rw [up, dif_pos (by omega)]
  · have hag : Agree (less lt (s.input.push v)) (ord lt (s.input.push v) v) (s.index.push ((s.index.size : Int) - 1)) := by
      refine agree lt _ v _ fun i hi => ?_
      rw [Array.size_push]
      rcases Array.mem_push.1 hi with hi | hi
      · have := hr i hi
        omega
      · omega
    exact ⟨_, up_agree hag _ _, PQ.up_perm _ _ _⟩

/-- **C94**, a second `Insert` on a queue that was empty panics. -/
theorem C94_insert_twice {lt : α → α → Bool} (a : Array α) (v w : α) : (run lt ⟨a, #[]⟩ [.insert v, .insert w]) = none := by
  have h1 : step lt ⟨a, #[]⟩ (.insert v) = some (⟨a.push v, #[-1]⟩, none) := by
    rw [step, IndexQueue.insert, up, dif_pos (by simp)]
    rfl
  have h2 : step lt ⟨a.push v, #[-1]⟩ (.insert w) = none := by
    rw [step, IndexQueue.insert, up, dif_neg (by simp)]
    simp [less, at?]
  rw [run, h1, Option.bind_some, run, h2]
  rfl

/-! ## Cases -/

def ltI (x y : Int) : Bool := decide (x < y)

theorem ltI_swo : SWO ltI :=
  ⟨fun a b h => by simp only [ltI, decide_eq_true_eq, decide_eq_false_iff_not] at *; omega,
   fun a b c h h' => by simp only [ltI, decide_eq_false_iff_not] at *; omega⟩

/-- **C94** fails: a queue made of 5 is given 3, and 5 is extracted, twice. -/
theorem C94_statement_false : ¬ C94Statement := by
  intro h
  have h1 : run ltI empty [.init #[5] 1] = some (⟨#[5], #[0]⟩, []) := by decide +kernel
  obtain ⟨s', r, h2, h3⟩ := h Int ltI ltI_swo [.init #[5] 1] _ _ (fun _ _ => trivial) ⟨Nat.le_refl 1, fun _ _ _ => trivial⟩ h1 (.insert 3) trivial trivial
  rw [show step ltI ⟨#[5], #[0]⟩ (.insert 3) = some (⟨#[5, 3], #[0, 0]⟩, none) by decide +kernel] at h2
  cases h2
  exact absurd h3.2 (by decide)

example : run ltI empty [.init #[5] 1, .insert 3, .extract, .extract] = some (⟨#[5, 3], #[]⟩, [0, 0]) := by decide +kernel

/-- Without `Insert`: the hypotheses of `C94_queue_partial` and `C94_since_init` are met, 4 and 2 come out before 7. -/
example : (∀ o ∈ ([.init #[7, 4, 9, 2] 3, .peek, .replace 2 3] : List (Op Int)), NotInsert o) ∧ AllAllowed ltI empty [.init #[7, 4, 9, 2] 3, .peek, .replace 2 3] ∧
    run ltI empty [.init #[7, 4, 9, 2] 3, .peek, .replace 2 3, .extract, .extract, .extract] = some (⟨#[7, 4, 9, 2], #[]⟩, [1, 3, 1, 0]) := by
  refine ⟨?_, ?_, by decide +kernel⟩
  · simp [NotInsert]
  · have h1 : step ltI empty (.init #[7, 4, 9, 2] 3) = some (⟨#[7, 4, 9, 2], #[1, 0, 2]⟩, none) := by decide +kernel
    refine ⟨(by decide : 3 ≤ 4), fun s' r h => ?_⟩
    rw [h1] at h
    cases h
    have h2 : step ltI ⟨#[7, 4, 9, 2], #[1, 0, 2]⟩ .peek = some (⟨#[7, 4, 9, 2], #[1, 0, 2]⟩, some 1) := by decide +kernel
    refine ⟨by simp [Allowed], fun s' r h => ?_⟩
    rw [h2] at h
    cases h
    exact ⟨by simp [Allowed], fun _ _ _ => trivial⟩

/-- The hypotheses of `C94_insert` are met by a queue of two of three values. -/
example : (∀ i ∈ (#[1, 2] : Array Int), 0 ≤ i ∧ i < (#[9, 4, 6] : Array Int).size) ∧ (#[1, 2] : Array Int).size ≤ (#[9, 4, 6] : Array Int).size ∧
    step ltI ⟨#[9, 4, 6], #[1, 2]⟩ (.insert 3) = some (⟨#[9, 4, 6, 3], #[1, 2, 1]⟩, none) := by
  refine ⟨by simp, by decide, by decide +kernel⟩

end Verif.Props.IndexQueue
