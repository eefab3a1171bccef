import Verif.PQLemmas

/-!
# C10, C11: priority queue and binary search

The specification of the queue is a bag of items (`List` up to permutation).
-/

namespace Verif.Props.PQ
open Verif.PQ

variable {α : Type}

/-- What one call may do to the bag of queued items, and what it may return. -/
def Spec (less : α → α → Bool) (s s' : List α) : Op α → Option α → Prop
  | .init a, none => s'.Perm a.toList
  | .push x, none => s'.Perm (x :: s)
  | .pop, some m => s.Perm (m :: s') ∧ ∀ y ∈ s, less y m = false
  | .fix i x, none => ∃ old rest, s[i]? = some old ∧ s.Perm (old :: rest) ∧ s'.Perm (x :: rest)
  | _, _ => False

/-- C10: after any calls, every call does what the bag specification says; in particular every
`Pop` removes and returns an item that no queued item is less than. -/
theorem C10_every_call (less : α → α → Bool) (hw : SWO less) (ops : List (Op α)) (h : Array α)
    (hr : run less #[] ops = some h) (o : Op α) (h' : Array α) (r : Option α)
    (hs : step less h o = some (h', r)) : Spec less h.toList h'.toList o r := by
  have hh : HeapFrom less h 0 h.size :=
    run_heap hw (h := #[]) (fun c _ hc _ => by simp at hc) hr
  cases o with
  | init a =>
    simp only [step, Option.some.injEq, Prod.mk.injEq] at hs
    obtain ⟨rfl, rfl⟩ := hs
    exact Array.perm_iff_toList_perm.1 (init_perm a)
  | push x =>
    simp only [step, Option.some.injEq, Prod.mk.injEq] at hs
    obtain ⟨rfl, rfl⟩ := hs
    have := Array.perm_iff_toList_perm.1 (push_perm (less := less) h x)
    rw [Array.toList_push] at this
    exact this.trans (List.perm_append_singleton _ _)
  | pop =>
    simp only [step, Option.map_eq_some_iff, Prod.mk.injEq] at hs
    obtain ⟨⟨m, h2⟩, e, rfl, rfl⟩ := hs
    have hsz : 0 < h.size := by
      unfold pop at e; split at e
      · assumption
      · simp at e
    obtain ⟨x', h'', e2, h0, hp, -⟩ := pop_spec hw h hh hsz
    rw [e] at e2; cases e2
    refine ⟨?_, ?_⟩
    · have := Array.perm_iff_toList_perm.1 hp
      rw [Array.toList_push] at this
      exact (this.symm).trans (List.perm_append_singleton _ _)
    · intro y hy
      obtain ⟨k, hk, rfl⟩ := List.mem_iff_getElem.1 hy
      have hk' : k < h.size := by simpa using hk
      exact heap_root hw (Nat.le_refl _) hh k hk' _ _ (by simp [hk']) h0
  | fix i x =>
    simp only [step, Option.map_eq_some_iff, Prod.mk.injEq] at hs
    obtain ⟨h2, e, rfl, rfl⟩ := hs
    have hi : i < h.size := by
      unfold fix at e; split at e
      · assumption
      · simp at e
    obtain ⟨h'', e2, hp, -⟩ := fix_spec hw h i x hh hi
    rw [e] at e2; cases e2
    have := Array.perm_iff_toList_perm.1 hp
    rw [Array.toList_set] at this
    have hil : i < h.toList.length := by simpa using hi
    refine ⟨h.toList[i], h.toList.eraseIdx i, List.getElem?_eq_getElem hil,
      perm_cons_eraseIdx _ i hil, this.trans (set_perm _ i hil x)⟩

/-- C10: the only panics are `Pop` on an empty queue and `Fix` of an index out of range. -/
theorem C10_panics (less : α → α → Bool) (h : Array α) (o : Op α) :
    step less h o = none ↔ (o = .pop ∧ h.size = 0) ∨ ∃ i x, o = .fix i x ∧ h.size ≤ i := by
  cases o with
  | init a => simp [step]
  | push x => simp [step]
  | pop =>
    simp only [step, Option.map_eq_none_iff, pop]
    split
    · rename_i hp; simp; intro e; subst e; simp at hp
    · rename_i hp; simp at hp ⊢; exact hp
  | fix i x =>
    simp only [step, Option.map_eq_none_iff, fix]
    split
    · split <;> simp <;> omega
    · simp; omega

/-- Popping `n` times. -/
def drain (less : α → α → Bool) : Nat → Array α → Option (List α)
  | 0, _ => some []
  | n + 1, h =>
    match step less h .pop with
    | some (h', some m) => (drain less n h').map (m :: ·)
    | _ => none

/-- C10: draining the queue lists its whole content, never a later item less than an earlier. -/
theorem C10_drain_sorted (less : α → α → Bool) (hw : SWO less) (ops : List (Op α)) (h : Array α)
    (hr : run less #[] ops = some h) :
    ∃ l, drain less h.size h = some l ∧ l.Perm h.toList ∧
      l.Pairwise (fun a b => less b a = false) := by
  have : ∀ n (ops : List (Op α)) (h : Array α), h.size = n → run less #[] ops = some h →
      ∃ l, drain less n h = some l ∧ l.Perm h.toList ∧ l.Pairwise (fun a b => less b a = false) := by
    intro n
    induction n with
    | zero =>
      intro ops h hn _
      have : h = #[] := Array.eq_empty_of_size_eq_zero hn
      subst this
      exact ⟨[], rfl, by simp, by simp⟩
    | succ n ih =>
      intro ops h hn hr
      have hh : HeapFrom less h 0 h.size := run_heap hw (h := #[]) (fun c _ hc _ => by simp at hc) hr
      obtain ⟨m, h1, e, -, -, -⟩ := pop_spec hw h hh (by omega)
      have hst : step less h .pop = some (h1, some m) := by simp [step, e]
      have hsp := C10_every_call less hw ops h hr .pop h1 (some m) hst
      have hr1 : run less #[] (ops ++ [.pop]) = some h1 := by
        have : ∀ (os : List (Op α)) (g : Array α), run less g os = some h →
            run less g (os ++ [.pop]) = some h1 := by
          intro os
          induction os with
          | nil =>
            intro g hg
            simp only [run, Option.some.injEq] at hg; subst hg
            simp [run, hst]
          | cons o os ih2 =>
            intro g hg
            simp only [run, Option.bind_eq_some_iff] at hg
            obtain ⟨p, e1, e2⟩ := hg
            simp only [List.cons_append, run, e1, Option.bind_some]
            exact ih2 _ e2
        exact this ops #[] hr
      have hlen : h1.size = n := by
        have := hsp.1.length_eq
        simp at this; omega
      obtain ⟨l, hl, hp, hpw⟩ := ih _ h1 hlen hr1
      refine ⟨m :: l, by simp [drain, hst, hl], (List.Perm.cons m hp).trans hsp.1.symm, ?_⟩
      refine List.pairwise_cons.2 ⟨fun b hb => hsp.2 b ?_, hpw⟩
      exact hsp.1.mem_iff.2 (List.mem_cons_of_mem _ (hp.mem_iff.1 hb))
  exact this h.size ops h rfl hr

/-- The usual order on numbers is admissible. -/
theorem nat_swo : SWO (fun a b : Nat => decide (a < b)) :=
  ⟨by simp; omega, by simp; omega⟩

/-- So is ordering pairs by one component only (ties between different items). -/
theorem fst_swo : SWO (fun a b : Nat × Nat => decide (a.1 < b.1)) :=
  ⟨by simp; omega, by simp; omega⟩

example : (run (fun a b : Nat => decide (a < b)) #[]
      [.init #[5, 3, 9, 1], .push 4, .fix 0 7, .pop]).bind
    (fun h => drain (fun a b : Nat => decide (a < b)) h.size h) = some [4, 5, 7, 9] := by
  decide +kernel

/-- C11: for a slice on which "compares negative" is downward closed (a sorted slice),
the result is the smallest index that does not compare negative (the length if all do), and
`found` says whether the element there compares equal. -/
theorem C11_binarySearch (n : Nat) (cmp : Nat → Int)
    (hsorted : ∀ a b, a ≤ b → b < n → cmp b < 0 → cmp a < 0) :
    (binarySearchIdx n cmp).1 ≤ n ∧
    (∀ k, k < (binarySearchIdx n cmp).1 → cmp k < 0) ∧
    ((binarySearchIdx n cmp).1 < n → 0 ≤ cmp (binarySearchIdx n cmp).1) ∧
    ((binarySearchIdx n cmp).2 = true ↔
      (binarySearchIdx n cmp).1 < n ∧ cmp (binarySearchIdx n cmp).1 = 0) := by
  -- the search only ever looks below `n`
  let neg : Nat → Bool := fun h => decide (h < n) && decide (cmp h < 0)
  have hcong : ∀ i j, j ≤ n → bsLoop (fun h => decide (cmp h < 0)) i j = bsLoop neg i j := by
    intro i j
    fun_induction bsLoop (fun h => decide (cmp h < 0)) i j with
    | case1 i j hlt h hn ih =>
      intro hj
      rw [ih hj]
      conv => rhs; unfold bsLoop
      have : neg h = true := by simp only [neg, Bool.and_eq_true, decide_eq_true_eq] at hn ⊢; omega
      simp only [if_pos hlt, show (i + j) / 2 = h from rfl, this, if_true]
    | case2 i j hlt h hn ih =>
      intro hj
      rw [ih (by omega)]
      conv => rhs; unfold bsLoop
      have : neg h = false := by simp only [neg]; simp at hn; simp [hn]
      simp only [if_pos hlt, show (i + j) / 2 = h from rfl, this]; rfl
    | case3 i j hlt =>
      intro _
      unfold bsLoop; simp [hlt]
  have hm : ∀ a b, a ≤ b → neg b = true → neg a = true := by
    intro a b hab hb
    simp only [neg, Bool.and_eq_true, decide_eq_true_eq] at hb ⊢
    exact ⟨by omega, hsorted a b hab hb.1 hb.2⟩
  have hs := bsLoop_spec neg 0 n (by omega) hm
  rw [← hcong 0 n (Nat.le_refl _)] at hs
  refine ⟨hs.2.1, fun k hk => ?_, fun hl => ?_, by simp [binarySearchIdx]⟩
  · have := hs.2.2.1 k (by omega) hk
    simp only [neg, Bool.and_eq_true, decide_eq_true_eq] at this
    exact this.2
  · have := hs.2.2.2 hl
    simp only [neg, Bool.and_eq_false_iff, decide_eq_false_iff_not] at this
    have h2 : (binarySearchIdx n cmp).1 < n := hl
    rcases this with h | h
    · exact absurd hl h
    · have h3 : ¬ cmp (binarySearchIdx n cmp).1 < 0 := h
      omega

/-- C11 on a sorted list of integers: `found` is membership. -/
theorem C11_found_iff_mem (l : List Int) (t : Int) (hl : l.Pairwise (· ≤ ·)) :
    (binarySearchIdx l.length (fun i => l.getD i 0 - t)).2 = true ↔ t ∈ l := by
  have hget : ∀ a b, a ≤ b → b < l.length → l.getD a 0 ≤ l.getD b 0 := by
    intro a b hab hb
    rw [List.getD_eq_getElem?_getD, List.getD_eq_getElem?_getD,
      List.getElem?_eq_getElem (show a < l.length by omega), List.getElem?_eq_getElem hb]
    simp only [Option.getD_some]
    rcases Nat.lt_or_eq_of_le hab with h | h
    · exact List.pairwise_iff_getElem.1 hl a b (by omega) hb h
    · subst h; exact Int.le_refl _
  have h := C11_binarySearch l.length (fun i => l.getD i 0 - t)
    (fun a b hab hb hneg => by have := hget a b hab hb; omega)
  rw [h.2.2.2]
  constructor
  · rintro ⟨h1, h2⟩
    rw [List.getD_eq_getElem?_getD, List.getElem?_eq_getElem h1] at h2
    simp only [Option.getD_some] at h2
    have : l[(binarySearchIdx l.length (fun i => l.getD i 0 - t)).1] = t := by omega
    rw [← this]; exact List.getElem_mem _
  · intro hm
    obtain ⟨k, hk, e⟩ := List.mem_iff_getElem.1 hm
    have hk0 : l.getD k 0 = t := by
      rw [List.getD_eq_getElem?_getD, List.getElem?_eq_getElem hk]; simpa using e
    have hle : (binarySearchIdx l.length (fun i => l.getD i 0 - t)).1 ≤ k := by
      rcases Nat.lt_or_ge k (binarySearchIdx l.length (fun i => l.getD i 0 - t)).1 with hc | hc
      · have := h.2.1 k hc
        simp only [hk0] at this; omega
      · exact hc
    have h1 : (binarySearchIdx l.length (fun i => l.getD i 0 - t)).1 < l.length := by omega
    refine ⟨h1, ?_⟩
    have h2 := h.2.2.1 h1
    have h3 := hget _ k hle hk
    rw [hk0] at h3
    omega

example : binarySearchIdx 5 (fun i => [1, 3, 3, 7, 9].getD i 0 - 3) = (1, true) := by decide +kernel
example : (binarySearchIdx 3 (fun i => [(2 : Int), 4, 4].getD i 0 - 4)).2 = true :=
  (C11_found_iff_mem [2, 4, 4] 4 (by decide)).2 (by decide)

end Verif.Props.PQ
