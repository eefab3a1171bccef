import Verif.Sorting
import Verif.PQLemmas

/-!
# C12, C13, C15, C40: index sort, top-N, percentile, shuffle
-/

namespace Verif.Props.Sorting
open Verif.PQ Verif.Sorting

variable {α : Type}

/-! ### helper lemmas -/

theorem swo_sf {lt : α → α → Bool} (hw : SWO lt) (a : Array α) : SWO (lessSf lt a) :=
  ⟨fun _ _ h => hw.asymm _ _ h, fun _ _ _ h1 h2 => hw.trans _ _ _ h1 h2⟩

theorem swo_lf {lt : α → α → Bool} (hw : SWO lt) (a : Array α) : SWO (lessLf lt a) :=
  ⟨fun _ _ h => hw.asymm _ _ h, fun _ _ _ h1 h2 => hw.trans _ _ _ h2 h1⟩

theorem no_both {β : Type} {l : List β} (hn : l.Nodup) {i j : β} (h1 : [i, j].Sublist l)
    (h2 : [j, i].Sublist l) : False := by
  induction l with
  | nil => cases h1
  | cons x l ih =>
    rw [List.nodup_cons] at hn
    cases h1 with
    | cons _ h1 =>
      cases h2 with
      | cons _ h2 => exact ih hn.2 h1 h2
      | cons_cons _ h2 => exact hn.1 (h1.subset (by simp))
    | cons_cons _ h1 =>
      cases h2 with
      | cons _ h2 => exact hn.1 (h2.subset (by simp))
      | cons_cons _ h2 => exact hn.1 (h1.subset (by simp))

theorem sortStable_spec {n : Nat} {less : Fin n → Fin n → Bool} (hw : SWO less) :
    (sortStable less (List.finRange n)).Perm (List.finRange n) ∧
    (sortStable less (List.finRange n)).Pairwise (fun i j =>
      less i j = true ∨ (less i j = false ∧ less j i = false ∧ i < j)) := by
  have htr : ∀ a b c : Fin n, (!less b a) = true → (!less c b) = true → (!less c a) = true := by
    intro a b c h1 h2
    simp only [Bool.not_eq_true'] at *
    exact hw.trans _ _ _ h2 h1
  have hto : ∀ a b : Fin n, ((!less b a) || (!less a b)) = true := by
    intro a b
    cases h : less b a with
    | false => simp
    | true => simp [hw.asymm _ _ h]
  have hperm := List.mergeSort_perm (List.finRange n) (fun x y => !less y x)
  refine ⟨hperm, ?_⟩
  have hnd : (sortStable less (List.finRange n)).Nodup := hperm.symm.nodup (List.nodup_finRange n)
  rw [List.pairwise_iff_forall_sublist]
  intro i j hsub
  have hle : (!less j i) = true :=
    List.pairwise_iff_forall_sublist.1 (List.pairwise_mergeSort htr hto (List.finRange n)) hsub
  simp only [Bool.not_eq_true'] at hle
  cases hij : less i j with
  | true => exact Or.inl rfl
  | false =>
    refine Or.inr ⟨rfl, hle, ?_⟩
    have hne : i ≠ j := by
      intro e; subst e
      have := List.Nodup.sublist hsub hnd
      simp at this
    rcases Nat.lt_or_gt_of_ne (fun e => hne (Fin.ext e)) with h | h
    · exact h
    · exfalso
      have hs : [j, i].Sublist (List.finRange n) := by
        have : ((List.finRange n).Pairwise (fun a b => a < b)) := List.pairwise_lt_finRange n
        have hsl : ([j, i] : List (Fin n)).Perm [i, j] := List.Perm.swap _ _ _
        -- both occur; order by value
        obtain ⟨l1, l2, e⟩ := List.append_of_mem (List.mem_finRange j)
        rw [e] at this ⊢
        have hi : i ∈ l1 ++ j :: l2 := by rw [← e]; exact List.mem_finRange i
        rcases List.mem_append.1 hi with hi | hi
        · rw [List.pairwise_append] at this
          have := this.2.2 i hi j (by simp)
          omega
        · rcases List.mem_cons.1 hi with hi | hi
          · exact absurd hi hne
          · exact (List.Sublist.cons_cons j (List.singleton_sublist.2 hi)).trans
              (List.sublist_append_right _ _)
      exact no_both hnd hsub (List.pair_sublist_mergeSort htr hto (by simp [hij]) hs)

/-! ### C12 -/

/-- C12 (smallest first): the result lists every index once, in increasing order of value, and
equal values in order of index. -/
theorem C12_smallest_first (lt : α → α → Bool) (hw : SWO lt) (a : Array α) :
    (sortGiveIndexesSf lt a).Perm (List.finRange a.size) ∧
    (sortGiveIndexesSf lt a).Pairwise (fun i j =>
      lt a[i] a[j] = true ∨ (lt a[i] a[j] = false ∧ lt a[j] a[i] = false ∧ i < j)) :=
  sortStable_spec (swo_sf hw a)

/-- C12 (largest first): decreasing order of value, equal values in order of index. -/
theorem C12_largest_first (lt : α → α → Bool) (hw : SWO lt) (a : Array α) :
    (sortGiveIndexesLf lt a).Perm (List.finRange a.size) ∧
    (sortGiveIndexesLf lt a).Pairwise (fun i j =>
      lt a[j] a[i] = true ∨ (lt a[j] a[i] = false ∧ lt a[i] a[j] = false ∧ i < j)) :=
  sortStable_spec (swo_lf hw a)

theorem nat_swo : SWO (fun a b : Nat => decide (a < b)) := ⟨by simp; omega, by simp; omega⟩

example : sortGiveIndexesLf (fun a b : Nat => decide (a < b)) #[3, 9, 3, 1] = [1, 0, 2, 3] := by
  simp [sortGiveIndexesLf, sortStable, lessLf, List.finRange, List.ofFn, Fin.foldr, Fin.foldr.loop,
    List.mergeSort, List.MergeSort.Internal.splitInTwo, List.merge]
  exact ⟨rfl, rfl⟩
example := C12_largest_first _ nat_swo #[3, 9, 3, 1]

/-! ### C13 -/

/-- Specification of a top-`n` answer `r` for `a`: `min n |a|` entries, each an index with the
value stored there, no index twice, values from largest to smallest, and no element left out is
larger than one that is in. -/
structure IsTopN (lt : α → α → Bool) (a : Array α) (n : Nat) (r : List (Nat × α)) : Prop where
  length : r.length = min n a.size
  values : ∀ e ∈ r, a[e.1]? = some e.2
  nodup : (r.map Prod.fst).Nodup
  sorted : r.Pairwise (fun x y => lt x.2 y.2 = false)
  largest : ∀ i v, a[i]? = some v → i ∉ r.map Prod.fst → ∀ e ∈ r, lt e.2 v = false

theorem topScan_spec {lt : α → α → Bool} (hw : SWO lt) (a : Array α) (is seen D : List (Fin a.size))
    (h : Array (Fin a.size)) (hs : 0 < h.size) (hh : HeapFrom (lessSf lt a) h 0 h.size)
    (hp : seen.Perm (h.toList ++ D))
    (hd : ∀ x ∈ h.toList, ∀ y ∈ D, lt a[x] a[y] = false) :
    ∃ h' D', topScan lt a h is = some h' ∧ h'.size = h.size ∧
      HeapFrom (lessSf lt a) h' 0 h'.size ∧ (seen ++ is).Perm (h'.toList ++ D') ∧
      ∀ x ∈ h'.toList, ∀ y ∈ D', lt a[x] a[y] = false := by
  induction is generalizing seen D h with
  | nil => exact ⟨h, D, rfl, rfl, hh, by simpa using hp, hd⟩
  | cons i is ih =>
    have h0 : h[0]? = some h[0] := Array.getElem?_eq_getElem hs
    have hroot : ∀ x ∈ h.toList, lt a[x] a[h[0]] = false := by
      intro x hx
      obtain ⟨k, hk, rfl⟩ := List.mem_iff_getElem.1 hx
      have hk' : k < h.size := by simpa using hk
      exact heap_root (swo_sf hw a) (Nat.le_refl _) hh k hk' _ _ (by simp [hk']) h0
    rw [topScan, h0]
    simp only
    split
    · rename_i hl
      obtain ⟨h1, e, hp1, hh1⟩ := fix_spec (swo_sf hw a) h 0 i hh hs
      rw [e]
      simp only
      have hsz : h1.size = h.size := by
        have := (Array.perm_iff_toList_perm.1 hp1).length_eq
        simpa using this
      have hpl : h1.toList.Perm (i :: h.toList.eraseIdx 0) := by
        have := Array.perm_iff_toList_perm.1 hp1
        rw [Array.toList_set] at this
        exact this.trans (set_perm _ 0 (by simpa using hs) i)
      have hpo : h.toList.Perm (h[0] :: h.toList.eraseIdx 0) := by
        have := perm_cons_eraseIdx h.toList 0 (by simpa using hs)
        simpa using this
      have := ih (seen ++ [i]) (h[0] :: D) h1 (by omega) hh1 ?_ ?_
      · obtain ⟨h', D', a1, a2, a3, a4, a5⟩ := this
        exact ⟨h', D', a1, by omega, a3, by simpa using a4, a5⟩
      · -- permutation
        have e1 : (seen ++ [i]).Perm (i :: (h.toList ++ D)) :=
          (List.perm_append_singleton _ _).trans (hp.cons i)
        have e2 : (i :: (h.toList ++ D)).Perm (i :: (h[0] :: h.toList.eraseIdx 0 ++ D)) :=
          (hpo.append_right D).cons i
        have e3 : (h1.toList ++ h[0] :: D).Perm (i :: h.toList.eraseIdx 0 ++ h[0] :: D) :=
          hpl.append_right _
        refine (e1.trans e2).trans (List.Perm.trans ?_ e3.symm)
        simp only [List.cons_append]
        exact List.Perm.cons i List.perm_middle.symm
      · intro x hx y hy
        have hx' := hpl.mem_iff.1 hx
        rcases List.mem_cons.1 hx' with rfl | hx'
        · rcases List.mem_cons.1 hy with rfl | hy
          · exact hw.asymm _ _ hl
          · exact hw.trans _ _ _ (hw.asymm _ _ hl) (hd _ (hpo.mem_iff.2 (by simp)) y hy)
        · have hxo : x ∈ h.toList := hpo.mem_iff.2 (List.mem_cons_of_mem _ hx')
          rcases List.mem_cons.1 hy with rfl | hy
          · exact hroot x hxo
          · exact hd x hxo y hy
    · rename_i hl
      have hl : lt a[h[0]] a[i] = false := by simpa using hl
      have := ih (seen ++ [i]) (i :: D) h hs hh ?_ ?_
      · obtain ⟨h', D', a1, a2, a3, a4, a5⟩ := this
        exact ⟨h', D', a1, a2, a3, by simpa using a4, a5⟩
      · exact ((List.perm_append_singleton _ _).trans (hp.cons i)).trans List.perm_middle.symm
      · intro x hx y hy
        rcases List.mem_cons.1 hy with rfl | hy
        · exact hw.trans _ _ _ (hroot x hx) hl
        · exact hd x hx y hy

theorem topExtract_spec {lt : α → α → Bool} (hw : SWO lt) (a : Array α) (k : Nat)
    (h : Array (Fin a.size)) (hk : h.size = k) (hh : HeapFrom (lessSf lt a) h 0 h.size)
    (acc : List (Fin a.size))
    (hacc : acc.Pairwise (fun x y => lt a[x] a[y] = false))
    (hle : ∀ x ∈ acc, ∀ y ∈ h.toList, lt a[y] a[x] = false) :
    ∃ l : List (Fin a.size),
      topExtract lt a h k (acc.map (fun i => (i.val, a[i]))) = some (l.map (fun i => (i.val, a[i]))) ∧
      l.Perm (acc ++ h.toList) ∧ l.Pairwise (fun x y => lt a[x] a[y] = false) := by
  induction k generalizing h acc with
  | zero =>
    have : h = #[] := Array.eq_empty_of_size_eq_zero hk
    subst this
    exact ⟨acc, rfl, by simp, hacc⟩
  | succ k ih =>
    obtain ⟨m, h1, e, h0, hp, hh1⟩ := pop_spec (swo_sf hw a) h hh (by omega)
    have hpl : h.toList.Perm (m :: h1.toList) := by
      have := Array.perm_iff_toList_perm.1 hp
      rw [Array.toList_push] at this
      exact this.symm.trans (List.perm_append_singleton _ _)
    have hroot : ∀ x ∈ h.toList, lt a[x] a[m] = false := by
      intro x hx
      obtain ⟨j, hj, rfl⟩ := List.mem_iff_getElem.1 hx
      have hj' : j < h.size := by simpa using hj
      exact heap_root (swo_sf hw a) (Nat.le_refl _) hh j hj' _ _ (by simp [hj']) h0
    have hmm : m ∈ h.toList := hpl.mem_iff.2 (by simp)
    have hpa : (m :: acc).Pairwise (fun x y => lt a[x] a[y] = false) :=
      List.pairwise_cons.2 ⟨fun y hy => hle y hy m hmm, hacc⟩
    have hla : ∀ x ∈ m :: acc, ∀ y ∈ h1.toList, lt a[y] a[x] = false := by
      intro x hx y hy
      have hyo : y ∈ h.toList := hpl.mem_iff.2 (List.mem_cons_of_mem _ hy)
      rcases List.mem_cons.1 hx with rfl | hx
      · exact hroot y hyo
      · exact hle x hx y hyo
    obtain ⟨l, e1, e2, e3⟩ :=
      ih h1 (by have := hpl.length_eq; simp at this; omega) hh1 (m :: acc) hpa hla
    refine ⟨l, ?_, ?_, e3⟩
    · rw [topExtract, e]; exact e1
    · refine e2.trans ?_
      refine List.Perm.trans ?_ (hpl.symm.append_left acc)
      simp only [List.cons_append]
      exact List.perm_middle.symm

/-- The full claim: for every `n`, including 0. -/
def C13_Statement : Prop :=
  ∀ (a : Array Nat) (n : Nat),
    ∃ r, findTopN (fun x y => decide (x < y)) a n = some r ∧ IsTopN (fun x y => decide (x < y)) a n r

/-- C13: the full claim is false: asking for the top 0 of a non-empty array panics
(`sorting.go:85` peeks into an empty queue). -/
theorem C13_statement_false : ¬ C13_Statement := by
  intro h
  obtain ⟨r, hr, -⟩ := h #[7] 0
  have hn : findTopN (fun x y : Nat => decide (x < y)) #[7] 0 = none := by decide +kernel
  rw [hn] at hr; cases hr

/-- C13: what happens for `n = 0`: a panic unless the array is empty. -/
theorem C13_zero (lt : α → α → Bool) (a : Array α) :
    findTopN lt a 0 = if a.size = 0 then some [] else none := by
  have h0 : (init (lessSf lt a) (List.take 0 (List.finRange a.size)).toArray) = #[] := by
    simp [init, initLoop]
  unfold findTopN
  simp only [show ¬ (0 > a.size) by omega, if_false, h0, List.drop_zero]
  cases hf : List.finRange a.size with
  | nil =>
    have : a.size = 0 := by have := congrArg List.length hf; simpa using this
    simp [topScan, topExtract, this]
  | cons i is =>
    have : ¬ a.size = 0 := by have := i.2; omega
    rw [if_neg this]
    simp [topScan]

/-- C13 (partial): for every `n ≥ 1` (also beyond the length) the answer is the exact top `n`.
Missing: `n = 0` on a non-empty array, where the code panics (`C13_zero`). -/
theorem C13_findTopN_partial (lt : α → α → Bool) (hw : SWO lt) (a : Array α) (n : Nat)
    (hn : 1 ≤ n) : ∃ r, findTopN lt a n = some r ∧ IsTopN lt a n r := by
  have hcl : (if n > a.size then a.size else n) = min n a.size := by split <;> omega
  unfold findTopN
  simp only [hcl]
  by_cases hemp : a.size = 0
  · refine ⟨[], ?_, by simp [hemp], by simp, by simp, by simp, by simp⟩
    have hz : min n a.size = 0 := by omega
    have hf : List.finRange a.size = [] := by
      apply List.eq_nil_of_length_eq_zero; simp [hemp]
    simp [hz, hf, init, initLoop, topScan, topExtract]
  · have hsz : (init (lessSf lt a) ((List.finRange a.size).take (min n a.size)).toArray).size = min n a.size := by
      rw [init, initLoop_size]; simp
    obtain ⟨h', D, e, hs', hh', hp', hd'⟩ := topScan_spec hw a
      ((List.finRange a.size).drop (min n a.size)) ((List.finRange a.size).take (min n a.size)) []
      (init (lessSf lt a) ((List.finRange a.size).take (min n a.size)).toArray)
      (by rw [hsz]; omega) (init_heap (swo_sf hw a) _)
      (by
        have := Array.perm_iff_toList_perm.1 (init_perm (less := lessSf lt a) ((List.finRange a.size).take (min n a.size)).toArray)
        simpa using this.symm)
      (by simp)
    rw [List.take_append_drop] at hp'
    rw [e]
    simp only
    obtain ⟨l, e2, hpl, hpw⟩ := topExtract_spec hw a (min n a.size) h' (by omega) hh' [] (by simp) (by simp)
    rw [List.map_nil] at e2
    refine ⟨_, e2, ?_⟩
    rw [List.nil_append] at hpl
    have hfst : (l.map (fun i : Fin a.size => (i.val, a[i]))).map Prod.fst = l.map Fin.val := by
      simp [Function.comp_def]
    have hnd : l.Nodup := by
      have h1 := hp'.nodup (List.nodup_finRange a.size)
      exact hpl.symm.nodup (List.nodup_append.1 h1).1
    refine ⟨?_, ?_, ?_, ?_, ?_⟩
    · rw [List.length_map, hpl.length_eq, Array.length_toList]; omega
    · intro x hx
      obtain ⟨i, -, rfl⟩ := List.mem_map.1 hx
      simp
    · rw [hfst]
      exact List.Pairwise.map Fin.val (fun x y hne h => hne (Fin.ext h)) hnd
    · rw [List.pairwise_map]; exact hpw
    · intro i v hv hni x hx
      obtain ⟨k, hk, rfl⟩ := List.mem_map.1 hx
      obtain ⟨hi, rfl⟩ := Array.getElem?_eq_some_iff.1 hv
      have hm : (⟨i, hi⟩ : Fin a.size) ∈ h'.toList ++ D := hp'.mem_iff.1 (List.mem_finRange _)
      rcases List.mem_append.1 hm with hm | hm
      · exfalso
        apply hni
        rw [hfst]
        exact List.mem_map.2 ⟨_, hpl.mem_iff.2 hm, rfl⟩
      · exact hd' k (hpl.mem_iff.1 hk) _ hm

example : findTopN (fun x y : Nat => decide (x < y)) #[4, 9, 2, 9, 7] 3 = some [(1, 9), (3, 9), (4, 7)] ∨
    findTopN (fun x y : Nat => decide (x < y)) #[4, 9, 2, 9, 7] 3 = some [(3, 9), (1, 9), (4, 7)] := by
  decide +kernel
example := C13_findTopN_partial _ nat_swo #[4, 9, 2, 9, 7] 3 (by decide)

/-! ### C40 -/

theorem shuffleLoop_perm (s : Array α) (i : Nat) (rand : List Nat) (r : Array α)
    (h : shuffleLoop s i rand = some r) : r.Perm s := by
  induction rand generalizing s i with
  | nil =>
    simp only [shuffleLoop] at h
    split at h
    · cases h; exact Array.Perm.refl _
    · cases h
  | cons j rs ih =>
    simp only [shuffleLoop] at h
    split at h
    · exact (ih _ _ h).trans (Array.swap_perm _ _)
    · cases h

/-- C40: `Shuffle` returns a permutation, whatever the random numbers were. -/
theorem C40_shuffle_perm (s : Array α) (rand : List Nat) (r : Array α)
    (h : shuffle s rand = some r) : r.toList.Perm s.toList :=
  Array.perm_iff_toList_perm.1 (shuffleLoop_perm s 0 rand r h)

/-- C40: with random numbers in the range the library guarantees (`0 ≤ Intn(i+1) ≤ i`, one per
element), `Shuffle` never panics. -/
theorem C40_shuffle_total (s : Array α) (rand : List Nat) (hl : rand.length = s.size)
    (hr : ∀ k j : Nat, rand[k]? = some j → j ≤ k) : ∃ r, shuffle s rand = some r := by
  have : ∀ (rand : List Nat) (s : Array α) (i : Nat), i + rand.length = s.size →
      (∀ k j : Nat, rand[k]? = some j → j ≤ i + k) → ∃ r, shuffleLoop s i rand = some r := by
    intro rand
    induction rand with
    | nil => intro s i h _; exact ⟨s, by simp at h; simp [shuffleLoop, h]⟩
    | cons j rs ih =>
      intro s i h hr
      simp only [List.length_cons] at h
      have hj := hr 0 j (by simp)
      simp only [shuffleLoop]
      rw [dif_pos ⟨by omega, by omega⟩]
      apply ih
      · simp; omega
      · intro k j' hk
        have := hr (k + 1) j' (by simpa using hk)
        omega
  exact this rand s 0 (by omega) (by simpa using hr)

example : ∃ r, shuffle #[10, 20, 30] [0, 0, 1] = some r ∧ r.toList = [20, 30, 10] := ⟨_, rfl, rfl⟩

/-- C40: `RemoveRandomElement` returns an element of the slice and leaves exactly the others. -/
theorem C40_remove_exact (s : Array α) (idx : Nat) (x : α) (r : Array α)
    (h : removeRandomElement s idx = some (x, r)) :
    s[idx]? = some x ∧ s.toList.Perm (x :: r.toList) := by
  unfold removeRandomElement at h
  split at h
  · rename_i hi
    simp only [Option.some.injEq, Prod.mk.injEq] at h
    obtain ⟨rfl, rfl⟩ := h
    refine ⟨Array.getElem?_eq_getElem hi, ?_⟩
    obtain ⟨l⟩ := s
    simp only [List.size_toArray] at hi
    obtain ⟨b, last, rfl⟩ : ∃ b y, l = b ++ [y] :=
      ⟨l.dropLast, l.getLast (by intro e; subst e; simp at hi), (List.dropLast_concat_getLast _).symm⟩
    simp only [List.getElem_toArray, List.size_toArray, List.set_toArray, List.pop_toArray,
      List.length_append, List.length_singleton, Nat.add_sub_cancel, List.getElem_append_right (Nat.le_refl _)]
    simp only [Nat.sub_self, List.getElem_singleton]
    by_cases hlt : idx < b.length
    · rw [List.getElem_append_left hlt, List.set_append_left _ _ hlt, List.dropLast_concat]
      have h1 := perm_cons_eraseIdx b idx hlt
      have h2 := set_perm b idx hlt last
      refine (List.perm_append_singleton _ _).trans ?_
      refine (h1.cons last).trans ((List.Perm.swap _ _ _).trans (h2.symm.cons _))
    · simp at hi
      have : idx = b.length := by omega
      subst this
      rw [List.getElem_append_right (Nat.le_refl _), List.set_append_right _ _ (Nat.le_refl _)]
      simp only [Nat.sub_self, List.getElem_singleton, List.set_cons_zero, List.dropLast_concat]
      exact List.perm_append_singleton _ _
  · simp at h

example : removeRandomElement #[1, 2, 3, 4] 1 = some (2, #[1, 4, 3]) := rfl

/-- C40: it panics only on an empty slice, for random numbers in range. -/
theorem C40_remove_total (s : Array α) (idx : Nat) (h : idx < s.size) :
    (removeRandomElement s idx).isSome = true := by simp [removeRandomElement, h]

example : (removeRandomElement #[1, 2] 1).isSome = true := C40_remove_total _ _ (by decide)

/-! ### C15 -/

/-- Specification: the sorted copy of the data. -/
def sortedCopy (n : List Int) : List Int := n.mergeSort (fun a b => decide (a ≤ b))

/-- The full claim: for odd length the median is the middle element of the sorted data. -/
def C15_MedianStatement : Prop :=
  ∀ n : List Int, n.length % 2 = 1 → median n = (sortedCopy n)[n.length / 2]?

/-- C15: the claim is false: `Median([1,2,3])` is `1` (the mean of the first two, truncated),
because the branches for odd and even length are swapped (`helpers.go:112`). -/
theorem C15_median_statement_false : ¬ C15_MedianStatement := by
  intro h
  have := h [1, 2, 3] rfl
  simp [median, percentile, sortedCopy, List.mergeSort, List.MergeSort.Internal.splitInTwo, List.merge] at this

/-- C15: also for even length: `Median([1,2,3,5])` is `3`, not the mean of the two middle. -/
theorem C15_median_even_false : median [1, 2, 3, 6] = some 3 ∧ ((2 + 3 : Int).tdiv 2 = 2) := by
  refine ⟨?_, by decide⟩
  simp [median, percentile, List.mergeSort, List.MergeSort.Internal.splitInTwo, List.merge]

/-- C15: the 100th percentile of two or more elements is an index panic. -/
theorem C15_percentile_100_panics (n : List Int) (h : 2 ≤ n.length) : percentile n 100 = none := by
  match n, h with
  | x :: y :: r, _ =>
    have hl : ((x :: y :: r).mergeSort (fun a b => decide (a ≤ b))).length = r.length + 2 := by simp
    generalize hs : (x :: y :: r).mergeSort (fun a b => decide (a ≤ b)) = s at hl
    have e : 100 * s.length / 100 = s.length := by omega
    simp only [percentile, hs, e]
    split
    · exact List.getElem?_eq_none (Nat.le_refl _)
    · rw [List.getElem?_eq_none (Nat.le_refl s.length)]
      split <;> simp_all

theorem percentile_eq (n : List Int) (p : Nat) (h : 2 ≤ n.length) :
    percentile n p =
      (if (sortedCopy n).length % 2 = 0 ∨ p * (sortedCopy n).length / 100 = 0
        then (sortedCopy n)[p * (sortedCopy n).length / 100]?
      else
        match (sortedCopy n)[p * (sortedCopy n).length / 100 - 1]?,
          (sortedCopy n)[p * (sortedCopy n).length / 100]? with
        | some a, some b => if a = b then some b else some ((a + b).tdiv 2)
        | _, _ => none) := by
  match n, h with
  | x :: y :: r, _ => rfl

/-- C15 (partial): for `p < 100` on a non-empty slice the result exists and lies between two
neighbouring order statistics (`idx-1` and `idx` with `idx = p * len / 100`).
Missing: it is not the order statistic itself for odd lengths, and `p = 100` panics. -/
theorem C15_percentile_between_partial (n : List Int) (p : Nat) (hn : n ≠ []) (hp : p < 100) :
    ∃ r lo hi, percentile n p = some r ∧
      (sortedCopy n)[p * n.length / 100 - 1]? = some lo ∧
      (sortedCopy n)[p * n.length / 100]? = some hi ∧ lo ≤ r ∧ r ≤ hi := by
  have hlen : (sortedCopy n).length = n.length := by simp [sortedCopy]
  have hpos : 0 < n.length := List.length_pos_iff.2 hn
  have hidx : p * n.length / 100 < n.length := by
    rw [Nat.div_lt_iff_lt_mul (by omega), Nat.mul_comm n.length]
    exact Nat.mul_lt_mul_of_pos_right hp hpos
  have hsort : (sortedCopy n).Pairwise (fun a b => a ≤ b) := by
    have := List.pairwise_mergeSort (le := fun a b : Int => decide (a ≤ b))
      (by simp; omega) (by simp; omega) n
    exact this.imp (by simp)
  obtain ⟨k, hk⟩ : ∃ k, k = p * n.length / 100 := ⟨_, rfl⟩
  rw [← hk] at hidx ⊢
  have hlo : (sortedCopy n)[k - 1]? = some (sortedCopy n)[k - 1] := List.getElem?_eq_getElem (by omega)
  have hhi : (sortedCopy n)[k]? = some (sortedCopy n)[k] := List.getElem?_eq_getElem (by omega)
  have hle : (sortedCopy n)[k - 1] ≤ (sortedCopy n)[k] := by
    by_cases h0 : k = 0
    · subst h0; exact Int.le_refl _
    · exact List.pairwise_iff_getElem.1 hsort (k - 1) k (by omega) (by omega) (by omega)
  by_cases h1 : n.length = 1
  · obtain ⟨x, rfl⟩ := List.length_eq_one_iff.1 h1
    have : k = 0 := by omega
    subst this
    refine ⟨x, x, x, rfl, ?_, ?_, Int.le_refl _, Int.le_refl _⟩ <;> simp [sortedCopy]
  · rw [percentile_eq n p (by omega), hlen, ← hk, hlo, hhi]
    generalize (sortedCopy n)[k - 1] = a at hle
    generalize (sortedCopy n)[k] = b at hle
    by_cases hc : n.length % 2 = 0 ∨ k = 0
    · rw [if_pos hc]
      exact ⟨b, a, b, rfl, rfl, rfl, hle, Int.le_refl _⟩
    · rw [if_neg hc]
      by_cases hab : a = b
      · simp only [hab, if_true]
        exact ⟨b, b, b, rfl, rfl, rfl, Int.le_refl _, Int.le_refl _⟩
      · simp only [hab, if_false]
        refine ⟨_, a, b, rfl, rfl, rfl, ?_, ?_⟩
        · rcases Int.le_total 0 (a + b) with h | h
          · rw [Int.tdiv_eq_ediv_of_nonneg h]; omega
          · have hneg : (a + b).tdiv 2 = -((-(a + b)) / 2) := by
              rw [← Int.tdiv_eq_ediv_of_nonneg (a := -(a + b)) (b := 2) (by omega), Int.neg_tdiv,
                Int.neg_neg]
            rw [hneg]; omega
        · rcases Int.le_total 0 (a + b) with h | h
          · rw [Int.tdiv_eq_ediv_of_nonneg h]; omega
          · have hneg : (a + b).tdiv 2 = -((-(a + b)) / 2) := by
              rw [← Int.tdiv_eq_ediv_of_nonneg (a := -(a + b)) (b := 2) (by omega), Int.neg_tdiv,
                Int.neg_neg]
            rw [hneg]; omega

example := C15_percentile_between_partial [5, 1, 4] 50 (by decide) (by decide)

/-- C15: for even lengths the percentile is exactly the order statistic at `p * len / 100`. -/
theorem C15_percentile_even (n : List Int) (p : Nat) (h2 : 2 ≤ n.length) (he : n.length % 2 = 0) :
    percentile n p = (sortedCopy n)[p * n.length / 100]? := by
  have hlen : (sortedCopy n).length = n.length := by simp [sortedCopy]
  rw [percentile_eq n p h2, hlen, if_pos (Or.inl he)]

example := C15_percentile_even [5, 1, 4, 2] 95 (by decide) (by decide)

end Verif.Props.Sorting
