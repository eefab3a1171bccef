import Verif.PQ

/-! Helper lemmas: heap order is kept by `up`, `down`, `Init`, `Push`, `Pop`, `Fix`. -/

namespace Verif.PQ
open Array (Perm)

variable {α : Type} {less : α → α → Bool}

/-- `less` is a strict weak order. -/
structure SWO (less : α → α → Bool) : Prop where
  asymm : ∀ a b, less a b = true → less b a = false
  trans : ∀ a b c, less a b = false → less b c = false → less a c = false

/-- "`o1` is not less than `o2`", for positions that exist. -/
def NL (less : α → α → Bool) (o1 o2 : Option α) : Prop :=
  ∀ a b, o1 = some a → o2 = some b → less a b = false

theorem NL.trans (hw : SWO less) {o1 o2 o3 : Option α} {b : α} (hb : o2 = some b)
    (h1 : NL less o1 o2) (h2 : NL less o2 o3) : NL less o1 o3 :=
  fun a c ha hc => hw.trans a b c (h1 a b ha hb) (h2 b c hb hc)

/-- Heap order for all children below `n` whose parent is at least `lo`. -/
def HeapFrom (less : α → α → Bool) (h : Array α) (lo n : Nat) : Prop :=
  ∀ c, 0 < c → c < n → lo ≤ (c - 1) / 2 → NL less h[c]? h[(c - 1) / 2]?

theorem getElem?_swap' (h : Array α) (i j k : Nat) (hi : i < h.size) (hj : j < h.size) :
    (h.swap i j hi hj)[k]? = if k = i then h[j]? else if k = j then h[i]? else h[k]? := by
  rw [Array.getElem?_swap]
  split
  · rename_i e; subst e
    split
    · rename_i e2; subst e2; simp
    · simp [hi]
  · rename_i e
    split
    · rename_i e2; subst e2; simp [hj]
    · rename_i e2
      rw [if_neg (fun x => e2 x.symm), if_neg (fun x => e x.symm)]

/-- Weak precondition of `down` at `i`: every pair not touching `i` is in order, and children of
`i` are in order with the parent of `i`. -/
structure Hole (less : α → α → Bool) (h : Array α) (i lo n : Nat) : Prop where
  other : ∀ c, 0 < c → c < n → lo ≤ (c - 1) / 2 → (c - 1) / 2 ≠ i → c ≠ i →
    NL less h[c]? h[(c - 1) / 2]?
  grand : 0 < i → lo ≤ (i - 1) / 2 → ∀ c, 0 < c → c < n → (c - 1) / 2 = i →
    NL less h[c]? h[(i - 1) / 2]?

theorem child_le (hw : SWO less) (h : Array α) (i n : Nat) (hn : n ≤ h.size) (hj : 2 * i + 1 < n)
    (c : Nat) (hc0 : 0 < c) (hc : c < n) (hp : (c - 1) / 2 = i) :
    NL less h[c]? h[child less h i n hn hj]? := by
  have hirr : ∀ a, less a a = false := by
    intro a
    cases hh : less a a with
    | false => rfl
    | true => have := hw.asymm a a hh; rw [hh] at this; exact this
  have hcc : c = 2 * i + 1 ∨ c = 2 * i + 2 := by omega
  intro a b ha hb
  unfold child at hb
  split at hb
  · rename_i h2
    split at hb
    · rename_i hl
      rcases hcc with rfl | rfl
      · rw [Array.getElem?_eq_getElem (by omega)] at ha hb
        cases ha; cases hb
        exact hw.asymm _ _ hl
      · rw [ha] at hb; cases hb; exact hirr a
    · rename_i hl
      rcases hcc with rfl | rfl
      · rw [ha] at hb; cases hb; exact hirr a
      · rw [Array.getElem?_eq_getElem (by omega)] at ha hb
        cases ha; cases hb
        simpa using hl
  · rcases hcc with rfl | rfl
    · rw [ha] at hb; cases hb; exact hirr a
    · omega

theorem child_par (h : Array α) (i n : Nat) (hn : n ≤ h.size) (hj : 2 * i + 1 < n) :
    (child less h i n hn hj - 1) / 2 = i := by
  unfold child; split
  · split <;> omega
  · omega

/-- One swap of `down` moves the hole to the child and repairs the pair above. -/
theorem hole_step (hw : SWO less) (h : Array α) (i n lo : Nat) (hn : n ≤ h.size)
    (hj : 2 * i + 1 < n) (hP : Hole less h i lo n)
    (j : Nat) (ej : j = child less h i n hn hj) (hji : i < j) (hjn : j < n)
    (hl : less (h[j]'(by omega)) (h[i]'(by omega)) = true) :
    Hole less (h.swap i j (by omega) (by omega)) j lo n ∧
    ∀ c, 0 < c → c < n → lo ≤ (c - 1) / 2 → (c - 1) / 2 ≠ j →
      NL less (h.swap i j (by omega) (by omega))[c]? (h.swap i j (by omega) (by omega))[(c - 1) / 2]? := by
  have hpar : (j - 1) / 2 = i := by rw [ej]; exact child_par h i n hn hj
  have hjs : h[j]? = some (h[j]'(by omega)) := Array.getElem?_eq_getElem (by omega)
  have key : ∀ c, 0 < c → c < n → lo ≤ (c - 1) / 2 → (c - 1) / 2 ≠ j →
      NL less (h.swap i j (by omega) (by omega))[c]? (h.swap i j (by omega) (by omega))[(c - 1) / 2]? := by
    intro c h0 hcn hlo hpj
    rw [getElem?_swap', getElem?_swap']
    by_cases h1 : c = j
    · subst h1
      rw [hpar, if_neg (by omega), if_pos rfl, if_pos rfl]
      intro a b ha hb
      rw [Array.getElem?_eq_getElem (by omega)] at ha hb
      cases ha; cases hb
      exact hw.asymm _ _ hl
    · by_cases h2 : (c - 1) / 2 = i
      · rw [if_neg (by omega), if_neg h1, if_pos h2]
        rw [ej]
        exact child_le hw h i n hn hj c h0 hcn h2
      · by_cases h3 : c = i
        · subst h3
          rw [if_pos rfl, if_neg h2, if_neg hpj]
          exact hP.grand h0 hlo j (by omega) hjn hpar
        · rw [if_neg h3, if_neg h1, if_neg h2, if_neg hpj]
          exact hP.other c h0 hcn hlo h2 h3
  refine ⟨⟨fun c h0 hcn hlo hpj _ => key c h0 hcn hlo hpj, ?_⟩, key⟩
  intro _ hlo c h0 hcn hpc
  rw [hpar] at hlo ⊢
  rw [getElem?_swap', getElem?_swap', if_neg (by omega), if_neg (by omega), if_pos rfl]
  rw [← hpc]
  exact hP.other c h0 hcn (by omega) (by omega) (by omega)

/-- `down` from a hole with the pair above in order establishes heap order. -/
theorem down_heap (hw : SWO less) (h : Array α) (i n lo : Nat) (hn : n ≤ h.size)
    (hP : Hole less h i lo n)
    (hup : 0 < i → i < n → lo ≤ (i - 1) / 2 → NL less h[i]? h[(i - 1) / 2]?) :
    HeapFrom less (down less h i n hn).1 lo n := by
  fun_induction down less h i n hn with
  | case1 h i hn hj j hb hl ih =>
    have hs := hole_step hw h i n lo hn hj hP j rfl hb.1 hb.2 hl
    apply ih hs.1
    intro h0 hjn hlo
    exact hs.2 j h0 hjn hlo (by have := hb.1; intro e; omega)
  | case2 h i hn hj j hb hl =>
    intro c h0 hcn hlo
    have hpar : (j - 1) / 2 = i := child_par h i n hn hj
    have hjs : h[j]? = some (h[j]'(by omega)) := Array.getElem?_eq_getElem (by omega)
    by_cases h1 : c = i
    · subst h1; exact hup h0 hcn hlo
    · by_cases h2 : (c - 1) / 2 = i
      · rw [h2]
        refine NL.trans hw hjs (child_le hw h i n hn hj c h0 hcn h2) ?_
        rw [show h[child less h i n hn hj]? = h[j]? from rfl, hjs,
          Array.getElem?_eq_getElem (show i < h.size by omega)]
        intro a b ha hb'
        cases ha; cases hb'
        simpa using hl
      · exact hP.other c h0 hcn hlo h2 h1
  | case3 h i hn hj =>
    intro c h0 hcn hlo
    by_cases h1 : c = i
    · subst h1; exact hup h0 hcn hlo
    · exact hP.other c h0 hcn hlo (by intro e; omega) h1

theorem down_idx_ge (h : Array α) (i n : Nat) (hn : n ≤ h.size) :
    i ≤ (down less h i n hn).2 := by
  fun_induction down less h i n hn with
  | case1 h i hn hj j hb hl ih => omega
  | case2 => simp
  | case3 => simp

theorem down_ge (h : Array α) (i n : Nat) (hn : n ≤ h.size) (k : Nat) (hk : n ≤ k) :
    (down less h i n hn).1[k]? = h[k]? := by
  fun_induction down less h i n hn with
  | case1 h i hn hj j hb hl ih =>
    rw [ih, getElem?_swap', if_neg (by omega), if_neg (by omega)]
  | case2 => rfl
  | case3 => rfl

theorem down_perm (h : Array α) (i n : Nat) (hn : n ≤ h.size) :
    Perm (down less h i n hn).1 h := by
  fun_induction down less h i n hn with
  | case1 h i hn hj j hb hl ih => exact ih.trans (Array.swap_perm _ _)
  | case2 => exact Perm.refl _
  | case3 => exact Perm.refl _

theorem up_perm (h : Array α) (j : Nat) (hj : j < h.size) : Perm (up less h j hj) h := by
  fun_induction up less h j hj with
  | case1 => exact Perm.refl _
  | case2 h j hj i hb ih => exact ih.trans (Array.swap_perm _ _)

/-- `up` from a position whose only bad pair is with its parent. -/
theorem up_heap (hw : SWO less) (h : Array α) (j : Nat) (hj : j < h.size)
    (ho : ∀ c, 0 < c → c < h.size → c ≠ j → NL less h[c]? h[(c - 1) / 2]?)
    (hg : 0 < j → ∀ c, 0 < c → c < h.size → (c - 1) / 2 = j → NL less h[c]? h[(j - 1) / 2]?) :
    HeapFrom less (up less h j hj) 0 h.size := by
  fun_induction up less h j hj with
  | case1 h j hj i hb =>
    intro c h0 hcn _
    by_cases h1 : c = j
    · subst h1
      intro a b ha hb'
      rw [Array.getElem?_eq_getElem (by omega)] at ha hb'
      cases ha; cases hb'
      rcases hb with hb | hb
      · have : (c - 1) / 2 = c := hb
        omega
      · simpa using hb
    · exact ho c h0 hcn h1
  | case2 h j hj i hb ih =>
    have hij : (j - 1) / 2 ≠ j := fun e => hb (Or.inl e)
    have hi : i = (j - 1) / 2 := rfl
    have hl : less h[j] (h[i]'(by omega)) = true := by
      have : ¬ ¬ less h[j] (h[i]'(by omega)) = true := fun e => hb (Or.inr e)
      simpa using this
    have hji : NL less h[i]? h[j]? := by
      intro a b ha hb'
      rw [Array.getElem?_eq_getElem (by omega)] at ha hb'
      cases ha; cases hb'
      exact hw.asymm _ _ hl
    have his : h[i]? = some (h[i]'(by omega)) := Array.getElem?_eq_getElem (by omega)
    have hsz : (h.swap i j (by omega) hj).size = h.size := by simp
    rw [← hsz]
    apply ih
    · intro c h0 hcn hci
      rw [hsz] at hcn
      rw [getElem?_swap', getElem?_swap', if_neg hci]
      by_cases h1 : c = j
      · subst h1
        rw [if_pos rfl, ← hi, if_pos rfl]
        exact hji
      · rw [if_neg h1]
        by_cases h2 : (c - 1) / 2 = i
        · rw [if_pos h2]
          have := ho c h0 hcn h1
          rw [h2] at this
          exact NL.trans hw his this hji
        · rw [if_neg h2]
          by_cases h3 : (c - 1) / 2 = j
          · rw [if_pos h3]
            exact hg (by omega) c h0 hcn h3
          · rw [if_neg h3]
            exact ho c h0 hcn h1
    · intro h0i c h0 hcn hpc
      rw [hsz] at hcn
      have hci : c ≠ i := by omega
      rw [getElem?_swap', getElem?_swap', if_neg hci,
        if_neg (show ¬ (i - 1) / 2 = i by omega), if_neg (show ¬ (i - 1) / 2 = j by omega)]
      have hpi := ho i h0i (by omega) (by omega)
      by_cases h1 : c = j
      · rw [if_pos h1]; exact hpi
      · rw [if_neg h1]
        have := ho c h0 hcn h1
        rw [hpc] at this
        exact NL.trans hw his this hpi

theorem heap_root (hw : SWO less) {h : Array α} {n : Nat} (hn : n ≤ h.size)
    (hh : HeapFrom less h 0 n) (k : Nat) (hk : k < n) : NL less h[k]? h[0]? := by
  induction k using Nat.strongRecOn with
  | ind k ih =>
    by_cases h0 : k = 0
    · subst h0
      intro a b ha hb
      rw [ha] at hb; cases hb
      cases hs : less a a with
      | false => rfl
      | true => have := hw.asymm a a hs; rw [hs] at this; exact this
    · have h1 := hh k (by omega) hk (by omega)
      have h2 := ih ((k - 1) / 2) (by omega) (by omega)
      exact NL.trans hw (Array.getElem?_eq_getElem (by omega)) h1 h2

theorem initLoop_size (h : Array α) (k : Nat) : (initLoop less h k).size = h.size := by
  induction k generalizing h with
  | zero => rfl
  | succ k ih => rw [initLoop, ih, down_size]

theorem initLoop_perm (h : Array α) (k : Nat) : Perm (initLoop less h k) h := by
  induction k generalizing h with
  | zero => exact Perm.refl _
  | succ k ih => exact (ih _).trans (down_perm _ _ _ _)

theorem initLoop_heap (hw : SWO less) (h : Array α) (k : Nat) (hh : HeapFrom less h k h.size) :
    HeapFrom less (initLoop less h k) 0 h.size := by
  induction k generalizing h with
  | zero => exact hh
  | succ k ih =>
    have hd : HeapFrom less (down less h k h.size (Nat.le_refl _)).1 k h.size := by
      apply down_heap hw
      · refine ⟨fun c h0 hcn hlo hne _ => hh c h0 hcn (by omega), fun h0 hlo => by omega⟩
      · intro h0 _ hlo; omega
    have hs : (down less h k h.size (Nat.le_refl _)).1.size = h.size := down_size _ _ _ _ _
    have := ih _ (by rw [hs]; exact hd)
    rw [hs] at this
    exact this

theorem init_heap (hw : SWO less) (h : Array α) : HeapFrom less (init less h) 0 (init less h).size := by
  rw [init, initLoop_size]
  apply initLoop_heap hw
  intro c h0 hcn hlo
  omega

theorem init_perm (h : Array α) : Perm (init less h) h := initLoop_perm _ _

theorem push_heap (hw : SWO less) (h : Array α) (x : α) (hh : HeapFrom less h 0 h.size) :
    HeapFrom less (push less h x) 0 (push less h x).size := by
  unfold push
  rw [up_size]
  apply up_heap hw
  · intro c h0 hcn hne
    simp only [Array.size_push] at hcn
    rw [Array.getElem?_push, if_neg (by omega), Array.getElem?_push, if_neg (by omega)]
    exact hh c h0 (by omega) (by omega)
  · intro _ c h0 hcn hpc
    simp only [Array.size_push] at hcn
    omega

theorem push_perm (h : Array α) (x : α) : Perm (push less h x) (h.push x) := up_perm _ _ _

theorem pop_spec (hw : SWO less) (h : Array α) (hh : HeapFrom less h 0 h.size) (hs : 0 < h.size) :
    ∃ x h', pop less h = some (x, h') ∧ h[0]? = some x ∧ Perm (h'.push x) h ∧
      HeapFrom less h' 0 h'.size := by
  unfold pop
  rw [dif_pos hs]
  simp only
  refine ⟨_, _, rfl, ?_, ?_, ?_⟩
  · rw [← Array.getElem?_eq_getElem, down_size, Array.size_swap, down_ge _ _ _ _ _ (Nat.le_refl _),
      getElem?_swap']
    split
    · rename_i e; rw [e]
    · rw [if_pos rfl]
  · have e : ∀ (a : Array α) (h0 : a.size - 1 < a.size), a.pop.push (a[a.size - 1]) = a := by
      intro a h0
      apply Array.ext
      · simp; omega
      · intro k hk1 hk2
        rw [Array.getElem_push]
        split
        · simp
        · rename_i hk
          simp only [Array.size_pop] at hk
          congr 1; omega
    rw [e]
    exact (down_perm _ _ _ _).trans (Array.swap_perm _ _)
  · simp only [Array.size_pop, down_size, Array.size_swap]
    have hd : HeapFrom less (down less (h.swap 0 (h.size - 1) hs (by omega)) 0 (h.size - 1)
        (by simp only [Array.size_swap]; omega)).1 0 (h.size - 1) := by
      apply down_heap hw
      · refine ⟨fun c h0 hcn _ hne _ => ?_, fun h0 => by omega⟩
        rw [getElem?_swap', getElem?_swap', if_neg (by omega), if_neg (by omega), if_neg hne,
          if_neg (by omega)]
        exact hh c h0 (by omega) (by omega)
      · intro h0; omega
    intro c h0 hcn hlo
    have := hd c h0 hcn hlo
    rw [Array.getElem?_pop, Array.getElem?_pop, down_size, Array.size_swap, if_pos (by omega), if_pos (by omega)]
    exact this

theorem down_stay (h : Array α) (i n : Nat) (hn : n ≤ h.size) (hd : (down less h i n hn).2 ≤ i) :
    (down less h i n hn).1 = h ∧
    ∀ (hj : 2 * i + 1 < n), less (h[child less h i n hn hj]'(by have := child_bounds less h i n hn hj; omega))
      (h[i]'(by omega)) = false := by
  unfold down at hd ⊢
  split
  · rename_i hj
    simp only [hj, dite_true] at hd
    split at hd
    · have := down_idx_ge (less := less) (h.swap i (child less h i n hn hj) (by omega)
        (by have := child_bounds less h i n hn hj; omega)) (child less h i n hn hj) n (by simpa using hn)
      have := child_bounds less h i n hn hj
      omega
    · rename_i hl
      simp only [hl]
      exact ⟨by simp, fun _ => by simp⟩
  · rename_i hj
    exact ⟨rfl, fun h' => absurd h' hj⟩

theorem down_moved (h : Array α) (i n : Nat) (hn : n ≤ h.size) (hd : i < (down less h i n hn).2) :
    ∃ (hj : 2 * i + 1 < n) (j : Nat) (_ : j = child less h i n hn hj) (h1 : i < j) (h2 : j < n),
      less (h[j]'(by omega)) (h[i]'(by omega)) = true ∧
      (down less h i n hn).1 = (down less (h.swap i j (by omega) (by omega)) j n (by simpa using hn)).1 := by
  unfold down at hd
  split at hd
  · rename_i hj
    have hb := child_bounds less h i n hn hj
    simp only at hd
    split at hd
    · rename_i hl
      refine ⟨hj, _, rfl, hb.1, hb.2, hl, ?_⟩
      rw [down]
      simp only [hj, hl, dite_true, if_true]
    · simp at hd
  · simp at hd

theorem fix_spec (hw : SWO less) (h : Array α) (i : Nat) (x : α) (hh : HeapFrom less h 0 h.size)
    (hi : i < h.size) :
    ∃ h', fix less h i x = some h' ∧ Perm h' (h.set i x) ∧ HeapFrom less h' 0 h'.size := by
  have hget : ∀ k, k ≠ i → (h.set i x)[k]? = h[k]? := by
    intro k hk; rw [Array.getElem?_set, if_neg (fun e => hk e.symm)]
  have hH : Hole less (h.set i x) i 0 (h.set i x).size := by
    refine ⟨fun c h0 hcn _ hp hc => ?_, fun h0 _ c hc0 hcn hpc => ?_⟩
    · rw [hget _ hc, hget _ hp]
      exact hh c h0 (by simpa using hcn) (by omega)
    · simp only [Array.size_set] at hcn
      rw [hget _ (by omega), hget _ (by omega)]
      have h1 := hh c hc0 hcn (by omega)
      rw [hpc] at h1
      exact NL.trans hw (Array.getElem?_eq_getElem hi) h1 (hh i h0 hi (by omega))
  unfold fix
  rw [dif_pos hi]
  simp only
  split
  · rename_i hm
    refine ⟨_, rfl, down_perm _ _ _ _, ?_⟩
    obtain ⟨hj, j, ej, h1, h2, hl, e⟩ := down_moved (less := less) (h.set i x) i _ (Nat.le_refl _) hm
    rw [down_size, e]
    have hs := hole_step hw (h.set i x) i _ 0 (Nat.le_refl _) hj hH j ej h1 h2 hl
    apply down_heap hw _ _ _ _ _ hs.1
    intro h0 hjn hlo
    exact hs.2 j h0 hjn hlo (by omega)
  · rename_i hm
    have hst := down_stay (less := less) (h.set i x) i _ (Nat.le_refl _) (by omega)
    refine ⟨_, rfl, (up_perm _ _ _).trans (down_perm _ _ _ _), ?_⟩
    rw [up_size]
    apply up_heap hw
    · intro c h0 hcn hc
      simp only [hst.1] at hcn ⊢
      by_cases hp : (c - 1) / 2 = i
      · have hj : 2 * i + 1 < (h.set i x).size := by omega
        have hb := child_bounds less (h.set i x) i _ (Nat.le_refl _) hj
        rw [hp]
        refine NL.trans hw (Array.getElem?_eq_getElem hb.2)
          (child_le hw _ i _ (Nat.le_refl _) hj c h0 hcn hp) ?_
        intro a b ha hb'
        rw [Array.getElem?_eq_getElem (by omega)] at ha hb'
        cases ha; cases hb'
        exact hst.2 hj
      · exact hH.other c h0 hcn (by omega) hp hc
    · intro h0 c hc0 hcn hpc
      simp only [hst.1] at hcn ⊢
      exact hH.grand h0 (by omega) c hc0 hcn hpc

theorem step_heap (hw : SWO less) {h h' : Array α} {o : Op α} {r : Option α}
    (hh : HeapFrom less h 0 h.size) (hs : step less h o = some (h', r)) :
    HeapFrom less h' 0 h'.size := by
  cases o with
  | init a =>
    simp only [step, Option.some.injEq, Prod.mk.injEq] at hs
    rw [← hs.1]; exact init_heap hw a
  | push x =>
    simp only [step, Option.some.injEq, Prod.mk.injEq] at hs
    rw [← hs.1]; exact push_heap hw h x hh
  | pop =>
    simp only [step, Option.map_eq_some_iff, Prod.mk.injEq] at hs
    obtain ⟨⟨x, h2⟩, e, rfl, -⟩ := hs
    have hsz : 0 < h.size := by
      unfold pop at e; split at e
      · assumption
      · simp at e
    obtain ⟨x', h'', e2, -, -, hp⟩ := pop_spec hw h hh hsz
    rw [e] at e2; cases e2; exact hp
  | fix i x =>
    simp only [step, Option.map_eq_some_iff, Prod.mk.injEq] at hs
    obtain ⟨h2, e, rfl, -⟩ := hs
    have hi : i < h.size := by
      unfold fix at e; split at e
      · assumption
      · simp at e
    obtain ⟨h'', e2, -, hp⟩ := fix_spec hw h i x hh hi
    rw [e] at e2; cases e2; exact hp

theorem run_heap (hw : SWO less) {h h' : Array α} {os : List (Op α)}
    (hh : HeapFrom less h 0 h.size) (hr : run less h os = some h') :
    HeapFrom less h' 0 h'.size := by
  induction os generalizing h with
  | nil => simp only [run, Option.some.injEq] at hr; rw [← hr]; exact hh
  | cons o os ih =>
    simp only [run, Option.bind_eq_some_iff, Prod.exists] at hr
    obtain ⟨h1, r, hs, hr⟩ := hr
    exact ih (step_heap hw hh hs) hr

theorem perm_cons_eraseIdx (l : List α) (i : Nat) (hi : i < l.length) :
    l.Perm (l[i] :: l.eraseIdx i) := by
  induction l generalizing i with
  | nil => simp at hi
  | cons a l ih =>
    cases i with
    | zero => simp
    | succ i =>
      simp only [List.getElem_cons_succ, List.eraseIdx_cons_succ]
      exact ((ih i (by simpa using hi)).cons a).trans (List.Perm.swap _ _ _)

theorem set_perm (l : List α) (i : Nat) (hi : i < l.length) (x : α) :
    (l.set i x).Perm (x :: l.eraseIdx i) := by
  induction l generalizing i with
  | nil => simp at hi
  | cons a l ih =>
    cases i with
    | zero => simp
    | succ i =>
      simp only [List.set_cons_succ, List.eraseIdx_cons_succ]
      exact ((ih i (by simpa using hi)).cons a).trans (List.Perm.swap _ _ _)

theorem bsLoop_spec (neg : Nat → Bool) (i j : Nat) (hij : i ≤ j)
    (hmono : ∀ a b, a ≤ b → neg b = true → neg a = true) :
    i ≤ bsLoop neg i j ∧ bsLoop neg i j ≤ j ∧ (∀ k, i ≤ k → k < bsLoop neg i j → neg k = true) ∧
    (bsLoop neg i j < j → neg (bsLoop neg i j) = false) := by
  fun_induction bsLoop neg i j with
  | case1 i j hlt h hn ih =>
    obtain ⟨h1, h2, h3, h4⟩ := ih (by omega)
    refine ⟨by omega, h2, fun k hk hkl => ?_, h4⟩
    rcases Nat.lt_or_ge h k with hc | hc
    · exact h3 k (by omega) hkl
    · exact hmono k h hc hn
  | case2 i j hlt h hn ih =>
    obtain ⟨h1, h2, h3, h4⟩ := ih (by omega)
    refine ⟨h1, by omega, h3, fun hl => ?_⟩
    by_cases e : bsLoop neg i h = h
    · rw [e]; simpa using hn
    · exact h4 (by omega)
  | case3 i j hlt =>
    exact ⟨by omega, by omega, fun k hk hkl => by omega, fun hl => by omega⟩

end Verif.PQ
