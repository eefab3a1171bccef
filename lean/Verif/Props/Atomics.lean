import Verif.Atomics

/-!
# C28: the compare-and-swap loops are linearizable
-/

namespace Verif.Props.Atomics
open Verif.Atomics

variable {β γ : Type} [DecidableEq β]

/-- Specification: a legal one-at-a-time history from content `c` to content `c'`: each call
returns the content it finds, and leaves `apply content argument`. -/
inductive Sequential (apply : β → γ → β) (c : β) : List (Nat × γ × β) → β → Prop
  | nil : Sequential apply c [] c
  | snoc (l t a v) : Sequential apply c l v → Sequential apply c (l ++ [(t, a, v)]) (apply v a)

/-- The effect of one uninterrupted call. -/
def effect (f : β → γ → Option β) (v : β) (a : γ) : β := (f v a).getD v

/-- The argument of the call a thread is in the middle of. -/
def inFlight : Pc β γ → List γ
  | .idle => []
  | .want a => [a]
  | .cas a _ _ => [a]

/-- Arguments of the completed calls of thread `t`, in order. -/
def doneBy (t : Nat) (rets : List (Nat × γ × β)) : List γ :=
  (rets.filter (fun r => r.1 == t)).map (·.2.1)

structure Inv (f : β → γ → Option β) (c : β) (prog : Nat → List γ) (s : St β γ) : Prop where
  seq : Sequential (effect f) c s.rets s.cell
  acc : ∀ t, doneBy t s.rets ++ inFlight (s.pc t) ++ s.todo t = prog t
  pend : ∀ t a old new, s.pc t = .cas a old new → f old a = some new

theorem doneBy_snoc (t t' : Nat) (rets : List (Nat × γ × β)) (a : γ) (v : β) :
    doneBy t (rets ++ [(t', a, v)]) = doneBy t rets ++ if t' = t then [a] else [] := by
  unfold doneBy
  by_cases h : t' = t <;> simp [h]

theorem Inv.step {f : β → γ → Option β} {c : β} {prog : Nat → List γ} {s s' : St β γ} {t : Nat}
    (h : Inv f c prog s) (hs : step f s t = some s') : Inv f c prog s' := by
  unfold Verif.Atomics.step at hs
  split at hs
  · rename_i hpc
    split at hs
    · cases hs
    · rename_i a as htd
      simp only [Option.some.injEq] at hs
      subst hs
      refine ⟨h.seq, ?_, ?_⟩
      · intro t'
        have := h.acc t'
        by_cases e : t' = t
        · subst e; simpa [upd, hpc, htd, inFlight] using this
        · simpa [upd, e] using this
      · intro t' a' old new hp
        by_cases e : t' = t
        · subst e; simp [upd] at hp
        · exact h.pend t' a' old new (by simpa [upd, e] using hp)
  · rename_i a hpc
    split at hs
    · rename_i hf
      simp only [Option.some.injEq] at hs
      subst hs
      refine ⟨?_, ?_, ?_⟩
      · have := Sequential.snoc _ t a _ h.seq
        rwa [show effect f s.cell a = s.cell by simp [effect, hf]] at this
      · intro t'
        have := h.acc t'
        simp only [doneBy_snoc]
        by_cases e : t' = t
        · subst e; simpa [upd, hpc, inFlight] using this
        · simpa [upd, e, Ne.symm e] using this
      · intro t' a' old new hp
        by_cases e : t' = t
        · subst e; simp [upd] at hp
        · exact h.pend t' a' old new (by simpa [upd, e] using hp)
    · rename_i new hf
      simp only [Option.some.injEq] at hs
      subst hs
      refine ⟨h.seq, ?_, ?_⟩
      · intro t'
        have := h.acc t'
        by_cases e : t' = t
        · subst e; simpa [upd, hpc, inFlight] using this
        · simpa [upd, e] using this
      · intro t' a' old' new' hp
        by_cases e : t' = t
        · subst e
          simp only [upd, if_true, Pc.cas.injEq] at hp
          obtain ⟨rfl, rfl, rfl⟩ := hp
          exact hf
        · exact h.pend t' a' old' new' (by simpa [upd, e] using hp)
  · rename_i a old new hpc
    have hf := h.pend t a old new hpc
    split at hs
    · rename_i hc
      simp only [Option.some.injEq] at hs
      subst hs
      refine ⟨?_, ?_, ?_⟩
      · have := Sequential.snoc _ t a _ h.seq
        rw [hc, show effect f old a = new by simp [effect, hf]] at this
        exact this
      · intro t'
        have := h.acc t'
        simp only [doneBy_snoc]
        by_cases e : t' = t
        · subst e; simpa [upd, hpc, inFlight] using this
        · simpa [upd, e, Ne.symm e] using this
      · intro t' a' old' new' hp
        by_cases e : t' = t
        · subst e; simp [upd] at hp
        · exact h.pend t' a' old' new' (by simpa [upd, e] using hp)
    · simp only [Option.some.injEq] at hs
      subst hs
      refine ⟨h.seq, ?_, ?_⟩
      · intro t'
        have := h.acc t'
        by_cases e : t' = t
        · subst e; simpa [upd, hpc, inFlight] using this
        · simpa [upd, e] using this
      · intro t' a' old' new' hp
        by_cases e : t' = t
        · subst e; simp [upd] at hp
        · exact h.pend t' a' old' new' (by simpa [upd, e] using hp)

theorem Inv.run {f : β → γ → Option β} {c : β} {prog : Nat → List γ} {sched : List Nat} :
    ∀ {s s' : St β γ}, Inv f c prog s → run f s sched = some s' → Inv f c prog s' := by
  induction sched with
  | nil => intro s s' h e; simp [Verif.Atomics.run] at e; rwa [← e]
  | cons t ts ih =>
    intro s s' h e
    rw [Verif.Atomics.run] at e
    cases hst : Verif.Atomics.step f s t with
    | none => simp [hst] at e
    | some s1 => rw [hst, Option.bind_some] at e; exact ih (h.step hst) e

theorem inv_init (f : β → γ → Option β) (c : β) (prog : Nat → List γ) : Inv f c prog (init c prog) :=
  ⟨Sequential.nil, by intro t; simp [init, doneBy, inFlight], by intro t a o n h; simp [init] at h⟩

/-- C28: under every schedule the completed calls form a legal one-at-a-time history that ends
in the cell's content, and each thread's completed calls are a prefix of its program in which
nothing is skipped or repeated. -/
theorem C28_linearizable (f : β → γ → Option β) (c : β) (prog : Nat → List γ) (sched : List Nat)
    (s : St β γ) (h : run f (init c prog) sched = some s) :
    Sequential (effect f) c s.rets s.cell ∧
    ∀ t, doneBy t s.rets ++ inFlight (s.pc t) ++ s.todo t = prog t :=
  ⟨((inv_init f c prog).run h).seq, ((inv_init f c prog).run h).acc⟩

/-- C28: a compare-and-swap fails only if some other call changed the cell since this thread's
load: no thread is delayed unless another one made progress. -/
theorem C28_retry_means_progress (f : β → γ → Option β) (s s' : St β γ) (t : Nat) (a : γ) (old new : β)
    (hp : s.pc t = .cas a old new) (h : step f s t = some s') :
    s'.pc t = .idle ∨ s.cell ≠ old := by
  unfold step at h
  rw [hp] at h
  simp only at h
  split at h
  · simp only [Option.some.injEq] at h; subst h; left; simp [upd]
  · right; assumption

/-! ### What the specific functions leave in the cell -/

/-- Contributions of a history. -/
def args (rets : List (Nat × γ × β)) : List γ := rets.map (·.2.1)

/-- The cell holds a minimum of the initial value and the arguments. -/
def IsMin (c : UInt32) (as : List UInt32) (v : UInt32) : Prop :=
  v ∈ c :: as ∧ ∀ a ∈ c :: as, v ≤ a

/-- The cell holds a maximum of the initial value and the arguments. -/
def IsMax (c : UInt64) (as : List UInt64) (v : UInt64) : Prop :=
  v ∈ c :: as ∧ ∀ a ∈ c :: as, a ≤ v

theorem isMin_snoc {c v a : UInt32} {as : List UInt32} (h : IsMin c as v) :
    IsMin c (as ++ [a]) (effect minU32 v a) := by
  obtain ⟨h1, h2⟩ := h
  unfold effect minU32
  split
  · rename_i hle
    refine ⟨by rw [← List.cons_append]; exact List.mem_append_left _ h1, ?_⟩
    intro b hb
    rw [← List.cons_append] at hb
    rcases List.mem_append.1 hb with hb | hb
    · exact h2 b hb
    · rw [List.mem_singleton.1 hb]; exact hle
  · rename_i hle
    refine ⟨by simp, ?_⟩
    intro b hb
    rw [← List.cons_append] at hb
    simp only [Option.getD_some]
    rcases List.mem_append.1 hb with hb | hb
    · have := h2 b hb
      rw [UInt32.le_iff_toNat_le] at *; omega
    · rw [List.mem_singleton.1 hb]; exact UInt32.le_refl _

theorem isMax_snoc {c v a : UInt64} {as : List UInt64} (h : IsMax c as v) :
    IsMax c (as ++ [a]) (effect maxU64 v a) := by
  obtain ⟨h1, h2⟩ := h
  unfold effect maxU64
  split
  · rename_i hle
    refine ⟨by rw [← List.cons_append]; exact List.mem_append_left _ h1, ?_⟩
    intro b hb
    rw [← List.cons_append] at hb
    rcases List.mem_append.1 hb with hb | hb
    · exact h2 b hb
    · rw [List.mem_singleton.1 hb]; exact hle
  · rename_i hle
    refine ⟨by simp, ?_⟩
    intro b hb
    rw [← List.cons_append] at hb
    simp only [Option.getD_some]
    rcases List.mem_append.1 hb with hb | hb
    · have := h2 b hb
      rw [UInt64.le_iff_toNat_le] at *; omega
    · rw [List.mem_singleton.1 hb]; exact UInt64.le_refl _

/-- Any property kept by one call holds of the content and of every returned value. -/
theorem sequential_fold {apply : β → γ → β} {c : β} {l : List (Nat × γ × β)} {v : β}
    (P : List γ → β → Prop) (h0 : P [] c) (hs : ∀ as v a, P as v → P (as ++ [a]) (apply v a))
    (h : Sequential apply c l v) :
    P (args l) v ∧ ∀ i (hi : i < l.length), P (args (l.take i)) l[i].2.2 := by
  induction h with
  | nil => exact ⟨h0, by simp⟩
  | snoc l t a v hl ih =>
    refine ⟨by simpa [args] using hs _ _ a ih.1, ?_⟩
    intro i hi
    rw [List.length_append, List.length_singleton] at hi
    by_cases he : i < l.length
    · rw [List.getElem_append_left he, List.take_append_of_le_length (by omega)]
      exact ih.2 i he
    · obtain rfl : i = l.length := by omega
      simpa using ih.1

/-- All calls of all threads are done. -/
def Finished (s : St β γ) : Prop := ∀ t, s.pc t = .idle ∧ s.todo t = []

/-- C28 for `AtomicMinUint32`: the cell is the minimum of the initial value and every completed
contribution, and each call returns the minimum over the calls before it. -/
theorem C28_min (c : UInt32) (prog : Nat → List UInt32) (sched : List Nat) (s : St UInt32 UInt32)
    (h : run minU32 (init c prog) sched = some s) :
    IsMin c (args s.rets) s.cell ∧
    ∀ i (hi : i < s.rets.length), IsMin c (args (s.rets.take i)) s.rets[i].2.2 :=
  sequential_fold (IsMin c) ⟨by simp, by intro a ha; simp at ha; subst ha; exact UInt32.le_refl _⟩
    (fun _ _ _ => isMin_snoc) (C28_linearizable _ _ _ _ _ h).1

/-- C28 for `AtomicMaxUint64`. -/
theorem C28_max (c : UInt64) (prog : Nat → List UInt64) (sched : List Nat) (s : St UInt64 UInt64)
    (h : run maxU64 (init c prog) sched = some s) :
    IsMax c (args s.rets) s.cell ∧
    ∀ i (hi : i < s.rets.length), IsMax c (args (s.rets.take i)) s.rets[i].2.2 :=
  sequential_fold (IsMax c) ⟨by simp, by intro a ha; simp at ha; subst ha; exact UInt64.le_refl _⟩
    (fun _ _ _ => isMax_snoc) (C28_linearizable _ _ _ _ _ h).1

/-- C28 for the float additions: whatever float addition is, the cell is the initial value with
every completed contribution added, one after the other, in the order of the returns; each call
returns the sum before it. `bits`/`fromBits` are inverse on results of additions. -/
theorem C28_add {φ : Type} (fromBits : UInt64 → φ) (bits : φ → UInt64) (add : φ → φ → φ)
    (hinv : ∀ x y, fromBits (bits (add x y)) = add x y) (c : UInt64) (prog : Nat → List φ)
    (sched : List Nat) (s : St UInt64 φ)
    (h : run (addF fromBits bits add) (init c prog) sched = some s) :
    fromBits s.cell = (args s.rets).foldl add (fromBits c) ∧
    ∀ i (hi : i < s.rets.length),
      fromBits s.rets[i].2.2 = (args (s.rets.take i)).foldl add (fromBits c) :=
  sequential_fold (fun as v => fromBits v = as.foldl add (fromBits c)) rfl
    (by intro as v a hv; simp [effect, addF, hinv, hv]) (C28_linearizable _ _ _ _ _ h).1

/-- C28 for `AtomicMinFloat64`, for any total preorder `ge` on the floats involved (no NaN):
the cell stands for a value that is below or equal to every contribution, and is one of them. -/
theorem C28_minFloat {φ : Type} (fromBits : UInt64 → φ) (bits : φ → UInt64) (ge : φ → φ → Bool)
    (hinv : ∀ x, fromBits (bits x) = x) (hrefl : ∀ x, ge x x = true)
    (htr : ∀ x y z, ge x y = true → ge y z = true → ge x z = true)
    (htot : ∀ x y, ge x y = true ∨ ge y x = true)
    (c : UInt64) (prog : Nat → List φ) (sched : List Nat) (s : St UInt64 φ)
    (h : run (minF fromBits bits ge) (init c prog) sched = some s) :
    (fromBits s.cell ∈ fromBits c :: args s.rets ∧
      ∀ a ∈ fromBits c :: args s.rets, ge a (fromBits s.cell) = true) ∧
    ∀ i (hi : i < s.rets.length), ∀ a ∈ fromBits c :: args (s.rets.take i),
      ge a (fromBits s.rets[i].2.2) = true := by
  have key := sequential_fold (fun as (v : UInt64) => fromBits v ∈ fromBits c :: as ∧
      ∀ a ∈ fromBits c :: as, ge a (fromBits v) = true)
    ⟨by simp, by intro a ha; simp at ha; subst ha; exact hrefl _⟩ ?_ (C28_linearizable _ _ _ _ _ h).1
  · exact ⟨key.1, fun i hi => (key.2 i hi).2⟩
  · intro as v a hv
    unfold effect minF
    split
    · rename_i hge
      refine ⟨by rw [← List.cons_append]; exact List.mem_append_left _ hv.1, ?_⟩
      intro b hb
      rw [← List.cons_append] at hb
      rcases List.mem_append.1 hb with hb | hb
      · exact hv.2 b hb
      · rw [List.mem_singleton.1 hb]; exact hge
    · rename_i hge
      simp only [Option.getD_some, hinv]
      refine ⟨by simp, ?_⟩
      intro b hb
      rw [← List.cons_append] at hb
      rcases List.mem_append.1 hb with hb | hb
      · exact htr _ _ _ (hv.2 b hb) ((htot _ _).resolve_left hge)
      · rw [List.mem_singleton.1 hb]; exact hrefl _

/-- C28 for `AtomicSwapFloat64`: each swapped-in value is returned by the next swap; nothing is
lost or handed out twice. -/
theorem C28_swap (c : UInt64) (prog : Nat → List UInt64) (sched : List Nat) (s : St UInt64 UInt64)
    (h : run swapF (init c prog) sched = some s) :
    s.rets.map (·.2.2) ++ [s.cell] = c :: args s.rets := by
  have key : ∀ (l : List (Nat × UInt64 × UInt64)) (v : UInt64), Sequential (effect swapF) c l v →
      l.map (·.2.2) ++ [v] = c :: args l := by
    intro l v hs
    induction hs with
    | nil => rfl
    | snoc l t a v hl ih =>
      rw [List.map_append, args, List.map_append, ← List.cons_append]
      rw [args] at ih
      rw [← ih]
      simp [effect, swapF]
  exact key _ _ (C28_linearizable _ _ _ _ _ h).1

/-- C28: with all threads finished, the history contains each thread's program entirely. -/
theorem C28_finished (f : β → γ → Option β) (c : β) (prog : Nat → List γ) (sched : List Nat)
    (s : St β γ) (h : run f (init c prog) sched = some s) (hfin : Finished s) (t : Nat) :
    doneBy t s.rets = prog t := by
  have := (C28_linearizable f c prog sched s h).2 t
  rw [(hfin t).1, (hfin t).2] at this
  simpa [inFlight] using this

/-- Three threads, one of which loads a stale value and has to retry. -/
example : (run minU32 (init 9 (fun t => if t = 0 then [5] else if t = 1 then [3] else if t = 2 then [7] else []))
    [0, 0, 1, 1, 1, 0, 0, 2, 2]).map (fun s => (s.cell, s.rets)) =
    some (3, [(1, 3, 9), (0, 5, 3), (2, 7, 3)]) := by decide +kernel

end Verif.Props.Atomics
