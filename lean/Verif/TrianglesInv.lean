import Verif.Triangles
import Mathlib.Algebra.BigOperators.Group.Finset.Basic
import Mathlib.Algebra.Order.BigOperators.Group.Finset
import Mathlib.Tactic.Abel

/-!
# Invariants of triangle counting
-/

namespace Verif.Triangles

open Finset (sum_congr)
open scoped BigOperators

/-! ## What the stream determines -/

/-- Position of an event among those with destination `d`. -/
def posAt (c : Cfg) (d m : Nat) : Nat := ((List.range m).filter fun i => decide (dst c i = d)).length
def posOf (c : Cfg) (i : Nat) : Nat := posAt c (dst c i) i

/-- The first event from one vertex to another one. -/
def First (c : Cfg) (i : Nat) : Prop := src c i ≠ dst c i ∧ ∀ j, j < i → src c j = src c i → dst c j ≠ dst c i

instance (c : Cfg) (i : Nat) : Decidable (First c i) := by unfold First; infer_instance

def rawOf (c : Cfg) (i : Nat) : Nat := if First c i then (if i % 2 = 0 then dst c i ||| FLAG else dst c i) else EMPTY
def stat (c : Cfg) (i : Nat) : OutEdge := ⟨dst c i, rawOf c i, posOf c i⟩

theorem posAt_succ (c : Cfg) (d m : Nat) : posAt c d (m + 1) = posAt c d m + if dst c m = d then 1 else 0 := by
  simp only [posAt, List.range_succ, List.filter_append, List.length_append, List.filter_cons, List.filter_nil]
  by_cases h : dst c m = d <;> simp [h]

theorem posAt_mono (c : Cfg) (d : Nat) {a b : Nat} (h : a ≤ b) : posAt c d a ≤ posAt c d b := by
  induction b with
  | zero => have : a = 0 := by omega
            subst this; exact Nat.le_refl _
  | succ b ih =>
    rcases Nat.lt_or_ge b a with h1 | h1
    · have : a = b + 1 := by omega
      subst this; exact Nat.le_refl _
    · rw [posAt_succ]; exact Nat.le_trans (ih h1) (by omega)

theorem posAt_lt (c : Cfg) {d a b : Nat} (hd : dst c a = d) (h : a < b) : posAt c d a < posAt c d b := by
  have h1 := posAt_mono c d (show a + 1 ≤ b from h)
  rw [posAt_succ, if_pos hd] at h1
  omega

theorem posAt_skip (c : Cfg) (d : Nat) {a b : Nat} (h : a ≤ b) (hn : ∀ j < b, a ≤ j → dst c j ≠ d) : posAt c d b = posAt c d a := by
  induction b with
  | zero => have : a = 0 := by omega
            subst this; rfl
  | succ b ih =>
    rcases Nat.lt_or_ge b a with h1 | h1
    · have : a = b + 1 := by omega
      subst this; rfl
    · rw [posAt_succ, ih h1 (fun j hj => hn j (by omega)), if_neg (hn b (by omega) h1)]; rfl

theorem posOf_lt_iff (c : Cfg) {i m : Nat} : posOf c i < posAt c (dst c i) m ↔ i < m := by
  constructor
  · intro h
    by_contra hn
    have := posAt_mono c (dst c i) (show m ≤ i by omega)
    simp only [posOf] at h
    omega
  · exact posAt_lt c rfl

theorem batch_split (c : Cfg) (v : Nat) {a m : Nat} (h : a ≤ m) : batch c v 0 m = batch c v 0 a ++ batch c v a m := by
  induction m with
  | zero => have : a = 0 := by omega
            subst this; rfl
  | succ m ih =>
    rcases Nat.lt_or_ge m a with h1 | h1
    · have : a = m + 1 := by omega
      subst this
      have : batch c v (m + 1) (m + 1) = [] := by
        simp only [batch, List.filter_eq_nil_iff, List.mem_range]
        intro i hi; simp; omega
      rw [this, List.append_nil]
    · have := ih h1
      simp only [batch, List.range_succ, List.filter_append] at this ⊢
      rw [this, List.append_assoc]
      simp [List.filter_cons, h1]

theorem mem_batch {c : Cfg} {v a m i : Nat} : i ∈ batch c v a m ↔ i < m ∧ a ≤ i ∧ src c i = v := by
  simp [batch]

/-! ## Structure -/

structure Shape (c : Cfg) (s : St) : Prop where
  pos : ∀ d, s.inPos d = posAt c d (s.inCur d)
  map : ∀ d x q, s.map d x = some q ↔ ∃ i < s.inCur d, src c i = x ∧ dst c i = d ∧ First c i ∧ posOf c i = q
  tab : ∀ i e, s.tab i = some e → i < s.inCur (dst c i) ∧ e = stat c i
  out : ∀ v, s.out v = (batch c v 0 (s.outCur v)).map (stat c)
  seen : ∀ i, i < s.outCur (src c i) → i < s.inCur (dst c i)
  cur : ∀ v, s.outCur v ≤ count c

theorem shape_start (c : Cfg) : Shape c start := by
  constructor <;> simp [start, posAt, batch]

theorem filterMap_tab {c : Cfg} {s : St} (h : Shape c s) (b : List Nat) (hb : ∀ i ∈ b, (s.tab i).isSome) : b.filterMap s.tab = b.map (stat c) := by
  induction b with
  | nil => rfl
  | cons i b ih =>
    obtain ⟨e, he⟩ := Option.isSome_iff_exists.1 (hb i (by simp))
    have := (h.tab i e he).2
    rw [List.filterMap_cons_some he, List.map_cons, this, ih fun j hj => hb j (by simp [hj])]

theorem not_first_of_map {c : Cfg} {s : St} (h : Shape c s) {i : Nat} (hi : s.inCur (dst c i) ≤ i) (hn : ∀ j < i, s.inCur (dst c i) ≤ j → dst c j ≠ dst c i)
    (hne : dst c i ≠ src c i) : s.map (dst c i) (src c i) = none ↔ First c i := by
  constructor
  · intro hm
    refine ⟨Ne.symm hne, fun j hj hs hd => ?_⟩
    have hlt : j < s.inCur (dst c i) := by
      by_contra hc
      exact hn j hj (by omega) hd
    -- the first such event
    have hex : ∃ k, k < s.inCur (dst c i) ∧ src c k = src c i ∧ dst c k = dst c i := ⟨j, hlt, hs, hd⟩
    obtain ⟨k, ⟨h1, h2, h3⟩, hmin⟩ : ∃ k, (k < s.inCur (dst c i) ∧ src c k = src c i ∧ dst c k = dst c i) ∧
        ∀ k' < k, ¬ (k' < s.inCur (dst c i) ∧ src c k' = src c i ∧ dst c k' = dst c i) := by
      classical
      exact ⟨Nat.find hex, Nat.find_spec hex, fun k' hk => Nat.find_min hex hk⟩
    have hf : First c k := by
      refine ⟨by rw [h2, h3]; exact Ne.symm hne, fun k' hk' hs' hd' => hmin k' hk' ⟨by omega, hs'.trans h2, hd'.trans h3⟩⟩
    have := (h.map (dst c i) (src c i) (posOf c k)).2 ⟨k, h1, h2, h3, hf, rfl⟩
    rw [hm] at this; cases this
  · intro hf
    cases hm : s.map (dst c i) (src c i) with
    | none => rfl
    | some q =>
      obtain ⟨j, h1, h2, h3, _, _⟩ := (h.map _ _ _).1 hm
      exact absurd h3 (hf.2 j (by omega) h2)

theorem shape_step {c : Cfg} {s s' : St} {x : Act} (h : Shape c s) (hs : step c s x = some s') : Shape c s' := by
  cases x with
  | obs t d i =>
    simp only [step] at hs
    split at hs
    · rename_i hg
      obtain ⟨hfree, h1, h2, h3, h4⟩ := hg
      subst h3
      simp only [Option.some.injEq] at hs
      have hpos : s.inPos (dst c i) = posOf c i := by
        rw [h.pos]; exact (posAt_skip c _ h1 h4).symm
      have hmap : ∀ x q, (onIn (s.map (dst c i)) i (src c i) (dst c i) (s.inPos (dst c i))).1 x = some q ↔
          ∃ j < i + 1, src c j = x ∧ dst c j = dst c i ∧ First c j ∧ posOf c j = q := by
        intro x q
        have hold : s.map (dst c i) x = some q ↔ ∃ j < i, src c j = x ∧ dst c j = dst c i ∧ First c j ∧ posOf c j = q := by
          rw [h.map]
          constructor
          · rintro ⟨j, a1, a2⟩; exact ⟨j, by omega, a2⟩
          · rintro ⟨j, a1, a2⟩
            refine ⟨j, ?_, a2⟩
            by_contra hc
            exact h4 j a1 (by omega) a2.2.1
        have hsplit : (∃ j < i + 1, src c j = x ∧ dst c j = dst c i ∧ First c j ∧ posOf c j = q) ↔
            (s.map (dst c i) x = some q ∨ (src c i = x ∧ First c i ∧ posOf c i = q)) := by
          rw [hold]
          constructor
          · rintro ⟨j, a1, a2⟩
            rcases Nat.lt_or_ge j i with hj | hj
            · exact .inl ⟨j, hj, a2⟩
            · have : j = i := by omega
              subst this
              exact .inr ⟨a2.1, a2.2.2⟩
          · rintro (⟨j, a1, a2⟩ | a2)
            · exact ⟨j, by omega, a2⟩
            · exact ⟨i, by omega, a2.1, rfl, a2.2⟩
        rw [hsplit]
        simp only [onIn]
        split
        · rename_i he
          have : ¬ First c i := fun hf => hf.1 he.symm
          simp [this]
        · rename_i hne
          have hf := not_first_of_map h h1 h4 hne
          split
          · rename_i hm
            have hfi := hf.1 hm
            by_cases hx : x = src c i
            · subst hx; simp [hm, hfi, hpos]
            · simp [upd, hx, Ne.symm hx]
          · rename_i hm
            have hfi : ¬ First c i := fun hfi => hm (hf.2 hfi)
            simp [hfi]
      have hraw : (onIn (s.map (dst c i)) i (src c i) (dst c i) (s.inPos (dst c i))).2 = rawOf c i := by
        simp only [onIn, rawOf]
        split
        · rename_i he
          rw [if_neg (fun hf : First c i => hf.1 he.symm)]
        · rename_i hne
          have hf := not_first_of_map h h1 h4 hne
          split
          · rename_i hm; rw [if_pos (hf.1 hm)]
          · rename_i hm; rw [if_neg (fun hfi => hm (hf.2 hfi))]
      subst hs
      refine ⟨fun d => ?_, fun d x q => ?_, fun j e he => ?_, h.out, fun j hj => ?_, h.cur⟩
      · by_cases hd : d = dst c i
        · subst hd
          simp only [upd_same, hpos, posAt_succ, if_true, posOf]
        · simp only [upd_ne _ _ hd]; exact h.pos d
      · by_cases hd : d = dst c i
        · subst hd
          simp only [upd_same]; exact hmap x q
        · simp only [upd_ne _ _ hd]; exact h.map d x q
      · by_cases hj : j = i
        · subst hj
          simp only [upd_same, Option.some.injEq] at he ⊢
          refine ⟨by omega, ?_⟩
          rw [← he, hraw, hpos]; rfl
        · simp only [upd_ne _ _ hj] at he
          have := h.tab j e he
          refine ⟨?_, this.2⟩
          show j < upd s.inCur (dst c i) (i + 1) (dst c j)
          by_cases hd : dst c j = dst c i
          · rw [hd, upd_same]; rw [hd] at this; omega
          · simp only [upd_ne _ _ hd]; exact this.1
      · have := h.seen j hj
        show j < upd s.inCur (dst c i) (i + 1) (dst c j)
        by_cases hd : dst c j = dst c i
        · rw [hd, upd_same]; rw [hd] at this; omega
        · simp only [upd_ne _ _ hd]; exact this
    · cases hs
  | add t v m =>
    simp only [step] at hs
    split at hs
    · rename_i hg
      obtain ⟨hfree, h1, h2, h3⟩ := hg
      have hle : s.outCur v ≤ m := by
        obtain ⟨i, hi⟩ := List.exists_mem_of_ne_nil _ h2
        have := mem_batch.1 hi
        omega
      have hout : s.out v ++ (batch c v (s.outCur v) m).filterMap s.tab = (batch c v 0 m).map (stat c) := by
        rw [filterMap_tab h _ h3, batch_split c v hle, List.map_append, h.out]
      have key : Shape c { s with outCur := upd s.outCur v m, out := upd s.out v (s.out v ++ (batch c v (s.outCur v) m).filterMap s.tab) } := by
        refine ⟨h.pos, h.map, h.tab, fun w => ?_, fun i hi => ?_, fun w => ?_⟩
        · by_cases hw : w = v
          · subst hw; simp only [upd_same]; exact hout
          · simp only [upd_ne _ _ hw]; exact h.out w
        · by_cases hw : src c i = v
          · simp only [hw, upd_same] at hi
            rcases Nat.lt_or_ge i (s.outCur v) with hlt | hge
            · exact h.seen i (by rw [hw]; exact hlt)
            · obtain ⟨e, he⟩ := Option.isSome_iff_exists.1 (h3 i (mem_batch.2 ⟨hi, hge, hw⟩))
              exact (h.tab i e he).1
          · simp only [upd_ne _ _ hw] at hi; exact h.seen i hi
        · by_cases hw : w = v
          · subst hw; simp only [upd_same]; exact h1
          · simp only [upd_ne _ _ hw]; exact h.cur w
      split at hs
      all_goals simp only [Option.some.injEq] at hs; subst hs; exact ⟨key.pos, key.map, key.tab, key.out, key.seen, key.cur⟩
    · cases hs
  | init t v =>
    simp only [step] at hs
    split at hs
    · simp only [Option.some.injEq] at hs; subst hs; exact ⟨h.pos, h.map, h.tab, h.out, h.seen, h.cur⟩
    · cases hs
  | recv t v i =>
    simp only [step] at hs
    repeat' split at hs
    all_goals try (cases hs; done)
    all_goals (simp only [Option.some.injEq] at hs; subst hs; exact ⟨h.pos, h.map, h.tab, h.out, h.seen, h.cur⟩)
  | go t =>
    simp only [step] at hs
    repeat' split at hs
    all_goals try (cases hs; done)
    all_goals (simp only [Option.some.injEq] at hs; subst hs; exact ⟨h.pos, h.map, h.tab, h.out, h.seen, h.cur⟩)

/-! ## Activity -/

theorem sum_change {N v : Nat} (hv : v < N) {M : Type} [AddCommMonoid M] (F F' : Nat → M) (h : ∀ n, n ≠ v → F' n = F n) :
    ∑ n ∈ Finset.range N, F' n + F v = ∑ n ∈ Finset.range N, F n + F' v := by
  have hm : v ∈ Finset.range N := Finset.mem_range.2 hv
  rw [← Finset.add_sum_erase _ _ hm, ← Finset.add_sum_erase _ F hm]
  rw [Finset.sum_congr rfl fun n hn => h n (Finset.ne_of_mem_erase hn)]
  abel

theorem sum_same {N v : Nat} {M : Type} [AddCommMonoid M] (F F' : Nat → M) (h : ∀ n, n ≠ v → F' n = F n) (hv : F' v = F v) :
    ∑ n ∈ Finset.range N, F' n = ∑ n ∈ Finset.range N, F n := by
  refine Finset.sum_congr rfl fun n _ => ?_
  by_cases hn : n = v
  · subst hn; exact hv
  · exact h n hn

/-- A notification of `v` that is counted and not yet in the queue. -/
def puts (v : Nat) : Task → Nat
  | .put w _ _ => if w = v then 1 else 0
  | _ => 0

theorem puts_idle (v : Nat) : puts v .idle = 0 := rfl
theorem puts_run (v : Nat) (q : List (Nat × Note)) : puts v (.run q) = 0 := rfl
theorem puts_put (v w : Nat) (n : Note) (q : List (Nat × Note)) : puts v (.put w n q) = if w = v then 1 else 0 := rfl

structure Live (c : Cfg) (s : St) : Prop where
  act : ∀ v, s.act v = ((s.pend v).length + ∑ t ∈ Finset.range c.T, puts v (s.task t) : Nat)
  upd : ∀ v, s.updAt v = (s.out v).length ∨ 0 < s.act v ∨ (c.dynamic = false ∧ s.inited v = false)
  le : ∀ v, s.updAt v ≤ (s.out v).length
  static : c.dynamic = false → loaded c s = true ∨
    ((∀ v, s.inited v = false ∧ s.updAt v = 0 ∧ s.pend v = []) ∧ ∀ t, s.task t = .idle)

theorem live_start (c : Cfg) : Live c start := by
  constructor <;> simp [start, puts]

theorem free_iff {c : Cfg} {s : St} {t v : Nat} : free c s t v = true ↔ t < c.T ∧ c.own v = t ∧ s.task t = .idle := by
  simp [free, and_assoc]

theorem act_task {c : Cfg} {s : St} (h : Live c s) {t : Nat} (ht : t < c.T) (k : Task) (v : Nat) :
    ∑ u ∈ Finset.range c.T, puts v (upd s.task t k u) + puts v (s.task t) = ∑ u ∈ Finset.range c.T, puts v (s.task u) + puts v k := by
  have := sum_change ht (fun u => puts v (s.task u)) (fun u => puts v (upd s.task t k u)) (fun n hn => by simp [upd, hn])
  simpa using this

theorem not_loaded {c : Cfg} {s : St} {v m : Nat} (hm : m ≤ count c) (hb : batch c v (s.outCur v) m ≠ []) : loaded c s = false := by
  obtain ⟨i, hi⟩ := List.exists_mem_of_ne_nil _ hb
  obtain ⟨h1, h2, h3⟩ := mem_batch.1 hi
  simp only [loaded, List.all_eq_false, List.mem_range]
  exact ⟨i, by omega, by rw [h3]; simpa using h2⟩

theorem live_step {c : Cfg} {s s' : St} {x : Act} (h : Live c s) (hs : step c s x = some s') : Live c s' := by
  cases x with
  | obs t d i =>
    simp only [step] at hs
    split at hs
    · simp only [Option.some.injEq] at hs; subst hs; exact ⟨h.act, h.upd, h.le, h.static⟩
    · cases hs
  | add t v m =>
    simp only [step] at hs
    split at hs
    · rename_i hg
      obtain ⟨hfree, h1, h2, h3⟩ := hg
      obtain ⟨f1, f2, f3⟩ := free_iff.1 hfree
      have hnl := not_loaded h1 h2
      split at hs
      · rename_i hd
        simp only [Option.some.injEq] at hs
        subst hs
        refine ⟨fun w => ?_, fun w => ?_, fun w => ?_, fun hf => by rw [hd] at hf; cases hf⟩
        · have := act_task h f1 (.run (onAdd (s.out v ++ (batch c v (s.outCur v) m).filterMap s.tab) (s.updAt v) (s.out v).length (s.act v)).2) w
          simp only [f3, puts_idle, puts_run, puts_put, Nat.add_zero] at this
          have h0 := h.act w
          simp only
          rw [this]; exact h0
        · have ha := h.act v
          have hu := h.upd w
          by_cases hw : w = v
          · subst hw
            simp only [upd_same, onAdd]
            by_cases h0 : s.act w = 0
            · left; rw [if_pos h0]
            · right; left; omega
          · simp only [upd_ne _ _ hw]; exact hu
        · have hu := h.le w
          by_cases hw : w = v
          · subst hw
            simp only [upd_same, onAdd]
            split
            · exact Nat.le_refl _
            · simp only [List.length_append]; omega
          · simp only [upd_ne _ _ hw]; exact hu
      · rename_i hd
        have hdf : c.dynamic = false := by simpa using hd
        simp only [Option.some.injEq] at hs
        subst hs
        rcases h.static hdf with hl | hl
        · rw [hnl] at hl; cases hl
        · refine ⟨h.act, fun w => .inr (.inr ⟨hdf, (hl.1 w).1⟩), fun w => ?_, fun _ => .inr hl⟩
          have := (hl.1 w).2.1
          simp only
          omega
    · cases hs
  | init t v =>
    simp only [step] at hs
    split at hs
    · rename_i hg
      obtain ⟨hfree, h1, h2⟩ := hg
      obtain ⟨f1, f2, f3⟩ := free_iff.1 hfree
      simp only [Option.some.injEq] at hs
      subst hs
      refine ⟨fun w => ?_, fun w => ?_, h.le, fun hd => .inl ?_⟩
      · have := act_task h f1 (.put v ⟨[], 0⟩ []) w
        simp only [f3, puts_idle, puts_run, puts_put, Nat.add_zero] at this
        have h0 := h.act w
        simp only
        rw [this]
        by_cases hw : w = v
        · subst hw; simp only [upd_same, if_true]; omega
        · simp only [upd_ne _ _ hw, if_neg (Ne.symm hw)]; omega
      · have h0 := h.act w
        have hu := h.upd w
        by_cases hw : w = v
        · subst hw; right; left; simp only [upd_same]; omega
        · simp only [upd_ne _ _ hw]; exact hu
      · rcases h2 with h2 | h2
        · rw [h2] at hd; cases hd
        · exact h2
    · cases hs
  | recv t v i =>
    simp only [step] at hs
    split at hs
    · rename_i hfree
      obtain ⟨f1, f2, f3⟩ := free_iff.1 hfree
      split at hs
      · cases hs
      · rename_i n hn
        simp only [Option.some.injEq] at hs
        obtain ⟨hi, _⟩ := List.getElem?_eq_some_iff.1 hn
        have hlen : ((s.pend v).eraseIdx i).length + 1 = (s.pend v).length := by
          rw [List.length_eraseIdx_of_lt hi]; omega
        subst hs
        refine ⟨fun w => ?_, fun w => ?_, fun w => ?_, fun hd => ?_⟩
        · have := act_task h f1 (.run (onUpdate (s.out v) (s.updAt v) (s.act v - 1)).2) w
          simp only [f3, puts_idle, puts_run, puts_put, Nat.add_zero] at this
          have h0 := h.act w
          simp only
          rw [this]
          by_cases hw : w = v
          · subst hw; simp only [upd_same]; omega
          · simp only [upd_ne _ _ hw]; exact h0
        · have h0 := h.act v
          have hu := h.upd w
          have hle := h.le v
          by_cases hw : w = v
          · subst hw
            simp only [upd_same, onUpdate]
            by_cases ha : s.act w - 1 = 0
            · left
              split
              · rfl
              · rename_i hc
                simp only [ha, true_and] at hc
                simp only; omega
            · right; left; omega
          · simp only [upd_ne _ _ hw]; exact hu
        · have hle := h.le w
          by_cases hw : w = v
          · subst hw
            simp only [upd_same, onUpdate]
            split
            · exact Nat.le_refl _
            · exact hle
          · simp only [upd_ne _ _ hw]; exact hle
        · rcases h.static hd with hl | hl
          · exact .inl hl
          · have := (hl.1 v).2.2
            rw [this] at hn
            simp at hn
    · cases hs
  | go t =>
    simp only [step] at hs
    split at hs
    · rename_i ht
      have hidle : s.task t ≠ .idle → c.dynamic = false → loaded c s = true := by
        intro hne hd
        rcases h.static hd with hl | hl
        · exact hl
        · exact absurd (hl.2 t) hne
      split at hs
      · cases hs
      · rename_i hk
        simp only [Option.some.injEq] at hs
        subst hs
        refine ⟨fun w => ?_, h.upd, h.le, fun hd => .inl (hidle (by rw [hk]; simp) hd)⟩
        have := act_task h ht .idle w
        simp only [hk, puts_idle, puts_run, puts_put, Nat.add_zero] at this
        have h0 := h.act w
        simp only
        rw [this]; exact h0
      · rename_i w n q hk
        simp only [Option.some.injEq] at hs
        subst hs
        refine ⟨fun v => ?_, fun v => ?_, h.le, fun hd => .inl (hidle (by rw [hk]; simp) hd)⟩
        · have := act_task h ht (.put w n q) v
          simp only [hk, puts_idle, puts_run, puts_put, Nat.add_zero] at this
          have h0 := h.act v
          simp only
          rw [this]
          by_cases hw : v = w
          · subst hw; simp only [upd_same, if_true]; omega
          · simp only [upd_ne _ _ hw, if_neg (Ne.symm hw)]; omega
        · have h0 := h.act v
          have hu := h.upd v
          by_cases hw : v = w
          · subst hw; right; left; simp only [upd_same]; omega
          · simp only [upd_ne _ _ hw]; exact hu
      · rename_i w n q hk
        simp only [Option.some.injEq] at hs
        subst hs
        refine ⟨fun v => ?_, h.upd, h.le, fun hd => .inl (hidle (by rw [hk]; simp) hd)⟩
        have := act_task h ht (.run q) v
        simp only [hk, puts_idle, puts_run, puts_put, Nat.add_zero] at this
        have h0 := h.act v
        simp only
        by_cases hw : v = w
        · subst hw; simp only [upd_same, if_true, List.length_append, List.length_singleton] at this ⊢; omega
        · simp only [upd_ne _ _ hw, if_neg (Ne.symm hw)] at this ⊢; omega
    · cases hs

end Verif.Triangles
