import Mathlib.Algebra.BigOperators.Group.Finset.Piecewise
import Verif.Props.EngineLive

/-!
# Concrete executions of the engine

To check that the hypotheses of the theorems about whole runs (`Verif/Props/EngineLive.lean` and later) can be met:
from what can be computed about finitely many steps to an infinite, fair execution.
-/

namespace Verif.Props.Engine

open Verif Verif.Engine
open Verif.Async (Alg Edge Prog Task Quiet)

variable {P M N E : Type} [DecidableEq N]

/-- A phase that starts with the given notifications in the queues, all sent by thread 0; the streams are closed. -/
def begin0 (c : Async.Cfg M N) (alg : Async.St P M N E) (notes : List (Nat × N)) : St P M N E where
  term := { Term.ex0 with
    queue := fun t => (notes.filter fun x => decide (c.own x.1 = t)).map fun _ => ⟨0, 0, true⟩
    msgSend := fun t => if t = 0 then notes.length else 0 }
  alg := alg
  queue := fun t => (notes.filter fun x => decide (c.own x.1 = t)).map fun x => (⟨0, 0, true⟩, x.1, x.2)
  buff := fun _ => []
  hand := fun _ => []

omit [DecidableEq N] in
theorem sum_parts {c : Async.Cfg M N} : ∀ notes : List (Nat × N), (∀ x ∈ notes, c.own x.1 < c.T) → (Finset.range c.T).sum (fun t => (notes.filter fun x => decide (c.own x.1 = t)).length) = notes.length
  | [], _ => by simp
  | x :: l, h => by
    have ih := sum_parts l fun y hy => h y (List.mem_cons_of_mem _ hy)
    have : ∀ t, ((x :: l).filter fun x => decide (c.own x.1 = t)).length = (l.filter fun x => decide (c.own x.1 = t)).length + if c.own x.1 = t then 1 else 0 := by
      intro t
      rw [List.filter_cons]
      by_cases e : c.own x.1 = t
      · rw [if_pos (decide_eq_true e), if_pos e]; rfl
      · rw [if_neg (by simpa using e), if_neg e]; rfl
    rw [Finset.sum_congr rfl fun t _ => this t, Finset.sum_add_distrib, ih, Finset.sum_ite_eq, if_pos (Finset.mem_range.2 (h x List.mem_cons_self)), List.length_cons]

omit [DecidableEq N] in
theorem begin_start (c : Async.Cfg M N) (max : Nat) (hown : ∀ v, c.own v < c.T) (hT : 0 < c.T) (alg : Async.St P M N E) (notes : List (Nat × N)) (ht : ∀ t, alg.task t = .idle)
    (hp : ∀ v, (alg.pend v).Perm (notes.filterMap fun x => if x.1 = v then some x.2 else none)) : Start c max (begin0 c alg notes) := by
  refine ⟨⟨fun _ => rfl, fun _ => rfl, fun t sl h => ?_, fun _ => rfl, fun _ => rfl, fun _ => rfl, fun _ _ => rfl, fun _ _ => rfl, fun _ _ => rfl, fun _ => rfl, fun _ => rfl, ?_⟩,
    ht, fun _ => rfl, fun _ => rfl, fun t => ?_, fun t x hx => ?_, fun v => ?_⟩
  · obtain ⟨x, hx, rfl⟩ := List.mem_map.1 h
    refine ⟨rfl, hT, ?_⟩
    have := List.length_pos_of_mem (List.mem_filter.1 hx).1
    simpa [Term.St.acts, begin0, Term.ex0] using this
  · have h1 : (Finset.range c.T).sum (fun t => if t = 0 then notes.length else 0) = notes.length := by
      rw [Finset.sum_ite_eq', if_pos (Finset.mem_range.2 hT)]
    have h2 := sum_parts (c := c) notes fun x _ => hown x.1
    simp only [begin0, Term.ex0, List.length_map, Nat.zero_add]
    rw [h1, h2]
  · simp only [begin0, List.map_map]; rfl
  · obtain ⟨y, hy, rfl⟩ := List.mem_map.1 hx
    exact of_decide_eq_true (List.mem_filter.1 hy).2
  · refine (hp v).trans (List.Perm.of_eq ?_)
    simp only [begin0]
    rw [List.filterMap_map]
    clear hp ht
    induction notes with
    | nil => rfl
    | cons x l ih =>
      rw [List.filter_cons]
      by_cases e : x.1 = v
      · rw [if_pos (decide_eq_true (by rw [e])), List.filterMap_cons_some (b := x.2) (by rw [if_pos e]), List.filterMap_cons_some (b := x.2) (by simp only [Function.comp_def]; rw [if_pos e]), ih]
      · rw [List.filterMap_cons_none (by rw [if_neg e])]
        split
        · rw [List.filterMap_cons_none (by simp only [Function.comp_def]; rw [if_neg e])]
          exact ih
        · exact ih

/-- All threads leave their loops on this schedule, and no vote is read between the two stores. -/
def smooth (a : Alg P M N E) (c : Async.Cfg M N) (max : Nat) : St P M N E → List Nat → Bool
  | s, [] => (List.range c.T).all fun t => decide (s.term.pc t = .done)
  | s, t :: ts =>
    match turn a c max s t with
    | .loop x => Term.fresh s.term x && match step a c max s (.loop x) with
      | some s' => smooth a c max s' ts
      | none => false
    | x => match step a c max s x with
      | some s' => smooth a c max s' ts
      | none => false

theorem smooth_cons {a : Alg P M N E} {c : Async.Cfg M N} {max : Nat} {s : St P M N E} {t : Nat} {ts : List Nat} (h : smooth a c max s (t :: ts) = true) :
    (∀ x, turn a c max s t = .loop x → Term.fresh s.term x = true) ∧ ∃ s', step a c max s (turn a c max s t) = some s' ∧ smooth a c max s' ts = true := by
  rw [smooth] at h
  split at h
  · next x hx =>
    rw [Bool.and_eq_true] at h
    refine ⟨fun y hy => ?_, ?_⟩
    · rw [hx] at hy; cases hy; exact h.1
    · rw [hx]
      cases hs : step a c max s (.loop x) with
      | none => rw [hs] at h; cases h.2
      | some s' => rw [hs] at h; exact ⟨s', rfl, h.2⟩
  · next hx =>
    refine ⟨fun y hy => absurd hy (hx y), ?_⟩
    cases hs : step a c max s (turn a c max s t) with
    | none => rw [hs] at h; cases h
    | some s' => rw [hs] at h; exact ⟨s', rfl, h⟩

theorem smooth_seq {a : Alg P M N E} {c : Async.Cfg M N} {max : Nat} {s0 : St P M N E} {f : Nat → Nat} : ∀ (k i : Nat), smooth a c max (seq a c max s0 f i) ((List.range k).map fun j => f (i + j)) = true →
    (∀ j, j < k → ∀ x, turn a c max (seq a c max s0 f (i + j)) (f (i + j)) = .loop x → Term.fresh (seq a c max s0 f (i + j)).term x = true) ∧
      ∀ t, t < c.T → (seq a c max s0 f (i + k)).term.pc t = .done
  | 0, i, h => by
    refine ⟨fun j hj => absurd hj (Nat.not_lt_zero j), fun t ht => ?_⟩
    exact of_decide_eq_true (List.all_eq_true.1 h t (List.mem_range.2 ht))
  | k + 1, i, h => by
    rw [List.range_succ_eq_map, List.map_cons, List.map_map] at h
    obtain ⟨h1, s', h2, h3⟩ := smooth_cons h
    rw [Nat.add_zero] at h1 h2
    have hs' : seq a c max s0 f (i + 1) = s' := by rw [seq, h2]; rfl
    have hl : ((fun j => f (i + j)) ∘ Nat.succ) = fun j => f (i + 1 + j) := funext fun j => congrArg f (by simp only [Nat.succ_eq_add_one]; omega)
    rw [hl, ← hs'] at h3
    obtain ⟨ih1, ih2⟩ := smooth_seq k (i + 1) h3
    refine ⟨fun j hj => ?_, fun t ht => ?_⟩
    · cases j with
      | zero => exact h1
      | succ j =>
        have := ih1 j (by omega)
        rw [show i + 1 + j = i + (j + 1) by omega] at this
        exact this
    · rw [show i + (k + 1) = i + 1 + k by omega]; exact ih2 t ht

theorem exec_fresh (a : Alg P M N E) (c : Async.Cfg M N) (max : Nat) (hT : 0 < c.T) (s0 : St P M N E) (f : Nat → Nat) (K : Nat) (h : smooth a c max s0 ((List.range K).map f) = true) :
    Fresh (exec a c max hT s0 f) := by
  have h' : smooth a c max (seq a c max s0 f 0) ((List.range K).map fun j => f (0 + j)) = true := by
    simp only [Nat.zero_add]
    exact h
  obtain ⟨h1, h2⟩ := smooth_seq K 0 h'
  simp only [Nat.zero_add] at h1 h2
  have hdone : ∀ k t, t < c.T → (seq a c max s0 f (K + k)).term.pc t = .done := by
    intro k
    induction k with
    | zero => exact h2
    | succ k ih =>
      intro t ht
      rcases term_step ((exec a c max hT s0 f).next (K + k)) with h | ⟨y, h⟩
      · exact (congrArg (fun s => Term.St.pc s t) h).trans (ih t ht)
      · exact Term.done_step t (ih t ht) h
  intro i x hx
  by_cases hi : i < K
  · exact h1 i hi x hx
  · have hd := hdone (i - K)
    rw [show K + (i - K) = i by omega] at hd
    cases x with
    | go t =>
      have hn := (exec a c max hT s0 f).next i
      rw [hx] at hn
      have h2 := (loop_step hn).1
      by_cases ht : t < c.T
      · have h3 := hd t ht
        have : ((exec a c max hT s0 f).st i).term.pc t = .done := h3
        simp only [Term.fresh, this]
      · rw [Term.step, if_neg ht] at h2; cases h2
    | _ => rfl

/-- An execution that meets the hypotheses of the theorems about whole runs, from what can be computed: the steps
until both threads leave when they take turns by the list `p`. -/
theorem exists_exec (a : Alg P M N E) (c : Async.Cfg M N) (max : Nat) (hown : ∀ v, c.own v < c.T) (hT : 0 < c.T) {n : Nat} (es0 : Nat → List (Edge E)) (xs0 : List (Async.Act E)) (alg : Async.St P M N E)
    (hrun : Async.run a c (Async.start a es0) xs0 = some alg) (hsup : Async.Supp n alg)
    (notes : List (Nat × N)) (p : List Nat) (hp : ∀ t, t < c.T → t ∈ p) (K : Nat)
    (hidle : ∀ t, t < c.T → isIdle (alg.task t) = true) (hpend : ∀ v, v < n → alg.pend v = notes.filterMap fun x => if x.1 = v then some x.2 else none) (hn : ∀ x ∈ notes, x.1 < n)
    (hK : smooth a c max (begin0 c alg notes) ((List.range K).map fun i => p.getD (i % p.length) 0) = true) :
    ∃ e : Exec a c max, (e.st 0).alg = alg ∧ Start c max (e.st 0) ∧ e.Fair ∧ Fresh e ∧ (∀ t, (e.st 0).term.closed t = true) ∧ ∀ i y, e.act i ≠ .topo y := by
  have hstart : Start c max (begin0 c alg notes) := by
    refine begin_start c max hown hT alg notes (fun t => ?_) fun v => List.Perm.of_eq ?_
    · by_cases ht : t < c.T
      · have := hidle t ht
        revert this; cases alg.task t <;> simp [isIdle]
      · exact task_out hrun t (by omega)
    · by_cases hv : v < n
      · exact hpend v hv
      · rw [hsup.pend v (by omega)]
        symm
        rw [List.filterMap_eq_nil_iff]
        intro x hx
        have := hn x hx
        rw [if_neg (by omega)]
  refine ⟨exec a c max hT (begin0 c alg notes) fun i => p.getD (i % p.length) 0, rfl, hstart, exec_fair a c max hown hT _ hstart _ fun t ht i => ?_, exec_fresh a c max hT _ _ K hK, fun _ => rfl, fun i y => ?_⟩
  · obtain ⟨k, hk, e⟩ := List.mem_iff_getElem.1 (hp t ht)
    refine ⟨p.length * i + k, ?_, ?_⟩
    · have : 1 ≤ p.length := by omega
      have := Nat.mul_le_mul_right i this
      omega
    · rw [Nat.mul_add_mod, Nat.mod_eq_of_lt hk, List.getD_eq_getElem?_getD, List.getElem?_eq_getElem hk, Option.getD_some, e]
  · change turn _ _ _ _ _ ≠ _
    unfold turn next
    repeat' split
    all_goals simp

end Verif.Props.Engine
