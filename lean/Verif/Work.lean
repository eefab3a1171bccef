import Verif.AsyncSupport
import Mathlib.Algebra.BigOperators.Group.Finset.Basic
import Mathlib.Tactic.Ring

/-!
# How long a run can go on

A measure for asynchronous runs without topology changes: the steps that outstanding notifications and
callbacks still take. It decreases with every step except those that create a notification: posting news,
and `ActiveNotification`. So a run ends if these steps are bounded, which depends on the algorithm.
-/

namespace Verif.Async

open Finset

variable {P M N E : Type}

/-- Posts and sends of a program, at most. -/
def Prog.len : Prog M N → Nat
  | .done => 0
  | .post _ _ k => 1 + max (k true).len (k false).len
  | .send _ _ k => 1 + k.len

/-- Steps a task takes without creating notifications, if programs have length at most `B`; a
notification is worth `B + 3` steps. -/
def Task.cost (B : Nat) : Task P M N E → Nat
  | .idle => 0
  | .load _ _ => B + 2
  | .run _ q => 1 + q.len
  | .cas _ _ k => B + 6 + max (k true).len (k false).len
  | .put _ _ _ k => B + 5 + k.len

/-- The measure. -/
def work (B n : Nat) (c : Cfg M N) (s : St P M N E) : Nat :=
  (∑ v ∈ range n, (B + 3) * (s.pend v).length) + ∑ t ∈ range c.T, (s.task t).cost B

/-- The action does not change the graph: it takes a notification or continues a task. -/
def Act.work : Act E → Bool
  | .recv _ _ _ => true
  | .go _ => true
  | _ => false

/-- The step creates a notification, or news that may. -/
def charged (a : Alg P M N E) (s : St P M N E) : Act E → Bool
  | .go t => match s.task t with
    | .run v (.post w m _) => (a.merge m v (s.inbox w)).2
    | .run _ (.send _ _ _) => true
    | _ => false
  | _ => false

/-- Callbacks about to run send at most `B` times. -/
def Loads (B : Nat) (s : St P M N E) : Prop :=
  ∀ t v h, s.task t = .load v h → ∀ p m, (h p (s.edges v) m).2.len ≤ B

theorem sum_upd {α : Type} (g : α → Nat) (f : Nat → α) (i : Nat) (x : α) (n : Nat) (h : i < n) :
    (∑ j ∈ range n, g (upd f i x j)) + g (f i) = (∑ j ∈ range n, g (f j)) + g x := by
  have hi : i ∈ range n := mem_range.2 h
  rw [← Finset.add_sum_erase _ _ hi, ← Finset.add_sum_erase (range n) (fun j => g (f j)) hi]
  have : (∑ j ∈ (range n).erase i, g (upd f i x j)) = ∑ j ∈ (range n).erase i, g (f j) := by
    refine sum_congr rfl fun j hj => ?_
    rw [upd_ne _ _ (ne_of_mem_erase hj)]
  rw [this, upd_same]
  omega

theorem work_task {B n : Nat} {c : Cfg M N} {s s' : St P M N E} {t : Nat} {k : Task P M N E} (ht : t < c.T)
    (hp : s'.pend = s.pend) (hk : s'.task = upd s.task t k) : work B n c s' + (s.task t).cost B = work B n c s + k.cost B := by
  have := sum_upd (fun x : Task P M N E => x.cost B) s.task t k c.T ht
  unfold work
  rw [hp, hk]
  omega

theorem work_pend {B n : Nat} {c : Cfg M N} {s s' : St P M N E} {t w : Nat} {k : Task P M N E} {l : List N} (ht : t < c.T) (hw : w < n)
    (hp : s'.pend = upd s.pend w l) (hk : s'.task = upd s.task t k) :
    work B n c s' + (s.task t).cost B + (B + 3) * (s.pend w).length = work B n c s + k.cost B + (B + 3) * l.length := by
  have h1 := sum_upd (fun x : Task P M N E => x.cost B) s.task t k c.T ht
  have h2 := sum_upd (fun x : List N => (B + 3) * x.length) s.pend w l n hw
  unfold work
  rw [hp, hk]
  omega

/-- Every step takes from the measure, unless it creates a notification. -/
theorem work_step {a : Alg P M N E} {B n : Nat} {c : Cfg M N} {s s' : St P M N E} {x : Act E} (hs : Supp n s) (hl : Loads B s)
    (hx : x.work = true) (h : step a c s x = some s') :
    work B n c s' + 1 ≤ work B n c s + (if charged a s x = true then B + 5 else 0) := by
  cases x with
  | init _ _ => cases hx
  | add _ _ _ => cases hx
  | del _ _ _ => cases hx
  | recv t v i =>
    simp only [step] at h
    split at h
    · next hf =>
      obtain ⟨ht, hown, hk⟩ := (free_iff c s t v).1 hf
      cases hp : (s.pend v)[i]? with
      | none => rw [hp] at h; cases h
      | some y =>
        rw [hp] at h
        simp only [Option.some.injEq] at h
        have hv : v < n := by
          by_contra hn
          rw [hs.pend v (Nat.le_of_not_lt hn)] at hp
          simp at hp
        have hi : i < (s.pend v).length := (List.getElem?_eq_some_iff.1 hp).1
        have := work_pend (B := B) (n := n) (c := c) (s := s) (s' := s') ht hv (by subst h; rfl) (by subst h; rfl)
        rw [hk, List.length_eraseIdx_of_lt hi] at this
        simp only [Task.cost] at this
        simp only [charged, Bool.false_eq_true, if_false]
        generalize hle : (s.pend v).length = m at this hi
        obtain ⟨m, rfl⟩ : ∃ m', m = m' + 1 := ⟨m - 1, by omega⟩
        rw [Nat.add_sub_cancel, Nat.mul_add] at this
        omega
    · cases h
  | go t =>
    simp only [step] at h
    split at h
    · next ht =>
      have hb := hs.task t
      cases hk : s.task t with
      | idle => rw [hk] at h; cases h
      | load v f =>
        rw [hk] at h
        simp only [goStep, Option.some.injEq] at h
        have hlen := hl t v f hk (s.prop v) (a.retrieve (s.inbox v) (s.prop v)).2
        have := work_task (B := B) (n := n) (c := c) (s := s) (s' := s') ht (by subst h; rfl) (by subst h; rfl)
        rw [hk] at this
        simp only [Task.cost] at this
        simp only [charged, hk, Bool.false_eq_true, if_false]
        omega
      | run v q =>
        rw [hk] at h hb
        cases q with
        | done =>
          simp only [goStep, Option.some.injEq] at h
          have := work_task (B := B) (n := n) (c := c) (s := s) (s' := s') ht (by subst h; rfl) (by subst h; rfl)
          rw [hk] at this
          simp only [Task.cost, Prog.len] at this
          simp only [charged, hk, Bool.false_eq_true, if_false]
          omega
        | post w m k =>
          simp only [goStep] at h
          split at h
          · next hn =>
            simp only [Option.some.injEq] at h
            have := work_task (B := B) (n := n) (c := c) (s := s) (s' := s') ht (by subst h; rfl) (by subst h; rfl)
            rw [hk] at this
            simp only [Task.cost, Prog.len] at this
            simp only [charged, hk, hn, if_true]
            omega
          · next hn =>
            simp only [Option.some.injEq] at h
            have := work_task (B := B) (n := n) (c := c) (s := s) (s' := s') ht (by subst h; rfl) (by subst h; rfl)
            rw [hk] at this
            simp only [Task.cost, Prog.len] at this
            simp only [charged, hk, hn]
            have := Nat.le_max_right (k true).len (k false).len
            simp only [Bool.false_eq_true, if_false]
            omega
        | send w y k =>
          simp only [goStep, Option.some.injEq] at h
          have := work_task (B := B) (n := n) (c := c) (s := s) (s' := s') ht (by subst h; rfl) (by subst h; rfl)
          rw [hk] at this
          simp only [Task.cost, Prog.len] at this
          simp only [charged, hk, if_true]
          omega
      | cas v w k =>
        rw [hk] at h
        simp only [goStep] at h
        have h1 := Nat.le_max_right (k true).len (k false).len
        have h2 := Nat.le_max_left (k true).len (k false).len
        split at h
        · simp only [Option.some.injEq] at h
          have := work_task (B := B) (n := n) (c := c) (s := s) (s' := s') ht (by subst h; rfl) (by subst h; rfl)
          rw [hk] at this
          simp only [Task.cost] at this
          simp only [charged, hk, Bool.false_eq_true, if_false]
          omega
        · simp only [Option.some.injEq] at h
          have := work_task (B := B) (n := n) (c := c) (s := s) (s' := s') ht (by subst h; rfl) (by subst h; rfl)
          rw [hk] at this
          simp only [Task.cost] at this
          simp only [charged, hk, Bool.false_eq_true, if_false]
          omega
      | put v w y k =>
        rw [hk] at h hb
        simp only [goStep, Option.some.injEq] at h
        have := work_pend (B := B) (n := n) (c := c) (s := s) (s' := s') ht hb.1 (by subst h; rfl) (by subst h; rfl)
        rw [hk] at this
        simp only [Task.cost, List.length_append, List.length_cons, List.length_nil] at this
        simp only [charged, hk, Bool.false_eq_true, if_false]
        rw [Nat.mul_add] at this
        omega
    · cases h

theorem edges_work {a : Alg P M N E} {c : Cfg M N} {s s' : St P M N E} {x : Act E} (hx : x.work = true) (h : step a c s x = some s') :
    s'.edges = s.edges := by
  cases x with
  | init _ _ => cases hx
  | add _ _ _ => cases hx
  | del _ _ _ => cases hx
  | recv t v i =>
    simp only [step] at h
    split at h
    · split at h
      · cases h
      · simp only [Option.some.injEq] at h; subst h; rfl
    · cases h
  | go t =>
    simp only [step] at h
    split at h
    · cases hk : s.task t with
      | idle => rw [hk] at h; cases h
      | load v f => rw [hk] at h; simp only [goStep, Option.some.injEq] at h; subst h; rfl
      | run v q =>
        rw [hk] at h
        cases q with
        | done => simp only [goStep, Option.some.injEq] at h; subst h; rfl
        | post w m k => simp only [goStep] at h; split at h <;> (simp only [Option.some.injEq] at h; subst h; rfl)
        | send w y k => simp only [goStep, Option.some.injEq] at h; subst h; rfl
      | cas v w k => rw [hk] at h; simp only [goStep] at h; split at h <;> (simp only [Option.some.injEq] at h; subst h; rfl)
      | put v w y k => rw [hk] at h; simp only [goStep, Option.some.injEq] at h; subst h; rfl
    · cases h

theorem loads_upd {B : Nat} {s s' : St P M N E} {t : Nat} {k : Task P M N E} (hl : Loads B s) (he : s'.edges = s.edges) (hk : s'.task = upd s.task t k)
    (hx : ∀ v h, k = .load v h → ∀ p m, (h p (s.edges v) m).2.len ≤ B) : Loads B s' := by
  intro u v h hu
  rw [hk] at hu
  rw [he]
  by_cases e : u = t
  · rw [e, upd_same] at hu; exact hx v h hu
  · rw [upd_ne _ _ e] at hu; exact hl u v h hu

theorem loads_step {a : Alg P M N E} {B : Nat} {c : Cfg M N} {s s' : St P M N E} {x : Act E} (hl : Loads B s)
    (hB : ∀ v p n i m, (a.onUpdate v p (s.edges v) n i m).2.len ≤ B) (hx : x.work = true) (h : step a c s x = some s') : Loads B s' := by
  cases x with
  | init _ _ => cases hx
  | add _ _ _ => cases hx
  | del _ _ _ => cases hx
  | recv t v i =>
    simp only [step] at h
    split at h
    · split at h
      · cases h
      · simp only [Option.some.injEq] at h; subst h
        refine loads_upd hl rfl rfl ?_
        intro v' h' e
        cases e
        intro p m
        exact hB _ _ _ _ _
    · cases h
  | go t =>
    simp only [step] at h
    split at h
    · cases hk : s.task t with
      | idle => rw [hk] at h; cases h
      | load v f => rw [hk] at h; simp only [goStep, Option.some.injEq] at h; subst h; exact loads_upd hl rfl rfl (fun _ _ e => nomatch e)
      | run v q =>
        rw [hk] at h
        cases q with
        | done => simp only [goStep, Option.some.injEq] at h; subst h; exact loads_upd hl rfl rfl (fun _ _ e => nomatch e)
        | post w m k => simp only [goStep] at h; split at h <;> (simp only [Option.some.injEq] at h; subst h; exact loads_upd hl rfl rfl (fun _ _ e => nomatch e))
        | send w y k => simp only [goStep, Option.some.injEq] at h; subst h; exact loads_upd hl rfl rfl (fun _ _ e => nomatch e)
      | cas v w k => rw [hk] at h; simp only [goStep] at h; split at h <;> (simp only [Option.some.injEq] at h; subst h; exact loads_upd hl rfl rfl (fun _ _ e => nomatch e))
      | put v w y k => rw [hk] at h; simp only [goStep, Option.some.injEq] at h; subst h; exact loads_upd hl rfl rfl (fun _ _ e => nomatch e)
    · cases h

theorem below_work {n : Nat} {x : Act E} (hx : x.work = true) : x.below n = true := by
  cases x <;> first | rfl | cases hx

/-- A run ends if a natural number `R` goes down with every step that creates a notification, and never
goes up. -/
theorem work_bound {a : Alg P M N E} {c : Cfg M N} {n B : Nat} (ha : Local a n) (I : St P M N E → Prop) (R : St P M N E → Nat)
    (hB : ∀ s, I s → ∀ v p n i m, (a.onUpdate v p (s.edges v) n i m).2.len ≤ B)
    (hI : ∀ s s' x, I s → Supp n s → x.work = true → step a c s x = some s' → I s' ∧ R s' + (if charged a s x = true then 1 else 0) ≤ R s) :
    ∀ {ys : List (Act E)} {s s' : St P M N E}, I s → Supp n s → Loads B s → (∀ y ∈ ys, y.work = true) → run a c s ys = some s' →
      ys.length + work B n c s' + (B + 5) * R s' ≤ work B n c s + (B + 5) * R s
  | [], s, s', _, _, _, _, h => by
    simp only [run, Option.some.injEq] at h; subst h; simp
  | y :: ys, s, s', hi, hs, hl, hy, h => by
    simp only [run] at h
    obtain ⟨s1, h1, h2⟩ := Option.bind_eq_some_iff.1 h
    have hyw := hy y (by simp)
    obtain ⟨hi1, hR⟩ := hI s s1 y hi hs hyw h1
    have hw := work_step hs hl hyw h1
    have ih := work_bound ha I R hB hI hi1 (supp_step ha (below_work hyw) hs h1) (loads_step hl (hB s hi) hyw h1)
      (fun z hz => hy z (by simp [hz])) h2
    simp only [List.length_cons]
    split at hw
    · next hc =>
      rw [if_pos hc] at hR
      have : (B + 5) * (R s1 + 1) ≤ (B + 5) * R s := Nat.mul_le_mul_left _ hR
      rw [Nat.mul_add] at this
      omega
    · next hc =>
      rw [if_neg hc] at hR
      have : (B + 5) * R s1 ≤ (B + 5) * R s := Nat.mul_le_mul_left _ (by omega)
      omega

end Verif.Async
