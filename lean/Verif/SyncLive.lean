import Verif.SyncSim
import Verif.Work

/-!
# How long a synchronous run can go on

A synchronous run takes a bounded number of steps for each step of the asynchronous run it corresponds to
(`Verif/SyncSim.lean`): a new iteration begins only if the last one has sent a notification.
-/

namespace Verif.Sync

open Finset
open Verif.Async (Edge Prog Alg Task sum_upd)

variable {P M N E : Type}

/-- Vertices of all threads. -/
def size (c : Cfg M) : Nat := ∑ t ∈ range c.T, (c.verts t).length

/-- Vertices that the current loops have not reached. -/
def toScan (c : Cfg M) (s : St P M N E) : Nat := ∑ t ∈ range c.T, ((c.verts t).length - s.pos t)

/-- Steps until the end of the iteration, apart from callbacks. -/
def toEnd (c : Cfg M) (s : St P M N E) : Nat :=
  match s.phase with
  | .init => 3 + 2 * size c
  | .collect => 2 + size c + toScan c s
  | .visit => 1 + toScan c s
  | .stopped => 0

/-- The price of another iteration. -/
def price (c : Cfg M) : Nat := 2 * size c + 3

/-- Threads about to put a notification. -/
def putting (c : Cfg M) (s : St P M N E) : Nat := ∑ t ∈ range c.T, if isPut (s.task t) = true then 1 else 0

def sentAll (c : Cfg M) (s : St P M N E) : Nat := ∑ t ∈ range c.T, s.sent t

/-- Vertices that have not been given their initial mail. -/
def uninited (n : Nat) (f : Nat → Bool) : Nat := ∑ v ∈ range n, if f v = true then 0 else 1

def measure (c : Cfg M) (s : St P M N E) : Nat :=
  toEnd c s + price c * sentAll c s + (price c + 1) * putting c s + uninited c.n s.inited

section
variable {a : Alg P M N E} {c : Cfg M} {s s' : St P M N E}

theorem uninited_upd {n v : Nat} {f : Nat → Bool} (hv : v < n) (hf : f v = false) :
    uninited n (upd f v true) + 1 = uninited n f := by
  have := sum_upd (fun b : Bool => if b = true then 0 else 1) f v true n hv
  simp only [hf, Bool.false_eq_true, if_false, if_true] at this
  exact this

theorem putting_upd {t : Nat} {k : Task P M N E} (ht : t < c.T) (hk : s'.task = upd s.task t k) :
    putting c s' + (if isPut (s.task t) = true then 1 else 0) = putting c s + (if isPut k = true then 1 else 0) := by
  have := sum_upd (fun x : Task P M N E => if isPut x = true then 1 else 0) s.task t k c.T ht
  unfold putting
  rw [hk]
  exact this

theorem toScan_upd {t : Nat} (ht : t < c.T) (hk : s'.pos = upd s.pos t (s.pos t + 1)) (hp : s.pos t < (c.verts t).length) :
    toScan c s' + 1 = toScan c s := by
  have hi : t ∈ range c.T := mem_range.2 ht
  unfold toScan
  rw [hk, ← Finset.add_sum_erase _ _ hi, ← Finset.add_sum_erase (range c.T) (fun t => (c.verts t).length - s.pos t) hi]
  have : (∑ j ∈ (range c.T).erase t, ((c.verts j).length - upd s.pos t (s.pos t + 1) j)) = ∑ j ∈ (range c.T).erase t, ((c.verts j).length - s.pos j) := by
    refine sum_congr rfl fun j hj => ?_
    rw [upd_ne _ _ (ne_of_mem_erase hj)]
  rw [this, upd_same]
  omega

theorem sentAll_upd {t : Nat} (ht : t < c.T) (hk : s'.sent = upd s.sent t (s.sent t + 1)) : sentAll c s' = sentAll c s + 1 := by
  have := sum_upd (fun x : Nat => x) s.sent t (s.sent t + 1) c.T ht
  unfold sentAll
  rw [hk]
  omega

theorem activity_eq : activity c s = sentAll c s := by
  unfold activity sentAll
  generalize c.T = T
  induction T with
  | zero => rfl
  | succ T ih => rw [List.range_succ, sum_range_succ]; simp [ih]

theorem toScan_zero (h : atEnd c s = true) : toScan c s = 0 :=
  sum_eq_zero fun t ht => by rw [((atEnd_iff.1 h) t (mem_range.1 ht)).2]; omega

/-- How many steps of the asynchronous run a step must correspond to. -/
def counts (s : St P M N E) : Act → Nat
  | .go t => goes s t
  | _ => 0

theorem measure_go {t : Nat} (ht : t < c.T) (hs : goStep a c s t (s.task t) = some s') :
    measure c s' + 1 ≤ measure c s + (price c + 2) * goes s t := by
  have key : ∀ k, s'.task = upd s.task t k → s'.phase = s.phase → s'.pos = s.pos → s'.inited = s.inited →
      ((isPut (s.task t) = false ∧ s'.sent = s.sent) ∨ (isPut (s.task t) = true ∧ isPut k = false ∧ s'.sent = upd s.sent t (s.sent t + 1))) →
      measure c s' + 1 ≤ measure c s + (price c + 2) * goes s t := by
    intro k hk h1 h2 h3 h4
    have e1 : toEnd c s' = toEnd c s := by simp only [toEnd, toScan, h1, h2]
    have e2 := putting_upd (c := c) (s := s) (s' := s') ht hk
    rcases h4 with ⟨h4, h5⟩ | ⟨h4, h5, h6⟩
    · have e3 : sentAll c s' = sentAll c s := by simp only [sentAll, h5]
      simp only [h4, Bool.false_eq_true, if_false] at e2
      have e4 : putting c s' ≤ putting c s + 1 := by split at e2 <;> omega
      have e5 := Nat.mul_le_mul_left (price c + 1) e4
      rw [Nat.mul_add] at e5
      simp only [measure, e1, e3, h3, goes, h4, Bool.false_eq_true, if_false]
      omega
    · have e3 := sentAll_upd (c := c) (s := s) (s' := s') ht h6
      simp only [h4, h5, Bool.false_eq_true, if_false, if_true] at e2
      have e5 : (price c + 1) * putting c s = (price c + 1) * putting c s' + (price c + 1) := by
        rw [← Nat.add_zero (putting c s), ← e2, Nat.mul_add, Nat.mul_one]
      simp only [measure, e1, e3, h3, goes, h4, if_true, e5, Nat.mul_add]
      omega
  cases hk : s.task t with
  | idle => rw [hk] at hs; cases hs
  | load v g =>
    rw [hk] at hs
    simp only [goStep, Option.some.injEq] at hs
    exact key _ (by rw [← hs]) (by rw [← hs]) (by rw [← hs]) (by rw [← hs]) (.inl ⟨by rw [hk]; rfl, by rw [← hs]⟩)
  | run v q =>
    rw [hk] at hs
    cases q with
    | done =>
      simp only [goStep, Option.some.injEq] at hs
      exact key _ (by rw [← hs]) (by rw [← hs]) (by rw [← hs]) (by rw [← hs]) (.inl ⟨by rw [hk]; rfl, by rw [← hs]⟩)
    | post w m k =>
      simp only [goStep] at hs
      split at hs <;> simp only [Option.some.injEq] at hs <;>
        exact key _ (by rw [← hs]) (by rw [← hs]) (by rw [← hs]) (by rw [← hs]) (.inl ⟨by rw [hk]; rfl, by rw [← hs]⟩)
    | send w m k =>
      simp only [goStep, Option.some.injEq] at hs
      exact key _ (by rw [← hs]) (by rw [← hs]) (by rw [← hs]) (by rw [← hs]) (.inl ⟨by rw [hk]; rfl, by rw [← hs]⟩)
  | cas v w k =>
    rw [hk] at hs
    simp only [goStep] at hs
    split at hs <;> simp only [Option.some.injEq] at hs <;>
      exact key _ (by rw [← hs]) (by rw [← hs]) (by rw [← hs]) (by rw [← hs]) (.inl ⟨by rw [hk]; rfl, by rw [← hs]⟩)
  | put v w m k =>
    rw [hk] at hs
    simp only [goStep] at hs
    split at hs
    · simp only [Option.some.injEq] at hs
      exact key (.run v k) (by rw [← hs]) (by rw [← hs]) (by rw [← hs]) (by rw [← hs])
        (.inr ⟨by rw [hk]; rfl, rfl, by rw [← hs]⟩)
    · cases hs

theorem measure_scan {t : Nat} (hs : step a c s (.scan t) = some s') : measure c s' + 1 ≤ measure c s := by
  have key : t < c.T → isPut (s.task t) = false → s.pos t < (c.verts t).length → (s.phase = .collect ∨ s.phase = .visit) →
      s'.phase = s.phase → s'.pos = upd s.pos t (s.pos t + 1) → s'.inited = s.inited → s'.sent = s.sent →
      (s'.task = s.task ∨ ∃ k, s'.task = upd s.task t k ∧ isPut k = false) → measure c s' + 1 ≤ measure c s := by
    intro ht hp hlt hph h1 h2 h3 h4 h5
    have e1 := toScan_upd (c := c) (s := s) (s' := s') ht h2 hlt
    have e2 : putting c s' = putting c s := by
      rcases h5 with h5 | ⟨k, h5, h6⟩
      · simp only [putting, h5]
      · have := putting_upd (c := c) (s := s) (s' := s') ht h5
        simpa [hp, h6] using this
    have e3 : sentAll c s' = sentAll c s := by simp only [sentAll, h4]
    simp only [measure, e2, e3, h3]
    rcases hph with hph | hph <;> simp only [toEnd, h1, hph] <;> omega
  simp only [step] at hs
  split at hs
  · next hg =>
    have hp : isPut (s.task t) = false := by rw [(isIdle_iff _).1 hg.2]; rfl
    split at hs
    · cases hs
    · next v hv =>
      have hlt := (List.getElem?_eq_some_iff.1 hv).1
      split at hs
      · next hph =>
        split at hs <;> simp only [Option.some.injEq] at hs <;>
          exact key hg.1 hp hlt (.inl hph) (by rw [← hs]) (by rw [← hs]) (by rw [← hs]) (by rw [← hs]) (.inl (by rw [← hs]))
      · next hph =>
        split at hs
        · split at hs <;> simp only [Option.some.injEq] at hs
          · exact key hg.1 hp hlt (.inr hph) (by rw [← hs]) (by rw [← hs]) (by rw [← hs]) (by rw [← hs]) (.inr ⟨_, by rw [← hs], rfl⟩)
          · exact key hg.1 hp hlt (.inr hph) (by rw [← hs]) (by rw [← hs]) (by rw [← hs]) (by rw [← hs]) (.inl (by rw [← hs]))
        · split at hs <;> simp only [Option.some.injEq] at hs
          · exact key hg.1 hp hlt (.inr hph) (by rw [← hs]) (by rw [← hs]) (by rw [← hs]) (by rw [← hs]) (.inr ⟨_, by rw [← hs], rfl⟩)
          · exact key hg.1 hp hlt (.inr hph) (by rw [← hs]) (by rw [← hs]) (by rw [← hs]) (by rw [← hs]) (.inl (by rw [← hs]))
      · cases hs
  · cases hs

theorem measure_init {t v : Nat} (hs : step a c s (.init t v) = some s') : measure c s' + 1 ≤ measure c s := by
  have key : t < c.T → v < c.n → isPut (s.task t) = false → s.inited v = false → s'.inited = upd s.inited v true →
      s'.phase = s.phase → s'.pos = s.pos → s'.sent = s.sent →
      (s'.task = s.task ∨ ∃ k, s'.task = upd s.task t k ∧ isPut k = false) → measure c s' + 1 ≤ measure c s := by
    intro ht hv hp hin h0 h1 h2 h4 h5
    have e0 := uninited_upd hv hin
    have e2 : putting c s' = putting c s := by
      rcases h5 with h5 | ⟨k, h5, h6⟩
      · simp only [putting, h5]
      · have := putting_upd (c := c) (s := s) (s' := s') ht h5
        simpa [hp, h6] using this
    have e1 : toEnd c s' = toEnd c s := by simp only [toEnd, toScan, h1, h2]
    have e3 : sentAll c s' = sentAll c s := by simp only [sentAll, h4]
    simp only [measure, e1, e2, e3, h0]
    omega
  simp only [step] at hs
  split at hs
  · next hg =>
    obtain ⟨-, ht, hv, -, hti, hin⟩ := hg
    have hp : isPut (s.task t) = false := by rw [(isIdle_iff _).1 hti]; rfl
    split at hs
    · split at hs <;> simp only [Option.some.injEq] at hs
      · exact key ht hv hp hin (by rw [← hs]) (by rw [← hs]) (by rw [← hs]) (by rw [← hs]) (.inr ⟨_, by rw [← hs], rfl⟩)
      · exact key ht hv hp hin (by rw [← hs]) (by rw [← hs]) (by rw [← hs]) (by rw [← hs]) (.inl (by rw [← hs]))
    · simp only [Option.some.injEq] at hs
      exact key ht hv hp hin (by rw [← hs]) (by rw [← hs]) (by rw [← hs]) (by rw [← hs]) (.inl (by rw [← hs]))
  · cases hs

theorem measure_loop (h1 : s'.pos = fun _ => 0) (h2 : s'.sent = fun _ => 0) (h3 : s'.task = s.task) (h4 : s'.inited = s.inited) :
    measure c s' = (match s'.phase with | .init => 3 + 2 * size c | .collect => 2 + size c + size c | .visit => 1 + size c | .stopped => 0) +
      (price c + 1) * putting c s + uninited c.n s.inited := by
  have e1 : toScan c s' = size c := by simp [toScan, h1, size]
  have e2 : sentAll c s' = 0 := by simp [sentAll, h2]
  simp only [measure, toEnd, e1, e2, putting, h3, h4, Nat.mul_zero, Nat.add_zero]

/-- Another iteration is paid for by what the last one has sent. -/
theorem measure_barrier (hs : step a c s .barrier = some s') : measure c s' + 1 ≤ measure c s := by
  have key : (s'.phase = .collect ∨ s'.phase = .visit) → s'.pos = (fun _ => 0) → s'.sent = (fun _ => 0) → s'.task = s.task → s'.inited = s.inited →
      measure c s' ≤ 2 + 2 * size c + (price c + 1) * putting c s + uninited c.n s.inited ∧
      (s'.phase = .visit → measure c s' = 1 + size c + (price c + 1) * putting c s + uninited c.n s.inited) := by
    intro hp h1 h2 h3 h4
    have e := measure_loop (c := c) h1 h2 h3 h4
    rcases hp with hp | hp <;> rw [hp] at e <;> dsimp only at e <;> refine ⟨by omega, fun hv => ?_⟩
    · rw [hp] at hv; cases hv
    · exact e
  have hcv : (if c.prev then Phase.collect else Phase.visit) = .collect ∨ (if c.prev then Phase.collect else Phase.visit) = .visit := by
    split
    · exact .inl rfl
    · exact .inr rfl
  simp only [step] at hs
  split at hs
  · next hph =>
    split at hs
    · simp only [Option.some.injEq] at hs
      have := (key (by rw [← hs]; exact hcv) (by rw [← hs]; rfl) (by rw [← hs]; rfl) (by rw [← hs]; rfl) (by rw [← hs]; rfl)).1
      simp only [measure, toEnd, hph] at this ⊢
      omega
    · cases hs
  · next hph =>
    split at hs
    · simp only [Option.some.injEq] at hs
      have := (key (.inr (by rw [← hs]; rfl)) (by rw [← hs]; rfl) (by rw [← hs]; rfl) (by rw [← hs]; rfl) (by rw [← hs]; rfl)).2 (by rw [← hs]; rfl)
      rw [this]
      simp only [measure, toEnd, hph]
      omega
    · cases hs
  · next hph =>
    split at hs
    · split at hs
      · simp only [Option.some.injEq] at hs
        subst hs
        have h1 : sentAll c { s with phase := .stopped } = sentAll c s := rfl
        have h3 : putting c { s with phase := .stopped } = putting c s := rfl
        simp only [measure, h1, h3, toEnd, hph]
        omega
      · next ha =>
        simp only [Option.some.injEq] at hs
        rw [activity_eq] at ha
        have h1 : price c * 1 ≤ price c * sentAll c s := Nat.mul_le_mul_left _ (Nat.pos_of_ne_zero ha)
        have h2 : price c = 2 * size c + 3 := rfl
        have := (key (by rw [← hs]; exact hcv) (by rw [← hs]; rfl) (by rw [← hs]; rfl) (by rw [← hs]; rfl) (by rw [← hs]; rfl)).1
        have h3 : 1 + price c * sentAll c s + (price c + 1) * putting c s + uninited c.n s.inited ≤ measure c s := by
          simp only [measure, toEnd, hph]
          omega
        omega
    · cases hs
  · cases hs

/-- Every step takes from the measure, except for those of callbacks. -/
theorem measure_step {x : Act} (hs : step a c s x = some s') : measure c s' + 1 ≤ measure c s + (price c + 2) * counts s x := by
  cases x with
  | init t v => have := measure_init hs; omega
  | scan t => have := measure_scan hs; omega
  | barrier => have := measure_barrier hs; omega
  | go t =>
    simp only [step] at hs
    split at hs
    · next ht => exact measure_go ht hs
    · cases hs

theorem sim_counts (hc : c.Ok) (h : Inv c s) {x : Act} (hs : step a c s x = some s') (log : List Async.Note) :
    SimsN a c s s' log (counts s x) := by
  cases x with
  | go t => exact sim_go h hs log
  | init t v => exact (sim_step hc h hs log).simsN
  | scan t => exact (sim_step hc h hs log).simsN
  | barrier => exact (sim_step hc h hs log).simsN

/-- The length of a run against that of the asynchronous run. -/
theorem count_run (hu : ∀ v p es n i m, (a.onUpdate v p es n i m).2.Unique) (hc : c.Ok) : ∀ (xs : List Act) (s : St P M N E), Inv c s → run a c s xs = some s' →
    ∀ log, ∃ ys log', (∀ y ∈ ys, Plain y ∧ y.below c.n = true) ∧ Async.run a (absCfg c) (abs a c s log) ys = some (abs a c s' log') ∧
      xs.length + measure c s' ≤ measure c s + (price c + 2) * ys.length
  | [], s, h, hr, log => by
    simp only [run, Option.some.injEq] at hr
    subst hr
    exact ⟨[], log, by simp, rfl, by simp⟩
  | x :: xs, s, h, hr, log => by
    simp only [run] at hr
    obtain ⟨s1, hs, hr⟩ := Option.bind_eq_some_iff.1 hr
    obtain ⟨ys, log1, hy, e1, hl⟩ := sim_counts hc h hs log
    obtain ⟨zs, log2, hz, e2, hm⟩ := count_run hu hc xs s1 (inv_step hu hc h hs) hr log1
    refine ⟨ys ++ zs, log2, ?_, by rw [run_append, e1]; exact e2, ?_⟩
    · intro y hy'
      rcases List.mem_append.1 hy' with h' | h'
      · exact hy y h'
      · exact hz y h'
    · have := measure_step hs
      have := Nat.mul_le_mul_left (price c + 2) hl
      rw [List.length_append, Nat.mul_add, List.length_cons]
      omega

end

end Verif.Sync
