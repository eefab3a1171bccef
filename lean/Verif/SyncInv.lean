import Verif.Sync

/-!
# A synchronous run is an asynchronous run

With one thread per vertex: a vertex whose mail has been collected but which has not been visited has
read its mailbox and not yet sent anything.
-/

namespace Verif.Sync

open Verif.Async (Edge Prog Alg Task UniqueAlg)

variable {P M N E : Type}

/-- The task is a callback for `v`. -/
def about (v : Nat) : Task P M N E → Bool
  | .idle => false
  | .load x _ | .run x _ | .cas x _ _ | .put x _ _ _ => x = v

/-- A notification that is about to be put into a queue counts as put. -/
def finish : Task P M N E → Task P M N E
  | .put v _ _ k => .run v k
  | k => k

/-- One thread per vertex. -/
def absCfg (c : Cfg M) : Async.Cfg M N := { T := c.n, own := id, initMail := c.initMail, initNote := fun _ => none }

/-- The visit that a collected vertex has yet to do. -/
def due (a : Alg P M N E) (s : St P M N E) (v : Nat) : P × Prog M N :=
  a.onUpdate v (s.prop v) (s.edges v) a.noNote 0 (s.last v)

def absTask (a : Alg P M N E) (c : Cfg M) (s : St P M N E) (v : Nat) : Task P M N E :=
  if about v (s.task (c.own v)) = true then finish (s.task (c.own v))
  else if s.front v = true then .run v (due a s v).2 else .idle

/-- The asynchronous state. -/
def abs (a : Alg P M N E) (c : Cfg M) (s : St P M N E) (log : List Async.Note) : Async.St P M N E :=
  { prop := fun v => if s.front v = true then (due a s v).1 else s.prop v, edges := s.edges, inbox := s.inbox,
    act := s.act, pend := fun v => if s.act v = 1 then [a.noNote] else [], inited := s.inited,
    task := absTask a c s, log := log }

/-- Some vertex may have been activated in the current loop. -/
def Hot (c : Cfg M) (s : St P M N E) : Prop :=
  ∃ u, u < c.T ∧ (s.sent u ≠ 0 ∨ ∃ v w n k, s.task u = .put v w n k)

/-- The loop of the owner has not yet reached `v`. -/
def Left (c : Cfg M) (s : St P M N E) (v : Nat) : Prop :=
  ∃ j, s.pos (c.own v) ≤ j ∧ (c.verts (c.own v))[j]? = some v

structure Inv (c : Cfg M) (s : St P M N E) : Prop where
  owner : ∀ t v, about v (s.task t) = true → v < c.n ∧ c.own v = t
  uniq : ∀ t, (s.task t).Unique
  act : ∀ v, s.act v = 0 ∨ s.act v = 1
  fresh : s.phase = .init → ∀ v, s.front v = false
  seq : c.prev = false → ∀ v, s.front v = false
  pha : s.phase = .collect → c.prev = true
  idle : s.phase = .collect → ∀ t, t < c.T → s.task t = .idle
  off : s.phase = .collect → ∀ v, s.front v = true → s.act v = 0
  low : ∀ v, s.front v = true → v < c.n
  apart : ∀ v, s.front v = true → about v (s.task (c.own v)) = false
  todo : s.phase = .visit → ∀ v, s.front v = true → Left c s v
  none : s.phase = .stopped → ∀ v, s.front v = false
  left : s.phase = .collect → ∀ v, v < c.n → s.act v ≠ 0 → Left c s v
  hot : s.phase = .visit → ∀ v, v < c.n → s.act v ≠ 0 → Hot c s ∨ (c.prev = false ∧ Left c s v)
  quiet : s.phase = .stopped → (∀ v, v < c.n → s.act v = 0) ∧ ∀ t, t < c.T → s.task t = .idle

/-- One goal per kind of step, with the new state spelt out. -/
macro "sync_cases" h:ident : tactic => `(tactic| (
  unfold step at $h:ident
  unfold goStep at $h:ident
  simp only [loop] at $h:ident
  repeat' split at $h:ident
  all_goals cases $h:ident))

section
variable {a : Alg P M N E} {c : Cfg M} {s s' : St P M N E} {x : Act}

theorem isIdle_iff (k : Task P M N E) : k.isIdle = true ↔ k = .idle := by
  cases k <;> simp [Async.Task.isIdle]

theorem get_mem {l : List Nat} {i v : Nat} (h : l[i]? = some v) : v ∈ l := List.mem_of_getElem? h

theorem owner_step (hc : c.Ok) (h : Inv c s) (hs : step a c s x = some s') :
    ∀ t v, about v (s'.task t) = true → v < c.n ∧ c.own v = t := by
  have h1 := h.owner
  have h2 := fun t i v (e : (c.verts t)[i]? = some v) => (hc.mem t v).1 (get_mem e)
  clear h hc
  sync_cases hs
  all_goals grind [upd, about]

theorem act_step (h : Inv c s) (hs : step a c s x = some s') : ∀ v, s'.act v = 0 ∨ s'.act v = 1 := by
  have h1 := h.act
  have h2 := h.uniq
  clear h
  sync_cases hs
  all_goals grind [upd, Async.Task.Unique, Async.Prog.Unique]

theorem uniq_step (hu : ∀ v p es n i m, (a.onUpdate v p es n i m).2.Unique) (h : Inv c s) (hs : step a c s x = some s') :
    ∀ t, (s'.task t).Unique := by
  have h2 := h.uniq
  clear h
  sync_cases hs
  all_goals grind [upd, Async.Task.Unique, Async.Prog.Unique]

theorem fresh_step (h : Inv c s) (hs : step a c s x = some s') : s'.phase = .init → ∀ v, s'.front v = false := by
  have h1 := h.fresh
  clear h
  sync_cases hs
  all_goals grind [upd]

theorem seq_step (h : Inv c s) (hs : step a c s x = some s') : c.prev = false → ∀ v, s'.front v = false := by
  have h1 := h.seq; have h2 := h.pha
  clear h
  sync_cases hs
  all_goals grind [upd]

theorem pha_step (h : Inv c s) (hs : step a c s x = some s') : s'.phase = .collect → c.prev = true := by
  have h1 := h.pha
  clear h
  sync_cases hs
  all_goals grind [upd]

theorem atEnd_iff : atEnd c s = true ↔ ∀ t, t < c.T → s.task t = .idle ∧ s.pos t = (c.verts t).length := by
  simp [atEnd, isIdle_iff]

theorem loaded_iff : loaded c s = true ↔ (∀ t, t < c.T → s.task t = .idle) ∧ ∀ v, v < c.n → s.inited v = true := by
  simp [loaded, isIdle_iff]

theorem idle_step (h : Inv c s) (hs : step a c s x = some s') : s'.phase = .collect → ∀ t, t < c.T → s'.task t = .idle := by
  have h1 := h.idle
  have h2 := @atEnd_iff _ _ _ _ c s
  have h3 := @loaded_iff _ _ _ _ c s
  clear h
  sync_cases hs
  all_goals grind [upd]

theorem low_step (hc : c.Ok) (h : Inv c s) (hs : step a c s x = some s') : ∀ v, s'.front v = true → v < c.n := by
  have h1 := h.low
  have h2 := fun t i v (e : (c.verts t)[i]? = some v) => (hc.mem t v).1 (get_mem e)
  clear h hc
  sync_cases hs
  all_goals grind [upd]

theorem apart_step (hc : c.Ok) (h : Inv c s) (hs : step a c s x = some s') :
    ∀ v, s'.front v = true → about v (s'.task (c.own v)) = false := by
  have h1 := h.apart; have h3 := h.owner; have h4 := h.fresh; have h6 := h.seq
  have h5 := fun k => @isIdle_iff P M N E k
  have h2 := fun t i v (e : (c.verts t)[i]? = some v) => (hc.mem t v).1 (get_mem e)
  clear h hc
  sync_cases hs
  all_goals grind [upd, about]

theorem left_all (hc : c.Ok) {v : Nat} (hv : v < c.n) {q : Nat → Nat} (h : q (c.own v) = 0) :
    ∃ j, q (c.own v) ≤ j ∧ (c.verts (c.own v))[j]? = some v := by
  obtain ⟨j, hj⟩ := List.mem_iff_getElem?.1 ((hc.mem (c.own v) v).2 ⟨hv, rfl⟩)
  exact ⟨j, by omega, hj⟩

theorem not_left (hc : c.Ok) (h : atEnd c s = true) {v : Nat} (hv : v < c.n) : ¬ Left c s v := by
  rintro ⟨j, h1, h2⟩
  have := (atEnd_iff.1 h _ (hc.own v hv)).2
  have := (List.getElem?_eq_some_iff.1 h2).1
  omega

theorem off_step (hc : c.Ok) (h : Inv c s) (hs : step a c s x = some s') :
    s'.phase = .collect → ∀ v, s'.front v = true → s'.act v = 0 := by
  have h1 := h.off; have h2 := h.idle; have h3 := h.fresh; have h4 := h.todo
  have h5 := fun v hv (e : atEnd c s = true) => not_left hc e (v := v) hv
  have h6 := h.low
  clear h hc
  sync_cases hs
  all_goals grind [upd]

theorem todo_step (hc : c.Ok) (h : Inv c s) (hs : step a c s x = some s') :
    s'.phase = .visit → ∀ v, s'.front v = true → Left c s' v := by
  intro hp v hv
  have h1 := h.todo; have h3 := h.fresh; have h4 := h.low; have h5 := h.seq
  have h2 := fun t i v (e : (c.verts t)[i]? = some v) => (hc.mem t v).1 (get_mem e)
  have h6 := fun hv => left_all hc (v := v) hv (q := fun _ => 0) rfl
  clear h hc
  unfold Left at *
  revert hp hv
  sync_cases hs
  all_goals grind [upd]

theorem none_step (hc : c.Ok) (h : Inv c s) (hs : step a c s x = some s') : s'.phase = .stopped → ∀ v, s'.front v = false := by
  have h1 := h.none; have h4 := h.todo; have h6 := h.low
  have h5 := fun v hv (e : atEnd c s = true) => not_left hc e (v := v) hv
  clear h hc
  sync_cases hs
  all_goals grind [upd]

theorem left_step (hc : c.Ok) (h : Inv c s) (hs : step a c s x = some s') :
    s'.phase = .collect → ∀ v, v < c.n → s'.act v ≠ 0 → Left c s' v := by
  intro hp v hv ha
  have h1 := h.left; have h2 := h.idle
  have h3 := fun t i v (e : (c.verts t)[i]? = some v) => (hc.mem t v).1 (get_mem e)
  have h6 := fun hv => left_all hc (v := v) hv (q := fun _ => 0) rfl
  clear h hc
  unfold Left at *
  revert hp hv ha
  sync_cases hs
  all_goals grind [upd]

/-- Whether the task is about to put a notification. -/
def isPut : Task P M N E → Bool
  | .put .. => true
  | _ => false

theorem hot_iff : Hot c s ↔ ∃ u, u < c.T ∧ (s.sent u ≠ 0 ∨ isPut (s.task u) = true) := by
  unfold Hot
  refine exists_congr fun u => and_congr_right fun _ => or_congr_right ?_
  cases s.task u <;> simp [isPut]

theorem not_hot (h : atEnd c s = true) (h0 : activity c s = 0) : ¬ Hot c s := by
  rw [hot_iff]
  rintro ⟨u, hu, h1⟩
  have h2 := (atEnd_iff.1 h u hu).1
  rw [h2] at h1
  rcases h1 with h1 | h1
  · unfold activity at h0
    have : s.sent u ∈ (List.range c.T).map s.sent := List.mem_map.2 ⟨u, List.mem_range.2 hu, rfl⟩
    exact h1 (List.sum_eq_zero_iff_forall_eq_nat.1 h0 _ this)
  · cases h1

/-- While nothing is begun anew, activation in a loop stays visible. -/
theorem hot_keep (hs : step a c s x = some s') (hx : x ≠ .barrier) (h : Hot c s) : Hot c s' := by
  rw [hot_iff] at *
  obtain ⟨u, hu, h⟩ := h
  refine ⟨u, hu, ?_⟩
  sync_cases hs
  all_goals grind [upd, isPut, Async.Task.isIdle]

/-- Activation needs a put. -/
theorem act_hot (hs : step a c s x = some s') (hx : x ≠ .barrier) (v : Nat) (h : s'.act v ≠ 0) :
    s.act v ≠ 0 ∨ Hot c s' := by
  rw [hot_iff]
  by_cases h0 : s.act v = 0
  swap
  · exact Or.inl h0
  right
  cases x with
  | go t =>
    refine ⟨t, ?_⟩
    sync_cases hs
    all_goals grind [upd, isPut, Async.Task.isIdle]
  | init t v => exfalso; sync_cases hs; all_goals grind [upd]
  | scan t => exfalso; sync_cases hs; all_goals grind [upd]
  | barrier => exact absurd rfl hx

theorem left_keep (hc : c.Ok) (hs : step a c s x = some s') (hx : x ≠ .barrier) (v : Nat) (h : Left c s v) :
    Left c s' v ∨ (s.phase = .collect ∨ c.prev = false → s'.act v = 0) := by
  have h3 := fun t i v (e : (c.verts t)[i]? = some v) => (hc.mem t v).1 (get_mem e)
  clear hc
  unfold Left at *
  obtain ⟨j, h1, h2⟩ := h
  by_cases hj : s.pos (c.own v) = j
  · subst hj
    by_cases hx2 : x = .scan (c.own v)
    · right
      subst hx2
      sync_cases hs
      all_goals grind [upd]
    · left
      refine ⟨_, ?_, h2⟩
      sync_cases hs
      all_goals grind [upd]
  · left
    refine ⟨j, ?_, h2⟩
    sync_cases hs
    all_goals grind [upd]

theorem phase_keep (hs : step a c s x = some s') (hx : x ≠ .barrier) : s'.phase = s.phase := by
  sync_cases hs
  all_goals grind

theorem hot_step (hc : c.Ok) (h : Inv c s) (hs : step a c s x = some s') :
    s'.phase = .visit → ∀ v, v < c.n → s'.act v ≠ 0 → Hot c s' ∨ (c.prev = false ∧ Left c s' v) := by
  intro hp v hv ha
  by_cases hx : x = .barrier
  · subst hx
    have h2 := h.left
    have h6 := left_all hc hv (q := fun _ => 0) rfl
    have h5 := fun (e : atEnd c s = true) => not_left hc e hv
    have h7 := h.pha
    clear h hc
    unfold Left at *
    revert hp ha
    sync_cases hs
    all_goals grind [upd]
  · rw [phase_keep hs hx] at hp
    rcases act_hot hs hx v ha with h1 | h1
    · rcases h.hot hp v hv h1 with h2 | ⟨h2, h3⟩
      · exact Or.inl (hot_keep hs hx h2)
      · rcases left_keep hc hs hx v h3 with h4 | h4
        · exact Or.inr ⟨h2, h4⟩
        · exact absurd (h4 (Or.inr h2)) ha
    · exact Or.inl h1

theorem quiet_step (hc : c.Ok) (h : Inv c s) (hs : step a c s x = some s') :
    s'.phase = .stopped → (∀ v, v < c.n → s'.act v = 0) ∧ ∀ t, t < c.T → s'.task t = .idle := by
  by_cases hx : x = .barrier
  · subst hx
    have h1 := h.hot
    have h5 := fun v hv (e : atEnd c s = true) => not_left hc e (v := v) hv
    have h6 := @not_hot _ _ _ _ c s
    have h7 := @atEnd_iff _ _ _ _ c s
    clear h hc
    sync_cases hs
    all_goals grind
  · rw [phase_keep hs hx]
    intro hp
    obtain ⟨h1, h2⟩ := h.quiet hp
    clear h hc
    sync_cases hs
    all_goals grind

theorem inv_step (hu : ∀ v p es n i m, (a.onUpdate v p es n i m).2.Unique) (hc : c.Ok) (h : Inv c s)
    (hs : step a c s x = some s') : Inv c s' :=
  ⟨owner_step hc h hs, uniq_step hu h hs, act_step h hs, fresh_step h hs, seq_step h hs, pha_step h hs,
    idle_step h hs, off_step hc h hs, low_step hc h hs, apart_step hc h hs, todo_step hc h hs, none_step hc h hs,
    left_step hc h hs, hot_step hc h hs, quiet_step hc h hs⟩

theorem inv_start (es0 : Nat → List (Edge E)) : Inv c (start a es0) := by
  constructor <;> simp [start, about, Async.Task.Unique]

/-! ## Simulation -/

theorem abs_eq {s s' : St P M N E} {log : List Async.Note} (h1 : (abs a c s log).prop = (abs a c s' log).prop)
    (h2 : s.edges = s'.edges) (h3 : s.inbox = s'.inbox) (h4 : s.act = s'.act) (h5 : s.inited = s'.inited)
    (h6 : absTask a c s = absTask a c s') : abs a c s log = abs a c s' log := by
  simp only [abs, Async.St.mk.injEq] at h1 ⊢
  exact ⟨h1, h2, h3, h4, by rw [h4], h5, h6, trivial⟩

/-- An action of the simulating run: no topology change. -/
def Plain : Async.Act E → Prop
  | .add .. | .del .. => False
  | _ => True

/-- What a step corresponds to. -/
def Sims (a : Alg P M N E) (c : Cfg M) (s s' : St P M N E) (log : List Async.Note) : Prop :=
  ∃ xs log', (∀ x ∈ xs, Plain x ∧ x.below c.n = true) ∧
    Async.run a (absCfg c) (abs a c s log) xs = some (abs a c s' log')

theorem sims_none {log : List Async.Note} (h : abs a c s log = abs a c s' log) : Sims a c s s' log :=
  ⟨[], log, by simp, by rw [h]; rfl⟩

theorem sims_one {log log' : List Async.Note} {x : Async.Act E} (hx : Plain x ∧ x.below c.n = true)
    (h : Async.step a (absCfg c) (abs a c s log) x = some (abs a c s' log')) : Sims a c s s' log :=
  ⟨[x], log', by simpa using hx, by simp [Async.run, h]⟩

theorem sims_two {log log' : List Async.Note} {x y : Async.Act E} {s1 : Async.St P M N E}
    (hx : Plain x ∧ x.below c.n = true) (hy : Plain y ∧ y.below c.n = true)
    (h1 : Async.step a (absCfg c) (abs a c s log) x = some s1)
    (h2 : Async.step a (absCfg c) s1 y = some (abs a c s' log')) : Sims a c s s' log :=
  ⟨[x, y], log', by simp [hx, hy], by simp [Async.run, h1, h2]⟩

/-- The same, with at least `m` steps. -/
def SimsN (a : Alg P M N E) (c : Cfg M) (s s' : St P M N E) (log : List Async.Note) (m : Nat) : Prop :=
  ∃ xs log', (∀ x ∈ xs, Plain x ∧ x.below c.n = true) ∧
    Async.run a (absCfg c) (abs a c s log) xs = some (abs a c s' log') ∧ m ≤ xs.length

theorem Sims.simsN {log : List Async.Note} (h : Sims a c s s' log) : SimsN a c s s' log 0 := by
  obtain ⟨xs, log', h1, h2⟩ := h
  exact ⟨xs, log', h1, h2, Nat.zero_le _⟩

theorem SimsN.sims {log : List Async.Note} {m : Nat} (h : SimsN a c s s' log m) : Sims a c s s' log := by
  obtain ⟨xs, log', h1, h2, -⟩ := h
  exact ⟨xs, log', h1, h2⟩

/-- Every step of a callback counts, except that the put has been counted before. -/
def goes (s : St P M N E) (t : Nat) : Nat := if isPut (s.task t) = true then 0 else 1

theorem goes_le (t : Nat) : goes s t ≤ 1 := by unfold goes; split <;> omega

theorem simsN_one {log log' : List Async.Note} {t : Nat} {x : Async.Act E} (hx : Plain x ∧ x.below c.n = true)
    (h : Async.step a (absCfg c) (abs a c s log) x = some (abs a c s' log')) : SimsN a c s s' log (goes s t) :=
  ⟨[x], log', by simpa using hx, by simp [Async.run, h], by simpa using goes_le t⟩

theorem simsN_two {log log' : List Async.Note} {t : Nat} {x y : Async.Act E} {s1 : Async.St P M N E}
    (hx : Plain x ∧ x.below c.n = true) (hy : Plain y ∧ y.below c.n = true)
    (h1 : Async.step a (absCfg c) (abs a c s log) x = some s1)
    (h2 : Async.step a (absCfg c) s1 y = some (abs a c s' log')) : SimsN a c s s' log (goes s t) :=
  ⟨[x, y], log', by simp [hx, hy], by simp [Async.run, h1, h2], by have := goes_le (s := s) t; simp; omega⟩

theorem simsN_none {log : List Async.Note} {t : Nat} (hp : isPut (s.task t) = true) (h : abs a c s log = abs a c s' log) :
    SimsN a c s s' log (goes s t) :=
  ⟨[], log, by simp, by rw [h]; rfl, by simp [goes, hp]⟩

theorem sim_barrier (h : Inv c s) (hs : step a c s .barrier = some s') (log) : Sims a c s s' log := by
  refine sims_none (abs_eq ?_ ?_ ?_ ?_ ?_ ?_)
  all_goals (clear h; sync_cases hs; all_goals rfl)

/-- What the abstract task of the others is when the thread of `v` changes its task. -/
theorem absTask_upd {t v : Nat} {k k' : Task P M N E} (ht : s.task t = k) (hv : c.own v = t)
    (hk : ∀ u, u ≠ v → about u k = false) (hk' : ∀ u, u ≠ v → about u k' = false)
    {s' : St P M N E} (htask : s'.task = upd s.task t k') (hf : ∀ u, u ≠ v → s'.front u = s.front u)
    (hp : ∀ u, u ≠ v → s.front u = true → due a s' u = due a s u) {z : Task P M N E}
    (hz : absTask a c s' v = z) : absTask a c s' = upd (absTask a c s) v z := by
  funext u
  by_cases hu : u = v
  · subst hu; rw [upd_same]; exact hz
  · rw [upd_ne _ _ hu]
    unfold absTask
    have e1 : about u (s'.task (c.own u)) = about u (s.task (c.own u)) := by
      rw [htask]
      by_cases ho : c.own u = t
      · rw [ho, upd_same, ht, hk u hu, hk' u hu]
      · rw [upd_ne _ _ ho]
    rw [e1]
    split
    · next hab =>
      by_cases ho : c.own u = t
      · rw [ho, ht, hk u hu] at hab; cases hab
      · rw [htask, upd_ne _ _ ho]
    · rw [hf u hu]
      split
      · next hfr => rw [hp u hu hfr]
      · rfl

end

end Verif.Sync
