import Verif.GrowableLemmas

/-!
# C04 — the growable single-producer single-consumer queue

`run z false (init z (2^k) m) sched = some s` ranges over every interleaving of the producer and
the consumer for every start capacity `2^k` and every growth limit `m`. `run z true` is the same
machine without the schedules in which a growth is announced between the two loads of one receive.
-/

namespace Verif.Props.Growable
open Verif Verif.Growable

variable {α : Type}

/-- C04 (safety; all interleavings, including the racy ones). What was received is a prefix of what
was put, across any number of growths; what was put is an in-order selection of what was tried. -/
theorem C04_fifo (z : α) (k m : Nat) (hk : 1 ≤ k) (sched : List (Act α)) (s : St α)
    (h : run z false (init z (2 ^ k) m) sched = some s) :
    s.gotLog <+: s.putLog ∧ s.putLog.Sublist (sched.flatMap attempts) := by
  have hi := inv_run hk z false sched (inv_init z k m) h
  refine ⟨hi.got, ?_⟩
  have := run_attempts z false sched h
  simp only [init, inflight, List.append_nil, List.nil_append] at this
  exact (List.sublist_append_left _ _).trans this

/-- C04 (no loss on the blocking path). With `PutFast`/`PutSlow` only, everything the producer
tried to put was put, except at most the item of the call still running. -/
theorem C04_blocking_put_never_drops (z : α) (k m : Nat) (hk : 1 ≤ k) (sched : List (Act α))
    (s : St α) (hb : ∀ x, Act.pOffer x ∉ sched)
    (h : run z false (init z (2 ^ k) m) sched = some s) :
    (s.ppc = .idle ∨ s.ppc = .closed → s.putLog = sched.flatMap attempts) ∧
    s.gotLog <+: sched.flatMap attempts := by
  have hr := run_blocking z false sched (s := init z (2 ^ k) m) (by simp [notOffering, init]) hb h
  simp only [init, inflight, List.append_nil, List.nil_append] at hr
  change s.putLog ++ inflight s = _ at hr
  constructor
  · intro hpc
    rw [← hr]
    rcases hpc with hpc | hpc <;> simp [inflight, hpc]
  · rw [← hr]
    exact (C04_fifo z k m hk sched s h).1.trans (List.prefix_append _ _)

/-- C04 (closing; all interleavings). When a blocking receive reports "closed", or `IsClosed`
returns true, the consumer has received everything that was ever put. -/
theorem C04_closed_is_final (z : α) (k m : Nat) (hk : 1 ≤ k) (sched : List (Act α)) (s : St α)
    (h : run z false (init z (2 ^ k) m) sched = some s)
    (hc : s.cpc = .sawClosed ∨ s.cpc = .icTrue) :
    s.gotLog = s.putLog ∧ s.ppc = .closed := by
  have hi := inv_run hk z false sched (inv_init z k m) h
  have hcok := hi.cok
  unfold COk at hcok
  have : s.gotLog.length = s.putLog.length ∧ s.status = true := by
    rcases hc with hc | hc <;> (rw [hc] at hcok; exact hcok)
  exact ⟨hi.got.eq_of_length this.1, (hi.pok.closed this.2).1⟩

/-- C04 (a full buffer grows). In every reachable state in which a blocking put is waiting, growths
remain and the last growth has been acknowledged, the put completes within five producer steps. -/
theorem C04_put_grows (z : α) (k m : Nat) (sched : List (Act α)) (s : St α)
    (_h : run z false (init z (2 ^ k) m) sched = some s) (x : α) (p : Nat)
    (hw : s.ppc = .mustSlow x p) (hm : s.maxGrow ≠ 0) (hg : s.isGrown = false) :
    ∃ n s', n ≤ 4 ∧ run z false s (.pPutSlow :: List.replicate n .pStep) = some s' ∧
      s'.putLog = s.putLog ++ [x] ∧ s'.ppc = .idle ∧ s'.gotLog = s.gotLog := by
  by_cases hpos : (s.bufs s.eb).pos p = p
  · refine ⟨3, ?w1, by omega, ?a1, ?b1⟩
    rotate_left 1
    · simp only [run, act, hw, pStep, Option.bind_some, List.replicate, if_pos hpos]
      rfl
    · simp
  · refine ⟨4, ?w2, by omega, ?a2, ?b2⟩
    rotate_left 1
    · simp only [run, act, hw, pStep, Option.bind_some, List.replicate, if_neg hpos, hg, hm,
        Bool.false_and, ne_eq, not_false_eq_true, if_true]
      rfl
    · simp

/-! ### Is everything that was put deliverable? -/

/-- The full statement: whenever the consumer is between calls and an item has been put and not
received, some continuation of the run lets the consumer receive one more item. -/
def C04_Deliverable : Prop :=
  ∀ (α : Type) (z : α) (k m : Nat) (sched : List (Act α)) (s : St α), 1 ≤ k →
    run z false (init z (2 ^ k) m) sched = some s → s.cpc = .idle →
    s.gotLog.length < s.putLog.length →
    ∃ more s', run z false s more = some s' ∧ s.gotLog.length < s'.gotLog.length

/-- The witness: the consumer loads the slot and finds it empty; before it loads `isGrown` the
producer puts 1 and 2 (buffer full) and 3 (buffer grows, flag set); the consumer then switches to
the new buffer, leaving 1 and 2 in the old one. -/
def growRace : List (Act Nat) :=
  [.cAccept, .cStep,
   .pPutFast 1, .pStep, .pStep, .pStep, .pPutFast 2, .pStep, .pStep, .pStep,
   .pPutFast 3, .pStep, .pPutSlow, .pStep, .pStep, .pStep, .pStep,
   .cStep, .cStep, .cStep]

/-- The state after `growRace`: three items put, none received, consumer idle, and the consumer
will never receive anything again, whatever anyone does. -/
theorem C04_grow_race_loses_items :
    ∃ s, run 0 false (init 0 (2 ^ 1) 1) growRace = some s ∧ s.putLog = [1, 2, 3] ∧
      s.gotLog = [] ∧ s.cpc = .idle ∧ s.ppc = .idle ∧
      ∀ more s', run 0 false s more = some s' → s'.gotLog = [] := by
  have hobs : (run 0 false (init 0 (2 ^ 1) 1) growRace).map
      (fun s => (s.putLog, s.gotLog, s.cpc, s.ppc, s.start s.db)) =
      some ([1, 2, 3], [], .idle, .idle, 2) := by decide +kernel
  obtain ⟨s, hs, ho⟩ := Option.map_eq_some_iff.1 hobs
  simp only [Prod.mk.injEq] at ho
  obtain ⟨h1, h2, h3, h4, h5⟩ := ho
  refine ⟨s, hs, h1, h2, h3, h4, ?_⟩
  intro more s' hr
  rw [← h2]
  exact stuck_run (Nat.le_refl 1) 0 false more
    (inv_run (Nat.le_refl 1) 0 false growRace (inv_init 0 1 1) hs)
    (show s.gotLog.length < s.start s.db by rw [h5, h2]; simp) hr

theorem C04_deliverable_false : ¬ C04_Deliverable := by
  intro h
  obtain ⟨s, h1, h2, h3, h4, _, h5⟩ := C04_grow_race_loses_items
  obtain ⟨more, s', h6, h7⟩ := h Nat 0 1 1 growRace s (Nat.le_refl 1) h1 h4 (by rw [h2, h3]; decide)
  rw [h5 more s' h6] at h7
  simp at h7

/-- C04 (delivery), what does hold: in every run in which no growth is announced between the
consumer's slot load and its next load of the growth flag, every put item is deliverable: two
undisturbed `Accept` calls (the first may only switch buffers) hand out exactly the oldest item
not yet received. Missing for the full property: the schedules of `C04_grow_race_loses_items`. -/
theorem C04_deliverable_partial (z : α) (k m : Nat) (hk : 1 ≤ k) (sched : List (Act α)) (s : St α)
    (h : run z true (init z (2 ^ k) m) sched = some s) (hidle : s.cpc = .idle)
    (x : α) (hx : s.putLog[s.gotLog.length]? = some x) :
    (∃ s', run z true s [.cAccept, .cStep, .cStep, .cStep] = some s' ∧
      s'.gotLog = s.gotLog ++ [x] ∧ s'.putLog = s.putLog ∧ s'.cpc = .idle) ∨
    (∃ s', run z true s [.cAccept, .cStep, .cStep, .cStep, .cStep,
        .cAccept, .cStep, .cStep, .cStep] = some s' ∧
      s'.gotLog = s.gotLog ++ [x] ∧ s'.putLog = s.putLog ∧ s'.cpc = .idle) := by
  have hi := inv_run hk z true sched (inv_init z k m) h
  have hl := live_run hk z sched (inv_init z k m) (live_init z k m) h
  have hcok := hi.cok
  unfold COk at hcok
  rw [hidle] at hcok
  simp only at hcok
  have hlive := hl.live
  have hlt : s.gotLog.length < s.putLog.length := (List.getElem?_eq_some_iff.1 hx).1
  have hw := hi.winC hi.logE_eq
  have hlo : lo s s.db = s.gotLog.length := by unfold lo; omega
  rw [hlo] at hw
  by_cases hd : s.gotLog.length < uD s
  · left
    obtain ⟨h1, h2⟩ := hw.filled _ (Nat.le_refl _) hd
    rw [hx] at h2
    have hpos : (s.bufs s.db).pos s.dequeue = s.dequeue + 1 := by rw [hw.pos_eq, hcok]; exact h1
    have hel : (s.bufs s.db).element (s.dequeue &&& (s.bufs s.db).mask) = x := by
      rw [hw.mask, and_mask, hcok]; exact (Option.some.inj h2).symm
    refine ⟨?w1, ?a1, ?b1⟩
    rotate_left 1
    · simp only [run, act, hidle, cStep, Option.bind_some, if_pos hpos, hel]
      rfl
    · simp
  · right
    have hle := hw.le
    have hne : s.db ≠ s.eb := by
      intro he; simp only [uD, if_pos he] at hd; omega
    simp only [uD, if_neg hne] at hd hw hle
    have hg : s.isGrown = true := by
      cases hg : s.isGrown with
      | true => rfl
      | false =>
        rcases hi.flagF hg with h1 | ⟨y, q, h1⟩
        · exact absurd h1 hne
        · have hp := hi.pok
          unfold POk at hp
          rw [h1] at hp
          simp only at hp
          omega
    have hnp : ∀ y q, s.ppc ≠ .setGrown y q := by
      intro y q hq
      have hp := hi.pok
      unfold POk at hp
      rw [hq] at hp
      simp only [hg] at hp
      simp at hp
    have hwE := hi.winE
    rw [logE_of hnp] at hwE
    have hloE : lo s s.eb = s.gotLog.length := by unfold lo; omega
    rw [hloE] at hwE
    obtain ⟨h1, h2⟩ := hwE.filled _ (Nat.le_refl _) hlt
    rw [hx] at h2
    have hnpos : ¬ (s.bufs s.db).pos s.dequeue = s.dequeue + 1 := by
      intro hc
      rw [hcok] at hc
      have := (hw.ready (by omega) (Nat.le_refl _) hc).2
      omega
    have hpos : (s.bufs s.eb).pos s.dequeue = s.dequeue + 1 := by rw [hwE.pos_eq, hcok]; exact h1
    have hel : (s.bufs s.eb).element (s.dequeue &&& (s.bufs s.eb).mask) = x := by
      rw [hwE.mask, and_mask, hcok]; exact (Option.some.inj h2).symm
    refine ⟨?w2, ?a2, ?b2⟩
    rotate_left 1
    · simp only [run, act, hidle, cStep, Option.bind_some, if_neg hnpos, hg, afterFail,
        if_pos hpos, hel, if_true]
      rfl
    · simp

/-- A run meeting the hypotheses: the queue (capacity 2) grows while one item is in it; the
consumer then drains the old buffer, switches, and reads from the new one. -/
def demo : List (Act Nat) :=
  [.pPutFast 1, .pStep, .pStep, .pStep, .pPutFast 2, .pStep, .pStep, .pStep,
   .pPutFast 3, .pStep, .cAccept, .pPutSlow, .pStep, .pStep, .pStep, .pStep,
   .cStep, .cStep, .cStep, .cAccept, .cStep, .cStep, .cStep]

example : (run 0 true (init 0 (2 ^ 1) 1) demo).map
    (fun s => (s.gotLog, s.putLog, s.eb, s.db, s.cpc)) =
    some ([1, 2], [1, 2, 3], 1, 0, .idle) := by decide +kernel

/-- A run that grows, delivers everything and sees the queue closed. -/
example : (run 0 false (init 0 (2 ^ 1) 1) (demo ++
    [.cGetFast, .cStep, .cStep, .cStep, .cStep, .cGetSlow, .cStep, .cStep, .cStep, .pClose,
     .cGetFast, .cStep, .cStep, .cGetSlow, .cStep, .cStep, .cStep, .cStep, .cStep])).map (fun s => (s.cpc, s.gotLog)) =
    some (.sawClosed, [1, 2, 3]) := by decide +kernel

set_option synthInstance.maxSize 1024 in
/-- C46 for this queue: the hypothesis `1 ≤ k` (capacity at least 2) is needed. With capacity 1
a put overwrites the item before it and the consumer never gets either. -/
theorem C46_growable_capacity_one_false :
    ∃ (sched : List (Act Nat)) (s : St Nat), run 0 false (init 0 (2 ^ 0) 0) sched = some s ∧
      s.putLog = [1, 2] ∧ s.gotLog = [] ∧ s.cpc = .idle ∧ s.ppc = .idle ∧
      ∃ s', run 0 false s [.cAccept, .cStep, .cStep] = some s' ∧ s'.cpc = .idle ∧
        s'.gotLog = [] := by
  have hobs : (run 0 false (init 0 (2 ^ 0) 0)
      ([.pPutFast 1, .pStep, .pStep, .pStep, .pPutFast 2, .pStep, .pStep, .pStep] :
        List (Act Nat))).map
      (fun s => (s.putLog, s.gotLog, s.cpc, s.ppc,
        (run 0 false s [.cAccept, .cStep, .cStep]).map (fun s' => (s'.cpc, s'.gotLog)))) =
      some ([1, 2], [], .idle, .idle, some (.idle, [])) := by decide +kernel
  obtain ⟨s, hs, ho⟩ := Option.map_eq_some_iff.1 hobs
  simp only [Prod.mk.injEq] at ho
  obtain ⟨h1, h2, h3, h4, h5⟩ := ho
  obtain ⟨s', hs', ho'⟩ := Option.map_eq_some_iff.1 h5
  simp only [Prod.mk.injEq] at ho'
  exact ⟨_, s, hs, h1, h2, h3, h4, s', hs', ho'.1, ho'.2⟩

end Verif.Props.Growable
