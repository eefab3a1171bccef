import Verif.MpscLemmas

/-!
# C03 — the multi-producer single-consumer queue

`run (init z (2^k)) sched = some s` ranges over every interleaving of arbitrarily many producers
(numbered by `Nat`) and the consumer. `s.tickets` lists (producer, item) in the order in which
queue positions were taken; `s.gotLog` what the consumer's caller was handed; `callsOf t` the items
producer `t` passed to its put calls, `itemsOf t` the items of producer `t` among the pairs.
-/

namespace Verif.Props.Mpsc
open Verif Verif.Mpsc

variable {α : Type}

/-- C03 (delivery). For capacity at least 2, at every point of every interleaving the received
items are a prefix of the position-ordered (producer, item) list — nothing lost in the middle,
duplicated, reordered or overwritten — and, for each producer, its items in that list are an
in-order selection of the items it tried to put. -/
theorem C03_delivery (z : α) (k : Nat) (hk : 1 ≤ k) (sched : List (Act α))
    (s : St α) (h : run (init z (2 ^ k)) sched = some s) :
    s.gotLog <+: s.tickets.map Prod.snd ∧
    ∀ t, (itemsOf t s.tickets).Sublist (sched.flatMap (callsOf t)) := by
  have hi := inv_run hk sched (inv_init z k) h
  refine ⟨by rw [hi.got]; exact List.take_prefix _ _, fun t => ?_⟩
  have := (run_calls t sched h).1
  simp only [init, itemsOf, pend, List.filter_nil, List.map_nil, List.append_nil,
    List.nil_append] at this
  exact (List.sublist_append_left _ _).trans this

/-- C03 (no loss, per-producer order). With the blocking calls (`PutFastMP`/`PutSlowMP`), when
producer `t` is between calls, every item it ever put has a position, in its own call order. -/
theorem C03_blocking_put_never_drops (z : α) (k : Nat) (sched : List (Act α)) (s : St α)
    (hb : ∀ t x, Act.offer t x ∉ sched) (h : run (init z (2 ^ k)) sched = some s)
    (t : Nat) (hidle : s.ppc t = .idle) :
    itemsOf t s.tickets = sched.flatMap (callsOf t) := by
  have := (run_calls t sched h).2 hb (fun _ => rfl)
  simpa [init, itemsOf, pend, hidle] using this

/-- C03 (everything is deliverable). If all producers are between calls and the consumer is too, and
some item with a position has not been received, then an undisturbed `Accept` delivers the next one
within three steps. -/
theorem C03_accept_succeeds (z : α) (k : Nat) (hk : 1 ≤ k) (sched : List (Act α))
    (s : St α) (h : run (init z (2 ^ k)) sched = some s)
    (hp : ∀ t, s.ppc t = .idle) (hc : s.cpc = .idle)
    (e : Nat × α) (he : s.tickets[s.gotLog.length]? = some e) :
    ∃ s', run s [.accept, .cStep, .cStep, .cStep] = some s' ∧ s'.gotLog = s.gotLog ++ [e.2] ∧
      s'.cpc = .idle ∧ s'.ppc = s.ppc ∧ s'.tickets = s.tickets := by
  have hi := inv_run hk sched (inv_init z k) h
  have hd := hi.cIdle (Or.inl hc)
  have hlt : s.gotLog.length < s.enqueue := by
    rw [← hi.enq]; exact (List.getElem?_eq_some_iff.1 he).1
  have hpub : s.pub s.gotLog.length = true := by
    cases hb : s.pub s.gotLog.length with
    | true => rfl
    | false =>
      obtain ⟨t, x, hx⟩ := hi.unpub _ hlt hb
      rw [hp t] at hx; simp [holds] at hx
  have hpos : s.position (s.dequeue &&& s.mask) = s.dequeue + 1 := by
    rw [pub_of_load hi hd, hd]; exact hpub
  have hel : s.element (s.dequeue &&& s.mask) = e.2 := by
    have := hi.pubEl _ hpub (Nat.le_refl _)
    rw [he] at this
    rw [hd, hi.mask, and_mask]
    exact (Option.some.inj this).symm
  refine ⟨?w, ?a, ?b⟩
  rotate_left 1
  · simp only [run, act, hc, cStep, Option.bind_some, if_pos hpos, hel]
    rfl
  · simp

/-- The three facts combined: when all producers are between calls and the consumer has received as
many items as have positions, every producer's items were all received, in its order. -/
theorem C03_drained_means_complete (z : α) (k : Nat) (hk : 1 ≤ k) (sched : List (Act α))
    (s : St α) (hb : ∀ t x, Act.offer t x ∉ sched) (h : run (init z (2 ^ k)) sched = some s)
    (hp : ∀ t, s.ppc t = .idle) (hd : s.gotLog.length = s.tickets.length) :
    s.gotLog = s.tickets.map Prod.snd ∧
    ∀ t, itemsOf t s.tickets = sched.flatMap (callsOf t) := by
  refine ⟨?_, fun t => C03_blocking_put_never_drops z k sched s hb h t (hp t)⟩
  have := (C03_delivery z k hk sched s h).1
  exact this.eq_of_length (by simp [hd])

/-- Three producers on a capacity-2 queue; producer 3 must wait for the consumer. -/
def demo : List (Act Nat) :=
  [.put 1 11, .put 2 21, .pStep 2, .pStep 1, .put 3 31, .pStep 3, .pStep 1, .pStep 1, .pStep 2,
   .accept, .pStep 3, .putSlow 3, .pStep 3, .cStep, .pStep 2, .pStep 2, .pStep 1, .accept, .cStep,
   .cStep, .cStep, .pStep 3, .pStep 3, .pStep 3]

example : ∃ s, run (init 0 (2 ^ 1)) demo = some s ∧ s.gotLog = [21] ∧
    s.tickets = [(2, 21), (1, 11), (3, 31)] ∧ s.cpc = .idle ∧
    s.ppc 1 = .idle ∧ s.ppc 2 = .idle ∧ s.ppc 3 = .idle :=
  ⟨_, rfl, rfl, rfl, rfl, rfl, rfl, rfl⟩

/-- The full statement of C03 for *every* capacity `Init` accepts. -/
def C03_AllCapacities : Prop :=
  ∀ (α : Type) (z : α) (k : Nat) (sched : List (Act α)) (s : St α),
    run (init z (2 ^ k)) sched = some s → (∀ t, s.ppc t = .idle) → s.cpc = .idle →
    ∀ e, s.tickets[s.gotLog.length]? = some e →
    ∃ s', run s [.accept, .cStep, .cStep, .cStep] = some s' ∧ s'.gotLog = s.gotLog ++ [e.2]

/-- With capacity 1 the code is wrong: "filled by position p" and "free for position p+1" are the
same slot number, so the second put overwrites the first item and the consumer is stuck. -/
theorem C03_capacity_one_false : ¬ C03_AllCapacities := by
  intro h
  have hrun : run (init 0 (2 ^ 0))
      ([.put 1 11, .pStep 1, .pStep 1, .pStep 1, .pStep 1,
       .put 1 12, .pStep 1, .pStep 1, .pStep 1, .pStep 1] : List (Act Nat)) = some _ := rfl
  obtain ⟨s', h1, h2⟩ := h Nat 0 0 _ _ hrun (by
    intro t
    by_cases ht : t = 1
    · subst ht; rfl
    · simp [upd, ht, init]) rfl (1, 11) rfl
  exact absurd (show (none : Option (St Nat)) = some s' from h1) (by simp)

/-- The close race of C02 exists in this queue's `GetSlow` as well: the item put between the slot
load and the status load is not delivered although "closed" is reported. -/
theorem C02_mpsc_close_race :
    ∃ (sched : List (Act Nat)) (s : St Nat), run (init 0 (2 ^ 1)) sched = some s ∧
      s.cpc = .sawClosed ∧ s.gotLog ≠ s.tickets.map Prod.snd :=
  ⟨[.getFast, .cStep, .getSlow, .cStep, .put 0 7, .pStep 0, .pStep 0, .pStep 0, .pStep 0, .close,
    .cStep], _, rfl, rfl, by decide⟩

end Verif.Props.Mpsc
