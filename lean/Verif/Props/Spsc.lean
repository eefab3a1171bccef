import Verif.SpscLemmas
import Verif.Props.RoundUp

/-!
# C01, C02, C05 — the single-producer single-consumer queue

`run (init z (2^k)) sched = some s` ranges over *every* interleaving `sched` of atomic steps of
the producer and the consumer, for every capacity `2^k` (what `Init` produces, see C08).
`attempts` lists the items given to `Offer`/`PutFast` calls in call order; `putLog` the items
whose put took effect; `gotLog` the items handed to the consumer's caller.
-/

namespace Verif.Props.Spsc
open Verif.Spsc

variable {α : Type}

/-- C01 (safety). At every point of every interleaving: what was received is a prefix of what was
put; at most `2^k` items are in between; and what was put is an in-order selection of what the
producer tried to put. -/
theorem C01_fifo (z : α) (k : Nat) (sched : List (Act α)) (s : St α)
    (h : run (init z (2 ^ k)) sched = some s) :
    s.gotLog <+: s.putLog ∧ s.putLog.length ≤ s.gotLog.length + 2 ^ k ∧
    s.putLog.Sublist (sched.flatMap attempts) := by
  have hi := inv_run sched (inv_init z k) h
  refine ⟨?_, ?_, ?_⟩
  · rw [hi.got]; exact List.take_prefix _ _
  · have := hi.cap
    have := hi.le
    rw [hi.got, List.length_take, hi.putLen]; omega
  · have := run_attempts sched h
    simp only [init, inflight, List.append_nil, List.nil_append] at this
    exact (List.sublist_append_left _ _).trans this

/-- C01 (no loss on the blocking path). If the producer only uses `PutFast`/`PutSlow`, every item
it ever tried to put has been put, except at most the one whose call is still running; so
received items are a prefix of the attempted items themselves. -/
theorem C01_blocking_put_never_drops (z : α) (k : Nat) (sched : List (Act α)) (s : St α)
    (hb : ∀ x, Act.pOffer x ∉ sched) (h : run (init z (2 ^ k)) sched = some s) :
    (s.ppc = .idle ∨ s.ppc = .closed → s.putLog = sched.flatMap attempts) ∧
    s.gotLog <+: sched.flatMap attempts ∧
    ∃ rest, sched.flatMap attempts = s.putLog ++ rest ∧ rest.length ≤ 1 := by
  have hr := run_blocking sched (s := init z (2 ^ k)) (by simp [notOffering, init]) hb h
  simp only [init, inflight, List.append_nil, List.nil_append] at hr
  change s.putLog ++ inflight s = _ at hr
  refine ⟨?_, ?_, ⟨inflight s, hr.symm, ?_⟩⟩
  · intro hpc
    rw [← hr]
    rcases hpc with hpc | hpc <;> simp [inflight, hpc]
  · rw [← hr]
    exact (C01_fifo z k sched s h).1.trans (List.prefix_append _ _)
  · unfold inflight; split <;> simp

/-- C01 (receive succeeds). In every reachable state in which the consumer is between calls and
something put has not been received, an undisturbed `Accept` hands out exactly the oldest such
item, within three steps. -/
theorem C01_accept_succeeds (z : α) (k : Nat) (sched : List (Act α)) (s : St α)
    (h : run (init z (2 ^ k)) sched = some s) (hidle : s.cpc = .idle)
    (x : α) (hx : s.putLog[s.gotLog.length]? = some x) :
    ∃ n s', n ≤ 3 ∧ run s (.cAccept :: List.replicate n .cStep) = some s' ∧
      s'.gotLog = s.gotLog ++ [x] ∧ s'.putLog = s.putLog ∧ s'.cpc = .idle := by
  have hi := inv_run sched (inv_init z k) h
  have hlen : s.gotLog.length = s.dequeue := by
    have := hi.le
    rw [hi.got, List.length_take, hi.putLen]; omega
  have hlt : s.dequeue < s.enqueue := by
    rw [← hlen, ← hi.putLen]
    exact (List.getElem?_eq_some_iff.1 hx).1
  have hval : s.entries (s.dequeue &&& s.mask) = x := by
    rw [hi.mask, and_mask]
    have := hi.slots s.dequeue (Nat.le_refl _) hlt
    rw [hlen, this] at hx
    exact Option.some.inj hx
  by_cases hc : s.dequeue ≥ s.deqEnqCache
  · refine ⟨3, ?w1, by omega, ?a1, ?b1⟩
    rotate_left 1
    · simp only [run, act, hidle, cEnter, if_pos hc, Option.bind_some, List.replicate, cStep,
        if_pos hlt, hval]
      rfl
    · simp
  · refine ⟨2, ?w2, by omega, ?a2, ?b2⟩
    rotate_left 1
    · simp only [run, act, hidle, cEnter, if_neg hc, Option.bind_some, List.replicate, cStep, hval]
      rfl
    · simp

/-- C01 (receive on empty reports empty). -/
theorem C01_accept_empty (z : α) (k : Nat) (sched : List (Act α)) (s : St α)
    (h : run (init z (2 ^ k)) sched = some s) (hidle : s.cpc = .idle)
    (he : s.gotLog.length = s.putLog.length) :
    ∃ s', run s [.cAccept, .cStep] = some s' ∧ s'.gotLog = s.gotLog ∧ s'.cpc = .idle := by
  have hi := inv_run sched (inv_init z k) h
  have hlen : s.gotLog.length = s.dequeue := by
    have := hi.le
    rw [hi.got, List.length_take, hi.putLen]; omega
  have heq : s.dequeue = s.enqueue := by rw [← hlen, he, hi.putLen]
  have hc : s.dequeue ≥ s.deqEnqCache := by have := hi.cacheE; omega
  have hn : ¬ s.dequeue < s.enqueue := by omega
  refine ⟨?w3, ?a3, ?b3⟩
  rotate_left 1
  · simp only [run, act, hidle, cEnter, if_pos hc, Option.bind_some, cStep, if_neg hn]
    rfl
  · simp

/-- C01 (offer succeeds when there is room). In every reachable state with the producer between
calls and fewer than `2^k` items in the queue, an undisturbed `Offer` puts the item; with `2^k`
items it reports failure and changes nothing. -/
theorem C01_offer_iff_room (z : α) (k : Nat) (sched : List (Act α)) (s : St α)
    (h : run (init z (2 ^ k)) sched = some s) (hidle : s.ppc = .idle) (x : α) :
    ∃ n s', n ≤ 3 ∧ run s (.pOffer x :: List.replicate n .pStep) = some s' ∧ s'.ppc = .idle ∧
      s'.gotLog = s.gotLog ∧
      s'.putLog = (if s.putLog.length < s.gotLog.length + 2 ^ k then s.putLog ++ [x]
        else s.putLog) := by
  have hi := inv_run sched (inv_init z k) h
  have hp : 0 < 2 ^ k := Nat.two_pow_pos k
  have hm := hi.mask
  have hlen : s.gotLog.length = s.dequeue := by
    have := hi.le
    rw [hi.got, List.length_take, hi.putLen]; omega
  rw [hlen, hi.putLen]
  have hcD := hi.cacheD
  by_cases hc : s.enqueue > s.enqDeqCache + s.mask
  · by_cases hr : s.enqueue ≤ s.dequeue + s.mask
    · refine ⟨3, ?w4, by omega, ?a4, ?b4⟩
      rotate_left 1
      · simp only [run, act, hidle, pEnter, if_pos hc, Option.bind_some, List.replicate, pStep,
          if_pos hr]
        rfl
      · simp only [true_and]; rw [if_pos (by omega)]
    · refine ⟨1, ?w5, by omega, ?a5, ?b5⟩
      rotate_left 1
      · simp only [run, act, hidle, pEnter, if_pos hc, Option.bind_some, List.replicate, pStep,
          if_neg hr]
        rfl
      · simp only [true_and]; rw [if_neg (by omega)]
  · refine ⟨2, ?w6, by omega, ?a6, ?b6⟩
    rotate_left 1
    · simp only [run, act, hidle, pEnter, if_neg hc, Option.bind_some, List.replicate, pStep]
      rfl
    · simp only [true_and]; rw [if_pos (by omega)]

/-- A concrete interleaving of a capacity-2 queue meeting the hypotheses: the producer fills the
queue, blocks in `PutSlow`, the consumer takes one item in the middle, the producer finishes. -/
def demo : List (Act Nat) :=
  [.pPutFast 10, .pStep, .cAccept, .pStep, .pPutFast 11, .cStep, .pStep, .pStep,
   .pPutFast 12, .pStep, .pPutSlow, .pStep, .cStep, .cStep, .pStep, .pStep, .pStep]

example : ∃ s, run (init 0 (2 ^ 1)) demo = some s ∧ s.gotLog = [10] ∧ s.putLog = [10, 11, 12] ∧
    s.ppc = .idle ∧ s.cpc = .idle ∧ (∀ x, Act.pOffer x ∉ demo) := by
  refine ⟨_, rfl, rfl, rfl, rfl, rfl, by simp [demo]⟩

/-! ## C02 -/

/-- The full statement of C02: a consumer that was told "closed" has everything. -/
def C02_Statement : Prop :=
  ∀ (α : Type) (z : α) (k : Nat) (sched : List (Act α)) (s : St α),
    run (init z (2 ^ k)) sched = some s → s.cpc = .sawClosed → s.gotLog = s.putLog

/-- The witness: `GetSlow` finds the queue empty; before it loads `status` the producer puts item
7 and closes; `GetSlow` then reports closed and item 7 is never delivered. -/
def closeRace : List (Act Nat) :=
  [.cGetFast, .cStep, .cGetSlow, .cStep, .pPutFast 7, .pStep, .pStep, .pClose, .cStep]

/-- C02 is violated by the code. -/
theorem C02_statement_false : ¬ C02_Statement := by
  intro h
  have := h Nat 0 1 closeRace _ rfl rfl
  exact absurd this (by decide)

/-- C02, what does hold: if the consumer's decisive emptiness test starts after `Close` took effect
(i.e. at the moment of `Close` it was not already past that test), "closed" is truthful.
Missing for the full property: the schedules of `C02_statement_false`, i.e. `Close` landing
between the two loads of one `GetSlow` iteration. -/
theorem C02_closed_is_final_partial (z : α) (k : Nat) (before after : List (Act α))
    (m s : St α) (h1 : run (init z (2 ^ k)) before = some m)
    (hclosed : m.ppc = .closed) (hc : m.cpc ≠ .status) (hc' : m.cpc ≠ .sawClosed)
    (h2 : run m after = some s) (hs : s.cpc = .sawClosed) :
    s.gotLog = s.putLog := by
  have hi := inv_run before (inv_init z k) h1
  have key : ∀ (sched : List (Act α)) (m : St α), Inv k m → m.ppc = .closed →
      (m.cpc = .status ∨ m.cpc = .sawClosed → m.dequeue = m.enqueue) →
      run m sched = some s → s.gotLog = s.putLog := by
    intro sched
    induction sched with
    | nil =>
      intro m hi _ hq hr
      obtain rfl := Option.some.inj hr
      rw [hi.got, hq (Or.inr hs), ← hi.putLen, List.take_length]
    | cons a as ih =>
      intro m hi hp hq hr
      simp only [run] at hr
      cases ha : act m a with
      | none => rw [ha] at hr; simp at hr
      | some m1 =>
        rw [ha] at hr
        have hi1 := inv_act a hi ha
        have hp1 : m1.ppc = .closed ∧ m1.enqueue = m.enqueue := by
          cases a with
          | cAccept | cGetFast | cGetSlow | cStep =>
            obtain ⟨h1, h2, _, _⟩ := cons_frame (by simp) ha
            exact ⟨by rw [h2, hp], h1⟩
          | _ => simp [act, pStep, hp] at ha
        refine ih m1 hi1 hp1.1 ?_ hr
        have hle := hi.le
        cases a with
        | cStep =>
          simp only [act, cStep] at ha
          split at ha
          · split at ha
            · obtain rfl := Option.some.inj ha; simp
            · split at ha <;> (obtain rfl := Option.some.inj ha; simp)
          · split at ha <;> (obtain rfl := Option.some.inj ha)
            · simp
            · intro _; simp only; omega
          · split at ha <;> (obtain rfl := Option.some.inj ha)
            · intro _; exact hq (Or.inl (by assumption))
            · simp
          · obtain rfl := Option.some.inj ha; simp
          · obtain rfl := Option.some.inj ha; simp
          all_goals simp at ha
        | cAccept | cGetFast =>
          simp only [act] at ha
          split at ha
          · obtain rfl := Option.some.inj ha
            unfold cEnter; split <;> simp
          · simp at ha
        | cGetSlow =>
          simp only [act] at ha
          split at ha
          · obtain rfl := Option.some.inj ha; simp
          · simp at ha
        | _ => simp [act, pStep, hp] at ha
  exact key after m hi hclosed (by simp [hc, hc']) h2

/-- The hypotheses of the partial theorem are met by a run that delivers an item and then sees
the queue closed. -/
example : ∃ m s, run (init 0 (2 ^ 1)) [.pPutFast 7, .pStep, .pStep, .pClose] = some m ∧
    m.ppc = .closed ∧ m.cpc ≠ .status ∧ m.cpc ≠ .sawClosed ∧
    run m [.cAccept, .cStep, .cStep, .cStep, .cGetFast, .cStep, .cGetSlow, .cStep, .cStep]
      = some s ∧ s.cpc = .sawClosed ∧ s.gotLog = [7] :=
  ⟨_, _, rfl, rfl, by simp [init, pEnter], by simp [init, pEnter], rfl, rfl, rfl⟩

/-! ## C05 -/

/-- C05 (promise). In the remit protocol (space check, then at most that many offers, repeated for
ever, against any consumer): no offer ever fails. Every item offered is in the queue's put log,
except the one whose `Offer` call is still running. -/
theorem C05_remit_offers_never_fail (z : α) (k : Nat) (hk : 2 ^ k ≤ 2 ^ 64)
    (sched : List (RAct α)) (r : Remit α)
    (h : rrun { q := init z (2 ^ k), budget := 0 } sched = some r) :
    (r.q.ppc = .idle → r.q.putLog = sched.flatMap rattempt) ∧
    r.q.gotLog <+: sched.flatMap rattempt := by
  have h0 : RInv k ({ q := init z (2 ^ k), budget := 0 } : Remit α) :=
    ⟨inv_init z k, by simp [init, inflight]⟩
  obtain ⟨h1, h2⟩ := rrun_inv hk sched h0 h
  simp only [init, inflight, List.append_nil, List.nil_append] at h2
  change r.q.putLog ++ inflight r.q = _ at h2
  constructor
  · intro hpc; rw [← h2]; simp [inflight, hpc]
  · rw [← h2, h1.inv.got]
    exact (List.take_prefix _ _).trans (List.prefix_append _ _)

/-- C05 (the number reported). In the remit protocol the reported room is exactly
`capacity - 1 - (items in the queue)`: it never wraps around. -/
theorem C05_space_check_exact (z : α) (k : Nat) (hk : 2 ^ k ≤ 2 ^ 64)
    (sched : List (RAct α)) (r : Remit α)
    (h : rrun { q := init z (2 ^ k), budget := 0 } sched = some r) :
    (enqCheckRange r.q).2 + (r.q.putLog.length - r.q.gotLog.length) = 2 ^ k - 1 := by
  have h0 : RInv k ({ q := init z (2 ^ k), budget := 0 } : Remit α) :=
    ⟨inv_init z k, by simp [init, inflight]⟩
  obtain ⟨h1, _⟩ := rrun_inv hk sched h0 h
  have hroom := h1.room
  have hi := h1.inv
  have hle := hi.le
  have hm := hi.mask
  rw [enqCheckRange_val hi hk (by omega), hi.got, List.length_take, hi.putLen]
  omega

example : ∃ r, rrun ({ q := init 0 (2 ^ 2), budget := 0 } : Remit Nat)
    [.check, .offer 5, .pStep, .cAccept, .pStep, .offer 6, .cStep, .pStep, .cStep, .pStep, .cStep]
      = some r ∧ r.budget = 1 ∧ r.q.putLog = [5, 6] ∧ r.q.gotLog = [5] :=
  ⟨_, rfl, rfl, rfl, rfl⟩

/-- The unrestricted statement of C05: whatever the state of the queue, a space check promises that
many successful offers. Here: the reported number never exceeds the free slots. -/
def C05_Unrestricted : Prop :=
  ∀ (α : Type) (z : α) (k : Nat) (sched : List (Act α)) (s : St α), 2 ^ k ≤ 2 ^ 64 →
    run (init z (2 ^ k)) sched = some s →
      (enqCheckRange s).2 ≤ 2 ^ k - (s.putLog.length - s.gotLog.length)

/-- It is false: `Offer`/`PutFast` may fill the queue completely (one more item than the space
check assumes), and then the unsigned subtraction wraps and reports 2^64 - 1 free slots. -/
theorem C05_unrestricted_false : ¬ C05_Unrestricted := by
  intro h
  have := h Nat 0 0 [.pOffer 1, .pStep, .pStep] _ (by decide) rfl
  exact absurd this (by decide)

end Verif.Props.Spsc
