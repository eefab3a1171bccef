import Verif.Props.Spsc
import Verif.Props.Mpsc
import Verif.Props.Growable

/-!
# C46, C47 — boundary capacities and the completely full queue

Both properties are violated by the code (`C03_capacity_one_false`,
`C46_growable_capacity_one_false`, `C05_unrestricted_false`); here is the part that holds.
-/

namespace Verif.Props.Capacity
open Verif

/-- C46, what holds: for every requested size `n` from 2 to 2^63 — the capacity is
`RoundUpPow n` — everything put into the multi-producer queue is deliverable.
Missing for the full property: `n = 1` (and `n = 0`, for which the capacity is 0). -/
theorem C46_mpsc_capacity_ge_two_partial {α : Type} (z : α) (n : UInt64) (hn : 2 ≤ n.toNat)
    (hmax : n.toNat ≤ 2 ^ 63) (sched : List (Mpsc.Act α)) (s : Mpsc.St α)
    (h : Mpsc.run (Mpsc.init z (RoundUp.roundUpPow n).toNat) sched = some s)
    (hp : ∀ t, s.ppc t = .idle) (hc : s.cpc = .idle)
    (e : Nat × α) (he : s.tickets[s.gotLog.length]? = some e) :
    ∃ s', Mpsc.run s [.accept, .cStep, .cStep, .cStep] = some s' ∧
      s'.gotLog = s.gotLog ++ [e.2] := by
  obtain ⟨k, hk⟩ := (Props.C08.C08_roundUpPow_least n (by omega) hmax).1
  have hge := (Props.C08.C08_roundUpPow_least n (by omega) hmax).2.1
  have hk1 : 1 ≤ k := by
    rcases k with _ | k
    · simp at hk; omega
    · omega
  rw [hk] at h
  obtain ⟨s', h1, h2, _⟩ := Props.Mpsc.C03_accept_succeeds z k hk1 sched s h hp hc e he
  exact ⟨s', h1, h2⟩

/-- C47, what holds: unless the queue is completely full (or larger than 2^64 slots), the space
check reports exactly one less than the number of free slots, so never too much.
Missing for the full property: the completely full queue. -/
theorem C47_not_full_partial {α : Type} (z : α) (k : Nat) (hk : 2 ^ k ≤ 2 ^ 64)
    (sched : List (Spsc.Act α)) (s : Spsc.St α)
    (h : Spsc.run (Spsc.init z (2 ^ k)) sched = some s)
    (hfull : s.putLog.length < s.gotLog.length + 2 ^ k) :
    (Spsc.enqCheckRange s).2 + 1 = 2 ^ k - (s.putLog.length - s.gotLog.length) := by
  have hi := Spsc.inv_run sched (Spsc.inv_init z k) h
  have hm := hi.mask
  have hle := hi.le
  have hlen : s.gotLog.length = s.dequeue := by
    rw [hi.got, List.length_take, hi.putLen]; omega
  rw [hlen, hi.putLen] at hfull
  rw [Spsc.enqCheckRange_val hi hk (by omega), hlen, hi.putLen]
  omega

example : ∃ s, Spsc.run (Spsc.init 0 (2 ^ 1)) ([.pOffer 4, .pStep, .pStep] : List (Spsc.Act Nat))
    = some s ∧ s.putLog.length < s.gotLog.length + 2 ^ 1 ∧ (Spsc.enqCheckRange s).2 = 0 :=
  ⟨_, rfl, by decide, by decide⟩

end Verif.Props.Capacity
