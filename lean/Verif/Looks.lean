import Verif.Util

/-!
# Looks at a growing topology queue, and the check that follows

The header of `Verif/Query.lean` says that a look at a topology queue which fails only because the queue
has grown does not lead to a vote. Here this is a machine of its own: one thread in its loop
(`run-dynamic.go:201-299`, `LogTimeseries` set), its topology queue as the ring it reads and the ring it has
not yet switched to (`GrowableRingBuff`, `ring-buffer.go:433-513`), the remitter that fills the queue, and the
first part of `CheckTermination` (`termination.go:34-47`). Nothing is assumed about an empty queue.

Simplifications: events are only counted; `Accept` is one step (with its two loads apart it can lose events
while the remitter is growing the queue, `C04_grow_race_loses_items`); counters are natural numbers; no
super-steps and no `BLOCK_TOP`; the queue is not closed (then see C48, C99); what the other threads have reported
is any number.
-/

namespace Verif.Looks

/-- `cur`, `nxt`: events in `deqEntries`, and in `enqEntries` if `isGrown`; `full`: the remitter is in `PutSlow`
(483) after a failed load of the position; `asked`: the remitter is in `ExecuteQuery` (`graph.go:208-214`);
`epoch`: as in the code; `check`: the thread is at 272 after a look with `topCount == 0`; `acts`: `MsgSend +
MsgRecv + EventActions`; `view`: its `TerminateView`; `others`: sum of the `TerminateData` of the others. -/
structure St where
  cur : Nat
  nxt : Option Nat
  full : Bool
  asked : Bool
  epoch : Bool
  check : Bool
  acts : Nat
  view : Nat
  others : Nat
  deriving DecidableEq, Repr

/-- `ring-buffer.go:391-402`, arrays zero. -/
def start : St :=
  { cur := 0, nxt := none, full := false, asked := false, epoch := false, check := false, acts := 0, view := 0, others := 0 }

/-- `put`, `stuck`, `grow`, `ask`: the remitter; `epoch`, `resume`: `LogTimeSeries` (`queries.go:77, 133-134`);
`take`, `miss`, `empty`, `work`, `back`, `check`: the thread; `report`: the other threads. -/
inductive Act where
  | put | stuck | unstuck | grow | ask
  | epoch | resume
  | take (k : Nat) (switch : Bool) | miss | empty | work (k : Nat) | back | check
  | report (n : Nat)
  deriving DecidableEq, Repr

/-- `CheckTermination` gets past the report of a changed view (`termination.go:43`). -/
def past (s : St) : Bool := decide (s.view = s.acts + s.others)

/-- One step; `ring`: events in a full ring; `none` if it is not possible now. -/
def step (ring : Nat) (s : St) : Act → Option St
  | .put =>
    -- ring-buffer.go:470-480; into the newest ring
    if s.asked ∨ s.full then none
    else match s.nxt with
      | none => some { s with cur := s.cur + 1 }
      | some n => some { s with nxt := some (n + 1) }
  | .stuck =>
    -- 475, 486: the slot is not free, `isGrown` is 0 (453)
    if s.asked ∨ s.full ∨ s.nxt ≠ none ∨ s.cur < ring then none else some { s with full := true }
  | .unstuck => if s.full then some { s with full := false, cur := s.cur + 1 } else none -- 486-490
  | .grow => if s.full then some { s with full := false, nxt := some 1 } else none -- 433-449, 491-494
  | .ask => if s.asked ∨ s.full then none else some { s with asked := true } -- stream.go:126-132
  | .epoch => if s.asked ∧ s.epoch = false ∧ s.check = false then some { s with epoch := true } else none -- run-dynamic.go:120-122
  | .resume =>
    -- queries.go:133-134; the thread is parked at 293
    if s.epoch ∧ s.check ∧ past s then
      some { s with view := 0, others := 0, epoch := false, check := false, asked := false }
    else none
  | .take k switch =>
    -- 205-232, 250-256: loops back; the `Accept` that ends the pulling may have switched rings
    if s.check = false ∧ 0 < k ∧ k ≤ s.cur then
      if switch then
        match s.nxt with
        | some n => if k = s.cur then some { s with cur := n, nxt := none, acts := s.acts + k } else none
        | none => none
      else some { s with cur := s.cur - k, acts := s.acts + k }
    else none
  | .miss =>
    -- ring-buffer.go:509-513
    if s.check = false ∧ s.cur = 0 then
      match s.nxt with
      | some n => some { s with cur := n, nxt := none, check := true }
      | none => none
    else none
  | .empty => if s.check = false ∧ s.cur = 0 ∧ s.nxt = none then some { s with check := true } else none
  | .work k => some { s with acts := s.acts + k }
  | .back => if s.check then some { s with check := false } else none -- notifications were processed, or no epoch
  | .check =>
    -- 276-279, termination.go:34-47; past 47 the vote is C35's
    if s.check ∧ s.epoch then some { s with view := s.acts + s.others, check := false } else none
  | .report n => some { s with others := s.others + n }

def run (ring : Nat) : St → List Act → Option St
  | s, [] => some s
  | s, x :: xs => (step ring s x).bind fun s' => run ring s' xs

end Verif.Looks
