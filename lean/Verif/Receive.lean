import Verif.Deque

/-!
# Receiving notifications with back-pressure (`graph/run-async.go:106-148`)

The inbound queue is the list `q` of notifications still to be taken, in queue order (that
`Accept` returns them in that order is C03). Whether an `Accept` finds its item published yet is
up to the other threads: `vis` lists, for the `Accept` calls of this invocation in turn, whether
the item is visible (when `vis` runs out, nothing more is visible). The test of the queue length
(131) reads positions that other threads move, so its result is an input too.
-/

namespace Verif.Receive

open Verif.Deque

variable {N : Type}

/-- `MSG_MAX` (`graph.go:37`), also the length of `gt.Notifications` (`graph.go:151`). -/
def msgMax : Nat := 1024

/-- `NotificationQueue.Accept()`: item (if visible), rest of the queue, rest of the visibility. -/
def accept : List Bool → List N → Option N × List Bool × List N
  | true :: vis, x :: q => (some x, vis, q)
  | _ :: vis, q => (none, vis, q)
  | [], q => (none, [], q)

/-- First loop (112-119); `acc` is `gt.Notifications[:algCount]`, `room` is `MSG_MAX - algCount`. -/
def popLoop (z : N) : Nat → Dq N → List N → Option (Dq N × List N)
  | 0, d, acc => some (d, acc)
  | room + 1, d, acc =>
    match tryPopFront z d with
    | none => none
    | some (d', _, false) => some (d', acc)
    | some (d', x, true) => popLoop z room (updatePopFront d') (acc ++ [x])

/-- Second loop (123-129). -/
def acceptLoop : Nat → List Bool → List N → List N → List Bool × List N × List N
  | 0, vis, q, acc => (vis, q, acc)
  | room + 1, vis, q, acc =>
    match accept vis q with
    | (none, vis', q') => (vis', q', acc)
    | (some x, vis', q') => acceptLoop room vis' q' (acc ++ [x])

/-- Third loop (137-145): everything visible goes to the back of the deque. The bound is the
number of possible successful calls. -/
def drainLoop (z : N) : List Bool → List N → Dq N → Option (Dq N × List N)
  | true :: vis, x :: q, d => (fastSlowPushBack z d x).bind fun d' => drainLoop z vis q d'
  | _ :: _, q, d => some (d, q)
  | [], q, d => some (d, q)

/-- The state of the receiving thread: queue, deque. -/
structure St (N : Type) where
  q : List N
  dq : Dq N

/-- `ReceiveMessages` (109-148): called with `acc` already in `gt.Notifications`; `press` is the
outcome of the test at 131. Result: state and `gt.Notifications[:newAlgCount]`. -/
def receive (z : N) (s : St N) (acc : List N) (vis : List Bool) (press : Bool) : Option (St N × List N) :=
  let r1 := if s.dq.len ≠ 0 then popLoop z (msgMax - acc.length) s.dq acc else some (s.dq, acc)
  r1.bind fun (d, acc) =>
    let (vis, q, acc) := acceptLoop (msgMax - acc.length) vis s.q acc
    let r3 := if press then drainLoop z vis q d else some (d, q)
    r3.map fun (d, q) => (⟨q, d⟩, acc)

/-- The environment's choices for one iteration: items that arrived in the queue since the last
one, visibility, length test. -/
structure Env (N : Type) where
  arrive : List N
  vis : List Bool
  press : Bool

/-- Iterations of the loop of a graph thread (`ReceiveMessages` from `algCount = 0`, then
`ProcessMessages` of all of them, `run-async.go:152-161`): the notifications processed. -/
def iterate (z : N) : St N → List (Env N) → Option (St N × List (List N))
  | s, [] => some (s, [])
  | s, e :: es =>
    match receive z { s with q := s.q ++ e.arrive } [] e.vis e.press with
    | none => none
    | some (s', got) => (iterate z s' es).map fun p => (p.1, got :: p.2)

end Verif.Receive
