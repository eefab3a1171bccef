import Mathlib.Algebra.Order.Floor.Ring
import Mathlib.Data.Rat.Floor

/-!
# The rate of a stream

Source: `/repo/graph/stream.go` (`REMITTER_MIN_SLEEP_TIME_NANO` 24, `Remitter` 84-161, here 88, 95, 120, 135-144),
`/repo/utils/helpers.go` (`Max` 52-57), `/repo/graph/graph-options.go` (`TargetRate` 39, 59, 147).

One turn of the loop of the remitter for each event. Times are in nanoseconds since the stopwatch was started (`graph.go:178`).
Floats are exact rationals; counts do not overflow. What the stopwatch shows may be less than the time that has gone by (it is
paused while the result is compared to the oracle), so the two readings of a turn are inputs. `time.Sleep(d)` takes `d` or longer.
-/

namespace Verif.Pace

/-- `REMITTER_MIN_SLEEP_TIME_NANO` (24). -/
def minSleep : Rat := 10000000

/-- `uint64(g.Watch.Elapsed().Seconds() * targetRate)` (136, 142) when the stopwatch shows `e` nanoseconds. -/
def due (rate : Rat) (e : Nat) : Nat := (⌊(e : Rat) / 1000000000 * rate⌋).toNat

/-- `utils.Max` (52-57). -/
def max' (x y : Rat) : Rat := if x < y then y else x

/-- 138-141: how long the remitter asks to sleep, in nanoseconds; `time.Nanosecond` is 1, `time.Duration` truncates. -/
def nap (rate : Rat) (remitted target : Nat) : Nat :=
  let extra := remitted - target
  let sleepTime := (extra : Rat) / rate * 1
  let sleepTime := max' minSleep sleepTime
  (⌊sleepTime⌋).toNat

/-- `remitted`, `targetEventCount`, and the time. -/
structure St where
  remitted : Nat
  target : Nat
  now : Nat
  deriving DecidableEq, Repr

/-- 95, and the implicit zero of `remitted`. -/
def start : St := ⟨0, 0, 0⟩

/-- What the world adds to a turn: how long the event and the query took, what the stopwatch showed at 136, how long the sleep
went on beyond what was asked for, and what the stopwatch showed at 142. -/
structure Turn where
  gap : Nat
  shown : Nat
  late : Nat
  shown' : Nat
  deriving DecidableEq, Repr

/-- The event is passed on (120). -/
def pass (s : St) (t : Turn) : St := { s with remitted := s.remitted + 1, now := s.now + t.gap }

/-- 135-144. -/
def pace (rate : Rat) (s : St) (t : Turn) : St :=
  if rate ≠ 0 ∧ s.remitted > s.target then
    let s := { s with target := due rate t.shown }
    if s.remitted > s.target then
      { s with target := due rate t.shown', now := s.now + nap rate s.remitted s.target + t.late }
    else s
  else s

/-- One turn of the loop. -/
def turn (rate : Rat) (s : St) (t : Turn) : St := pace rate (pass s t) t

/-- A run of the remitter. -/
def run (rate : Rat) (ts : List Turn) : St := ts.foldl (turn rate) start

end Verif.Pace
