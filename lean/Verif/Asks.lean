import Verif.Loader

/-!
# When the remitter asks for a query

Source: `/repo/graph/stream.go` (`Remitter` 84-161, here 87-90, 120-133), `/repo/graph/graph-options.go` (28-29, 42, 101-104, 150-152).

The remitter is one goroutine: when it asks is a function of the events that it has passed on so far. What becomes of a
query is C42, C59 and C60; that the events passed on are those of the stream, in order, is C52. The timestamps are those of
the events passed on (`GetTimestamp`). Pacing (135-144) only sleeps (`Verif/Pace.lean`).
-/

namespace Verif.Asks

/-- `LogTimeseries`, `TimeseriesEdgeCount`, `TimeSeriesInterval` (`graph-options.go:28-29, 42`). -/
structure Opts where
  log : Bool
  byCount : Bool
  interval : UInt64

/-- `remitted`, `nextTarget`; `passed` and `asked` are ghosts: how many events have been passed on, and for each query how many
had been passed on, with the name of the query (the argument of `ExecuteQuery`). -/
structure St where
  remitted : UInt64
  next : UInt64
  passed : Nat
  asked : List (Nat × UInt64)
  deriving DecidableEq, Repr

/-- 87. -/
def start (o : Opts) : St := ⟨0, o.interval, 0, []⟩

/-- One turn of the loop (120-133): an event with timestamp `ts` has been passed on. -/
def pass (o : Opts) (s : St) (ts : UInt64) : St :=
  let s := { s with remitted := s.remitted + 1, passed := s.passed + 1 }
  if (o.log && o.byCount) && decide (s.next ≤ s.remitted) then
    { s with next := s.next + o.interval, asked := s.asked ++ [(s.passed, s.remitted)] }
  else if o.log && !o.byCount then
    if s.next ≤ ts then { s with next := ts + o.interval, asked := s.asked ++ [(s.passed, ts)] } else s
  else s

/-- The queries asked while events with these timestamps are passed on. -/
def asks (o : Opts) (tss : List UInt64) : List (Nat × UInt64) := (tss.foldl (pass o) (start o)).asked

end Verif.Asks
