import Verif.Query
import Verif.Watch

/-!
# The timers of a run with queries

The two stopwatches of a graph (`Watch`, `AlgTimer`, `graph.go:57-58`) during a dynamic run with a time series:
`Run` (`algorithm.go:104-125`), `LogTimeSeries` (`queries.go:47-145`) and `CompareToOracle`
(`oracle-compare.go:15-20`, 157-160, called at `queries.go:127` and `algorithm.go:218`). The rest of the run is the
machine of `Verif/Query.lean`; the stopwatch is that of `Verif/Watch.lean`.

Each step happens at a reading of the clock, given with it. A call that panics sets `fault`.

Simplifications:
* Calls that follow each other directly are made at the same reading.
* The run is looked at from `g.AlgTimer.Start()` (104) on. No query is asked before: an event reaches the remitter
  only through a graph thread (`run-dynamic.go:176`), and these are started later (`run-dynamic.go:366`).
* `Elapsed` of other goroutines (event rate, pacing, latency) changes nothing and is left out.
-/

namespace Verif.Timers

open Verif.Watch (Watch)

/-- The options that matter (`graph-options.go:30-34`), and the stream as in `Query.Cfg`. -/
structure Opts where
  T : Nat
  len : Nat
  own : Nat → Nat
  noConverge : Bool
  allowAsync : Bool
  includeQuery : Bool
  oracle : Bool
  mustFinish : Bool

/-- `queries.go:68-79`. -/
def Opts.cfg (o : Opts) : Query.Cfg :=
  { T := o.T, len := o.len, own := o.own, mustFinish := o.mustFinish,
    mode := if o.noConverge then (if o.allowAsync then .blockTop else .blockAll) else .epoch }

/-- Where the comparison of this query is: not begun, between the two calls on `Watch`, over. -/
inductive Cmp where
  | before | during | after
  deriving DecidableEq, Repr

/-- `last`: `algTimeLast`; `runtime`: `tse.CurrentRuntime`; `since`: `AlgTimeSinceLast` of the queries in order;
`took`: `algElapsed` of `Run`; `already`: `AlgTimerAlreadyPaused`; `final`: the comparison after the run.
Ghost: `now`: the last reading of the clock; `away`: how long, up to then, queries were being answered in the sense of
`counted`; `cmpAway`: the same for comparisons; `work`, `span`: time since the last query was noted, without
the stretches in `away`, `cmpAway`; `works`, `spans`: these times when the queries were noted. -/
structure St where
  q : Query.St
  alg : Watch
  wall : Watch
  cmp : Cmp
  final : Cmp
  already : Bool
  last : Int
  runtime : Int
  since : List Int
  took : Option Int
  fault : Bool
  now : Int
  away : Int
  cmpAway : Int
  work : Int
  span : Int
  works : List Int
  spans : List Int

/-- `Watch` was started by `Init` (`graph.go:178`) at `t1`, `AlgTimer` by `Run` at `t0`. -/
def start (t1 t0 : Int) : St :=
  { q := Query.start, alg := ⟨false, 0, t0, t0⟩, wall := ⟨false, 0, t1, t1⟩, cmp := .before, final := .before, already := false,
    last := 0, runtime := 0, since := [], took := none, fault := false, now := t0, away := 0, cmpAway := 0, work := 0,
    span := t0 - t1, works := [], spans := [] }

/-- A query is being answered: from the moment it is taken up, with `AlgTimeIncludeQuery` from the moment all threads
have acknowledged it, until the view of the graph has been used. With `AllowAsyncVertexProps` only the comparison
with the oracle counts. -/
def counted (o : Opts) (s : St) : Bool :=
  if o.allowAsync then decide (s.cmp = .during)
  else
    (match s.q.ctl with
      | .idle | .resume _ => false
      | .send _ | .await _ => !o.includeQuery
      | .view _ | .hand | .reset => true) && decide (s.cmp ≠ .after)

/-- A comparison is going on. -/
def comparing (s : St) : Bool := decide (s.cmp = .during ∨ s.final = .during)

/-- The clock moves to `t`. -/
def tick (o : Opts) (s : St) (t : Int) : St :=
  { s with now := t,
           away := if counted o s then s.away + (t - s.now) else s.away,
           work := if counted o s then s.work else s.work + (t - s.now),
           cmpAway := if comparing s then s.cmpAway + (t - s.now) else s.cmpAway,
           span := if comparing s then s.span else s.span + (t - s.now) }

/-- A call on `AlgTimer`. -/
def onAlg (s : St) : Option Watch → St
  | some w => { s with alg := w }
  | none => { s with fault := true }

/-- A call on `Watch`. -/
def onWall (s : St) : Option Watch → St
  | some w => { s with wall := w }
  | none => { s with fault := true }

/-- `queries.go:51-59`, 82-90. -/
def note (o : Opts) (s : St) : St :=
  if o.allowAsync then
    { s with since := s.since ++ [s.runtime - s.last], last := s.runtime,
             works := s.works ++ [s.work], work := 0 }
  else
    match Watch.pause s.alg s.now with
    | some (w, d) => { s with alg := w, since := s.since ++ [d - s.last], last := d, works := s.works ++ [s.work], work := 0 }
    | none => { s with fault := true }

/-- `queries.go:47-59`: an entry is taken from `LogEntryChan`. -/
def takeUp (o : Opts) (s : St) : St :=
  let s := { s with runtime := Watch.elapsed s.wall s.now, spans := s.spans ++ [s.span], span := 0 }
  if o.includeQuery then s else note o s

/-- `oracle-compare.go:16-20`. -/
def cmpBegin (s : St) : St :=
  let s := onWall s ((Watch.pause s.wall s.now).map (·.1))
  let s := { s with already := s.alg.paused }
  if s.already then s else onAlg s ((Watch.pause s.alg s.now).map (·.1))

/-- `oracle-compare.go:157-160`. -/
def cmpEnd (s : St) : St :=
  let s := if s.already then s else onAlg s (Watch.unPause s.alg s.now)
  onWall s (Watch.unPause s.wall s.now)

/-- `queries.go:123-131`, one call of `LogTimeSeries` after the other. -/
def compare (o : Opts) (s : St) : Option St :=
  match s.cmp with
  | .before =>
    if o.oracle then
      let s := if o.allowAsync then onAlg s ((Watch.pause s.alg s.now).map (·.1)) else s
      some { cmpBegin s with cmp := .during }
    else
      let s := if o.allowAsync then s else onAlg s (Watch.unPause s.alg s.now)
      some { s with cmp := .after }
  | .during =>
    let s := cmpEnd s
    let s := onAlg s (Watch.unPause s.alg s.now)
    some { s with cmp := .after }
  | .after => none

/-- `act`: a step of the run; `compare`: `queries.go:123-131`; `finish`: `algorithm.go:124`; `final`: 218. -/
inductive Act where
  | act (x : Query.Act)
  | compare | finish | final
  deriving DecidableEq, Repr

/-- What happens at the present reading of the clock. -/
def perform (o : Opts) (s : St) : Act → Option St
  | .act x =>
    (Query.step o.cfg s.q x).bind fun q =>
      match x, s.q.ctl, q.ctl with
      | .query, _, _ => some (takeUp o { s with q := q })
      | .ctl, .await _, .view _ => some (if o.includeQuery then note o { s with q := q } else { s with q := q })
      | .ctl, .reset, _ => if s.cmp = .after then some { s with q := q, cmp := .before } else none
      | _, _, _ => some { s with q := q }
  | .compare => if s.q.ctl = .reset then compare o s else none
  | .finish =>
    -- `wg.Wait()`
    if s.took = none ∧ ∀ t < o.T, s.q.pc t = .dead then
      match Watch.pause s.alg s.now with
      | some (w, d) => some { s with alg := w, took := some d }
      | none => some { s with fault := true }
    else none
  | .final =>
    if s.took.isSome ∧ o.oracle then
      match s.final with
      | .before => some { cmpBegin s with final := .during }
      | .during => some { cmpEnd s with final := .after }
      | .after => none
    else none

/-- One step at reading `t`. -/
def step (o : Opts) (s : St) (a : Act) (t : Int) : Option St :=
  if s.now ≤ t then perform o (tick o s t) a else none

def run (o : Opts) : St → List (Act × Int) → Option St
  | s, [] => some s
  | s, x :: xs => (step o s x.1 x.2).bind fun s' => run o s' xs

end Verif.Timers
