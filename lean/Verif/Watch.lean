/-!
# The stopwatch (`utils/stopwatch.go`)

Times and durations are integers (nanoseconds). Every method takes the lock for its whole body,
so calls are atomic; each call is given the clock reading it makes. `none` is a panic.
-/

namespace Verif.Watch

/-- `Watch` (8-14) without the lock. -/
structure Watch where
  paused : Bool
  pauseTime : Int
  startTime : Int
  adjustedTime : Int
  deriving Repr, DecidableEq

/-- The zero value. -/
def zero : Watch := ⟨false, 0, 0, 0⟩

/-- `Start` (16-24). -/
def start (w : Watch) (now : Int) : Option Watch :=
  let w := { w with startTime := now, adjustedTime := now }
  if w.paused then none else some w

/-- `Elapsed` (26-37). -/
def elapsed (w : Watch) (now : Int) : Int :=
  if w.paused then (now - w.adjustedTime) - (now - w.pauseTime) else now - w.adjustedTime

/-- `AbsoluteElapsed` (39-45). -/
def absoluteElapsed (w : Watch) (now : Int) : Int := now - w.startTime

/-- `Pause` (47-57): new state and returned duration. -/
def pause (w : Watch) (now : Int) : Option (Watch × Int) :=
  if ¬ w.paused then
    let w := { w with pauseTime := now, paused := true }
    some (w, w.pauseTime - w.adjustedTime)
  else none

/-- `UnPause` (59-68); `time.Since(pauseTime)` is `now - pauseTime`. -/
def unPause (w : Watch) (now : Int) : Option Watch :=
  if w.paused then
    some { w with paused := false, adjustedTime := w.adjustedTime + (now - w.pauseTime) }
  else none

/-- The calls. -/
inductive Op where
  | start | pause | unPause | elapsed | absoluteElapsed
  deriving Repr, DecidableEq

/-- One call at clock reading `now`: new state and returned duration (0 for calls without
result). -/
def step (w : Watch) (now : Int) : Op → Option (Watch × Int)
  | .start => (start w now).map (·, 0)
  | .pause => pause w now
  | .unPause => (unPause w now).map (·, 0)
  | .elapsed => some (w, elapsed w now)
  | .absoluteElapsed => some (w, absoluteElapsed w now)

/-- A sequence of timed calls; the results in order. -/
def run (w : Watch) : List (Op × Int) → Option (Watch × List Int)
  | [] => some (w, [])
  | (o, now) :: os =>
    match step w now o with
    | none => none
    | some (w', r) => (run w' os).map fun p => (p.1, r :: p.2)

end Verif.Watch
