/-!
# Waiting (`utils/helpers.go:18-28` and the loops that call it)

`BackOff` sleeps longer and longer and gives up after a fixed count. The loops that wait are
modelled against an arbitrary environment: `ready k` (`busy k`) says what the `k`-th poll finds.
-/

namespace Verif.BackOff

/-- `BackOff` (`helpers.go:19-28`): how long it sleeps, in microseconds, and whether it returns
(the panic comes after the sleep). -/
def backOff (count : Nat) : Nat × Bool := ((count + 1) * 100, !(decide (2000 < count)))

/-- How a wait ends: after `fails` failed polls, or in a panic; and the microseconds slept. -/
inductive Res where
  | done (fails slept : Nat)
  | panic (slept : Nat)
deriving DecidableEq, Repr

/-- The loop of the blocking queue operations from `fails = f` on: `PutSlow`
(`ring-buffer.go:165-179`), `PutSlowSP` (273-284), `PutSlowMP` (354-365), and `GetSlow` (113-130,
314-327), whose poll also succeeds when the queue has been closed. `ready k` is the outcome of the
`k`-th poll. The fuel is not part of the code: `BackOff` panics before it is used up. -/
def waitLoop (ready : Nat → Bool) : Nat → Nat → Nat → Res
  | 0, _, slept => .panic slept
  | fuel + 1, f, slept =>
    if ready f then .done f slept
    else
      if (backOff f).2 then waitLoop ready fuel (f + 1) (slept + (backOff f).1)
      else .panic (slept + (backOff f).1)

/-- A blocking queue operation. -/
def wait (ready : Nat → Bool) : Res := waitLoop ready 2002 0 0

/-- One turn of the loop of `ConvergeAsyncThread` (`run-async.go:214-225`): `got` says whether
there was anything to process; `n` is `algNoCountTimes`. `none` is the panic of `BackOff`. -/
def asyncTurn (n : Nat) (got : Bool) : Option Nat :=
  if got then some 0
  else if (n + 1) % 100 = 0 then
    if (backOff ((n + 1) / 100)).2 then some (n + 1) else none
  else some (n + 1)

/-- What one turn of the dynamic loop finds (`run-dynamic.go:192-306`). -/
structure Turn where
  processTop : Bool
  topFailed : Bool
  processAlg : Bool
  algFailed : Bool
deriving DecidableEq

/-- The test of line 308: nothing to do in this turn. -/
def Turn.waits (t : Turn) : Bool := (!t.processTop || t.topFailed) && (!t.processAlg || t.algFailed)

/-- `topFail` and `algFail`. -/
structure Fails where
  top : Nat
  alg : Nat
deriving DecidableEq

/-- The end of one turn of `ConvergeDynamicThread` (`run-dynamic.go:307-334`); `none` is the panic
of `BackOff`. -/
def dynamicTurn (c : Fails) (t : Turn) : Option Fails :=
  if t.waits then
    match (if t.topFailed then (if (backOff c.top).2 then some (c.top + 1) else none) else some 0) with
    | none => none
    | some top =>
      if t.algFailed then
        if c.alg % 10 = 0 then
          if (backOff (c.alg / 10)).2 then some ⟨top, c.alg + 1⟩ else none
        else some ⟨top, c.alg + 1⟩
      else some ⟨top, 0⟩
  else some ⟨0, 0⟩

/-- A run of a loop over the turns `0 .. n-1`. -/
def runTurns {S I : Type} (turn : S → I → Option S) (s0 : S) (inp : Nat → I) : Nat → Option S
  | 0 => some s0
  | n + 1 => (runTurns turn s0 inp n).bind (fun s => turn s (inp n))

end Verif.BackOff
