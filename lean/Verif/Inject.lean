import Verif.Sorting

/-!
# `InjectDeletesRetainFinalStructure` (`graph/stream-enact-events.go:404-426`)

The random source is an oracle: the results of `rand.Intn` in `Shuffle`, then for each round of the
loop whether `rand.Float64() < chance` (looked at only when there is something to delete) and the
result of `rand.Intn` in `RemoveRandomElement`. `none`: the oracle ran out, or gave a value that
`rand.Intn` cannot return.
-/

namespace Verif.Inject

open Verif.Sorting (shuffle removeRandomElement)

variable {E : Type}

/-- `TopologyEvent` (`stream.go:60-65`). -/
structure TEv (E : Type) where
  word : UInt64
  src : UInt32
  dst : UInt32
  prop : E
  deriving DecidableEq, Repr

/-- `EventType` (27-29): 0 is `ADD`, 1 is `DEL`. -/
def TEv.type (e : TEv E) : UInt64 := e.word &&& 3

/-- `EventIdx` (32-34). -/
def TEv.eventIdx (e : TEv E) : UInt64 := e.word >>> 2

/-- Line 422. -/
def setIdx (eventIdx : UInt64) (e : TEv E) : TEv E := { e with word := (eventIdx <<< 2) ||| (e.word &&& 3) }

/-- The loop (412-424). -/
def injectLoop (eventIdx : UInt64) (available previous : Array (TEv E)) : List (Bool × Nat) → Option (List (TEv E))
  | [] => if available.size = 0 then some [] else none
  | (coin, r) :: cs =>
    if available.size = 0 then none
    else if previous.size > 0 ∧ coin = true then
      match removeRandomElement previous r with
      | none => none
      | some (cur, previous) =>
        (injectLoop (eventIdx + 1) (available.push cur) previous cs).map (setIdx eventIdx { cur with word := 1 } :: ·)
    else
      match removeRandomElement available r with
      | none => none
      | some (cur, available) =>
        (injectLoop (eventIdx + 1) available (previous.push cur) cs).map (setIdx eventIdx cur :: ·)

/-- `InjectDeletesRetainFinalStructure`. -/
def inject (sc : Array (TEv E)) (shuf : List Nat) (choices : List (Bool × Nat)) : Option (List (TEv E)) :=
  match shuffle sc shuf with
  | none => none
  | some available => injectLoop 0 available #[] choices

end Verif.Inject
