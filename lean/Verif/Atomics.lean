import Verif.Util

/-!
# Compare-and-swap loops (`utils/atomics.go`)

All functions have the same shape: load the old value, compute from the loaded value either
"return now" or a new value, compare-and-swap, retry on failure. The machine below runs any
number of threads, each with its own list of calls, at the granularity of the shared accesses
(one load or one compare-and-swap per step). Arguments are `γ`, cell contents `β` (for the
`float64` functions: the 64-bit pattern, on which the compare-and-swap compares).

Simplification: the plain read `*targetVal` of the float functions (17, 29, 41, 71) is a single
atomic 64-bit load, as on the 64-bit platforms the code targets.
-/

namespace Verif.Atomics

/-- Where a thread is: between calls, before the load, before the compare-and-swap. -/
inductive Pc (β γ : Type) where
  | idle
  | want (a : γ)
  | cas (a : γ) (old new : β)

/-- Shared cell, threads, calls still to be made, and the log of returns
(thread, argument, returned old value) in the order in which they happened. -/
structure St (β γ : Type) where
  cell : β
  pc : Nat → Pc β γ
  todo : Nat → List γ
  rets : List (Nat × γ × β)

/-- One step of thread `t`. `f old a = none` is the early return, `some new` the value to swap
in. The test after the load reads only local variables, so it is part of the load step. -/
def step {β γ : Type} [DecidableEq β] (f : β → γ → Option β) (s : St β γ) (t : Nat) : Option (St β γ) :=
  match s.pc t with
  | .idle =>
    match s.todo t with
    | [] => none
    | a :: as => some { s with pc := upd s.pc t (.want a), todo := upd s.todo t as }
  | .want a =>
    match f s.cell a with
    | none => some { s with pc := upd s.pc t .idle, rets := s.rets ++ [(t, a, s.cell)] }
    | some new => some { s with pc := upd s.pc t (.cas a s.cell new) }
  | .cas a old new =>
    if s.cell = old then
      some { s with cell := new, pc := upd s.pc t .idle, rets := s.rets ++ [(t, a, old)] }
    else some { s with pc := upd s.pc t (.want a) }

/-- A schedule: the thread that moves at each step. -/
def run {β γ : Type} [DecidableEq β] (f : β → γ → Option β) : St β γ → List Nat → Option (St β γ)
  | s, [] => some s
  | s, t :: ts => (step f s t).bind fun s' => run f s' ts

/-- Start: `prog t` are the arguments of the calls thread `t` will make. -/
def init {β γ : Type} (c : β) (prog : Nat → List γ) : St β γ :=
  { cell := c, pc := fun _ => .idle, todo := prog, rets := [] }

/-- `AtomicMinUint32` (49-56): `new >= old ||`. -/
def minU32 (old new : UInt32) : Option UInt32 := if old ≤ new then none else some new

/-- `AtomicMaxUint64` (59-66): `new <= old ||`. -/
def maxU64 (old new : UInt64) : Option UInt64 := if new ≤ old then none else some new

/-- `AtomicMinFloat64` (69-79) on bit patterns; `ge` compares the floats the patterns stand for
(`new >= old`), `bits new` is the pattern of the argument. -/
def minF {φ : Type} (fromBits : UInt64 → φ) (bits : φ → UInt64) (ge : φ → φ → Bool)
    (oldU : UInt64) (new : φ) : Option UInt64 :=
  if ge new (fromBits oldU) then none else some (bits new)

/-- `AtomicAddFloat64` / `AtomicAddFloat64U` (15-35) on bit patterns. -/
def addF {φ : Type} (fromBits : UInt64 → φ) (bits : φ → UInt64) (add : φ → φ → φ)
    (oldU : UInt64) (delta : φ) : Option UInt64 := some (bits (add (fromBits oldU) delta))

/-- `AtomicSwapFloat64` (38-46) on bit patterns. -/
def swapF (_old new : UInt64) : Option UInt64 := some new

end Verif.Atomics
