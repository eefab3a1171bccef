import Verif.Util

/-!
# The loop of a thread in a dynamic run: pulling topology events

`ConvergeDynamicThread` (`run-dynamic.go:128-349`) as far as the topology queue, the buffer of pulled
events and the signals `doneEvents`, `doneRemit` are concerned. One step is one call on a queue or one
part of the loop. The remitter, the emitter and those who send commands are the environment.

* `TopologyQueue` (`GrowableRingBuff`) is a list. `Accept` fails if it is empty, or if it has just grown
  (`ring-buffer.go:499`: "failure may not mean no items left"); `IsClosed` is true only if the queue is
  closed and empty (C48). It can grow only when `ring` or more events are in it.
* `EnactTopologyEvents` is given the first `topCount` entries of the buffer (`batches`). It may leave any
  number of edges (`NumEdges`, a `uint32`) and a buffer that is not shorter (`InjectExpired` overwrites
  entries and appends).
* `checkToRemit` reports any number of events, and `closed` only if the emitter has closed the queue
  and nothing was left.
* Commands come in any order. Not modelled: `BLOCK_ALL` (the thread waits, nothing changes), back-off,
  timers, messages, super-steps (C97).
-/

namespace Verif.Pull

/-- `base`: `BASE_SIZE` (`graph.go:33`); `room`: initial length of `TopologyEventBuff` (`graph.go:138`,
`BASE_SIZE * 64`); `ring`: initial capacity of the queue (`graph.go:144`); `series`: `LogTimeseries`. -/
structure Cfg where
  base : Nat
  room : Nat
  ring : Nat
  series : Bool

/-- Place in the loop: `top` 160, `remit` 176, `pull` 201, `accept` 205-206, `isClosed` 208, `apply` 224,
`after` 238, `tail` 265, `alg` 272, `dead` 345; `panic`: an index out of range in 206. -/
inductive PC where
  | top | remit | pull | accept | isClosed | apply | after | tail | alg | dead | panic
  deriving DecidableEq, Repr

/-- `none` in `buff` is the zero value. Ghosts: `given`: all that was put in the queue; `batches`: what
`EnactTopologyEvents` was called with; `doneEvents`, `doneRemit`: number of sends; `acks`: number of
acknowledgements of `TOP_SYNC`; `asked`: how many events had been put when the last `TOP_SYNC` was taken. -/
structure St (E : Type) where
  queue : List E
  grown : Bool
  closed : Bool
  emitEnd : Bool
  pc : PC
  pullUpTo : Nat
  buff : List (Option E)
  topCount : Nat
  remitCount : Nat
  numEdges : Nat
  strucClosed : Bool
  remitClosed : Bool
  blockTop : Bool
  topSync : Bool
  epoch : Bool
  doneEvents : Nat
  doneRemit : Nat
  acks : Nat
  asked : Nat
  given : List E
  batches : List (List (Option E))

/-- `run-dynamic.go:129-147`, `graph.go:138-144`. -/
def start (E : Type) (c : Cfg) : St E :=
  { queue := [], grown := false, closed := false, emitEnd := false, pc := .top, pullUpTo := c.base,
    buff := List.replicate c.room none, topCount := 0, remitCount := 0, numEdges := 0, strucClosed := false,
    remitClosed := false, blockTop := false, topSync := false, epoch := false, doneEvents := 0, doneRemit := 0,
    acks := 0, asked := 0, given := [], batches := [] }

/-- `put`, `grow`, `close`: the remitter (`stream.go:118-121, 156`); `emitEnd`: the emitter has closed
`FromEmitQueue` and it is drained; `block`, `resume`, `sync`, `epoch`: commands (98-123); the others are
steps of the thread. -/
inductive Act (E : Type) where
  | put (e : E) | grow | close | emitEnd
  | block | resume | sync | epoch
  | go
  | remit (count : Nat) (closed : Bool)
  | accept | miss | isClosed (b : Bool)
  | enact (buff : List (Option E)) (edges : Nat)
  | complete

variable {E : Type}

/-- One step; `none` if it is not possible now. -/
def step (c : Cfg) (s : St E) : Act E → Option (St E)
  | .put e => if s.closed then none else some { s with queue := s.queue ++ [e], given := s.given ++ [e] }
  | .grow => if s.closed ∨ s.grown ∨ s.queue.length < c.ring then none else some { s with grown := true }
  | .close => if s.closed then none else some { s with closed := true }
  | .emitEnd => some { s with emitEnd := true }
  | .block => if s.pc = .top then some { s with blockTop := true } else none -- 106-108
  | .resume => if s.pc = .top then some { s with blockTop := false } else none -- 112-113
  | .sync => if s.pc = .top then some { s with topSync := true, asked := s.given.length } else none -- 118-119
  | .epoch => if s.pc = .top then some { s with epoch := true } else none -- 121-122
  | .go =>
    match s.pc with
    | .top => some { s with pc := .remit }
    | .remit =>
      -- 176, 192
      if s.epoch = false ∧ s.remitClosed = false ∧ s.blockTop = false then none
      else some { s with remitCount := 0, pc := .pull }
    | .pull =>
      -- 202-205
      if s.strucClosed = false ∧ s.blockTop = false then some { s with topCount := 0, pc := .accept }
      else some { s with pc := .alg }
    | .accept => if s.topCount < s.pullUpTo then none else some { s with pc := .apply } -- 205
    | .apply =>
      -- 225, 257-263
      if s.topCount ≠ 0 then none
      else if s.topSync = true ∧ s.remitCount = 0 then some { s with topSync := false, acks := s.acks + 1, pc := .tail }
      else some { s with pc := .tail }
    | .after =>
      -- 239-256
      let d := if s.strucClosed then s.doneEvents + 1 else s.doneEvents
      if s.topCount = s.pullUpTo ∨ s.topSync = true then
        if s.numEdges / 64 > s.pullUpTo then
          some { s with pullUpTo := s.pullUpTo * 2,
                        buff := if s.buff.length < s.pullUpTo * 2 then List.replicate (s.pullUpTo * 2) none else s.buff,
                        doneEvents := d, pc := .top }
        else some { s with doneEvents := d, pc := .top }
      else if c.series then some { s with doneEvents := d, pc := .top }
      else some { s with pc := .tail }
    | .tail =>
      -- 265-269
      if s.strucClosed then some { s with buff := [], doneEvents := s.doneEvents + 1, pc := .alg } else some { s with pc := .alg }
    | .alg => some { s with pc := .top }
    | .isClosed | .dead | .panic => none
  | .remit count closed =>
    -- 176-187; `checkToRemit` (stream-enact-events.go:114-117)
    if s.pc = .remit ∧ s.epoch = false ∧ s.remitClosed = false ∧ s.blockTop = false ∧ (closed = true → s.emitEnd = true ∧ count = 0) then
      some { s with remitClosed := closed, remitCount := count, doneRemit := if closed then s.doneRemit + 1 else s.doneRemit, pc := .pull }
    else none
  | .accept =>
    -- 206; the buffer is written after the call
    if s.pc = .accept ∧ s.topCount < s.pullUpTo then
      match s.queue with
      | [] => none
      | e :: q =>
        if s.topCount < s.buff.length then some { s with buff := s.buff.set s.topCount (some e), queue := q, topCount := s.topCount + 1 }
        else some { s with queue := q, pc := .panic }
    else none
  | .miss =>
    -- 206: on failure the zero value is written
    if s.pc = .accept ∧ s.topCount < s.pullUpTo ∧ (s.queue = [] ∨ s.grown = true) then
      if s.topCount < s.buff.length then some { s with buff := s.buff.set s.topCount none, grown := false, pc := .isClosed }
      else some { s with pc := .panic }
    else none
  | .isClosed b =>
    -- 208-214
    if s.pc = .isClosed ∧ (b = true → s.closed = true ∧ s.queue = []) then some { s with strucClosed := b, pc := .apply }
    else none
  | .enact buff edges =>
    -- 225-232
    if s.pc = .apply ∧ s.topCount ≠ 0 ∧ s.buff.length ≤ buff.length ∧ edges < 2 ^ 32 then
      some { s with batches := s.batches ++ [s.buff.take s.topCount], buff := buff, numEdges := edges, pc := .after }
    else none
  | .complete =>
    -- 276-299, 345; whether there is something to do is left to the termination check (C35)
    if s.pc = .alg ∧ (s.strucClosed = true ∧ s.remitClosed = true ∨ s.epoch = true ∧ s.topCount = 0) then
      if s.epoch then some { s with epoch := false, pc := .top } else some { s with pc := .dead }
    else none

def run (c : Cfg) : St E → List (Act E) → Option (St E)
  | s, [] => some s
  | s, x :: xs => (step c s x).bind fun s' => run c s' xs

end Verif.Pull
