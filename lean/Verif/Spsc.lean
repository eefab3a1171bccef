/-!
# `utils/ring-buffer.go:16-179`: `RingBuffSPSC`

A step machine of one producer and one consumer thread. Every *atomic* operation of the source
(`atomic.LoadUint64`, `atomic.StoreUint64`) and every plain read/write of a shared slot
(`entries[..]`) is one separate step, so a schedule can interleave the two threads anywhere.
Plain reads of a thread's own fields (`rb.enqueue`, `rb.enqDeqCache` by the producer,
`rb.dequeue`, `rb.deqEnqCache` by the consumer) cannot be affected by the other thread and are
folded into the step that uses them.

Simplifications: the `uint64` positions are naturals (no wrap after 2^64 puts); `BackOff` is a
no-op; `enqMask`/`deqMask` and `enqEntries`/`deqEntries` are the same objects (set equal by
`Init`, 37-43, never changed before `End`).
-/

namespace Verif.Spsc

/-- Which producer call is running: `Offer`/`PutFast` return on a full buffer,
`PutSlow` (called after a failed `PutFast`) retries. -/
inductive PKind | offer | putFast
  deriving DecidableEq, Repr

/-- Producer program counter. -/
inductive PPc (α : Type)
  /-- not inside a call -/
  | idle
  /-- `Offer` 137 / `PutFast` 153: about to load `dequeue` -/
  | load (kind : PKind) (item : α)
  /-- `PutFast` returned `false` (161); the caller must call `PutSlow` with the same item -/
  | mustSlow (item : α)
  /-- `PutSlow` 168/177: about to load `dequeue` -/
  | slow (item : α)
  /-- about to write the slot (141, 157, 172) -/
  | write (item : α)
  /-- about to store `enqueue` (142, 158, 173) -/
  | publish (item : α)
  /-- `Close` (46-48) was called; the producer makes no further call -/
  | closed
  deriving DecidableEq, Repr

/-- Which consumer call is running. -/
inductive CKind | accept | getFast
  deriving DecidableEq, Repr

/-- Consumer program counter. -/
inductive CPc (α : Type)
  | idle
  /-- `Accept` 85 / `GetFast` 101: about to load `enqueue` -/
  | load (kind : CKind)
  /-- `GetFast` returned `false` (109); the caller must call `GetSlow` -/
  | mustSlow
  /-- `GetSlow` 116/128: about to load `enqueue` -/
  | slow
  /-- `GetSlow` 124: about to load `status` -/
  | status
  /-- about to read the slot (89, 105, 120) -/
  | read
  /-- about to store `dequeue` (90, 106, 121) -/
  | release (item : α)
  /-- `GetSlow` returned `closed = true` (125) -/
  | sawClosed
  deriving DecidableEq, Repr

/-- Shared memory, the two program counters, and two ghost logs that record what each call
reported to its caller (`putLog`: items whose put took effect; `gotLog`: items handed out). -/
structure St (α : Type) where
  mask : Nat
  entries : Nat → α
  enqueue : Nat
  enqDeqCache : Nat
  dequeue : Nat
  deqEnqCache : Nat
  status : Bool
  ppc : PPc α
  cpc : CPc α
  putLog : List α
  gotLog : List α

/-- `Init` (37-43), for an already rounded `size`. `z` is Go's zero value. -/
def init {α : Type} (z : α) (size : Nat) : St α where
  mask := size - 1
  entries := fun _ => z
  enqueue := 0
  enqDeqCache := 0
  dequeue := 0
  deqEnqCache := 0
  status := false
  ppc := .idle
  cpc := .idle
  putLog := []
  gotLog := []

/-- Schedule alphabet: which thread moves, and which call it begins if it is between calls. -/
inductive Act (α : Type)
  | pOffer (item : α) | pPutFast (item : α) | pPutSlow | pClose | pStep
  | cAccept | cGetFast | cGetSlow | cStep
  deriving DecidableEq, Repr

variable {α : Type}

/-- `entries[i] = x`. -/
def setSlot (e : Nat → α) (i : Nat) (x : α) : Nat → α := fun j => if j = i then x else e j

/-- Entry of `Offer`/`PutFast` (134-136, 150-152): compare against the cached consumer position. -/
def pEnter (s : St α) (k : PKind) (x : α) : St α :=
  if s.enqueue > s.enqDeqCache + s.mask then { s with ppc := .load k x }
  else { s with ppc := .write x }

/-- One step of the producer inside a call. -/
def pStep (s : St α) : Option (St α) :=
  match s.ppc with
  | .load k x =>
    -- 137-140 / 153-156
    let s := { s with enqDeqCache := s.dequeue }
    if s.enqueue ≤ s.enqDeqCache + s.mask then some { s with ppc := .write x }
    else match k with
      | .offer => some { s with ppc := .idle }
      | .putFast => some { s with ppc := .mustSlow x }
  | .slow x =>
    -- 168-171, 177
    if s.enqueue ≤ s.dequeue + s.mask then
      some { s with enqDeqCache := s.dequeue, ppc := .write x }
    else some s
  | .write x =>
    -- 141 / 157 / 172
    some { s with entries := setSlot s.entries (s.enqueue &&& s.mask) x, ppc := .publish x }
  | .publish x =>
    -- 142 / 158 / 173
    some { s with enqueue := s.enqueue + 1, ppc := .idle, putLog := s.putLog ++ [x] }
  | .idle | .mustSlow _ | .closed => none

/-- Entry of `Accept`/`GetFast` (82-84, 98-100). -/
def cEnter (s : St α) (k : CKind) : St α :=
  if s.dequeue ≥ s.deqEnqCache then { s with cpc := .load k }
  else { s with cpc := .read }

/-- One step of the consumer inside a call. -/
def cStep (s : St α) : Option (St α) :=
  match s.cpc with
  | .load k =>
    -- 85-88 / 101-104
    let s := { s with deqEnqCache := s.enqueue }
    if s.dequeue < s.deqEnqCache then some { s with cpc := .read }
    else match k with
      | .accept => some { s with cpc := .idle }
      | .getFast => some { s with cpc := .mustSlow }
  | .slow =>
    -- 116-119, 128
    if s.dequeue < s.enqueue then some { s with deqEnqCache := s.enqueue, cpc := .read }
    else some { s with cpc := .status }
  | .status =>
    -- 124-128
    if s.status then some { s with cpc := .sawClosed } else some { s with cpc := .slow }
  | .read =>
    -- 89 / 105 / 120
    some { s with cpc := .release (s.entries (s.dequeue &&& s.mask)) }
  | .release x =>
    -- 90 / 106 / 121
    some { s with dequeue := s.dequeue + 1, cpc := .idle, gotLog := s.gotLog ++ [x] }
  | .idle | .mustSlow | .sawClosed => none

/-- One scheduled action; `none` if that action is not possible now. -/
def act (s : St α) : Act α → Option (St α)
  | .pOffer x => match s.ppc with | .idle => some (pEnter s .offer x) | _ => none
  | .pPutFast x => match s.ppc with | .idle => some (pEnter s .putFast x) | _ => none
  | .pPutSlow => match s.ppc with | .mustSlow x => some { s with ppc := .slow x } | _ => none
  | .pClose => match s.ppc with | .idle => some { s with status := true, ppc := .closed } | _ => none
  | .pStep => pStep s
  | .cAccept => match s.cpc with | .idle => some (cEnter s .accept) | _ => none
  | .cGetFast => match s.cpc with | .idle => some (cEnter s .getFast) | _ => none
  | .cGetSlow => match s.cpc with | .mustSlow => some { s with cpc := .slow } | _ => none
  | .cStep => cStep s

/-- Run a schedule. -/
def run (s : St α) : List (Act α) → Option (St α)
  | [] => some s
  | a :: as => (act s a).bind (fun s' => run s' as)

end Verif.Spsc

namespace Verif.Spsc
variable {α : Type}

/-- `EnqCheckRange` (68-71): refreshes the cached consumer position and returns
`(dequeue + mask) - enqueue` in wrapping `uint64` arithmetic. -/
def enqCheckRange (s : St α) : St α × Nat :=
  ({ s with enqDeqCache := s.dequeue },
   ((s.dequeue + s.mask) % 2 ^ 64 + (2 ^ 64 - s.enqueue % 2 ^ 64)) % 2 ^ 64)

/-- The producer side of `checkToRemit` (`graph/stream-enact-events.go:91-113`): one
`EnqCheckRange`, then at most that many `Offer`s; `budget` is `spaceAvailable - count`. -/
structure Remit (α : Type) where
  q : St α
  budget : Nat

inductive RAct (α : Type)
  /-- 91: start a round with a fresh space check -/
  | check
  /-- 112: `Offer` inside the loop -/
  | offer (x : α)
  /-- 93-94: leave the loop early (nothing to read) -/
  | stop
  /-- a step inside `Offer` -/
  | pStep
  | cAccept | cGetFast | cGetSlow | cStep
  deriving DecidableEq, Repr

def ract (r : Remit α) : RAct α → Option (Remit α)
  | .check =>
    match r.q.ppc with
    | .idle => if r.budget = 0 then
        let (q, n) := enqCheckRange r.q
        some { q := q, budget := n } else none
    | _ => none
  | .offer x =>
    if 0 < r.budget then (act r.q (.pOffer x)).map (fun q => { q := q, budget := r.budget - 1 })
    else none
  | .stop => some { r with budget := 0 }
  | .pStep => (act r.q .pStep).map (fun q => { r with q := q })
  | .cAccept => (act r.q .cAccept).map (fun q => { r with q := q })
  | .cGetFast => (act r.q .cGetFast).map (fun q => { r with q := q })
  | .cGetSlow => (act r.q .cGetSlow).map (fun q => { r with q := q })
  | .cStep => (act r.q .cStep).map (fun q => { r with q := q })

def rrun (r : Remit α) : List (RAct α) → Option (Remit α)
  | [] => some r
  | a :: as => (ract r a).bind (fun r' => rrun r' as)

end Verif.Spsc
