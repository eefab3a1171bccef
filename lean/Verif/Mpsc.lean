import Verif.Util

/-!
# `utils/ring-buffer.go:181-365`: `RingBuffMPSC`

A step machine of arbitrarily many producers (indexed by `Nat`) and one consumer. Each atomic
operation (`AddUint64`, `CompareAndSwapUint64`, `LoadUint64`/`StoreUint64` of a slot position,
`LoadUint64` of `status`) and each plain access of a slot's element is a separate step.

Simplifications: `uint64` positions are naturals; `BackOff` is a no-op; the single-producer
variants `OfferSP`, `PutFastSP`, `PutSlowSP` (247-284) are not modelled separately (they are the
MP ones with the fetch-add/CAS replaced by a plain increment, legal only for a sole producer).
-/

namespace Verif.Mpsc

/-- Producer program counter; `pos` is the ticket (`myPos`), `x` the item. -/
inductive PPc (α : Type)
  | idle
  /-- `PutFastMP` 344: about to fetch-add `enqueue` -/
  | take (x : α)
  /-- `PutFastMP` 346: about to load the slot position -/
  | check (pos : Nat) (x : α)
  /-- `PutFastMP` returned `false` (351); the caller must call `PutSlowMP` -/
  | mustSlow (pos : Nat) (x : α)
  /-- `PutSlowMP` 358: about to load the slot position -/
  | slow (pos : Nat) (x : α)
  /-- `OfferMP` 330: about to load `enqueue` -/
  | oLoad (x : α)
  /-- `OfferMP` 332: about to load the slot position -/
  | oCheck (pos : Nat) (x : α)
  /-- `OfferMP` 333: about to compare-and-swap `enqueue` -/
  | oCas (pos : Nat) (x : α)
  /-- about to write the element (334, 347, 359) -/
  | write (pos : Nat) (x : α)
  /-- about to store the slot position `pos+1` (335, 348, 360) -/
  | publish (pos : Nat) (x : α)
  deriving DecidableEq, Repr

/-- Consumer program counter; `pos` is the index (0-based) being consumed. -/
inductive CPc (α : Type)
  | idle
  /-- `Accept` 290: about to load the slot position (`dequeue` not yet advanced) -/
  | aCheck
  /-- `Accept` 291: about to read the element -/
  | aRead
  /-- `Accept` 292-293: about to advance `dequeue` and store the slot position -/
  | aRelease (item : α)
  /-- `GetFast` 304 (after `dequeue++` 302): about to load the slot position -/
  | gCheck (pos : Nat)
  /-- `GetFast` returned `false` (309); the caller must call `GetSlow` -/
  | mustSlow (pos : Nat)
  /-- `GetSlow` 316: about to load the slot position -/
  | slow (pos : Nat)
  /-- `GetSlow` 321: about to load `status` -/
  | status (pos : Nat)
  /-- `GetFast` 305 / `GetSlow` 317 -/
  | gRead (pos : Nat)
  /-- `GetFast` 306 / `GetSlow` 318 -/
  | gRelease (pos : Nat) (item : α)
  /-- `GetSlow` returned `closed` (322) -/
  | sawClosed
  deriving DecidableEq, Repr

/-- Shared memory, program counters, and ghost state: `tickets` lists (producer, item) in the
order in which positions were taken, `pub p` says position `p` was published, `gotLog` what was
handed out. Ghost state is never read by the program. -/
structure St (α : Type) where
  mask : Nat
  position : Nat → Nat
  element : Nat → α
  enqueue : Nat
  dequeue : Nat
  status : Bool
  ppc : Nat → PPc α
  cpc : CPc α
  tickets : List (Nat × α)
  pub : Nat → Bool
  gotLog : List α

/-- `Init` (204-213) for an already rounded `size`. -/
def init {α : Type} (z : α) (size : Nat) : St α where
  mask := size - 1
  position := fun i => i
  element := fun _ => z
  enqueue := 0
  dequeue := 0
  status := false
  ppc := fun _ => .idle
  cpc := .idle
  tickets := []
  pub := fun _ => false
  gotLog := []

/-- Schedule alphabet. -/
inductive Act (α : Type)
  | put (t : Nat) (x : α) | offer (t : Nat) (x : α) | putSlow (t : Nat) | pStep (t : Nat)
  | close
  | accept | getFast | getSlow | cStep
  deriving DecidableEq, Repr

variable {α : Type}

/-- One step of producer `t` inside a call. -/
def pStep (s : St α) (t : Nat) : Option (St α) :=
  match s.ppc t with
  | .take x =>
    some { s with enqueue := s.enqueue + 1, ppc := upd s.ppc t (.check s.enqueue x),
                  tickets := s.tickets ++ [(t, x)] }
  | .check pos x =>
    if s.position (pos &&& s.mask) = pos then some { s with ppc := upd s.ppc t (.write pos x) }
    else some { s with ppc := upd s.ppc t (.mustSlow pos x) }
  | .slow pos x =>
    if s.position (pos &&& s.mask) = pos then some { s with ppc := upd s.ppc t (.write pos x) }
    else some s
  | .oLoad x => some { s with ppc := upd s.ppc t (.oCheck s.enqueue x) }
  | .oCheck pos x =>
    if s.position (pos &&& s.mask) = pos then some { s with ppc := upd s.ppc t (.oCas pos x) }
    else some { s with ppc := upd s.ppc t .idle }
  | .oCas pos x =>
    if s.enqueue = pos then
      some { s with enqueue := pos + 1, ppc := upd s.ppc t (.write pos x),
                    tickets := s.tickets ++ [(t, x)] }
    else some { s with ppc := upd s.ppc t .idle }
  | .write pos x =>
    some { s with element := upd s.element (pos &&& s.mask) x,
                  ppc := upd s.ppc t (.publish pos x) }
  | .publish pos _ =>
    some { s with position := upd s.position (pos &&& s.mask) (pos + 1),
                  ppc := upd s.ppc t .idle, pub := upd s.pub pos true }
  | .idle | .mustSlow _ _ => none

/-- One step of the consumer inside a call. -/
def cStep (s : St α) : Option (St α) :=
  match s.cpc with
  | .aCheck =>
    if s.position (s.dequeue &&& s.mask) = s.dequeue + 1 then some { s with cpc := .aRead }
    else some { s with cpc := .idle }
  | .aRead => some { s with cpc := .aRelease (s.element (s.dequeue &&& s.mask)) }
  | .aRelease x =>
    some { s with
      position := upd s.position (s.dequeue &&& s.mask) (s.dequeue + 1 + s.mask),
      dequeue := s.dequeue + 1, cpc := .idle, gotLog := s.gotLog ++ [x] }
  | .gCheck pos =>
    if s.position (pos &&& s.mask) = pos + 1 then some { s with cpc := .gRead pos }
    else some { s with cpc := .mustSlow pos }
  | .slow pos =>
    if s.position (pos &&& s.mask) = pos + 1 then some { s with cpc := .gRead pos }
    else some { s with cpc := .status pos }
  | .status pos =>
    if s.status then some { s with cpc := .sawClosed } else some { s with cpc := .slow pos }
  | .gRead pos => some { s with cpc := .gRelease pos (s.element (pos &&& s.mask)) }
  | .gRelease pos x =>
    some { s with
      position := upd s.position (pos &&& s.mask) (pos + 1 + s.mask),
      cpc := .idle, gotLog := s.gotLog ++ [x] }
  | .idle | .mustSlow _ | .sawClosed => none

def act (s : St α) : Act α → Option (St α)
  | .put t x => match s.ppc t with
    | .idle => some { s with ppc := upd s.ppc t (.take x) } | _ => none
  | .offer t x => match s.ppc t with
    | .idle => some { s with ppc := upd s.ppc t (.oLoad x) } | _ => none
  | .putSlow t => match s.ppc t with
    | .mustSlow pos x => some { s with ppc := upd s.ppc t (.slow pos x) } | _ => none
  | .pStep t => pStep s t
  | .close => some { s with status := true }
  | .accept => match s.cpc with
    | .idle => some { s with cpc := .aCheck } | _ => none
  | .getFast => match s.cpc with
    | .idle => some { s with dequeue := s.dequeue + 1, cpc := .gCheck s.dequeue } | _ => none
  | .getSlow => match s.cpc with
    | .mustSlow pos => some { s with cpc := .slow pos } | _ => none
  | .cStep => cStep s

def run (s : St α) : List (Act α) → Option (St α)
  | [] => some s
  | a :: as => (act s a).bind (fun s' => run s' as)

end Verif.Mpsc
