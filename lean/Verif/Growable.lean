import Verif.Util

/-!
# `utils/ring-buffer.go:366-559`: `GrowableRingBuff`

A step machine of one producer and one consumer thread. Each atomic load/store, and each access
to memory the other thread can see, is its own step.

* `bufs b` is the buffer allocated by the `b`-th growth (`bufs 0` by `Init`); `enqEntries` is
  `bufs eb`, `deqEntries` is `bufs db`. `growWithStart` allocates `bufs (eb + 1)`.
* `enqMask`/`deqMask` are the masks stored with the buffer they were set for (lines 436, 508, ...).
* Simplifications: `uint64` positions are naturals (no wrap after 2^64 puts); `BackOff` is a no-op
  (in the source it panics after ~2000 retries); `End` is not modelled.
* `guard = true` is *not* the code: it forbids schedules in which a growth is announced between
  the consumer's failed slot load and its following load of `isGrown`. The code is `guard = false`.
-/

namespace Verif.Growable

/-- `PosElement` slots (16-20) of one allocated buffer. -/
structure Buf (α : Type) where
  mask : Nat
  position : Nat → Nat
  element : Nat → α

/-- Producer program counter; `pos` is the ticket of the call. -/
inductive PPc (α : Type)
  | idle
  /-- `Offer` 460 -/
  | oCheck (x : α)
  /-- `PutFast` 474 -/
  | fCheck (x : α) (pos : Nat)
  /-- `PutFast` returned false (479); the caller must call `PutSlow` -/
  | mustSlow (x : α) (pos : Nat)
  /-- `PutSlow` 486 -/
  | slow (x : α) (pos : Nat)
  /-- `CanGrow` 453: about to load `isGrown` -/
  | canGrow (x : α) (pos : Nat)
  /-- `growWithStart` 434-445: about to allocate and fill the new buffer -/
  | alloc (x : α) (pos : Nat)
  /-- `growWithStart` 447-448: about to store `isGrown` -/
  | setGrown (x : α) (pos : Nat)
  /-- about to write the element (461-462, 475, 487); `bump`: `Offer` also increments `enqueue` -/
  | write (x : α) (pos : Nat) (bump : Bool)
  /-- about to store the slot position (463, 476, 488) -/
  | publish (x : α) (pos : Nat)
  /-- `Close` 415 was called -/
  | closed
  deriving DecidableEq, Repr

/-- Which receive call is running. -/
inductive CKind | accept | getFast | getSlow
  deriving DecidableEq, Repr

/-- Consumer program counter; `d` is the index being received. -/
inductive CPc (α : Type)
  | idle
  /-- about to load the slot position (503, 522, 539) -/
  | check (k : CKind) (d : Nat)
  /-- about to read the element (504-505, 523, 540) -/
  | read (k : CKind) (d : Nat)
  /-- about to store the slot position (506, 524, 541) -/
  | release (k : CKind) (d : Nat) (x : α)
  /-- about to load `isGrown` (509, 527, 544) -/
  | grown (k : CKind) (d : Nat)
  /-- about to switch to the new buffer (510-511, 528-529, 545-546) -/
  | switch (k : CKind) (d : Nat)
  /-- about to clear `isGrown` (512, 530, 547) -/
  | clear (k : CKind) (d : Nat)
  /-- `GetFast` returned false; the caller must call `GetSlow` -/
  | mustSlow (d : Nat)
  /-- `GetSlow` 550, first load -/
  | status (d : Nat)
  /-- `GetSlow` 550, second load -/
  | grown2 (d : Nat)
  /-- `GetSlow` 551 -/
  | enq (d : Nat)
  /-- `GetSlow` returned `closed` 554 -/
  | sawClosed
  /-- `IsClosed` 420 first load / second load / 421 -/
  | icGrown | icStatus | icEnq
  /-- `IsClosed` returned true -/
  | icTrue
  deriving DecidableEq, Repr

/-- Shared memory, program counters, and ghost logs: `putLog` = items whose put took effect,
`gotLog` = items handed out, `start b` = first position stored in buffer `b`. -/
structure St (α : Type) where
  bufs : Nat → Buf α
  eb : Nat
  db : Nat
  enqueue : Nat
  dequeue : Nat
  maxGrow : Nat
  isGrown : Bool
  status : Bool
  ppc : PPc α
  cpc : CPc α
  putLog : List α
  gotLog : List α
  start : Nat → Nat

/-- `Init` 391-402 for an already rounded size. -/
def init {α : Type} (z : α) (size maxGrow : Nat) : St α where
  bufs := fun _ => { mask := size - 1, position := fun i => i, element := fun _ => z }
  eb := 0
  db := 0
  enqueue := 0
  dequeue := 0
  maxGrow := maxGrow
  isGrown := false
  status := false
  ppc := .idle
  cpc := .idle
  putLog := []
  gotLog := []
  start := fun _ => 0

inductive Act (α : Type)
  | pOffer (x : α) | pPutFast (x : α) | pPutSlow | pClose | pStep
  | cAccept | cGetFast | cGetSlow | cIsClosed | cStep
  deriving DecidableEq, Repr

variable {α : Type}

/-- The position word of the slot for index `p`. -/
def Buf.pos (b : Buf α) (p : Nat) : Nat := b.position (p &&& b.mask)

/-- Store the position word of the slot for index `p`. -/
def Buf.setPos (b : Buf α) (p v : Nat) : Buf α :=
  { b with position := upd b.position (p &&& b.mask) v }

/-- Store the element of the slot for index `p`. -/
def Buf.setElem (b : Buf α) (p : Nat) (x : α) : Buf α :=
  { b with element := upd b.element (p &&& b.mask) x }

/-- The loop of `growWithStart` 442-445 after `n` iterations (`i = 1 .. n`), on the positions. -/
def fillLoop (mask startPos : Nat) (f : Nat → Nat) : Nat → (Nat → Nat)
  | 0 => f
  | n + 1 => upd (fillLoop mask startPos f n) ((startPos + (n + 1)) &&& mask) (startPos + (n + 1))

/-- The same loop on the elements (445 overwrites the whole slot with a zero element). -/
def fillLoopE (z : α) (mask startPos : Nat) (f : Nat → α) : Nat → (Nat → α)
  | 0 => f
  | n + 1 => upd (fillLoopE z mask startPos f n) ((startPos + (n + 1)) &&& mask) z

/-- The buffer built by `growWithStart` 434-445: twice the slots (`mask` is the old mask), the item
at `startPos`, then the loop over the other slots. -/
def newBuf (z : α) (mask startPos : Nat) (x : α) : Buf α :=
  let newSize := (mask + 1) * 2
  let m := newSize - 1
  { mask := m
    position := fillLoop m startPos (upd (fun _ => 0) (startPos &&& m) (startPos + 1)) (newSize - 1)
    element := fillLoopE z m startPos (upd (fun _ => z) (startPos &&& m) x) (newSize - 1) }

/-- Is the consumer between its slot load and its load of `isGrown`? -/
def CPc.atGrown : CPc α → Bool
  | .grown .. => true
  | _ => false

/-- One producer step. -/
def pStep (z : α) (guard : Bool) (s : St α) : Option (St α) :=
  match s.ppc with
  | .oCheck x =>
    -- 458-460, 466
    if (s.bufs s.eb).pos s.enqueue = s.enqueue then some { s with ppc := .write x s.enqueue true }
    else some { s with ppc := .idle }
  | .fCheck x p =>
    -- 473-474, 479
    if (s.bufs s.eb).pos p = p then some { s with ppc := .write x p false }
    else some { s with ppc := .mustSlow x p }
  | .slow x p =>
    -- 486, 491: `CanGrow` evaluates `MaxGrow != 0` first
    if (s.bufs s.eb).pos p = p then some { s with ppc := .write x p false }
    else if s.maxGrow ≠ 0 then some { s with ppc := .canGrow x p }
    else some s
  | .canGrow x p =>
    -- 453, 491, 495
    if s.isGrown = false then some { s with ppc := .alloc x p } else some { s with ppc := .slow x p }
  | .alloc x p =>
    -- 434-445
    some { s with bufs := upd s.bufs (s.eb + 1) (newBuf z (s.bufs s.eb).mask p x),
                  eb := s.eb + 1, start := upd s.start (s.eb + 1) p, ppc := .setGrown x p }
  | .setGrown x _ =>
    -- 447-448
    if guard && s.cpc.atGrown then none
    else some { s with maxGrow := s.maxGrow - 1, isGrown := true, ppc := .idle,
                       putLog := s.putLog ++ [x] }
  | .write x p bump =>
    -- 461-462 / 475 / 487
    some { s with bufs := upd s.bufs s.eb ((s.bufs s.eb).setElem p x),
                  enqueue := if bump then s.enqueue + 1 else s.enqueue, ppc := .publish x p }
  | .publish x p =>
    -- 463 / 476 / 488
    some { s with bufs := upd s.bufs s.eb ((s.bufs s.eb).setPos p (p + 1)), ppc := .idle,
                  putLog := s.putLog ++ [x] }
  | .idle | .mustSlow .. | .closed => none

/-- Where a receive call goes when it found nothing and (did not) switch buffers. -/
def afterFail (k : CKind) (d : Nat) : CPc α :=
  match k with
  | .accept => .idle      -- 514
  | .getFast => .mustSlow d  -- 532
  | .getSlow => .check .getSlow d -- 548, loop

/-- One consumer step. -/
def cStep (s : St α) : Option (St α) :=
  match s.cpc with
  | .check k d =>
    -- 503 / 522 / 539
    if (s.bufs s.db).pos d = d + 1 then some { s with cpc := .read k d }
    else some { s with cpc := .grown k d }
  | .read k d =>
    -- 504-505 / 523 / 540
    some { s with cpc := .release k d ((s.bufs s.db).element (d &&& (s.bufs s.db).mask)),
                  dequeue := if k = .accept then s.dequeue + 1 else s.dequeue }
  | .release _ d x =>
    -- 506 / 524 / 541
    some { s with bufs := upd s.bufs s.db
                    ((s.bufs s.db).setPos d (d + 1 + (s.bufs s.db).mask)),
                  cpc := .idle, gotLog := s.gotLog ++ [x] }
  | .grown k d =>
    -- 509 / 527 / 544
    if s.isGrown then some { s with cpc := .switch k d }
    else match k with
      | .getSlow => some { s with cpc := .status d }
      | k => some { s with cpc := afterFail k d }
  | .switch k d => some { s with db := s.eb, cpc := .clear k d } -- 510-511
  | .clear k d => some { s with isGrown := false, cpc := afterFail k d } -- 512
  | .status d =>
    if s.status then some { s with cpc := .grown2 d } else some { s with cpc := .check .getSlow d }
  | .grown2 d =>
    if s.isGrown = false then some { s with cpc := .enq d }
    else some { s with cpc := .check .getSlow d }
  | .enq d =>
    -- 551-554
    if s.enqueue ≠ d then some { s with cpc := .check .getSlow d }
    else some { s with cpc := .sawClosed }
  | .icGrown =>
    if s.isGrown = false then some { s with cpc := .icStatus } else some { s with cpc := .idle }
  | .icStatus => if s.status then some { s with cpc := .icEnq } else some { s with cpc := .idle }
  | .icEnq =>
    if s.enqueue = s.dequeue then some { s with cpc := .icTrue } else some { s with cpc := .idle }
  | .idle | .mustSlow _ | .sawClosed | .icTrue => none

/-- One scheduled action; `none` if it is not possible now. -/
def act (z : α) (guard : Bool) (s : St α) : Act α → Option (St α)
  | .pOffer x => match s.ppc with | .idle => some { s with ppc := .oCheck x } | _ => none
  | .pPutFast x =>
    -- 471-472
    match s.ppc with
    | .idle => some { s with ppc := .fCheck x s.enqueue, enqueue := s.enqueue + 1 }
    | _ => none
  | .pPutSlow =>
    match s.ppc with
    | .mustSlow x p => some { s with ppc := .slow x p }
    | _ => none
  | .pClose =>
    match s.ppc with
    | .idle => some { s with status := true, ppc := .closed }
    | _ => none
  | .pStep => pStep z guard s
  | .cAccept =>
    match s.cpc with
    | .idle => some { s with cpc := .check .accept s.dequeue }
    | _ => none
  | .cGetFast =>
    -- 519-521
    match s.cpc with
    | .idle => some { s with cpc := .check .getFast s.dequeue, dequeue := s.dequeue + 1 }
    | _ => none
  | .cGetSlow =>
    match s.cpc with
    | .mustSlow d => some { s with cpc := .check .getSlow d }
    | _ => none
  | .cIsClosed => match s.cpc with | .idle => some { s with cpc := .icGrown } | _ => none
  | .cStep => cStep s

def run (z : α) (guard : Bool) (s : St α) : List (Act α) → Option (St α)
  | [] => some s
  | a :: as => (act z guard s a).bind (fun s' => run z guard s' as)

end Verif.Growable
