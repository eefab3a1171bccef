import Verif.Io
import Verif.Util

/-!
# Loaders and emitter (`graph/stream.go:166-302`, `graph/stream-parse.go`, `graph/graph-edge.go`)

Every loader thread reads the whole file and keeps the lines whose running number is its own
modulo the number of loaders; the emitter takes one event from each loader's queue in turn.
The queues between them are modelled by their contract C01 (first in, first out, nothing lost,
blocking puts and gets), except that the two tests of `GetSlow` - empty? then closed? - are two
separate steps, as in the code (C02). A line is given without its newline (C17).

The fields of `FastFields` really are strings that point into the scanner's buffer; here they are
copies. The two differ only for fields left over from an earlier line, whose bytes may since have
been overwritten.
-/

namespace Verif.Loader

open Verif.Io

/-- `EventType` (`stream.go:14-18`). -/
inductive Typ where
  | add | del
  deriving DecidableEq, Repr

/-- `TopologyEvent` (`stream.go:60-65`); type and event index, packed in one word by the code
(C19), are two fields. -/
structure Ev (E : Type) where
  typ : Typ
  idx : Nat
  src : UInt32
  dst : UInt32
  prop : E
  deriving DecidableEq, Repr

/-- The methods of an edge property used while loading (`graph-edge.go:27-43`). `parse w t` is
`ParseProperty` given the weight token and the timestamp token it looks at, when asked for. -/
structure Ops (E : Type) where
  zero : E
  defaultWeight : E → E
  parse : Option (List UInt8) → Option (List UInt8) → E → E
  replaceTs : Nat → E → E
  getTs : E → Nat
  replaceRaw : UInt32 → E → E

/-- Options of a run: `wPos`, `tPos` are columns after the two vertex columns (`none` is a
negative position), cf. `stream.go:318`. -/
structure Cfg where
  wPos : Option Nat
  tPos : Option Nat
  transpose : Bool
  undirected : Bool
  logicalTime : Bool

variable {E : Type}

/-- `remaining[pos]` with its bounds check (`graph-edge.go:70, 99, 150, 153`). -/
def column (remaining : List (List UInt8)) : Option Nat → Option (Option (List UInt8))
  | none => some none
  | some p => (remaining[p]?).map some

/-- From the fields to the event (`stream.go:279-291`, `EdgeParser` in `stream-parse.go:77-83`);
`lines` is the running number. -/
def mkEvent (o : Ops E) (c : Cfg) (fields : List (List UInt8)) (lines : Nat) : Option (Ev E) :=
  match fields with
  | s :: d :: remaining =>
    match column remaining c.wPos, column remaining c.tPos with
    | some w, some t =>
      let p := o.defaultWeight o.zero
      let p := if c.wPos.isSome || c.tPos.isSome then o.parse w t p else p
      let p := if c.logicalTime then o.replaceTs (lines * (if c.undirected then 2 else 1)) p else p
      let src := if c.transpose then toInt d else toInt s
      let dst := if c.transpose then toInt s else toInt d
      some { typ := .add, idx := 0, src, dst, prop := o.replaceRaw dst p }
    | _, _ => none
  | _ => none

/-- The loop of `EdgeEnqueueToEmitter` (262-298): the events a loader puts into its queue.
`fields` is the reused buffer of `FastFields`. `lines--` for a comment followed by the loop's
`lines++` leaves the running number alone (wrapping arithmetic; here a natural).
`none` is a panic, in particular `b[0]` of an empty line (272). -/
def loader (o : Ops E) (c : Cfg) (enqCount myIndex : Nat) :
    List (List UInt8) → Nat → List (List UInt8) → Option (List (Ev E))
  | _, _, [] => some []
  | fields, lines, b :: bs =>
    match b with
    | [] => none
    | b0 :: _ =>
      if b0 = 35 then loader o c enqCount myIndex fields lines bs
      else if lines % enqCount = myIndex then
        (fastFields fields b).bind fun f =>
          (mkEvent o c f lines).bind fun e =>
            (loader o c enqCount myIndex f (lines + 1) bs).map (e :: ·)
      else loader o c enqCount myIndex fields (lines + 1) bs

/-- `fieldsBuff` (250): five empty strings. -/
def emptyFields : List (List UInt8) := List.replicate 5 []

/-- What loader `i` of `n` puts into its queue for a file with these lines. -/
def loaded (o : Ops E) (c : Cfg) (n i : Nat) (file : List (List UInt8)) : Option (List (Ev E)) :=
  loader o c n i emptyFields 0 file

/-- The emitter's handling of one event (195-225): the event with its index, and in undirected
mode the mirrored event right after it. -/
def emitOne (o : Ops E) (c : Cfg) (eventIdx : Nat) (e : Ev E) : List (Ev E) :=
  let e1 := { e with idx := eventIdx }
  if c.undirected then
    let p := o.replaceRaw e1.src e1.prop
    let p := if c.logicalTime then o.replaceTs (eventIdx + 1) p else p
    [e1, { typ := e1.typ, idx := eventIdx + 1, src := e1.dst, dst := e1.src, prop := p }]
  else [e1]

/-- Loaders and emitter running together. `sent i` is how many events loader `i` has put into
its queue, `closed i` whether it has closed it, `taken i` how many the emitter has taken from
it; `turn` is the emitter's loop variable `i` (190), `sawEmpty` says that its `GetSlow` has just
found the queue empty and is about to look at the status (`ring-buffer.go:116-125`), `out` is
everything emitted. -/
structure St (E : Type) where
  sent : Nat → Nat
  closed : Nat → Bool
  taken : Nat → Nat
  turn : Nat
  sawEmpty : Bool
  out : List (Ev E)
  done : Bool

/-- Start. -/
def start : St E :=
  { sent := fun _ => 0, closed := fun _ => false, taken := fun _ => 0, turn := 0, sawEmpty := false, out := [], done := false }

/-- Who moves. -/
inductive Act where
  | put (i : Nat)
  | close (i : Nat)
  | emit
  | look
  | check
  deriving DecidableEq, Repr

/-- One step; `qs i` is the complete list of events of loader `i`, `n` the number of loaders.
`emit` is 191-225 with an event available (the code's `eventIdx` is the number of events emitted
so far), `look` finds the queue empty, `check` then reads the status: closed leads to
`break outer` (193), otherwise `GetSlow` looks again. -/
def step (o : Ops E) (c : Cfg) (n : Nat) (qs : Nat → List (Ev E)) (s : St E) : Act → Option (St E)
  | .put i =>
    if i < n ∧ s.sent i < (qs i).length then some { s with sent := upd s.sent i (s.sent i + 1) } else none
  | .close i =>
    if i < n ∧ s.sent i = (qs i).length then some { s with closed := upd s.closed i true } else none
  | .emit =>
    if s.done = false ∧ s.sawEmpty = false ∧ s.taken s.turn < s.sent s.turn then
      match (qs s.turn)[s.taken s.turn]? with
      | none => none
      | some e => some { s with
          taken := upd s.taken s.turn (s.taken s.turn + 1)
          turn := (s.turn + 1) % n
          out := s.out ++ emitOne o c s.out.length e }
    else none
  | .look =>
    if s.done = false ∧ s.sawEmpty = false ∧ s.taken s.turn = s.sent s.turn then
      some { s with sawEmpty := true }
    else none
  | .check =>
    if s.done = false ∧ s.sawEmpty = true then
      some { s with sawEmpty := false, done := s.closed s.turn }
    else none

/-- A schedule. -/
def run (o : Ops E) (c : Cfg) (n : Nat) (qs : Nat → List (Ev E)) : St E → List Act → Option (St E)
  | s, [] => some s
  | s, a :: as => (step o c n qs s a).bind fun s' => run o c n qs s' as

end Verif.Loader
