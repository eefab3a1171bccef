import Verif.Pipeline
import Verif.Engine

/-!
# How a run begins

Source: `/repo/graph/algorithm.go` (`LaunchGraphExecution` 156-168, `Launch` 171-201, `blankAlg` 286-306),
`/repo/graph/run-async.go` (`SendInitialMail` 14-104), `/repo/graph/stream-enact-events.go` (`NewVertex` 42-83),
`/repo/graph/graph.go` (49-53).

Whether an algorithm implements `InitAllMail` or `InitAllNote` is found out by type assertions: here `Option`s. What these
functions return may depend on the raw and the internal id of the vertex. A Go map is a partial function and, for a loop
over it, a list of its keys in any order. What is done with the mail or notification (merging, visiting, sending) is the
`init` action of `Verif/Async.lean`.
-/

namespace Verif.Launch

/-- What a vertex is given at the start. -/
inductive Item (M N : Type) where
  | mail (m : M)
  | note (n : N)
  deriving DecidableEq, Repr

/-- `InitMails`, `InitNotes` (`graph.go:52-53`; `none` is `nil`) and what the algorithm implements. -/
structure Given (M N : Type) where
  mails : Option (UInt32 → Option M)
  notes : Option (UInt32 → Option N)
  allMail : Option (UInt32 → Nat × Nat → M)
  allNote : Option (UInt32 → Nat × Nat → N)

variable {M N P E : Type}

/-- The maps given to `LaunchGraphExecution`, as lists of entries (156-168): empty maps become `nil`, and if there are
mails the notes are dropped. -/
def launch (mails : List (UInt32 × M)) (notes : List (UInt32 × N)) (allMail : Option (UInt32 → Nat × Nat → M)) (allNote : Option (UInt32 → Nat × Nat → N)) :
    Given M N :=
  { mails := if 0 < mails.length then some fun u => mails.lookup u else none
    notes := if 0 < mails.length then none else if 0 < notes.length then some fun u => notes.lookup u else none
    allMail := allMail, allNote := allNote }

/-- `SourceInit` (174). -/
def sourceInit (g : Given M N) : Bool := g.mails.isSome || g.notes.isSome

/-- `NoteInit` (175-178). -/
def noteInit (g : Given M N) : Bool := g.notes.isSome || g.allNote.isSome

/-- `NewVertex` (`stream-enact-events.go:49-80`) for vertex `id` with raw id `u`: what it is given in a dynamic run. `zM` and `zN` are the zero
values of Go. -/
def newVertexItem (zM : M) (zN : N) (g : Given M N) (u : UInt32) (id : Nat × Nat) : Option (Item M N) :=
  if !noteInit g then
    if !sourceInit g then
      match g.allMail with
      | some f => some (.mail (f u id))
      | none => some (.mail zM)
    else match g.mails with
      | some m => (m u).map .mail
      | none => none
  else
    if !sourceInit g then
      match g.allNote with
      | some f => some (.note (f u id))
      | none => some (.note zN)
    else match g.notes with
      | some n => (n u).map .note
      | none => none

/-- `SendInitialMail` (29-104): what is given to which vertex in a static run, in order. `keys` are the keys of the map in the
order of the loop, `ids` the vertices. -/
def sendInitial (g : Given M N) (keys : List UInt32) (fromRaw : UInt32 → Option (Nat × Nat)) (ids : List (Nat × Nat)) (raw : Nat × Nat → UInt32) :
    List ((Nat × Nat) × Item M N) :=
  match g.mails with
  | none =>
    match g.allMail with
    | some f => ids.map fun id => (id, .mail (f (raw id) id))
    | none =>
      match g.notes with
      | none =>
        match g.allNote with
        | some f => ids.map fun id => (id, .note (f (raw id) id))
        | none => []
      | some n => keys.filterMap fun u => (fromRaw u).bind fun id => (n u).map fun x => (id, .note x)
  | some m => keys.filterMap fun u => (fromRaw u).bind fun id => (m u).map fun x => (id, .mail x)

/-- `blankAlg` (286-306): the algorithm that runs while a graph is loaded for a static run. Properties and mailboxes are
those of the algorithm to come (`New`); `z` is the zero mail. -/
def blank (a : Async.Alg P M N E) (z : M) : Async.Alg P M N E :=
  { newP := a.newP, newM := a.newM, noNote := a.noNote
    merge := fun _ _ m => (m, false)
    retrieve := fun m _ => (m, z)
    onUpdate := fun _ p _ _ _ _ => (p, .done)
    onEdgeAdd := fun _ p _ _ _ => (p, .done)
    onEdgeDel := fun _ p _ _ _ => (p, .done) }

end Verif.Launch
