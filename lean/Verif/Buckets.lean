import Verif.Util

/-!
# Mailboxes while a thread makes vertices

Source: `/repo/graph/graph-vertex.go` (`idxToBucket` 50-54, `InternalExpand` 57-61, `NodeVertexMailbox` 146-150, `VertexMailbox`
95-99), `/repo/graph/stream-enact-events.go` (`NewVertex` 15-40), `/repo/graph/graph.go` (`VertexMailboxes`
73: "Must NOT mem move").

One graph thread, the owner, makes vertices: `VertexMailboxes` is a slice of pointers to buckets of mailboxes, and grows by
`append`. Any number of other threads put mail into mailboxes of vertices that exist, without any lock: they read the words
of the slice, one at a time, while the owner writes them, one at a time, in any order that the compiler may choose.

* A slice is an array, identified by a number, and a length; the capacity is that of the array and is only read by the
  owner. Old arrays stay (garbage collection).
* `append` takes a larger array, of any capacity, if the present one is full (`growslice`).
* Words are read and written in one piece; memory is sequentially consistent.
* A bucket is identified by the number of buckets made before it. A mailbox is a list of mails; putting in and taking out
  is one step each (C28, C29). The mailboxes of a new bucket are empty. The slices `VertexStructures` and
  `VertexProperties` grow in the same way and are left out.
* An id is known to others after `NewVertex` has returned (it travels in queues, C01, C04).
-/

namespace Verif.Buckets

/-- `idxToBucket` (50-54), for buckets of `B` mailboxes (a power of two; on 32-bit words: C18). -/
def bucketOf (B idx : Nat) : Nat × Nat := (idx / B, idx % B)

/-- What is left to do of `append`: the words not yet written. `arr` is the array that the slice will have, `pos`
its present length. -/
structure Append where
  arr : Nat
  pos : Nat
  wPtr : Bool
  wLen : Bool
  wSlot : Bool
  deriving DecidableEq

/-- Where the owner is: outside `NewVertex`, in `append` (24-26), before 28. -/
inductive Owner where
  | idle
  | app (a : Append)
  | fill
  deriving DecidableEq

/-- Another thread in `NodeVertexMailbox`: the vertex, the mail for it, and the words it has read. -/
structure Reader where
  idx : Nat
  mail : Nat
  ptr : Option Nat
  len : Option Nat
  deriving DecidableEq

structure St where
  /-- the arrays: entry of a slot; how many slots; number of arrays made -/
  slot : Nat → Nat → Nat
  cap : Nat → Nat
  arrays : Nat
  /-- the words of `VertexMailboxes` -/
  ptr : Nat
  len : Nat
  /-- number of buckets made, and the mail in their mailboxes -/
  buckets : Nat
  box : Nat × Nat → List Nat
  /-- `len(gt.Vertices)` -/
  count : Nat
  owner : Owner
  reader : Nat → Option Reader
  /-- an index was out of range -/
  panic : Bool
  /-- ghost: mail put in for a vertex, mail the vertex got -/
  sent : Nat → List Nat
  got : Nat → List Nat

/-- `Init` (`graph.go:155`): an empty slice with some capacity. -/
def start (c : Nat) : St :=
  { slot := fun _ _ => 0, cap := fun _ => c, arrays := 1, ptr := 0, len := 0, buckets := 0, box := fun _ => [], count := 0, owner := .idle,
    reader := fun _ => none, panic := false, sent := fun _ => [], got := fun _ => [] }

/-- The mailbox found through an array and a length: `none` is an index out of range; also if the length would allow it but
the array has no such slot. -/
def find (s : St) (B ptr len idx : Nat) : Option (Nat × Nat) :=
  if (bucketOf B idx).1 < len ∧ (bucketOf B idx).1 < s.cap ptr then some (s.slot ptr (bucketOf B idx).1, (bucketOf B idx).2) else none

inductive Act where
  /-- the owner begins `NewVertex`; `extra` is by how much the capacity exceeds what is needed, if the array is full -/
  | begin (extra : Nat)
  | writePtr
  | writeLen
  | writeSlot
  /-- the mailbox is made (28) and `NewVertex` returns -/
  | make
  /-- the owner takes the mail of a vertex -/
  | take (idx : Nat)
  /-- another thread begins to put mail into a mailbox -/
  | put (t idx mail : Nat)
  | readPtr (t : Nat)
  | readLen (t : Nat)
  | store (t : Nat)

/-- Lines 22-26 up to the writes. -/
def begin (B extra : Nat) (s : St) : St :=
  if (bucketOf B s.count).1 < s.len then { s with owner := .fill }
  else if s.len < s.cap s.ptr then
    { s with buckets := s.buckets + 1, owner := .app ⟨s.ptr, s.len, false, true, true⟩ }
  else
    { s with slot := upd s.slot s.arrays (s.slot s.ptr), cap := upd s.cap s.arrays (s.len + 1 + extra), arrays := s.arrays + 1,
             buckets := s.buckets + 1, owner := .app ⟨s.arrays, s.len, true, true, true⟩ }

/-- The owner goes on when all words are written. -/
def norm (a : Append) : Owner := if a.wPtr || a.wLen || a.wSlot then .app a else .fill

/-- One step; `none`: not possible. -/
def step (B : Nat) (s : St) : Act → Option St
  | .begin extra => match s.owner with
    | .idle => some (begin B extra s)
    | _ => none
  | .writePtr => match s.owner with
    | .app a => if a.wPtr then some { s with ptr := a.arr, owner := norm { a with wPtr := false } } else none
    | _ => none
  | .writeLen => match s.owner with
    | .app a => if a.wLen then some { s with len := a.pos + 1, owner := norm { a with wLen := false } } else none
    | _ => none
  | .writeSlot => match s.owner with
    | .app a => if a.wSlot then
        some { s with slot := upd s.slot a.arr (upd (s.slot a.arr) a.pos (s.buckets - 1)), owner := norm { a with wSlot := false } }
      else none
    | _ => none
  | .make => match s.owner with
    | .fill => match find s B s.ptr s.len s.count with
      | some p => some { s with box := upd s.box p [], count := s.count + 1, owner := .idle }
      | none => some { s with panic := true }
    | _ => none
  | .take idx => match s.owner with
    | .idle => if idx < s.count then
        match find s B s.ptr s.len idx with
        | some p => some { s with got := upd s.got idx (s.got idx ++ s.box p), box := upd s.box p [] }
        | none => some { s with panic := true }
      else none
    | _ => none
  | .put t idx mail => match s.reader t with
    | none => if idx < s.count then some { s with reader := upd s.reader t (some ⟨idx, mail, none, none⟩) } else none
    | some _ => none
  | .readPtr t => match s.reader t with
    | some r => if r.ptr = none then some { s with reader := upd s.reader t (some { r with ptr := some s.ptr }) } else none
    | none => none
  | .readLen t => match s.reader t with
    | some r => if r.len = none then some { s with reader := upd s.reader t (some { r with len := some s.len }) } else none
    | none => none
  | .store t => match s.reader t with
    | some ⟨idx, mail, some p, some n⟩ =>
      match find s B p n idx with
      | some q => some { s with box := upd s.box q (s.box q ++ [mail]), sent := upd s.sent idx (s.sent idx ++ [mail]), reader := upd s.reader t none }
      | none => some { s with panic := true }
    | _ => none

def run (B : Nat) : St → List Act → Option St
  | s, [] => some s
  | s, a :: as => (step B s a).bind fun s' => run B s' as

end Verif.Buckets
