import Verif.Util

/-!
# Asynchronous execution: mailboxes, notifications, visits

`graph/algorithm.go:59-93`, `graph/run-async.go:14-176`, `graph/run-dynamic.go:128-345`,
`graph/stream-enact-events.go:15-118, 210-402`, for an arbitrary algorithm.

Each vertex belongs to one thread. A thread takes a notification from its queue, decrements the
activity counter of the vertex, reads the mailbox and runs the algorithm's visit; or it changes the
edges of one of its vertices, reads the mailbox and runs the algorithm's edge callback. What a callback
sends is a small program: posting mail to a vertex and, if the mail was news, sending it a notification
unless one is on its way (`UniqueNotification`); or sending a notification with a note in any case
(`ActiveNotification`). Every atomic operation on shared memory is one step; threads interleave freely.

Simplifications:
* The callbacks read and write only the vertex they are called for, apart from what they send, so
  that their effect on the vertex property is one step and what they send is a program fixed by what
  they read; the program may depend on whether earlier sends sent something (`sent`).
* `MailMerge` and `MailRetrieve` are single atomic steps (compare-and-swap loops, C28).
* Outstanding notifications of a vertex are a collection from which any may be taken next: that the
  queue and the back-pressure buffer lose and duplicate nothing is C03, C07; their order is not used.
* A vertex exists from the start with default property and mailbox, and is initialised once, at any
  time (in the code when it is first seen, `NewVertex`, or before the run, `SendInitialMail`).
* Taking a notification from the queue and decrementing the counter is one step: only the owner
  takes, and in between nobody can tell.
-/

namespace Verif.Async

/-- `Edge` (`graph-edge.go:18-22`): destination and property. -/
structure Edge (E : Type) where
  dst : Nat
  data : E
  deriving DecidableEq, Repr

/-- What a callback sends. `post`: `MailMerge` into the mailbox of `w`, and `UniqueNotification` if it
reported new information; the continuation gets whether a notification was sent. `send`:
`ActiveNotification`. -/
inductive Prog (M N : Type) where
  | done
  | post (w : Nat) (m : M) (k : Bool → Prog M N)
  | send (w : Nat) (n : N) (k : Prog M N)

/-- An algorithm (`algorithm.go:9-48`): `P` vertex property, `M` mail, `N` note, `E` edge property. -/
structure Alg (P M N E : Type) where
  newP : P
  newM : M
  /-- the note of a unique notification -/
  noNote : N
  /-- incoming, sender, existing; new contents and "new information" -/
  merge : M → Nat → M → M × Bool
  /-- contents, property; new contents and result -/
  retrieve : M → P → M × M
  /-- vertex, property, out-edges, note, `Activity`, mail -/
  onUpdate : Nat → P → List (Edge E) → N → Int → M → P × Prog M N
  /-- vertex, property, out-edges after the add, index of the first new edge, mail -/
  onEdgeAdd : Nat → P → List (Edge E) → Nat → M → P × Prog M N
  /-- vertex, property, out-edges after the delete, deleted edges, mail -/
  onEdgeDel : Nat → P → List (Edge E) → List (Edge E) → M → P × Prog M N

/-- The run: threads, owner of each vertex, initial mail or note of each vertex. -/
structure Cfg (M N : Type) where
  T : Nat
  own : Nat → Nat
  initMail : Nat → Option M
  initNote : Nat → Option N

/-- What a thread is doing. `load v h`: about to read the mailbox of `v` and run `h`; `run v q`: in a
callback for `v` with `q` left to send; `cas v w k`: has merged news into the mailbox of `w`, about to
test its activity; `put v w n k`: has counted a notification of `w`, about to put it into the queue. -/
inductive Task (P M N E : Type) where
  | idle
  | load (v : Nat) (h : P → List (Edge E) → M → P × Prog M N)
  | run (v : Nat) (q : Prog M N)
  | cas (v w : Nat) (k : Bool → Prog M N)
  | put (v w : Nat) (n : N) (k : Prog M N)

/-- Log entries: mail with news was merged into the mailbox of `v` / the owner of `v` read it. -/
inductive Note where
  | dep (v : Nat)
  | obs (v : Nat)
  deriving DecidableEq, Repr

structure St (P M N E : Type) where
  prop : Nat → P
  edges : Nat → List (Edge E)
  inbox : Nat → M
  act : Nat → Int
  pend : Nat → List N
  inited : Nat → Bool
  task : Nat → Task P M N E
  log : List Note

variable {P M N E : Type}

/-- Before the algorithm starts. In a dynamic run the graph is empty; in a static run it has been built
before, by a run of `blankAlg`, whose callbacks do nothing (`algorithm.go:183-199, 287-306`). -/
def start (a : Alg P M N E) (es0 : Nat → List (Edge E) := fun _ => []) : St P M N E :=
  { prop := fun _ => a.newP, edges := es0, inbox := fun _ => a.newM, act := fun _ => 0, pend := fun _ => [],
    inited := fun _ => false, task := fun _ => .idle, log := [] }

/-- `init t v`: thread `t` initialises its vertex `v`; `recv t v i`: it takes the `i`-th outstanding
notification of `v`; `add t v es`: it appends edges; `del t v keep`: it deletes the edges where `keep` is
false; `go t`: it does the next step of its current task. -/
inductive Act (E : Type) where
  | init (t v : Nat)
  | recv (t v i : Nat)
  | add (t v : Nat) (es : List (Edge E))
  | del (t v : Nat) (keep : List Bool)
  | go (t : Nat)

/-- Edges kept and deleted. -/
def select {α : Type} : List Bool → List α → List α × List α
  | k :: ks, e :: es => let r := select ks es; if k then (e :: r.1, r.2) else (r.1, e :: r.2)
  | _, es => (es, [])

/-- The thread is in a state to start something on vertex `v`. -/
def free (c : Cfg M N) (s : St P M N E) (t v : Nat) : Bool :=
  decide (t < c.T) && decide (c.own v = t) && (match s.task t with | .idle => true | _ => false)

/-- Next step of a task. -/
def goStep (a : Alg P M N E) (s : St P M N E) (t : Nat) : Task P M N E → Option (St P M N E)
  | .idle => none
  | .load v h =>
    -- `MailRetrieve`, then the callback (`run-async.go:160-161`, `stream-enact-events.go:259-260, 386-387`)
    let r := a.retrieve (s.inbox v) (s.prop v)
    let q := h (s.prop v) (s.edges v) r.2
    some { s with inbox := upd s.inbox v r.1, prop := upd s.prop v q.1, task := upd s.task t (.run v q.2), log := s.log ++ [.obs v] }
  | .run _ .done => some { s with task := upd s.task t .idle }
  | .run v (.post w m k) =>
    let r := a.merge m v (s.inbox w)
    if r.2 then
      some { s with inbox := upd s.inbox w r.1, task := upd s.task t (.cas v w k), log := s.log ++ [.dep w] }
    else some { s with inbox := upd s.inbox w r.1, task := upd s.task t (.run v (k false)) }
  | .run v (.send w n k) =>
    -- `ActiveNotification` (`algorithm.go:87-91`)
    some { s with act := upd s.act w (s.act w + 1), task := upd s.task t (.put v w n k) }
  | .cas v w k =>
    -- `UniqueNotification` (`algorithm.go:77-83`)
    if s.act w = 0 then some { s with act := upd s.act w 1, task := upd s.task t (.put v w a.noNote (k true)) }
    else some { s with task := upd s.task t (.run v (k false)) }
  | .put v w n k =>
    -- `PutFastMP` / `PutSlowMP` (`algorithm.go:61-74`)
    some { s with pend := upd s.pend w (s.pend w ++ [n]), task := upd s.task t (.run v k) }

def step (a : Alg P M N E) (c : Cfg M N) (s : St P M N E) : Act E → Option (St P M N E)
  | .init t v =>
    -- `NewVertex` (`stream-enact-events.go:49-80`), `SendInitialMail` (`run-async.go:29-104`)
    if free c s t v ∧ s.inited v = false then
      let s := { s with inited := upd s.inited v true }
      match c.initMail v, c.initNote v with
      | some m, _ =>
        let r := a.merge m v (s.inbox v)
        if r.2 then
          some { s with inbox := upd s.inbox v r.1, log := s.log ++ [.dep v],
                        task := upd s.task t (.load v fun p es m => a.onUpdate v p es a.noNote 0 m) }
        else some { s with inbox := upd s.inbox v r.1 }
      | none, some n => some { s with act := upd s.act v (s.act v + 1), task := upd s.task t (.put v v n .done) }
      | none, none => some s
    else none
  | .recv t v i =>
    -- `ProcessMessages` (`run-async.go:156-161`)
    if free c s t v then
      match (s.pend v)[i]? with
      | none => none
      | some n =>
        let left := s.act v - 1
        some { s with pend := upd s.pend v ((s.pend v).eraseIdx i), act := upd s.act v left,
                      task := upd s.task t (.load v fun p es m => a.onUpdate v p es n left m) }
    else none
  | .add t v es =>
    -- `EnactTopologyEvents`: appending, then `OnEdgeAdd` (246-261)
    if free c s t v ∧ es ≠ [] then
      let start := (s.edges v).length
      some { s with edges := upd s.edges v (s.edges v ++ es), task := upd s.task t (.load v fun p es m => a.onEdgeAdd v p es start m) }
    else none
  | .del t v keep =>
    -- deleting, then `OnEdgeDel` (264-388)
    if free c s t v then
      let r := select keep (s.edges v)
      some { s with edges := upd s.edges v r.1, task := upd s.task t (.load v fun p es m => a.onEdgeDel v p es r.2 m) }
    else none
  | .go t => if t < c.T then goStep a s t (s.task t) else none

def run (a : Alg P M N E) (c : Cfg M N) : St P M N E → List (Act E) → Option (St P M N E)
  | s, [] => some s
  | s, x :: xs => (step a c s x).bind fun s' => run a c s' xs

/-- Nothing outstanding: every thread is between callbacks and no notification is on its way. -/
def Quiet (c : Cfg M N) (s : St P M N E) : Prop :=
  (∀ t, t < c.T → s.task t = .idle) ∧ ∀ v, s.pend v = []

end Verif.Async
