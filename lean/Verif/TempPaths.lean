import Verif.Async
import Verif.MinLabel
import Verif.PQ

/-!
# Temporal paths (`cmd/lp-temporal-paths/temporal-paths.go`)

The variant with `EXTEND_TO_EDGE_END = true` (24). Edges have a start time and, once they have ended, an end
time; a vertex has time windows in which it can be reached from the source, and offers each neighbour a
window along each edge.

Simplifications:
* Times and hop counts are naturals; `INFINITY` is `2^64 - 1`.
* `MailRetrieve` writes the property of the vertex it is called for (`changed`, `nextWindows`); as nobody else
  uses that property, the model does it in the callback that follows, in the same step.
* `MailMerge` is one step (it holds the mutex while it writes), and lengths do not wrap at `2^32`.
* `prop.priorityQueue` is storage only.
* A panic sets a flag in the property; the vertex does nothing further.
-/

namespace Verif.TempPaths

open Verif Verif.Async Verif.MinLabel

/-- `INFINITY` (26). -/
def INF : Nat := 18446744073709551615

/-- `Path` (28-32). -/
structure Path where
  start : Nat
  stop : Nat
  hops : Nat
  deriving DecidableEq, Repr

/-- The path of an edge that offers none, `Path{INFINITY, 0, INFINITY}` (82, 103, 272). -/
def noPath : Path := ⟨INF, 0, INF⟩

/-- The path of the source, `Path{0, INFINITY, 0}` (92). -/
def always : Path := ⟨0, INF, 0⟩

/-- `Less` (67-69). -/
def less (a b : Path) : Bool := decide (a.start < b.start)

/-- `Mail` (54-59); `scratch` is `NbrScratch`. -/
structure Mail where
  newPath : Path
  scratch : List Path
  pos : Nat
  deriving DecidableEq, Repr

/-- The `Pos` of the mail a vertex sends itself, `math.MaxUint32` (91). -/
def SELF : Nat := 4294967295

/-- `BaseVertexMailbox` (79-88) for a vertex with `n` incoming edges. -/
def baseMail (n : Nat) : Mail := { newPath := noPath, scratch := List.replicate n noPath, pos := 0 }

/-- `MailMerge` (90-118). -/
def merge (incoming : Mail) (_ : Nat) (existing : Mail) : Mail × Bool :=
  if incoming.pos = SELF then ({ existing with newPath := always }, true)
  else if existing.scratch.length ≤ incoming.pos then
    -- 100-105
    let grown := existing.scratch ++ List.replicate (incoming.pos + 1 - existing.scratch.length) noPath
    ({ existing with scratch := grown.set incoming.pos incoming.newPath }, true)
  else
    let prev := existing.scratch.getD incoming.pos noPath
    if prev.start ≠ incoming.newPath.start ∨ prev.stop ≠ incoming.newPath.stop then
      ({ existing with scratch := existing.scratch.set incoming.pos incoming.newPath }, true)
    else (existing, false)

/-! ## `MailRetrieve` -/

/-- The loop over the windows found so far (151-180): the window is merged into the first one that can take
it, `none` if there is none. -/
def absorb (x : Path) : List Path → Option (List Path)
  | [] => none
  | w :: ws =>
    if x.start = w.start ∧ x.stop = w.stop then some ({ w with hops := min w.hops x.hops } :: ws)
    else if x.start ≤ w.start ∧ x.stop ≥ w.stop then some (x :: ws)
    else if x.start > w.start ∧ x.start ≤ w.stop ∧ x.stop ≤ w.stop then some (w :: ws)
    else if x.start > w.start ∧ x.start < w.stop ∧ x.stop > w.stop then some ({ w with stop := x.stop, hops := max w.hops x.hops } :: ws)
    else (absorb x ws).map (w :: ·)

/-- One round of the first pass (139-184); `pq` is the array of the priority queue. -/
def collect (pq : List Path) (x : Path) : List Path :=
  if x.start = INF then pq
  else if pq = [] then [x]
  else match absorb x pq with
    | some l => l
    | none => (PQ.push less pq.toArray x).toList

/-- Whether a window of the old view is there and equal, hops aside (249, 259). -/
def same : Option Path → Path → Bool
  | none, _ => false
  | some w, n => decide (w.start = n.start ∧ w.stop = n.stop)

/-- The second pass (198-252) over the array of the priority queue. `done ++ [prev]` is `nextWindows`; `old` is
`prop.Windows`. `none`: the panic of line 205. -/
def build (old : List Path) : List Path → List Path → Path → Bool → Option (List Path × Bool)
  | [], done, prev, ch =>
    -- 255-262
    some (done ++ [prev], ch || decide (old.length ≠ done.length + 1) || !same old[done.length]? prev)
  | n :: l, done, prev, ch =>
    if n.start < prev.start then none
    else if n.start = prev.start ∧ n.stop = prev.stop then build old l done { prev with hops := min prev.hops n.hops } ch
    else if n.start = prev.start ∧ n.stop > prev.stop then build old l done { prev with stop := n.stop, hops := n.hops } ch
    else if n.start < prev.stop ∧ n.stop ≤ prev.stop then build old l done prev ch
    else if n.start ≥ prev.start ∧ n.start < prev.stop ∧ n.stop > prev.stop then build old l done { prev with stop := n.stop, hops := max prev.hops n.hops } ch
    else build old l (done ++ [prev]) n (ch || !same old[done.length]? prev)

/-- Both passes: the new windows, and whether they differ from the old ones; `none` is a panic. -/
def windowsOf (old scratch : List Path) : Option (List Path × Bool) :=
  match scratch.foldl collect [] with
  | [] => some ([], decide (old.length ≠ 0))
  | w :: pq => build old pq [] w false

/-- `VertexProperty` (38-43). -/
structure VP where
  windows : List Path
  next : List Path
  changed : Bool
  panicked : Bool
  deriving DecidableEq, Repr

/-- `VertexProperty.New` (45-47). -/
def newVP : VP := { windows := [], next := [], changed := false, panicked := false }

/-- The mailbox is that of the source (121). -/
def isSource (m : Mail) : Bool := decide (m.newPath.start = 0 ∧ m.newPath.stop = INF)

/-- `MailRetrieve` (120-267): what it does to the property; `none` is a panic. -/
def retrieve (m : Mail) (p : VP) : Option VP :=
  if isSource m = true then some { p with changed := true, next := if p.next.length = 0 then [m.newPath] else p.next }
  else (windowsOf p.windows m.scratch).map fun r => { p with changed := r.2, next := r.1 }

/-! ## Offers -/

/-- What the algorithm uses of an edge property and the edge: `Pos`, timestamp, end time (0: not ended). -/
structure Link where
  pos : Nat
  ts : Nat
  te : Nat
  deriving DecidableEq, Repr

/-- The end of what an edge offers (281-287). -/
def Link.upto (e : Link) : Nat := if e.te ≠ 0 then e.te else INF

/-- The loop of `pushWindows` (277-350): index, windows from there on, offer, `first`; `none` is the panic of
line 346. -/
def offerLoop (e : Link) : Nat → List Path → Path → Nat → Option (Path × Nat)
  | _, [], o, f => some (o, f)
  | i, w :: ws, o, f =>
    if e.ts ≥ w.stop then offerLoop e (i + 1) ws o f
    else if e.ts ≤ w.start then some (o, f)
    else if o.start = INF then offerLoop e (i + 1) ws ⟨e.ts, e.upto, (w.hops + 1) % 2 ^ 64⟩ i
    else if e.ts = o.start then offerLoop e (i + 1) ws { o with hops := min o.hops ((w.hops + 1) % 2 ^ 64) } f
    else none

/-- `pushWindows` (270-358) without the sending: the offer for an edge, and where to start for the next. -/
def offer (ws : List Path) (k : Nat) (e : Link) : Option (Path × Nat) := offerLoop e k (ws.drop k) noPath k

/-- The mail for an edge (353). -/
def mailFor (e : Edge Link) (o : Path) : Nat × Mail := (e.dst, { newPath := o, scratch := [], pos := e.data.pos })

/-- The offers for edges in order (373-376, 390-393). -/
def offers (ws : List Path) : Nat → List (Edge Link) → Option (List (Nat × Mail))
  | _, [] => some []
  | k, e :: es => (offer ws k e.data).bind fun r => (offers ws r.2 es).map (mailFor e r.1 :: ·)

/-- The offers for ended edges (405-408): each search starts at the first window. -/
def offersEnded (ws : List Path) : List (Edge Link) → Option (List (Nat × Mail))
  | [] => some []
  | e :: es => (offer ws 0 e.data).bind fun r => (offersEnded ws es).map (mailFor e r.1 :: ·)

/-! ## Callbacks -/

/-- A panic. -/
def panic (p : VP) : VP × Prog Mail Unit := ({ p with panicked := true }, .done)

/-- `OnUpdateVertex` (361-378) after `MailRetrieve`; `more` is what the caller goes on to send if nothing was
sent (`none`: it panics). -/
def update (p : VP) (es : List (Edge Link)) (more : List Path → Option (List (Nat × Mail))) : VP × Prog Mail Unit :=
  if p.changed = true then
    -- 365-368
    let p' := { p with changed := false, windows := p.next, next := p.windows }
    match offers p'.windows 0 es, more p'.windows with
    | some l, some l' => (p', postAll l false fun sent => if sent then .done else postAll l' false fun _ => .done)
    | _, _ => panic p'
  else match more p.windows with
    | some l' => (p, postAll l' false fun _ => .done)
    | none => panic p

/-- `MailRetrieve`, then the callback. -/
def visit (p : VP) (es : List (Edge Link)) (m : Mail) (more : List Path → Option (List (Nat × Mail))) : VP × Prog Mail Unit :=
  if p.panicked = true then (p, .done)
  else match retrieve m p with
    | none => panic p
    | some p => update p es more

/-- `TP`: the algorithm. `OnUpdateVertex` (361-378), `OnEdgeAdd` (380-395), `OnEdgeDel` (397-410). -/
def tp : Alg VP Mail Unit Link :=
  { newP := newVP, newM := baseMail 0, noNote := (),
    merge := merge,
    retrieve := fun m _ => (m, m),
    onUpdate := fun _ p es _ _ m => visit p es m fun _ => some [],
    onEdgeAdd := fun _ p es start m => visit p es m fun ws => offers ws 0 (es.drop start),
    onEdgeDel := fun _ p es ended m => visit p es m fun ws => offersEnded ws ended }

/-! ## Runs

Edges are not deleted but get an end time (`stream-enact-events.go:350-383`). -/

/-- Consecutive delete events of a vertex (`stream-enact-events.go:351-383`): edges by index, and end times.
Result: the edges, and copies of the ended ones in order. Which unended edge an event picks is left open;
an event that finds none does not happen here (it is a panic, 377-380). -/
def endAll : List (Nat × Nat) → List (Edge Link) → Option (List (Edge Link) × List (Edge Link))
  | [], es => some (es, [])
  | (i, t) :: ds, es =>
    match es[i]? with
    | none => none
    | some e =>
      if e.data.te = 0 ∧ t ≠ 0 then
        let e' : Edge Link := { e with data := { e.data with te := t } }
        (endAll ds (es.set i e')).map fun r => (r.1, e' :: r.2)
      else none

/-- `stop t v ds`: thread `t` ends edges of its vertex `v`. The other actions are those of `Async`. -/
inductive TAct where
  | init (t v : Nat)
  | recv (t v i : Nat)
  | add (t v : Nat) (es : List (Edge Link))
  | stop (t v : Nat) (ds : List (Nat × Nat))
  | go (t : Nat)

abbrev S := St VP Mail Unit Link

def tstep (c : Cfg Mail Unit) (s : S) : TAct → Option S
  | .init t v => step tp c s (.init t v)
  | .recv t v i => step tp c s (.recv t v i)
  | .add t v es => step tp c s (.add t v es)
  | .go t => step tp c s (.go t)
  | .stop t v ds =>
    -- `stream-enact-events.go:350-387`
    if free c s t v = true then
      (endAll ds (s.edges v)).map fun r =>
        { s with edges := upd s.edges v r.1, task := upd s.task t (.load v fun p es m => tp.onEdgeDel v p es r.2 m) }
    else none

def trun (c : Cfg Mail Unit) : S → List TAct → Option S
  | s, [] => some s
  | s, x :: xs => (tstep c s x).bind fun s' => trun c s' xs

/-- The edges of a graph loaded before the run, given with their sources. -/
def loaded (L : List (Nat × Edge Link)) (u : Nat) : List (Edge Link) := (L.filter fun a => decide (a.1 = u)).map Prod.snd

/-- Before the run: the graph loaded, mailboxes as `BaseVertexMailbox` makes them (79-88), with `slots v`
entries (`InEventPos`). -/
def begin (L : List (Nat × Edge Link)) (slots : Nat → Nat) : S := { start tp (loaded L) with inbox := fun v => baseMail (slots v) }

/-- The run: only the source has initial mail (`main.go:20-23`), `Mail{Pos: MaxUint32}`. -/
def cfg (T : Nat) (own : Nat → Nat) (src : Nat) : Cfg Mail Unit :=
  { T := T, own := own, initMail := fun v => if v = src then some { newPath := noPath, scratch := [], pos := SELF } else none, initNote := fun _ => none }

end Verif.TempPaths
