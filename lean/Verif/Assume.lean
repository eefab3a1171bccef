import Verif.Enact

/-!
# What is checked about edge properties before a run

Source: `/repo/graph/algorithm.go` (`CheckAssumptions` 269-284, called by `Launch` 173 and
`DynamicGraphExecutionFromTestEvents` 229), `/repo/graph/graph-edge.go` (23-38, 79-188), and for what a window does with
edges of any type `/repo/graph/stream-enact-events.go` (`InjectExpired` 121-185). `Verif/Enact.lean` has the same function for
edges with a time of their own, which replacing replaces; here the methods are those of the type.
-/

namespace Verif.Assume

/-- The methods of an edge property about times (`graph-edge.go:28-29, 36-37`), and its zero value. -/
structure Times (E : Type) where
  zero : E
  getTs : E → UInt64
  getEnd : E → UInt64
  setTs : UInt64 → E → E
  setEnd : UInt64 → E → E

/-- `LogicalTime`, `TimestampPos`, `TimeRange`, `InsertDeleteOnExpire` (`graph-options.go:17, 37-38, 43`). -/
structure Opts where
  logical : Bool
  tsPos : Int
  timeRange : Bool
  window : UInt64

variable {E : Type}

/-- `CheckAssumptions` (269-284): `true` if there is no panic. The end time is set on what the first test left (270, 273, 279). -/
def checkAssumptions (T : Times E) (o : Opts) : Bool :=
  let e := if o.logical || o.tsPos != 0 then T.setTs 123 T.zero else T.zero
  (!(o.logical || o.tsPos != 0) || T.getTs e == 123) && (!o.timeRange || T.getEnd (T.setEnd 1234 e) == 1234)

/-- `WithTimestamp` (81-95). -/
def withTimestamp : Times UInt64 :=
  { zero := 0, getTs := id, getEnd := fun _ => 0, setTs := fun t _ => t, setEnd := fun _ => id }

/-- `NoTimestamp` (103-108). -/
def noTimestamp : Times Unit :=
  { zero := (), getTs := fun _ => 0, getEnd := fun _ => 0, setTs := fun _ => id, setEnd := fun _ => id }

/-- `TimestampWeightedEdge` (126-146); `W` are the weights. -/
def timestampWeighted (W : Type) (w0 : W) : Times (UInt64 × W) :=
  { zero := (0, w0), getTs := Prod.fst, getEnd := fun _ => 0, setTs := fun t e => (t, e.2), setEnd := fun _ => id }

/-- `TimeRangeEdge` (159-180). -/
def timeRangeEdge : Times (UInt64 × UInt64) :=
  { zero := (0, 0), getTs := Prod.fst, getEnd := Prod.snd, setTs := fun t e => (t, e.2), setEnd := fun t e => (e.1, t) }

/-- The entry made for an added edge (136-151). -/
def queued (T : Times E) (o : Opts) (e : E) : E :=
  let t := T.getTs e + o.window
  let e := T.setTs t e
  if o.timeRange then T.setEnd t e else e

/-- The injection loop (161-182): the properties of the deletes that are put in the batch, and the entries that are kept. -/
def expire (T : Times E) (o : Opts) (latest : UInt64) : List E → List E × List E
  | [] => ([], [])
  | e :: es =>
    if T.getTs e > latest then ([], e :: es)
    else ((T.setTs (T.getTs e - o.window) e :: (expire T o latest es).1), (expire T o latest es).2)

/-- `InjectExpired` (121-185) for a batch of adds `es`, after entries `ex` of earlier batches; `none` is the panic of 142-147. -/
def injectExpired (T : Times E) (o : Opts) (ex es : List E) : Option (List E × List E) :=
  match es.getLast? with
  | none => none
  | some l => if es.any (fun e => decide (T.getTs e > T.getTs l)) then none else some (expire T o (T.getTs l) (ex ++ es.map (queued T o)))

end Verif.Assume
