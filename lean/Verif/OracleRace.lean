import Verif.Util

/-!
# A comparison with an oracle while others are at work

`LogTimeSeries` calls `CompareToOracle` (`queries.go:123-128`) after the graph threads have acknowledged a command
and before it sends `RESUME`. With `NoConvergeForQuery` and `AllowAsyncVertexProps` (which
`lp-pagerank/main.go:20` sets) the command was `BLOCK_TOP` (`queries.go:71-74`): the threads go on updating
vertices. If the algorithm has an `OnFinish`, `QueryFinishConcurrent` may also be at work on the query
that was handed over just before (`queries.go:114`): it reads the properties of the graph.

One step is one access to the property of a vertex. `CompareToOracle` saves the properties of all
vertices (`oracle-compare.go:114-117`), finishes the graph (121), compares (124), puts the properties back (132-135).

Simplifications: `OnFinish` changes each vertex for itself; the oracle is not shown (`Verif/OracleCopy.lean`).
-/

namespace Verif.OracleRace

/-- `n` vertices; `live`: the threads were only asked not to change the topology; `finish`: `OnFinish` for
one vertex. -/
structure Cfg where
  n : Nat
  live : Bool
  finish : Nat → Nat → Nat

/-- Place in `CompareToOracle`: save vertex `i` (115), finish vertex `i` (121), compare (124), put back vertex `i` (134). -/
inductive PC where
  | save (i : Nat) | finish (i : Nat) | compare | restore (i : Nat) | done
  deriving DecidableEq, Repr

/-- `prop`: the properties; `stash`: `gVertexPropStash`; `seen`: what `QueryFinishConcurrent` has read of each vertex;
`want` (ghost): the properties if there were no comparison. -/
structure St where
  prop : Nat → Nat
  stash : Nat → Nat
  pc : PC
  seen : Nat → Option Nat
  want : Nat → Nat

/-- `ctl`: next step of `CompareToOracle`; `update v k`: a graph thread updates a vertex (`OnUpdateVertex`); `read v`:
`QueryFinishConcurrent` reads a vertex (`pagerank.go:203-206`). -/
inductive Act where
  | ctl
  | update (v k : Nat)
  | read (v : Nat)
  deriving DecidableEq, Repr

def start (p : Nat → Nat) : St := { prop := p, stash := fun _ => 0, pc := .save 0, seen := fun _ => none, want := p }

/-- `oracle-compare.go:110-136`, with `finishOriginal` and an algorithm with `OnFinish` and `OnOracleCompare`. -/
def ctlStep (c : Cfg) (s : St) : Option St :=
  match s.pc with
  | .save i => if i < c.n then some { s with stash := upd s.stash i (s.prop i), pc := .save (i + 1) } else some { s with pc := .finish 0 }
  | .finish i => if i < c.n then some { s with prop := upd s.prop i (c.finish i (s.prop i)), pc := .finish (i + 1) } else some { s with pc := .compare }
  | .compare => some { s with pc := .restore 0 }
  | .restore i => if i < c.n then some { s with prop := upd s.prop i (s.stash i), pc := .restore (i + 1) } else some { s with pc := .done }
  | .done => none

def step (c : Cfg) (s : St) : Act → Option St
  | .ctl => ctlStep c s
  | .update v k =>
    if c.live = true ∧ v < c.n then some { s with prop := upd s.prop v (s.prop v + k), want := upd s.want v (s.want v + k) } else none
  | .read v => if v < c.n then some { s with seen := upd s.seen v (some (s.prop v)) } else none

def run (c : Cfg) : St → List Act → Option St
  | s, [] => some s
  | s, x :: xs => (step c s x).bind fun s' => run c s' xs

end Verif.OracleRace
