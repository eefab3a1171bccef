import Verif.PageRank
import Mathlib.Algebra.BigOperators.Group.List.Basic
import Mathlib.Tactic.Ring
import Mathlib.Tactic.FieldSimp
import Mathlib.Tactic.Linarith

/-!
# PageRank: the final pass

`cmd/lp-pagerank/pagerank.go:185-282` (`OnFinish`), with the constants of the code (`NORMALIZE`, not
`NORM_IGNORE_SINGLETONS`, not `PPR`).

Simplifications: exact arithmetic; `none` stands for a result that is not a finite number (in the code the
divisions by zero below give NaN: each is 0/0 or is multiplied by 0 later). The threads' partial sums are one sum.
-/

namespace Verif.PageRank

/-- A vertex as `OnFinish` sees it: property, no out-edges (`sink`), `CreateEvent > AtEvent` (`late`). -/
structure FV where
  inflow : ℚ
  mass : ℚ
  sink : Bool
  late : Bool
  deriving DecidableEq, Repr

/-- Division of floats that must be finite. -/
def fdiv (a b : ℚ) : Option ℚ := if b = 0 then none else some (a / b)

/-- First pass (201-226): absorb what is left, discard sinks that do not exist yet. -/
def absorb (v : FV) : FV :=
  let mass := v.mass + (1 - damping) * v.inflow
  { v with inflow := damping * v.inflow, mass := if v.sink = true ∧ v.late = true then 0 else mass }

/-- The totals of the first pass: mass in sinks, mass elsewhere, number of sinks, number discarded (216-232). -/
structure Totals where
  latent : ℚ
  nonSink : ℚ
  sinks : Nat
  discarded : Nat

def totals (vs : List FV) : Totals :=
  let ws := vs.map absorb
  { latent := ((ws.filter fun v => v.sink && !v.late).map FV.mass).sum,
    nonSink := ((ws.filter fun v => !v.sink).map FV.mass).sum,
    sinks := (ws.filter fun v => v.sink && !v.late).length,
    discarded := (ws.filter fun v => v.sink && v.late).length }

/-- The quantities computed between the passes (237-251). -/
structure Global where
  nV : ℚ
  latent : ℚ
  sinks : ℚ
  nonSink : ℚ
  retain : ℚ
  sinkQuota : ℚ
  normalQuota : ℚ
  geometric : ℚ

def global (vs : List FV) : Option Global :=
  let t := totals vs
  let latent := t.latent * (damping / (1 - damping))
  let nV : ℚ := (vs.length : ℚ) - t.discarded
  let sinks : ℚ := t.sinks
  (fdiv (latent * (1 / damping) - 1 * sinks) (nV - sinks)).bind fun retain =>
  (fdiv 1 (nV - 1)).bind fun sinkQuota =>
  (fdiv (nV - sinks) (nV - 1)).bind fun normalQuota =>
  (fdiv latent (1 - damping * (sinkQuota * (sinks - 1) + normalQuota * retain))).bind fun geometric =>
  some { nV := nV, latent := latent, sinks := sinks, nonSink := t.nonSink, retain := retain, sinkQuota := sinkQuota, normalQuota := normalQuota, geometric := geometric }

/-- Second pass (254-274), for a vertex after the first pass. -/
def settle (g : Global) (v : FV) : Option ℚ :=
  if v.sink = false then
    (fdiv v.mass g.nonSink).bind fun r => fdiv (v.mass + g.normalQuota * (g.geometric * (1 - g.retain)) * r) g.nV
  else if v.mass = 0 then some 0
  else
    let vLatent := v.mass * (damping / (1 - damping))
    (fdiv (vLatent * (1 / damping) - 1) (g.latent * (1 / damping) - g.sinks)).bind fun power =>
    (fdiv vLatent g.latent).bind fun part =>
    fdiv (v.mass + (1 - damping) * g.geometric * (g.sinkQuota * (1 - part) + g.normalQuota * g.retain * power)) g.nV

/-- `OnFinish`: the final masses. -/
def finish (vs : List FV) : Option (List ℚ) :=
  (global vs).bind fun g => (vs.map absorb).mapM (settle g)

end Verif.PageRank
