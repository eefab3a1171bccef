import Verif.Query

/-!
# Queries to algorithms with super-steps

`Verif/Query.lean` for an algorithm that declares `OnSuperStepConverged` (`checkSuperStep`,
`run-dynamic.go:134`): a thread whose topology is blocked checks for termination as well (277), and a
thread that finds termination goes to the meeting of `superstep.go:13-39` before it is `completed` (286-288).

Simplification: `complete` is the check, the meeting and the second check together, for a callback that
sends nothing (the last meeting of a phase, C73).
-/

namespace Verif.Query

/-- `checkTerm` with the second case (`run-dynamic.go:276-278`); `ss`: `checkSuperStep`. -/
def checkTermS (ss : Bool) (s : St) (t : Nat) : Bool :=
  (s.strucClosed t && s.remitClosed t) || (s.blockTop t && ss) || (s.epoch t && s.topZero t)

/-- As `votes`. -/
def votesS (ss : Bool) (s : St) (t : Nat) : Bool := checkTermS ss s t && (!s.epoch t || (s.queue t).isEmpty)

/-- The loop (`run-dynamic.go:158-342`); only the places that check for termination differ from `step`. -/
def stepS (ss : Bool) (c : Cfg) (s : St) : Act → Option St
  | .alg t k out =>
    if t < c.T ∧ s.pc t = .alg ∧ k ≤ s.notes t then
      if k = 0 then some { s with ready := if votesS ss s t then upd s.ready t true else s.ready, pc := upd s.pc t .top }
      else some { s with notes := deliver (upd s.notes t (s.notes t - k)) out, prop := upd s.prop t (s.prop t + k), pc := upd s.pc t .top }
    else none
  | .complete t =>
    if t < c.T ∧ s.pc t = .alg ∧ votesS ss s t = true ∧ (∀ u < c.T, (s.ready u = true ∨ u = t) ∧ s.notes u = 0) then
      let r := upd s.ready t true
      if s.epoch t = true then some { s with ready := r, quiet := true, pc := upd s.pc t .ackEpoch }
      else if s.blockTop t = true then some { s with ready := r, quiet := true, pc := upd s.pc t .panic }
      else some { s with ready := r, quiet := true, pc := upd s.pc t .dead }
    else none
  | x => step c s x

def runS (ss : Bool) (c : Cfg) : St → List Act → Option St
  | s, [] => some s
  | s, x :: xs => (stepS ss c s x).bind fun s' => runS ss c s' xs

end Verif.Query
