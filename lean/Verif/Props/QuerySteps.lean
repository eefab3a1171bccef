import Verif.QuerySteps
import Verif.Props.Query

/-!
# Queries to algorithms with super-steps (C97)

Full statement: whatever the way of answering queries, no thread aborts (`log.Panic` at
`run-dynamic.go:293-305`), for algorithms with and without `OnSuperStepConverged`. False for
`NoConvergeForQuery` with `AllowAsyncVertexProps` (`BLOCK_TOP`): the threads go on while the query is answered,
the algorithm comes to rest, the last meeting returns true, and the thread ends while its topology is
blocked. In the other modes nothing changes, and C42, C59 and C60 hold as they stand.
-/

namespace Verif.Query

def C97Statement : Prop :=
  ∀ (ss : Bool) (c : Cfg) (xs : List Act) (s : St), runS ss c start xs = some s → ∀ t, t < c.T → s.pc t ≠ .panic

/-- Without super-steps, or if the topology is never blocked alone, a thread checks for termination in the same places. -/
theorem stepS_eq {ss : Bool} {c : Cfg} {s : St} (h : ss = false ∨ ∀ t, t < c.T → s.blockTop t = false) (x : Act) :
    stepS ss c s x = step c s x := by
  have e : ∀ t, t < c.T → votesS ss s t = votes s t := by
    intro t ht
    rcases h with h | h
    · simp [votesS, votes, checkTermS, checkTerm, h]
    · simp [votesS, votes, checkTermS, checkTerm, h t ht]
  cases x with
  | alg t k out =>
    simp only [stepS, step]
    by_cases ht : t < c.T
    · rw [e t ht]
    · simp [ht]
  | complete t =>
    simp only [stepS, step]
    by_cases ht : t < c.T
    · rw [e t ht]
    · simp [ht]
  | _ => rfl

theorem open_top {c : Cfg} {s : St} (hi : Inv c s) (hm : c.mode ≠ .blockTop) (t : Nat) (ht : t < c.T) : s.blockTop t = false := by
  have := role_kinds (hi.role t ht)
  simp only [Free, Told, Held, Stuck, Pending] at this
  cases hm' : c.mode <;> simp only [hm'] at this hm <;> grind

theorem runS_eq {ss : Bool} {c : Cfg} (h : ss = false ∨ c.mode ≠ .blockTop) (xs : List Act) :
    ∀ s, Inv c s → runS ss c s xs = run c s xs := by
  induction xs with
  | nil => intro s _; rfl
  | cons x xs ih =>
    intro s hi
    have e : stepS ss c s x = step c s x := stepS_eq (h.imp_right fun hm t ht => open_top hi hm t ht) x
    simp only [runS, run, e]
    cases hs : step c s x with
    | none => rfl
    | some s1 => exact ih s1 (inv_step hi hs)

/-- **C97** (partial): with `EPOCH` and `BLOCK_ALL`, and without super-steps in any mode, the runs are those of
C42, C59 and C60. -/
theorem C97_same_partial {ss : Bool} {c : Cfg} (h : ss = false ∨ c.mode ≠ .blockTop) (xs : List Act) :
    runS ss c start xs = run c start xs := runS_eq h xs _ (inv_start c)

/-- **C97** (partial): and no thread aborts. -/
theorem C97_partial {ss : Bool} {c : Cfg} (h : ss = false ∨ c.mode ≠ .blockTop) {xs : List Act} {s : St}
    (hr : runS ss c start xs = some s) (t : Nat) (ht : t < c.T) : s.pc t ≠ .panic :=
  C42_no_panic (C97_same_partial h xs ▸ hr) t ht

/-- Two threads, `BLOCK_TOP`. -/
def cTop : Cfg := ⟨2, 3, fun i => i % 2, .blockTop, false⟩

/-- The first event is applied by thread 0 and sets off one notification for thread 1, which is processed; a query
is asked, both threads acknowledge it and find nothing more to do while the first part of the graph is read. -/
def blocked : List Act :=
  [.emit, .poll 0, .remit 0 1 false, .topology 0 1 [1],
   .poll 1, .remit 1 0 false, .topology 1 0 [], .alg 1 1 [],
   .query, .ctl, .ctl, .ctl, .poll 0, .ack 0, .poll 1, .ack 1, .ctl, .ctl, .ctl, .ctl,
   .remit 0 0 false, .topology 0 0 [], .alg 0 0 [],
   .remit 1 0 false, .topology 1 0 []]

/-- **C97**, negation: with a super-step algorithm the second thread then finds termination and aborts. -/
theorem C97_false : ¬ C97Statement := by
  intro h
  have w : (runS true cTop start (blocked ++ [.complete 1])).any (fun s => decide (s.pc 1 = .panic)) = true := by decide +kernel
  obtain ⟨s, hs, hp⟩ := Option.any_eq_true _ _ |>.1 w
  exact h true cTop _ s hs 1 (by decide) (of_decide_eq_true hp)

/-- Without super-steps the same schedule stops before the last step: the thread does not check. -/
example : (run cTop start blocked).isSome = true ∧ run cTop start (blocked ++ [.complete 1]) = none := by
  constructor <;> decide +kernel

/-- A case of `C97_partial`: super-steps with `EPOCH`. The query comes after one event, both threads reach the check
and acknowledge. -/
example : (runS true ⟨2, 3, fun i => i % 2, .epoch, false⟩ start
    [.emit, .query, .ctl, .ctl, .ctl, .poll 0, .poll 1, .remit 0 0 false, .topology 0 1 [1], .remit 1 0 false, .topology 1 0 [],
     .alg 1 1 [], .poll 0, .remit 0 0 false, .topology 0 0 [], .alg 0 0 [], .poll 1, .remit 1 0 false, .topology 1 0 [],
     .complete 1, .ack 1, .poll 0, .remit 0 0 false, .topology 0 0 [], .complete 0, .ack 0]).any
    (fun s => decide (s.pc 0 = .parkEpoch ∧ s.pc 1 = .parkEpoch ∧ s.applied 0 = [0])) = true := by
  decide +kernel

end Verif.Query
