import Verif.Terminate

/-!
# Super-steps (`graph/superstep.go`) in a static asynchronous run

When `CheckTermination` returns true in `ConvergeAsyncThread` (`graph/run-async.go:212-230`) and the
algorithm has the optional `OnSuperStepConverged`, the thread does not leave its loop but calls
`AwaitSuperStepConvergence` (`superstep.go:13-37`): all threads meet, thread 0 calls
`OnSuperStepConverged`, which may send notifications, and then every thread checks for termination a
second time, leaving its loop if that check returns true. The machine of `Verif/Terminate.lean` is run
for both checks, with every access to a shared cell a step of its own; the two channels are counters
(their capacity, the number of threads, is never reached: `C73_channels`).

Simplified: what `OnSuperStepConverged` does is one step (all other threads are blocked then), and only
the notifications it sends matter; topology events, epochs and commands are left out (`run-async.go` only).
-/

namespace Verif.Super

/-- What a thread is doing besides the program counter of the termination machine. -/
inductive Mode where
  /-- In its loop (`run-async.go:207-240`). -/
  | run
  /-- `superstep.go:32-33`: has sent on `doneMessages`, waits for `resumeMessages`. -/
  | wait
  /-- Thread 0, `superstep.go:17-19`: has received `i` times from `doneMessages`. -/
  | coll (i : Nat)
  /-- Thread 0, `superstep.go:28-30`: has sent `i` times on `resumeMessages`. -/
  | give (i : Nat)
  /-- In the second `CheckTermination` (`superstep.go:36`); with that at its end, out of the loop. -/
  | again
deriving DecidableEq, Repr

/-- `dones`, `resumes`: messages in the two channels (`superstep.go:4-5`); `calls` (ghost): how many
notifications the calls of `OnSuperStepConverged` have sent, the latest first. -/
structure St where
  term : Term.St
  mode : Nat → Mode
  dones : Nat
  resumes : Nat
  calls : List Nat

/-- `loop x`: a step of the loop or of a check; the others are the steps of
`AwaitSuperStepConvergence`; `call qs`: `OnSuperStepConverged` sends a notification to each of the
threads `qs`. -/
inductive Act where
  | loop (x : Term.Act)
  | post (t : Nat)
  | lead
  | collect
  | call (qs : List Nat)
  | give
  | recheck
  | take (t : Nat)
deriving DecidableEq, Repr

/-- The steps of the termination machine that occur in a static run, and their thread. -/
def loopThread : Term.Act → Option Nat
  | .go t | .drain t | .send t _ => some t
  | _ => none

/-- The thread is not inside `AwaitSuperStepConvergence`, or is in its last line. -/
def moving : Mode → Bool
  | .run | .again => true
  | _ => false

/-- A check that returns false leads back to the loop (`run-async.go:228-230`). -/
def back (p : Term.PC) (m : Mode) : Mode :=
  match p, m with
  | .top _, .again => .run
  | _, m => m

/-- The notifications of `OnSuperStepConverged` and, if there are any, lines 23-26 of `superstep.go`:
they count as sent by thread 0, and `ResetTerminationState` (`termination.go:103-109`). The next
instruction of each thread in the termination machine is the second check. -/
def called (n : Nat) (s : Term.St) (qs : List Nat) : Term.St :=
  let s := { s with
    pc := fun t => if t < n then .report else s.pc t
    queue := fun q => s.queue q ++ (qs.filter (fun x => x = q)).map (fun _ => ⟨0, s.acts 0, true⟩)
    msgSend := upd s.msgSend 0 (s.msgSend 0 + qs.length) }
  if qs = [] then s
  else { s with data := fun _ => 0, view := fun _ => 0, votes := fun _ => 0, cand := fun _ _ => 0,
                rd := fun _ _ => 0, mark := fun _ _ => 0, inst := fun _ => false, ptime := fun _ => 0 }

/-- One step; `none` when the action is not possible. -/
def step (c : Term.Cfg) (s : St) : Act → Option St
  | .loop x =>
    match loopThread x with
    | none => none
    | some t =>
      if moving (s.mode t) = true then
        (Term.step c s.term x).map fun s' => { s with term := s', mode := upd s.mode t (back (s'.pc t) (s.mode t)) }
      else none
  | .post t =>
    -- `superstep.go:32`
    if 0 < t ∧ t < c.n ∧ s.mode t = .run ∧ s.term.pc t = .done then
      some { s with mode := upd s.mode t .wait, dones := s.dones + 1 }
    else none
  | .lead =>
    -- `superstep.go:16-17`
    if s.mode 0 = .run ∧ s.term.pc 0 = .done then some { s with mode := upd s.mode 0 (.coll 0) } else none
  | .collect =>
    -- `superstep.go:17-19`
    match s.mode 0 with
    | .coll i =>
      if i + 1 < c.n ∧ 0 < s.dones then some { s with mode := upd s.mode 0 (.coll (i + 1)), dones := s.dones - 1 } else none
    | _ => none
  | .call qs =>
    -- `superstep.go:21-26`
    match s.mode 0 with
    | .coll i =>
      if i + 1 = c.n ∧ ∀ q ∈ qs, q < c.n then
        some { s with term := called c.n s.term qs, mode := upd s.mode 0 (.give 0), calls := qs.length :: s.calls }
      else none
    | _ => none
  | .give =>
    -- `superstep.go:28-30`
    match s.mode 0 with
    | .give i => if i + 1 < c.n then some { s with mode := upd s.mode 0 (.give (i + 1)), resumes := s.resumes + 1 } else none
    | _ => none
  | .recheck =>
    match s.mode 0 with
    | .give i => if i + 1 = c.n then some { s with term := s.term.at 0 .report, mode := upd s.mode 0 .again } else none
    | _ => none
  | .take t =>
    -- `superstep.go:33`
    if 0 < t ∧ t < c.n ∧ s.mode t = .wait ∧ 0 < s.resumes then
      some { s with term := s.term.at t .report, mode := upd s.mode t .again, resumes := s.resumes - 1 }
    else none

/-- Run a list of actions. -/
def run (c : Term.Cfg) (s : St) : List Act → Option St
  | [] => some s
  | a :: as => (step c s a).bind fun s' => run c s' as

/-- The start of a static run: as for the termination machine, no topology stream, all threads in their
loops, the channels empty (`graph.go:124`); there are no queues beyond the threads. -/
structure Start (c : Term.Cfg) (s : St) : Prop where
  term : Term.Start c s.term
  far : ∀ t, c.n ≤ t → s.term.queue t = []
  closed : ∀ t, s.term.closed t = true
  mode : ∀ t, s.mode t = .run
  dones : s.dones = 0
  resumes : s.resumes = 0
  calls : s.calls = []

end Verif.Super
