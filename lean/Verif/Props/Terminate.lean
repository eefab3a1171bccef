import Verif.TerminateInv3

/-!
C35: a thread declares the computation finished only when nothing is in flight.

The statement is false (`C35_false`): `CheckTermination` stores a moved view and only then clears the
own vote (termination.go 44-45), and a thread that is delayed between the two stores shows its new
view together with a vote it cast for an older one.  `C35_partial` proves the statement for all
executions in which nobody reads the vote of a thread at that point, for any number of threads and
any interleaving otherwise.
-/

namespace Verif.Term

/-- Specification: every notification sent has been processed and no thread has anything left from
which it could create another (`busy`: notifications or topology events in hand). -/
def NothingInFlight (c : Cfg) (s : St) : Prop :=
  (∀ t, t < c.n → s.queue t = [] ∧ s.buff t = [] ∧ busy (s.pc t) = false ∧ s.closed t = true) ∧
  ((Finset.range c.n).sum fun t => s.msgSend t) = (Finset.range c.n).sum fun t => s.msgRecv t

/-- C35 in full. -/
def C35Statement : Prop :=
  ∀ (c : Cfg) (s0 s : St) (as : List Act) (t : Nat), 0 < c.max → Start c s0 →
    run c s0 as = some s → t < c.n → s.pc t = .done → NothingInFlight c s

/-- The step does not read the vote of a thread between its two stores (as `Fresh`, executable). -/
def fresh (s : St) : Act → Bool
  | .go t => match s.pc t with
    | .zeros i => s.pc i ≠ .reset true
    | _ => true
  | _ => true

/-- Runs in which every step is `fresh`. -/
def runFresh (c : Cfg) (s : St) : List Act → Option St
  | [] => some s
  | a :: as => if fresh s a then (step c s a).bind fun s' => runFresh c s' as else none

theorem fresh_iff (s : St) (a : Act) (h : fresh s a = true) : Fresh s a := by
  intro t i ha hp
  subst ha
  simpa [fresh, hp] using h

theorem runFresh_run {c : Cfg} {as : List Act} {s s' : St} (h : runFresh c s as = some s') :
    run c s as = some s' := by
  induction as generalizing s with
  | nil => exact h
  | cons a as ih =>
    simp only [runFresh] at h
    split at h
    · cases hs : step c s a with
      | none => rw [hs] at h; cases h
      | some s1 => rw [hs] at h; simp only [run, hs]; exact ih h
    · cases h

theorem balance_start {c : Cfg} {s : St} (h : Start c s) : tot c.n s.outs = tot c.n s.ins := by
  have h1 : s.outs = fun t => s.msgSend t := by
    funext t; simp [St.outs, h.pc, sentNow]
  have h2 : s.ins = fun t => s.msgRecv t + (s.queue t).length := by
    funext t; simp [St.ins, h.pc, h.buff, hand]
  rw [h1, h2]; exact h.balance

theorem inv_runFresh {c : Cfg} (hm : 0 < c.max) {as : List Act} {s s' : St} (hi : Inv c s)
    (hb : tot c.n s.outs = tot c.n s.ins) (h : runFresh c s as = some s') :
    Inv c s' ∧ tot c.n s'.outs = tot c.n s'.ins := by
  induction as generalizing s with
  | nil => cases h; exact ⟨hi, hb⟩
  | cons a as ih =>
    simp only [runFresh] at h
    split at h
    · rename_i hf
      cases hs : step c s a with
      | none => rw [hs] at h; cases h
      | some s1 =>
        rw [hs] at h
        exact ih (inv_step hm hi (fresh_iff s a hf) hs) (balance_step hb hs) h
    · cases h

theorem still_run {c : Cfg} {as : List Act} {s s' : St} (hi : Still c s)
    (hb : tot c.n s.outs = tot c.n s.ins) (h : run c s as = some s') :
    Still c s' ∧ tot c.n s'.outs = tot c.n s'.ins := by
  induction as generalizing s with
  | nil => cases h; exact ⟨hi, hb⟩
  | cons a as ih =>
    simp only [run] at h
    cases hs : step c s a with
    | none => rw [hs] at h; cases h
    | some s1 =>
      rw [hs] at h
      exact ih (still_step hi hs) (balance_step hb hs) h

theorem nothing_of_still {c : Cfg} {s : St} (h : Still c s)
    (hb : tot c.n s.outs = tot c.n s.ins) : NothingInFlight c s := by
  refine ⟨h, ?_⟩
  have e1 : tot c.n s.outs = tot c.n fun t => s.msgSend t := by
    refine Finset.sum_congr rfl fun t ht => ?_
    have := (h t (Finset.mem_range.1 ht)).2.2.1
    simp only [St.outs]
    revert this
    cases s.pc t <;> simp [busy, sentNow]
  have e2 : tot c.n s.ins = tot c.n fun t => s.msgRecv t := by
    refine Finset.sum_congr rfl fun t ht => ?_
    obtain ⟨h1, h2, h3, _⟩ := h t (Finset.mem_range.1 ht)
    simp only [St.ins, h1, h2]
    revert h3
    cases s.pc t <;> simp [busy, hand]
  rw [e1, e2] at hb
  exact hb

/-- C35 for executions in which no thread's vote is read between the two stores of
termination.go 44-45: when some thread's check returns true, nothing is in flight, now and after any
continuation (fresh or not), and the send and receive counts agree, so `EnsureCompleteness`
(termination.go 112-135) does not panic.  Missing for the full statement: the other executions, for
which it is false. -/
theorem C35_partial {c : Cfg} {s0 s s' : St} {as bs : List Act} {t : Nat} (hm : 0 < c.max)
    (h0 : Start c s0) (h : runFresh c s0 as = some s) (ht : t < c.n) (hd : s.pc t = .done)
    (h' : run c s bs = some s') : NothingInFlight c s ∧ NothingInFlight c s' := by
  obtain ⟨hi, hb⟩ := inv_runFresh hm (inv_start h0) (balance_start h0) h
  have hst := (hi.l4.fin t ht hd).1
  obtain ⟨hst', hb'⟩ := still_run hst hb h'
  exact ⟨nothing_of_still hst hb, nothing_of_still hst' hb'⟩

/-- Two threads, one notification for thread 1, sent (and counted) by thread 1. -/
def ex0 : St where
  pc := fun _ => .top 0
  queue := fun t => if t = 1 then [⟨1, 0, true⟩] else []
  buff := fun _ => []
  msgSend := fun t => if t = 1 then 1 else 0
  msgRecv := fun _ => 0
  events := fun _ => 0
  closed := fun _ => true
  data := fun _ => 0
  view := fun _ => 0
  votes := fun _ => 0
  cand := fun _ _ => 0
  xs := fun _ _ => 0
  rd := fun _ _ => 0
  mark := fun _ _ => 0
  inst := fun _ => false
  ptime := fun _ => 0
  clock := 0

theorem ex0_start : Start ⟨2, 1024⟩ ex0 := by
  constructor
  all_goals first | (intros; rfl) | skip
  · intro t sl hsl
    simp only [ex0] at hsl
    split at hsl
    · rw [List.mem_singleton] at hsl; subst hsl; decide
    · cases hsl

/-- `n` instructions of thread `t`. -/
def gos (t n : Nat) : List Act := List.replicate n (.go t)

/-- Thread 1 processes its notification, sending one to thread 0, and reports; thread 0, which had
found its queue empty and voted before, sees the new sum, stores its view and is delayed with its
vote still 1.  Thread 1 goes on to vote 2; the roles are exchanged twice more. -/
def exBad : List Act :=
  gos 0 17 ++ gos 0 17 ++ gos 0 17 ++ gos 0 5 ++
  gos 1 6 ++ [.send 1 0] ++ gos 1 2 ++ gos 1 11 ++ gos 0 5 ++ gos 1 18 ++ gos 1 5 ++
  gos 0 1 ++ gos 0 6 ++ [.send 0 1] ++ gos 0 2 ++ gos 0 11 ++ gos 1 5 ++ gos 0 18 ++ gos 0 24 ++
  gos 0 5 ++
  gos 1 1 ++ gos 1 6 ++ [.send 1 0] ++ gos 1 2 ++ gos 1 11 ++ gos 0 5 ++ gos 1 18 ++ gos 1 25

theorem exBad_run : (run ⟨2, 1024⟩ ex0 exBad).map (fun s =>
    (s.pc 0, s.pc 1, s.queue 0, s.buff 0)) =
    some (.reset true, .done, [⟨1, 3, true⟩], []) := by decide +kernel

theorem exBad_run2 : (run ⟨2, 1024⟩ ex0 exBad).map (fun s =>
    (s.view 1, s.data 1, s.acts 0, s.votes 0, s.closed 0)) =
    some (7, 5, 2, 3, true) := by decide +kernel

/-- C35 is false: two threads, and thread 1 leaves its loop while a notification waits in the queue
of thread 0. -/
theorem C35_false : ¬ C35Statement := by
  intro h
  have hr := exBad_run
  cases hs : run ⟨2, 1024⟩ ex0 exBad with
  | none => rw [hs] at hr; cases hr
  | some s =>
    rw [hs] at hr
    simp only [Option.map_some, Option.some.injEq, Prod.mk.injEq] at hr
    have := (h ⟨2, 1024⟩ ex0 s exBad 1 (by decide) ex0_start hs (by decide) hr.2.1).1 0 (by decide)
    rw [hr.2.2.1] at this
    exact absurd this.1 (by simp)

/-- Thread 0 has not yet taken the waiting notification. -/
def early : PC → Bool
  | .reset true => true
  | .top k | .pullB k | .pullQ k => k = 0
  | _ => false

/-- Thread 0 has taken it: it never finds the view of thread 1 equal to its own. -/
def late (d : Nat) : PC → Prop
  | .top _ | .pullB _ | .pullQ _ | .drain _ | .polled _ | .recvd _ | .report | .reset _ => True
  | .work w k _ _ | .put w k _ _ _ => w = .msgs ∧ k ≠ 0
  | .sum i acc => i ≤ 2 ∧ 3 ≤ d ∧ (i = 1 → 3 ≤ acc) ∧ (i = 2 → 8 ≤ acc)
  | .cmp acc => 8 ≤ acc
  | .views i acc => 8 ≤ acc ∧ i ≤ 1
  | _ => False

/-- Thread 1 is gone and thread 0 waits for it. -/
def Stuck (s : St) : Prop :=
  s.pc 1 = .done ∧ s.view 1 = 7 ∧ s.data 1 = 5 ∧ s.closed 0 = true ∧ 2 ≤ s.acts 0 ∧
  ((early (s.pc 0) = true ∧ s.buff 0 = [] ∧ ∃ sl rest, s.queue 0 = sl :: rest ∧ sl.full = true) ∨
   ((3 ≤ s.acts 0 ∨ busy (s.pc 0) = true) ∧ late (s.data 0) (s.pc 0)))

theorem stuck_step {s s' : St} {a : Act} (h : Stuck s) (hs : step ⟨2, 1024⟩ s a = some s') :
    Stuck s' := by
  unfold Stuck at *
  have key : ∀ t, t < 2 → s.pc t ≠ .done → t = 0 := by
    intro t ht hp
    have : t ≠ 1 := fun e => hp (e ▸ h.1)
    omega
  simp only [St.acts] at *
  step_cases hs
  all_goals simp only [St.acts] at *
  all_goals grind [upd, busy, early, late]

/-- After the false termination the program hangs: thread 0 never finishes, whatever happens. -/
theorem C35_hangs : ∃ s0 s : St, ∃ as, Start ⟨2, 1024⟩ s0 ∧ run ⟨2, 1024⟩ s0 as = some s ∧
    s.pc 1 = .done ∧ ∀ bs s', run ⟨2, 1024⟩ s bs = some s' → s'.pc 0 ≠ .done := by
  have hr := exBad_run
  have hr2 := exBad_run2
  cases hs : run ⟨2, 1024⟩ ex0 exBad with
  | none => rw [hs] at hr; cases hr
  | some s =>
    rw [hs] at hr hr2
    simp only [Option.map_some, Option.some.injEq, Prod.mk.injEq] at hr hr2
    obtain ⟨p0, p1, q0, b0⟩ := hr
    obtain ⟨v1, d1, a0, w0, c0⟩ := hr2
    refine ⟨ex0, s, exBad, ex0_start, hs, p1, ?_⟩
    have hst : Stuck s := ⟨p1, v1, d1, c0, by omega, Or.inl ⟨by rw [p0]; rfl, b0, _, _, q0, rfl⟩⟩
    clear p0 p1 q0 b0 v1 d1 a0 w0 c0 hs
    intro bs
    induction bs generalizing s with
    | nil =>
      intro s' h hd
      cases h
      rcases hst.2.2.2.2.2 with ⟨h, _⟩ | ⟨_, h⟩
      · rw [hd] at h; cases h
      · rw [hd] at h; exact h
    | cons a bs ih =>
      intro s' h
      simp only [run] at h
      cases hs : step ⟨2, 1024⟩ s a with
      | none => rw [hs] at h; cases h
      | some s1 => rw [hs] at h; exact ih s1 (stuck_step hst hs) s' h

/-- A run that ends well: thread 1 handles its notification, sends one to thread 0, and both vote. -/
def exGood : List Act :=
  gos 1 6 ++ [.send 1 0] ++ gos 1 2 ++ gos 0 7 ++ gos 0 11 ++ gos 1 11 ++ gos 0 11 ++ gos 1 16 ++
  gos 0 18 ++ gos 1 18 ++ gos 0 24 ++ gos 1 25

example : (runFresh ⟨2, 1024⟩ ex0 exGood).map (fun s => (s.pc 0, s.pc 1)) =
    some (.top 0, .done) := by decide +kernel

end Verif.Term
