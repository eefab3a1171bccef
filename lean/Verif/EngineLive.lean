import Verif.EngineInv
import Verif.Props.TerminateLive

/-!
# Progress of the asynchronous engine

Lemmas for C64: in an infinite execution in which the algorithm has stopped, no notification is left over.
-/

namespace Verif.Term

section
variable {c : Cfg} {s s' : St} {x : Act}

def isSend : Act → Bool
  | .send .. => true
  | _ => false

/-- Bound on the way of a thread with notifications in hand to the start of their batch. -/
def toBatch : PC → Nat
  | .work .events .. => 13
  | .work .eventsOnly .. => 12
  | .top _ => 11
  | .pullB _ => 10
  | .pullQ _ => 9
  | .polled _ => 8
  | .drain _ => 7
  | .recvd _ => 6
  | _ => 0

def mu (s : St) (t : Nat) : Nat := toBatch (s.pc t) + 2 * (s.queue t).length + (s.buff t).length

def isPut : PC → Bool
  | .put .. => true
  | _ => false

def inBatch : PC → Bool
  | .work .msgs .. => true
  | _ => false

theorem mu_step {t : Nat} (hc : s.closed t = true) (hput : isPut (s.pc t) = false) (hb : inBatch (s.pc t) = false)
    (hh : hand (s.pc t) ≠ 0) (hx : isSend x = false) (hs : step c s x = some s') : mu s' t + (if x = .go t then 1 else 0) ≤ mu s t := by
  unfold mu
  step_cases hs
  all_goals simp only [isSend] at hx
  all_goals grind [upd, hand, toBatch, isPut, inBatch]

/-- Bound on the way of a thread without notifications to the place where it looks for some. -/
def toPull (n : Nat) : PC → Nat
  | .pullB _ | .pullQ _ | .done | .put .. => 0
  | .top _ => 1
  | .lower _ | .reset _ => 2
  | .fall _ => 3
  | .all i => 2 + (n - i)
  | .three => n + 3
  | .ready i => n + 4 + (n - i)
  | .two => 2 * n + 5
  | .zeros i => 2 * n + 6 + (n - i)
  | .begin => 3 * n + 7
  | .views i _ => 3 * n + 8 + (n - i)
  | .cmp _ => 4 * n + 9
  | .sum i _ => 4 * n + 10 + (n - i)
  | .report => 5 * n + 11
  | .recvd _ => 5 * n + 12
  | .drain _ => 5 * n + 13
  | .polled _ => 5 * n + 14
  | .work .msgs .. => 2
  | .work .eventsOnly .. => 2
  | .work .events .. => 5 * n + 15

def atPull : PC → Bool
  | .pullB _ | .pullQ _ => true
  | _ => false

def nu (n : Nat) (s : St) (t : Nat) : Nat := toPull n (s.pc t) + (s.queue t).length

theorem nu_step {t : Nat} (hc : s.closed t = true) (hput : isPut (s.pc t) = false) (hp : atPull (s.pc t) = false)
    (hh : inBatch (s.pc t) = false → hand (s.pc t) = 0) (hx : isSend x = false) (hs : step c s x = some s') :
    nu c.n s' t + (if x = .go t then 1 else 0) ≤ nu c.n s t := by
  unfold nu
  step_cases hs
  all_goals simp only [isSend] at hx
  all_goals grind [upd, hand, toPull, isPut, inBatch, atPull]

/-- Notifications for `t` are waiting. -/
def Waiting (s : St) (t : Nat) : Prop := 0 < (s.queue t).length + (s.buff t).length

theorem waiting_step {t : Nat} (hw : Waiting s t) (hh : inBatch (s'.pc t) = false → hand (s'.pc t) = 0) (hx : isSend x = false)
    (hs : step c s x = some s') : Waiting s' t := by
  unfold Waiting at *
  step_cases hs
  all_goals simp only [isSend] at hx
  all_goals grind [upd, hand, inBatch]

def pulls : PC → Nat
  | .pullB _ => 1
  | _ => 0

/-- A thread that looks for notifications while some are waiting gets one. -/
theorem pull_step {t : Nat} (hm : 0 < c.max) (hw : Waiting s t) (hp : atPull (s.pc t) = true) (hk : hand (s.pc t) = 0)
    (hpull : ∀ k, s.pc t = .pullQ k → k < c.max → s.buff t = []) (hfull : ∀ sl ∈ s.queue t, sl.full = true)
    (hh : hand (s'.pc t) = 0) (hx : isSend x = false) (hs : step c s x = some s') :
    atPull (s'.pc t) = true ∧ pulls (s'.pc t) + (if x = .go t then 1 else 0) ≤ pulls (s.pc t) := by
  unfold Waiting at *
  step_cases hs
  all_goals simp only [isSend] at hx
  all_goals grind [upd, hand, atPull, pulls]

theorem closed_step {t : Nat} (h : s.closed t = true) (hs : step c s x = some s') : s'.closed t = true := by
  step_cases hs
  all_goals grind [upd]

def atWork : PC → Bool
  | .work .. => true
  | _ => false

def toRest : PC → Nat
  | .work .events .. => 2
  | .work .. => 1
  | _ => 0

theorem rest_step {t : Nat} (hc : s.closed t = true) (hput : isPut (s.pc t) = false) (hh : inBatch (s.pc t) = false → hand (s.pc t) = 0)
    (hx : isSend x = false) (hs : step c s x = some s') :
    toRest (s'.pc t) + (if x = .go t ∧ atWork (s.pc t) = true then 1 else 0) ≤ toRest (s.pc t) := by
  step_cases hs
  all_goals simp only [isSend] at hx
  all_goals grind [upd, hand, isPut, inBatch, atWork, toRest]

end

end Verif.Term

namespace Verif.Engine

open Verif.Async (Alg Edge Prog Task)

variable {P M N E : Type} [DecidableEq N]

/-- An infinite execution. -/
structure Exec (a : Alg P M N E) (c : Async.Cfg M N) (max : Nat) where
  st : Nat → St P M N E
  act : Nat → Act E
  next : ∀ i, step a c max (st i) (act i) = some (st (i + 1))

/-- The action is an instruction of thread `t`. -/
def Act.isBy (t : Nat) : Act E → Bool
  | .loop (.go u) | .take u _ | .work u | .claim u | .fill u => decide (u = t)
  | _ => false

/-- Every thread either leaves its loop or executes instructions for ever. -/
def Exec.Fair {a : Alg P M N E} {c : Async.Cfg M N} {max : Nat} (e : Exec a c max) : Prop :=
  ∀ t, t < c.T → ∀ i, ∃ j, i ≤ j ∧ ((e.act j).isBy t = true ∨ (e.st j).term.pc t = .done)

/-- The action is a step of the algorithm. -/
def Act.isAlg : Act E → Bool
  | .take .. | .work _ | .fill _ => true
  | _ => false

def Act.isTopo : Act E → Bool
  | .topo _ => true
  | _ => false

section
variable {a : Alg P M N E} {c : Async.Cfg M N} {max : Nat} {s s' : St P M N E} {x : Act E}

theorem alg_work (hx : x.isAlg = true) (hs : step a c max s x = some s') :
    ∃ y, Async.step a c s.alg y = some s'.alg ∧ ((∃ t, y = .go t) ∨ ∃ t v i, y = .recv t v i) := by
  cases x <;> simp only [Act.isAlg, Bool.false_eq_true] at hx
  case take t i =>
    simp only [step] at hs
    repeat' split at hs
    all_goals first | cases hs | (obtain ⟨α, hα, rfl⟩ := Option.map_eq_some_iff.1 hs; exact ⟨_, hα, .inr ⟨_, _, _, rfl⟩⟩)
  case work t =>
    simp only [step] at hs
    repeat' split at hs
    all_goals first | cases hs | (obtain ⟨α, hα, rfl⟩ := Option.map_eq_some_iff.1 hs; exact ⟨_, hα, .inl ⟨_, rfl⟩⟩)
  case fill t =>
    simp only [step] at hs
    split at hs
    · obtain ⟨τ, hτ, hs⟩ := Option.bind_eq_some_iff.1 hs
      obtain ⟨α, hα, rfl⟩ := Option.map_eq_some_iff.1 hs
      exact ⟨_, hα, .inl ⟨_, rfl⟩⟩
    · cases hs

theorem alg_same (hx : x.isAlg = false) (hx' : x.isTopo = false) (hs : step a c max s x = some s') : s'.alg = s.alg := by
  cases x <;> simp only [Act.isAlg, Act.isTopo, Bool.true_eq_false] at hx hx'
  case loop x =>
    cases x <;> simp only [step] at hs
    case go t =>
      split at hs
      · obtain ⟨τ, hτ, rfl⟩ := Option.map_eq_some_iff.1 hs
        simp only [move]
        repeat' split
        all_goals rfl
      · cases hs
    case cont t =>
      split at hs
      · obtain ⟨τ, hτ, rfl⟩ := Option.map_eq_some_iff.1 hs; rfl
      · cases hs
    case send => cases hs
    all_goals obtain ⟨τ, hτ, rfl⟩ := Option.map_eq_some_iff.1 hs; rfl
  case claim t =>
    simp only [step] at hs
    split at hs
    · obtain ⟨τ, hτ, rfl⟩ := Option.map_eq_some_iff.1 hs; rfl
    · cases hs

/-- A step of a loop. -/
theorem loop_step {y : Term.Act} (hs : step a c max s (.loop y) = some s') :
    Term.step ⟨c.T, max⟩ s.term y = some s'.term ∧ Term.isSend y = false ∧ (∀ t, y = .go t → batchDone s t (s.term.pc t) = true) ∧
    ∀ t, s.hand t ≠ [] → s'.hand t ≠ [] := by
  cases y <;> simp only [step] at hs
  case go t =>
    split at hs
    · rename_i hb
      obtain ⟨τ, hτ, rfl⟩ := Option.map_eq_some_iff.1 hs
      refine ⟨hτ, rfl, fun u hu => by cases hu; exact hb, fun u hu => ?_⟩
      simp only [move]
      repeat' split
      all_goals first | exact hu | skip
      all_goals
        simp only [upd]
        split
        · simp
        · exact hu
    · cases hs
  case cont t =>
    split at hs
    · obtain ⟨τ, hτ, rfl⟩ := Option.map_eq_some_iff.1 hs
      exact ⟨hτ, rfl, fun u hu => (by cases hu), fun u hu => hu⟩
    · cases hs
  case send => cases hs
  all_goals
    obtain ⟨τ, hτ, rfl⟩ := Option.map_eq_some_iff.1 hs
    exact ⟨hτ, rfl, fun u hu => (by cases hu), fun u hu => hu⟩

/-- Who has claimed a position fills it next. -/
theorem put_stuck {t : Nat} (hp : Term.isPut (s.term.pc t) = true) (hx : x.isAlg = false) (hs : step a c max s x = some s') :
    Term.isPut (s'.term.pc t) = true ∧ x.isBy t = false := by
  cases hpc : s.term.pc t <;> rw [hpc] at hp <;> simp only [Term.isPut, Bool.false_eq_true] at hp
  cases x <;> simp only [Act.isAlg, Bool.true_eq_false] at hx
  case loop y =>
    obtain ⟨h1, h2, h3, -⟩ := loop_step hs
    have hne : y ≠ .go t := fun e => by have := h3 t e; rw [hpc] at this; simp [batchDone] at this
    refine ⟨?_, ?_⟩
    · generalize s'.term = τ' at h1
      generalize s.term = τ at h1 hpc
      clear hs h3
      step_cases h1
      all_goals simp only [Term.isSend] at h2
      all_goals grind [upd, Term.isPut]
    · cases y <;> simp only [Act.isBy, decide_eq_false_iff_not]
      intro e; exact hne (by rw [e])
  case topo y =>
    simp only [step] at hs
    repeat' split at hs
    all_goals first | cases hs | (obtain ⟨α, hα, rfl⟩ := Option.map_eq_some_iff.1 hs; exact ⟨by dsimp only; rw [hpc]; rfl, rfl⟩)
  case claim u =>
    simp only [step] at hs
    split at hs
    · obtain ⟨τ, hτ, rfl⟩ := Option.map_eq_some_iff.1 hs
      refine ⟨?_, ?_⟩
      · dsimp only
        simp only [Term.step, Term.St.at] at hτ
        repeat' split at hτ
        all_goals cases hτ
        dsimp only
        by_cases e : t = u
        · subst e; rw [upd_same]; rfl
        · rw [upd_ne _ _ e, hpc]; rfl
      · simp only [Act.isBy, decide_eq_false_iff_not]
        intro e
        subst e
        simp only [Term.step, hpc, reduceCtorEq] at hτ
    · cases hs

theorem claim_put {t : Nat} (hs : step a c max s (.claim t) = some s') : t < c.T ∧ Term.isPut (s'.term.pc t) = true := by
  simp only [step] at hs
  split at hs
  · obtain ⟨τ, hτ, rfl⟩ := Option.map_eq_some_iff.1 hs
    simp only [Term.step, Term.St.at] at hτ
    split at hτ
    · split at hτ
      · rename_i h
        cases hτ
        exact ⟨h.1, by dsimp only; rw [upd_same]; rfl⟩
      · cases hτ
    · cases hτ
  · cases hs

/-- Whose batch has not been taken up cannot finish it. -/
theorem batch_stuck {t : Nat} {y : Term.Act} (hh : s.hand t ≠ []) (hb : Term.inBatch (s.term.pc t) = true) (hs : step a c max s (.loop y) = some s') :
    Term.inBatch (s'.term.pc t) = true ∧ y ≠ .go t := by
  obtain ⟨h1, h2, h3, -⟩ := loop_step hs
  have hne : y ≠ .go t := by
    intro e
    have := h3 t e
    revert this hb
    cases hp : s.term.pc t <;> simp only [Term.inBatch, Bool.false_eq_true, false_imp_iff]
    rename_i w k e n
    cases w <;> simp [batchDone, hh]
  refine ⟨?_, hne⟩
  generalize s'.term = τ' at h1
  generalize s.term = τ at h1 hb
  clear hs h3 hh
  step_cases h1
  all_goals simp only [Term.isSend] at h2
  all_goals grind [upd, Term.inBatch]

end

end Verif.Engine
