import Verif.Terminate
import Mathlib.Algebra.Order.BigOperators.Group.Finset
import Mathlib.Tactic.SplitIfs

/-! Invariants of the termination protocol (see `Verif.Props.Terminate` for the results). -/

namespace Verif.Term

/-- The thread has notifications or events in hand. -/
def busy : PC → Bool
  | .top k | .pullB k | .pullQ k | .drain k | .polled k | .recvd k => k ≠ 0
  | .work .. | .put .. => true
  | _ => false

/-- Actions completed or begun. -/
def St.begun (s : St) (t : Nat) : Nat := s.acts t + if busy (s.pc t) then 1 else 0

/-- The thread has reported in the current check. -/
def reported : PC → Bool
  | .sum .. | .cmp .. | .reset .. | .views .. | .begin | .zeros .. | .lower .. | .two | .ready ..
  | .fall .. | .three | .all .. | .done => true
  | _ => false

/-- The queue in which the thread has claimed a slot without having filled it. -/
def putTo : PC → Option Nat
  | .put _ _ _ _ q => some q
  | _ => none

/-- Queues and counters. -/
structure L1 (c : Cfg) (s : St) : Prop where
  workMsgs : ∀ t k e n, s.pc t = .work .msgs k e n → k ≠ 0
  putMsgs : ∀ t k e n q, s.pc t = .put .msgs k e n q → k ≠ 0
  workEv : ∀ t w k e n, s.pc t = .work w k e n → w ≠ .msgs → e ≠ 0 ∧ s.inst t = false
  putEv : ∀ t w k e n q, s.pc t = .put w k e n q → w ≠ .msgs → e ≠ 0 ∧ s.inst t = false
  pull : ∀ t k, s.pc t = .pullQ k → k < c.max → s.buff t = []
  dataA : ∀ t, s.data t ≤ s.acts t
  rep : ∀ t, reported (s.pc t) = true → s.data t = s.acts t
  clo : ∀ t, reported (s.pc t) = true ∨ s.pc t = .report → s.closed t = true
  inst : ∀ t, s.inst t = true → s.closed t = true
  slotQ : ∀ q, ∀ sl ∈ s.queue q, sl.src < c.n ∧ sl.cnt < s.begun sl.src
  slotB : ∀ q, ∀ sl ∈ s.buff q, sl.src < c.n ∧ sl.cnt < s.begun sl.src
  opn : ∀ q, ∀ sl ∈ s.queue q, sl.full = false →
    putTo (s.pc sl.src) = some q ∧ sl.cnt = s.acts sl.src

/-- Case analysis on one step: one goal per instruction, with the new state spelt out. -/
macro "step_cases" h:ident : tactic => `(tactic| (
  unfold step at $h:ident
  unfold goStep at $h:ident
  simp only [St.at, St.stamp, St.proceed] at $h:ident
  repeat' split at $h:ident
  all_goals cases $h:ident))

section
variable {c : Cfg} {s s' : St} {a : Act}

theorem L1.workMsgs_step (h : L1 c s) (hs : step c s a = some s') :
    ∀ t k e n, s'.pc t = .work .msgs k e n → k ≠ 0 := by
  have h1 := h.workMsgs; have h2 := h.putMsgs
  clear h; step_cases hs
  all_goals grind [upd]

theorem L1.putMsgs_step (h : L1 c s) (hs : step c s a = some s') :
    ∀ t k e n q, s'.pc t = .put .msgs k e n q → k ≠ 0 := by
  have h1 := h.workMsgs; have h2 := h.putMsgs
  clear h; step_cases hs
  all_goals grind [upd]

theorem L1.workEv_step (h : L1 c s) (hs : step c s a = some s') :
    ∀ t w k e n, s'.pc t = .work w k e n → w ≠ .msgs → e ≠ 0 ∧ s'.inst t = false := by
  have h1 := h.workEv; have h2 := h.putEv; have h3 := h.inst
  clear h; step_cases hs
  all_goals grind [upd]

theorem L1.putEv_step (h : L1 c s) (hs : step c s a = some s') :
    ∀ t w k e n q, s'.pc t = .put w k e n q → w ≠ .msgs → e ≠ 0 ∧ s'.inst t = false := by
  have h1 := h.workEv; have h2 := h.putEv; have h3 := h.inst
  clear h; step_cases hs
  all_goals grind [upd]

theorem L1.pull_step (h : L1 c s) (hs : step c s a = some s') :
    ∀ t k, s'.pc t = .pullQ k → k < c.max → s'.buff t = [] := by
  have h1 := h.pull
  clear h; step_cases hs
  all_goals grind [upd]

theorem L1.dataA_step (h : L1 c s) (hs : step c s a = some s') :
    ∀ t, s'.data t ≤ s'.acts t := by
  have h1 := h.dataA
  clear h; step_cases hs
  all_goals simp only [St.acts] at *
  all_goals grind [upd]

theorem L1.rep_step (h : L1 c s) (hs : step c s a = some s') :
    ∀ t, reported (s'.pc t) = true → s'.data t = s'.acts t := by
  have h1 := h.rep
  clear h; step_cases hs
  all_goals simp only [St.acts] at *
  all_goals grind [upd, reported]

theorem L1.clo_step (h : L1 c s) (hs : step c s a = some s') :
    ∀ t, reported (s'.pc t) = true ∨ s'.pc t = .report → s'.closed t = true := by
  have h1 := h.clo
  clear h; step_cases hs
  all_goals grind [upd, reported]

theorem L1.inst_step (h : L1 c s) (hs : step c s a = some s') :
    ∀ t, s'.inst t = true → s'.closed t = true := by
  have h1 := h.clo; have h2 := h.inst
  clear h; step_cases hs
  all_goals grind [upd, reported]

/-- Work only accumulates. -/
theorem L1.begun_mono (h : L1 c s) (hs : step c s a = some s') :
    ∀ t, s.begun t ≤ s'.begun t := by
  have h1 := h.workMsgs; have h2 := h.putMsgs; have h3 := h.workEv
  clear h; step_cases hs
  all_goals simp only [St.acts, St.begun] at *
  all_goals grind [upd, busy]

theorem acts_mono (hs : step c s a = some s') : ∀ t, s.acts t ≤ s'.acts t := by
  step_cases hs
  all_goals simp only [St.acts] at *
  all_goals grind [upd]

/-- Every slot after a step was there before, or is the one just claimed. -/
theorem slot_step (hs : step c s a = some s') :
    ∀ q sl, sl ∈ s'.queue q ∨ sl ∈ s'.buff q →
      (∃ sl0, (sl0 ∈ s.queue q ∨ sl0 ∈ s.buff q) ∧ sl0.src = sl.src ∧ sl0.cnt = sl.cnt) ∨
      (sl.src < c.n ∧ sl.cnt = s'.acts sl.src ∧ busy (s'.pc sl.src) = true) := by
  step_cases hs
  all_goals simp only [St.acts] at *
  all_goals grind [upd, busy]

theorem L1.slotQ_step (h : L1 c s) (hs : step c s a = some s') :
    ∀ q, ∀ sl ∈ s'.queue q, sl.src < c.n ∧ sl.cnt < s'.begun sl.src := by
  intro q sl hsl
  have hm := h.begun_mono hs
  rcases slot_step hs q sl (Or.inl hsl) with ⟨sl0, h0, h1, h2⟩ | ⟨h1, h2, h3⟩
  · rw [← h1, ← h2]
    rcases h0 with h0 | h0
    · have := h.slotQ q sl0 h0; exact ⟨this.1, lt_of_lt_of_le this.2 (hm _)⟩
    · have := h.slotB q sl0 h0; exact ⟨this.1, lt_of_lt_of_le this.2 (hm _)⟩
  · refine ⟨h1, ?_⟩
    rw [h2]; simp [St.begun, h3]

theorem L1.slotB_step (h : L1 c s) (hs : step c s a = some s') :
    ∀ q, ∀ sl ∈ s'.buff q, sl.src < c.n ∧ sl.cnt < s'.begun sl.src := by
  intro q sl hsl
  have hm := h.begun_mono hs
  rcases slot_step hs q sl (Or.inr hsl) with ⟨sl0, h0, h1, h2⟩ | ⟨h1, h2, h3⟩
  · rw [← h1, ← h2]
    rcases h0 with h0 | h0
    · have := h.slotQ q sl0 h0; exact ⟨this.1, lt_of_lt_of_le this.2 (hm _)⟩
    · have := h.slotB q sl0 h0; exact ⟨this.1, lt_of_lt_of_le this.2 (hm _)⟩
  · refine ⟨h1, ?_⟩
    rw [h2]; simp [St.begun, h3]

theorem L1.opn_step (h : L1 c s) (hs : step c s a = some s') :
    ∀ q, ∀ sl ∈ s'.queue q, sl.full = false →
      putTo (s'.pc sl.src) = some q ∧ sl.cnt = s'.acts sl.src := by
  have h1 := h.opn
  clear h; step_cases hs
  all_goals simp only [St.acts] at *
  all_goals grind [upd, putTo]

theorem L1_step (h : L1 c s) (hs : step c s a = some s') : L1 c s' :=
  ⟨h.workMsgs_step hs, h.putMsgs_step hs, h.workEv_step hs, h.putEv_step hs, h.pull_step hs,
    h.dataA_step hs, h.rep_step hs, h.clo_step hs, h.inst_step hs, h.slotQ_step hs,
    h.slotB_step hs, h.opn_step hs⟩


/-! ### Snapshots -/

/-- Sum over the threads. -/
abbrev tot (n : Nat) (f : Nat → Nat) : Nat := (Finset.range n).sum f

/-- Storing a whole row. -/
theorem updRow (f : Nat → Nat → Nat) (i : Nat) (g : Nat → Nat) (j u : Nat) :
    upd f i g j u = if j = i then g u else f j u := by
  simp only [upd]; split <;> rfl

theorem tot_le {n : Nat} {f g : Nat → Nat} (h : ∀ u, u < n → f u ≤ g u) : tot n f ≤ tot n g :=
  Finset.sum_le_sum fun u hu => h u (Finset.mem_range.1 hu)

theorem eq_of_tot_eq {n : Nat} {f g : Nat → Nat} (h : ∀ u, u < n → f u ≤ g u)
    (e : tot n f = tot n g) : ∀ u, u < n → f u = g u := by
  intro u hu
  have := (Finset.sum_eq_sum_iff_of_le (s := Finset.range n) (f := f) (g := g)
    fun i hi => h i (Finset.mem_range.1 hi)).1 e
  exact this u (Finset.mem_range.2 hu)

/-- The thread polled its queues since its last check. -/
def started : PC → Bool
  | .pullB .. | .pullQ .. | .drain .. | .polled .. | .recvd .. | .report | .sum .. | .cmp .. => true
  | .work w _ _ _ | .put w _ _ _ _ => w ≠ .eventsOnly
  | _ => false

/-- Pointwise order. -/
def Below (f g : Nat → Nat) : Prop := ∀ u, f u ≤ g u

structure L2 (c : Cfg) (s : St) : Prop where
  candD : ∀ t u, s.cand t u ≤ s.data u
  markD : ∀ t u, s.mark t u ≤ s.data u
  rdD : ∀ t u, u < c.n → s.rd t u ≤ s.data u
  rdV : ∀ t, tot c.n (s.rd t) = s.view t
  rdC : ∀ t, started (s.pc t) = true → ∀ u, u < c.n → s.rd t u ≤ s.cand t u
  sumA : ∀ t i acc, s.pc t = .sum i acc → i ≤ c.n ∧ acc = tot i (s.xs t)
  sumX : ∀ t i acc, s.pc t = .sum i acc → ∀ u, u < i → s.cand t u ≤ s.xs t u ∧ s.xs t u ≤ s.data u
  sumO : ∀ t i acc, s.pc t = .sum i acc → t < i → s.xs t t = s.data t
  cmpA : ∀ t acc, s.pc t = .cmp acc → acc = tot c.n (s.xs t) ∧ t < c.n ∧ s.xs t t = s.data t
  cmpX : ∀ t acc, s.pc t = .cmp acc → ∀ u, u < c.n → s.cand t u ≤ s.xs t u ∧ s.xs t u ≤ s.data u
  ordCC : ∀ t t', Below (s.cand t) (s.cand t') ∨ Below (s.cand t') (s.cand t)
  ordMC : ∀ t t', Below (s.mark t) (s.cand t') ∨ Below (s.cand t') (s.mark t)
  ordMM : ∀ t t', Below (s.mark t) (s.mark t') ∨ Below (s.mark t') (s.mark t)

theorem L1.data_mono (h : L1 c s) (hs : step c s a = some s') : ∀ u, s.data u ≤ s'.data u := by
  have h1 := h.dataA
  clear h; step_cases hs
  all_goals grind [upd]

theorem L2.candD_step (h1 : L1 c s) (h : L2 c s) (hs : step c s a = some s') :
    ∀ t u, s'.cand t u ≤ s'.data u := by
  have hm := h1.data_mono hs
  have h2 := h.candD
  clear h h1; step_cases hs
  all_goals grind [upd, updRow]

theorem L2.markD_step (h1 : L1 c s) (h : L2 c s) (hs : step c s a = some s') :
    ∀ t u, s'.mark t u ≤ s'.data u := by
  have hm := h1.data_mono hs
  have h2 := h.candD; have h3 := h.markD
  clear h h1; step_cases hs
  all_goals grind [upd, updRow]

theorem L2.rdC_step (h : L2 c s) (hs : step c s a = some s') :
    ∀ t, started (s'.pc t) = true → ∀ u, u < c.n → s'.rd t u ≤ s'.cand t u := by
  have h2 := h.rdC; have h3 := h.rdD
  clear h; step_cases hs
  all_goals grind [upd, updRow, started]

theorem L2.ordCC_step (h : L2 c s) (hs : step c s a = some s') :
    ∀ t t', Below (s'.cand t) (s'.cand t') ∨ Below (s'.cand t') (s'.cand t) := by
  have h2 := h.ordCC; have h3 : ∀ t, Below (s.cand t) s.data := h.candD
  have hr : ∀ f, Below f f := fun f u => le_refl _
  clear h; step_cases hs
  all_goals first | assumption | grind [upd]

theorem L2.ordMC_step (h : L2 c s) (hs : step c s a = some s') :
    ∀ t t', Below (s'.mark t) (s'.cand t') ∨ Below (s'.cand t') (s'.mark t) := by
  have h2 := h.ordMC; have h3 : ∀ t, Below (s.mark t) s.data := h.markD; have h4 := h.ordCC
  have hr : ∀ f, Below f f := fun f u => le_refl _
  clear h; step_cases hs
  all_goals first | assumption | grind [upd]

theorem L2.ordMM_step (h : L2 c s) (hs : step c s a = some s') :
    ∀ t t', Below (s'.mark t) (s'.mark t') ∨ Below (s'.mark t') (s'.mark t) := by
  have h2 := h.ordMC; have h4 := h.ordMM
  have hr : ∀ f, Below f f := fun f u => le_refl _
  clear h; step_cases hs
  all_goals first | assumption | grind [upd]

theorem L2.sumX_step (h1 : L1 c s) (h : L2 c s) (hs : step c s a = some s') :
    ∀ t i acc, s'.pc t = .sum i acc →
      ∀ u, u < i → s'.cand t u ≤ s'.xs t u ∧ s'.xs t u ≤ s'.data u := by
  have hm := h1.data_mono hs
  have h2 := h.sumX; have h3 := h.candD
  clear h h1; step_cases hs
  all_goals intro t i acc ht u hu
  all_goals try dsimp only at *
  all_goals try simp only [updRow] at *
  all_goals try grind [upd]
  rename_i b _ _ j m heq hj
  by_cases e : t = b
  · subst e
    rw [upd_same] at ht
    injection ht with e1 e2
    rw [if_pos rfl]
    by_cases eu : u = j
    · subst eu; rw [upd_same]; exact ⟨h3 _ _, le_refl _⟩
    · rw [upd_ne _ _ eu]; exact h2 _ _ _ heq u (by omega)
  · rw [upd_ne _ _ e] at ht
    rw [if_neg e]; exact h2 _ _ _ ht u hu

theorem L2.cmpX_step (h1 : L1 c s) (h : L2 c s) (hs : step c s a = some s') :
    ∀ t acc, s'.pc t = .cmp acc →
      ∀ u, u < c.n → s'.cand t u ≤ s'.xs t u ∧ s'.xs t u ≤ s'.data u := by
  have hm := h1.data_mono hs
  have h2 := h.sumX; have h3 := h.cmpX; have h4 := h.sumA
  clear h h1; step_cases hs
  all_goals grind [upd, updRow]

theorem L2.sumO_step (h : L2 c s) (hs : step c s a = some s') :
    ∀ t i acc, s'.pc t = .sum i acc → t < i → s'.xs t t = s'.data t := by
  have h2 := h.sumO
  clear h; step_cases hs
  all_goals grind [upd, updRow]

theorem tot_succ (n : Nat) (f : Nat → Nat) : tot (n + 1) f = tot n f + f n :=
  Finset.sum_range_succ f n

theorem tot_upd_ge {n i : Nat} (h : n ≤ i) (f : Nat → Nat) (x : Nat) :
    tot n (upd f i x) = tot n f :=
  Finset.sum_congr rfl fun u hu => upd_ne _ _ (by have := Finset.mem_range.1 hu; omega)

theorem L2.sumA_step (h : L2 c s) (hs : step c s a = some s') :
    ∀ t i acc, s'.pc t = .sum i acc → i ≤ c.n ∧ acc = tot i (s'.xs t) := by
  have h2 := h.sumA
  have h3 := tot_succ
  have h4 := @tot_upd_ge
  have h5 : ∀ f, tot 0 f = 0 := fun f => Finset.sum_range_zero f
  clear h; step_cases hs
  all_goals grind [upd_same, upd_ne, upd, updRow]

theorem L2.cmpA_step (h : L2 c s) (hs : step c s a = some s') :
    ∀ t acc, s'.pc t = .cmp acc → acc = tot c.n (s'.xs t) ∧ t < c.n ∧ s'.xs t t = s'.data t := by
  have h2 := h.sumA; have h3 := h.sumO; have h4 := h.cmpA
  clear h; step_cases hs
  all_goals grind [upd, updRow]

theorem L2.rdD_step (h1 : L1 c s) (h : L2 c s) (hs : step c s a = some s') :
    ∀ t u, u < c.n → s'.rd t u ≤ s'.data u := by
  have hm := h1.data_mono hs
  have h2 := h.rdD; have h3 := h.cmpX
  clear h h1; step_cases hs
  all_goals grind [upd, updRow]

theorem L2.rdV_step (h : L2 c s) (hs : step c s a = some s') :
    ∀ t, tot c.n (s'.rd t) = s'.view t := by
  have h2 := h.cmpA; have h4 := h.rdV
  clear h; step_cases hs
  all_goals grind [upd, updRow]

theorem L2_step (h1 : L1 c s) (h : L2 c s) (hs : step c s a = some s') : L2 c s' :=
  ⟨h.candD_step h1 hs, h.markD_step h1 hs, h.rdD_step h1 hs, h.rdV_step hs, h.rdC_step hs,
    h.sumA_step hs, h.sumX_step h1 hs, h.sumO_step hs, h.cmpA_step hs, h.cmpX_step h1 hs,
    h.ordCC_step hs, h.ordMC_step hs, h.ordMM_step hs⟩

/-- A check that finds the own view unchanged has seen a single consistent array, the one present
when the thread passed the top of its loop. -/
theorem confirm (h1 : L1 c s) (h : L2 c s) {t acc : Nat} (hp : s.pc t = .cmp acc)
    (hv : s.view t = acc) : t < c.n ∧ tot c.n (s.cand t) = acc ∧ s.cand t t = s.acts t := by
  obtain ⟨ha, ht, ho⟩ := h.cmpA t acc hp
  have hx := h.cmpX t acc hp
  have hr := h.rdC t (by rw [hp]; rfl)
  have e1 : tot c.n (s.rd t) = tot c.n (s.xs t) := by rw [h.rdV, hv, ha]
  have e2 := eq_of_tot_eq (fun u hu => le_trans (hr u hu) (hx u hu).1) e1
  have e3 : ∀ u, u < c.n → s.cand t u = s.xs t u := fun u hu =>
    le_antisymm (hx u hu).1 (by rw [← e2 u hu]; exact hr u hu)
  refine ⟨ht, ?_, ?_⟩
  · rw [ha]; exact Finset.sum_congr rfl fun u hu => e3 u (Finset.mem_range.1 hu)
  · rw [e3 t ht, ho]; exact h1.rep t (by rw [hp]; rfl)

end

end Verif.Term
