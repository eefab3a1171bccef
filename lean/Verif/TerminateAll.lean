import Verif.TerminateInv3

/-!
Invariants of the termination protocol for states in which all threads have left their loops.

The argument orders the last reports of the threads (`rt`) and the last changes of their views (`vt`); the
times are auxiliary, chosen by the proof.
-/

namespace Verif.Term

/-- The own view was unchanged in the current check. -/
def kept : PC → Bool
  | .views .. | .begin | .zeros .. | .lower .. | .two | .ready .. | .fall .. | .three | .all .. | .done => true
  | _ => false

/-- In its current check the thread has compared its view with that of `u`. -/
def saw : PC → Nat → Bool
  | .views i _, u => u < i
  | .begin, _ | .zeros .., _ | .lower .., _ | .two, _ | .ready .., _ | .fall .., _ | .three, _ | .all .., _ | .done, _ => true
  | _, _ => false

/-- Reading the array in the current check, or done with it. -/
def reads : PC → Bool
  | .sum .. | .cmp .. => true
  | p => kept p

structure L5 (c : Cfg) (s : St) (rt vt : Nat → Nat) (clk : Nat) : Prop where
  rtc : ∀ t, rt t < clk
  vtc : ∀ t, vt t < clk
  vr : ∀ t, reads (s.pc t) = true → vt t < rt t
  vw : ∀ t i acc, s.pc t = .views i acc → acc = s.view t
  ins : ∀ t, kept (s.pc t) = true → s.inst t = true
  mkV : ∀ t, kept (s.pc t) = true → tot c.n (s.mark t) = s.view t
  mkA : ∀ t, kept (s.pc t) = true → s.mark t t = s.acts t
  xsV : ∀ t, kept (s.pc t) = true → tot c.n (s.xs t) = s.view t
  sumR : ∀ t i acc, s.pc t = .sum i acc → ∀ u, u < i → rt u ≤ rt t → s.xs t u = s.data u
  cmpR : ∀ t acc, s.pc t = .cmp acc → ∀ u, u < c.n → rt u ≤ rt t → s.xs t u = s.data u
  keptR : ∀ t, kept (s.pc t) = true → ∀ u, u < c.n → rt u ≤ rt t → s.xs t u = s.data u
  seen : ∀ t u, u < c.n → saw (s.pc t) u = true → vt u < rt t → s.view u = s.view t

/-- The time of the last report after a step. -/
def rtStep (s : St) (a : Act) (rt : Nat → Nat) (clk : Nat) (u : Nat) : Nat := if a = .go u ∧ s.pc u = .report then clk else rt u

/-- The comparison finds a different view. -/
def moves : PC → Nat → Bool
  | .cmp acc, v => v ≠ acc
  | _, _ => false

/-- The time of the last change of the view after a step. -/
def vtStep (s : St) (a : Act) (vt : Nat → Nat) (clk : Nat) (u : Nat) : Nat := if a = .go u ∧ moves (s.pc u) (s.view u) = true then clk else vt u

section
variable {c : Cfg} {s s' : St} {a : Act} {rt vt : Nat → Nat} {clk : Nat}

theorem L5.rtc_step (h : L5 c s rt vt clk) : ∀ t, rtStep s a rt clk t < clk + 1 := by
  have h1 := h.rtc
  intro t
  simp only [rtStep]
  grind [upd]

theorem L5.vtc_step (h : L5 c s rt vt clk) : ∀ t, vtStep s a vt clk t < clk + 1 := by
  have h1 := h.vtc
  intro t
  simp only [vtStep]
  grind [upd]

theorem L5.vr_step (h : L5 c s rt vt clk) (hs : step c s a = some s') :
    ∀ t, reads (s'.pc t) = true → vtStep s a vt clk t < rtStep s a rt clk t := by
  have h1 := h.vtc; have h2 := h.vr; have h3 := h.rtc
  clear h; unfold rtStep vtStep; step_cases hs
  all_goals grind [upd, reads, kept, moves]

theorem L5.vw_step (h : L5 c s rt vt clk) (hs : step c s a = some s') : ∀ t i acc, s'.pc t = .views i acc → acc = s'.view t := by
  have h1 := h.vw
  clear h; step_cases hs
  all_goals grind [upd]

theorem L5.ins_step (h : L5 c s rt vt clk) (hs : step c s a = some s') : ∀ t, kept (s'.pc t) = true → s'.inst t = true := by
  have h3 := h.ins
  clear h; step_cases hs
  all_goals grind [upd, kept]

theorem L5.mkV_step (h1 : L1 c s) (h2 : L2 c s) (h : L5 c s rt vt clk) (hs : step c s a = some s') :
    ∀ t, kept (s'.pc t) = true → tot c.n (s'.mark t) = s'.view t := by
  have h3 := h.mkV
  have h4 : ∀ t acc, s.pc t = .cmp acc → s.view t = acc → tot c.n (s.cand t) = acc := fun t acc hp hv => (confirm h1 h2 hp hv).2.1
  clear h h1 h2; step_cases hs
  all_goals grind [upd, kept]

theorem L5.mkA_step (h1 : L1 c s) (h2 : L2 c s) (h : L5 c s rt vt clk) (hs : step c s a = some s') :
    ∀ t, kept (s'.pc t) = true → s'.mark t t = s'.acts t := by
  have h3 := h.mkA
  have h4 : ∀ t acc, s.pc t = .cmp acc → s.view t = acc → s.cand t t = s.acts t := fun t acc hp hv => (confirm h1 h2 hp hv).2.2
  clear h h1 h2; step_cases hs
  all_goals simp only [St.acts] at *
  all_goals grind [upd, updRow, kept]

theorem L5.xsV_step (h2 : L2 c s) (h : L5 c s rt vt clk) (hs : step c s a = some s') :
    ∀ t, kept (s'.pc t) = true → tot c.n (s'.xs t) = s'.view t := by
  have h3 := h.xsV
  have h5 : ∀ t acc, s.pc t = .cmp acc → acc = tot c.n (s.xs t) := fun t acc hp => (h2.cmpA t acc hp).1
  clear h h2; step_cases hs
  all_goals grind [upd, kept]

theorem L5.sumR_step (h : L5 c s rt vt clk) (hs : step c s a = some s') :
    ∀ t i acc, s'.pc t = .sum i acc → ∀ u, u < i → rtStep s a rt clk u ≤ rtStep s a rt clk t → s'.xs t u = s'.data u := by
  have h1 := h.rtc; have h2 := h.sumR
  clear h; unfold rtStep; step_cases hs
  all_goals intro t i acc ht u hu hr
  all_goals try dsimp only at *
  all_goals try simp only [updRow] at *
  all_goals try grind [upd]
  rename_i b _ _ j m heq hj
  have hb : ∀ v, ¬ (Act.go b = Act.go v ∧ s.pc v = .report) := by
    rintro v ⟨e, e'⟩
    injection e with e
    subst e
    rw [heq] at e'; cases e'
  rw [if_neg (hb u), if_neg (hb t)] at hr
  by_cases e : t = b
  · subst e
    rw [upd_same] at ht
    injection ht with e1 e2
    rw [if_pos rfl]
    by_cases eu : u = j
    · subst eu; rw [upd_same]
    · rw [upd_ne _ _ eu]; exact h2 _ _ _ heq u (by omega) hr
  · rw [upd_ne _ _ e] at ht
    rw [if_neg e]; exact h2 _ _ _ ht u hu hr

theorem L5.cmpR_step (h2 : L2 c s) (h : L5 c s rt vt clk) (hs : step c s a = some s') :
    ∀ t acc, s'.pc t = .cmp acc → ∀ u, u < c.n → rtStep s a rt clk u ≤ rtStep s a rt clk t → s'.xs t u = s'.data u := by
  have h1 := h.rtc; have h3 := h.sumR; have h4 := h.cmpR; have h5 := h2.sumA
  clear h h2; unfold rtStep; step_cases hs
  all_goals grind [upd, updRow]

theorem L5.keptR_step (h : L5 c s rt vt clk) (hs : step c s a = some s') :
    ∀ t, kept (s'.pc t) = true → ∀ u, u < c.n → rtStep s a rt clk u ≤ rtStep s a rt clk t → s'.xs t u = s'.data u := by
  have h1 := h.rtc; have h4 := h.cmpR; have h5 := h.keptR
  clear h; unfold rtStep; step_cases hs
  all_goals grind [upd, updRow, kept]

theorem L5.seen_step (h : L5 c s rt vt clk) (hs : step c s a = some s') :
    ∀ t u, u < c.n → saw (s'.pc t) u = true → vtStep s a vt clk u < rtStep s a rt clk t → s'.view u = s'.view t := by
  have h1 := h.rtc; have h2 := h.seen; have h3 := h.vw; have h4 := h.vr
  clear h; unfold rtStep vtStep; step_cases hs
  all_goals grind [upd, saw, reads, kept, moves]

theorem L5_step (h1 : L1 c s) (h2 : L2 c s) (h : L5 c s rt vt clk) (hs : step c s a = some s') :
    L5 c s' (rtStep s a rt clk) (vtStep s a vt clk) (clk + 1) :=
  ⟨h.rtc_step, h.vtc_step, h.vr_step hs, h.vw_step hs, h.ins_step hs, h.mkV_step h1 h2 hs, h.mkA_step h1 h2 hs, h.xsV_step h2 hs, h.sumR_step hs, h.cmpR_step h2 hs, h.keptR_step hs, h.seen_step hs⟩

theorem L5_start (h : Start c s) : L5 c s (fun _ => 0) (fun _ => 0) 1 := by
  constructor
  all_goals intros
  all_goals simp_all [h.pc, reads, kept, saw]

/-- Everything about a reachable state. -/
theorem levels (hm : 0 < c.max) {s0 : St} (h0 : Start c s0) {as : List Act} (h : run c s0 as = some s) :
    L1 c s ∧ L2 c s ∧ L3 c s ∧ (∃ rt vt clk, L5 c s rt vt clk) ∧ tot c.n s.outs = tot c.n s.ins := by
  have hi := inv_start h0
  have hb : tot c.n s0.outs = tot c.n s0.ins := by
    have h1 : s0.outs = fun t => s0.msgSend t := by
      funext t; simp [St.outs, h0.pc, sentNow]
    have h2 : s0.ins = fun t => s0.msgRecv t + (s0.queue t).length := by
      funext t; simp [St.ins, h0.pc, h0.buff, hand]
    rw [h1, h2]; exact h0.balance
  have hall : L1 c s0 ∧ L2 c s0 ∧ L3 c s0 ∧ (∃ rt vt clk, L5 c s0 rt vt clk) ∧ tot c.n s0.outs = tot c.n s0.ins :=
    ⟨hi.l1, hi.l2, hi.l3, ⟨_, _, _, L5_start h0⟩, hb⟩
  clear h0 hi hb
  induction as generalizing s0 with
  | nil => cases h; exact hall
  | cons a as ih =>
    simp only [run] at h
    cases hs : step c s0 a with
    | none => rw [hs] at h; cases h
    | some s1 =>
      rw [hs] at h
      obtain ⟨h1, h2, h3, ⟨_, _, _, h5⟩, hb⟩ := hall
      exact ih h ⟨L1_step h1 hs, L2_step h1 h2 hs, L3_step hm h1 h2 h3 hs, ⟨_, _, _, L5_step h1 h2 h5 hs⟩, balance_step hb hs⟩

theorem exists_last (rt : Nat → Nat) : ∀ n, 0 < n → ∃ u, u < n ∧ ∀ v, v < n → rt v ≤ rt u
  | 0, h => absurd h (lt_irrefl _)
  | 1, _ => ⟨0, Nat.zero_lt_one, fun v hv => by rw [Nat.lt_one_iff.1 hv]⟩
  | n + 2, _ => by
    obtain ⟨u, hu, hm⟩ := exists_last rt (n + 1) (Nat.succ_pos n)
    by_cases h : rt u ≤ rt (n + 1)
    · refine ⟨n + 1, by omega, fun v hv => ?_⟩
      by_cases e : v = n + 1
      · rw [e]
      · exact le_trans (hm v (by omega)) h
    · refine ⟨u, by omega, fun v hv => ?_⟩
      by_cases e : v = n + 1
      · rw [e]; omega
      · exact hm v (by omega)

/-- When all threads have left their loops, nothing is left in any queue. -/
theorem empty_of_done (h1 : L1 c s) (h2 : L2 c s) (h3 : L3 c s) (h5 : L5 c s rt vt clk) (hd : ∀ t, t < c.n → s.pc t = .done) :
    ∀ t, t < c.n → s.queue t = [] ∧ s.buff t = [] := by
  intro t ht
  obtain ⟨u, hu, hlast⟩ := exists_last rt c.n (by omega)
  have kd : ∀ v, v < c.n → kept (s.pc v) = true := fun v hv => by rw [hd v hv]; rfl
  have e1 : s.view u = tot c.n s.data := by
    rw [← h5.xsV u (kd u hu)]
    exact Finset.sum_congr rfl fun v hv => h5.keptR u (kd u hu) v (Finset.mem_range.1 hv) (hlast v (Finset.mem_range.1 hv))
  have e2 : s.view t = tot c.n s.data := by
    rw [← e1]
    refine h5.seen u t ht (by rw [hd u hu]; rfl) (lt_of_lt_of_le (h5.vr t ?_) (hlast t ht))
    rw [hd t ht]; rfl
  have e3 : ∀ v, v < c.n → s.mark t v = s.data v :=
    eq_of_tot_eq (fun v _ => h2.markD t v) (by rw [h5.mkV t (kd t ht), e2])
  cases hf : s.first t with
  | none =>
    rw [St.first, List.head?_eq_none_iff, List.append_eq_nil_iff] at hf
    exact ⟨hf.2, hf.1⟩
  | some sl =>
    exfalso
    have hb : s.begun t = s.acts t := by simp [St.begun, hd t ht, busy]
    have hle := h3.hm t sl (h5.ins t (kd t ht)) (by rw [hb, h5.mkA t (kd t ht)]) hf
    have hmem : sl ∈ s.buff t ++ s.queue t := List.mem_of_head? hf
    have hsl : sl.src < c.n ∧ sl.cnt < s.begun sl.src := by
      rcases List.mem_append.1 hmem with hm | hm
      · exact h1.slotB t sl hm
      · exact h1.slotQ t sl hm
    have hbs : s.begun sl.src = s.acts sl.src := by simp [St.begun, hd _ hsl.1, busy]
    have hda := h1.rep sl.src (by rw [hd _ hsl.1]; rfl)
    have := e3 sl.src hsl.1
    omega

end

end Verif.Term
