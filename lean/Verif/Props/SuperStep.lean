import Verif.SuperStepInv

/-!
C73: super-steps. `OnSuperStepConverged` is called only when nothing is in flight and all other threads
wait; a thread leaves its loop only after a call that sent nothing, and after such a call all threads do.

Unlike `C35_false`, no assumption on the interleaving is needed: the leader waits until the checks of
all threads have returned true.
-/

namespace Verif.Super

open Verif.Term (tot PC Cfg)

/-- Specification: the thread has left its loop (the second check has returned true). -/
def Finished (s : St) (t : Nat) : Prop := s.mode t = .again ∧ s.term.pc t = .done

/-- Instructions left at the barrier. -/
def mrank (n : Nat) : Mode → Nat
  | .wait => 1
  | .give i => n - i
  | _ => 0

/-- Instructions left after a callback that sent nothing, at most. -/
def left (c : Cfg) (s : St) (t : Nat) : Nat := rank c.n (s.term.pc t) + mrank c.n (s.mode t)

section
variable {c : Cfg} {s s' : St} {a : Act}

theorem final_idle {n : Nat} {d : Nat → Nat} {p : PC} (h : Final n d p) : Term.busy p = false := by
  cases p <;> simp_all [Final, Term.busy]

theorem Over.loop (h : Over c s) {x : Term.Act} {t : Nat} (hx : loopThread x = some t)
    (hm : moving (s.mode t) = true) {r : Term.St} (hs : Term.step c s.term x = some r) :
    Over c { s with term := r, mode := upd s.mode t (back (r.pc t) (s.mode t)) } ∧
    tot c.n (left c { s with term := r, mode := upd s.mode t (back (r.pc t) (s.mode t)) }) < tot c.n (left c s) := by
  obtain ⟨htn, ho⟩ := other_step hx hs
  obtain ⟨h1, h2, h3, h4, h5, h6, h7, h8, h9, h10, h11⟩ := final_step h.agreed hx (h.final t htn) hs
  have hag : s.mode t = .again := by
    have := (h.mode t htn).1
    revert hm this
    cases s.mode t <;> simp [moving]
  have hbk : back (r.pc t) (s.mode t) = s.mode t := by
    rw [hag]
    revert h10
    cases r.pc t <;> simp [Final, back]
  have hid : upd s.mode t (back (r.pc t) (s.mode t)) = s.mode := upd_self _ _ _ hbk.symm
  have hfin : ∀ u, u < c.n → Final c.n s.term.data (r.pc u) := fun u hu => by
    by_cases e : u = t
    · subst e; exact h10
    · rw [(ho u e).1]; exact h.final u hu
  have hbar := h.bar.loop hx hm hs
  rw [hid] at hbar ⊢
  refine ⟨⟨⟨?_, ?_, ?_, ?_⟩, Term.balance_step h.bal hs, hbar, h.mode, ?_, ?_⟩, ?_⟩
  · intro u hu
    obtain ⟨e1, e2, _, e4⟩ := h.agreed.still u hu
    exact ⟨by rw [h4]; exact e1, by rw [h5]; exact e2, final_idle (hfin u hu), by rw [h9]; exact e4⟩
  · intro u hu; show r.votes u = 3; rw [h1]; exact h.agreed.votes u hu
  · intro u hu; show r.view u = tot c.n r.data; rw [h2, h3]; exact h.agreed.view u hu
  · intro u hu
    have := h.agreed.data u hu
    simp only [Term.St.acts] at this ⊢
    rw [h3, h6, h7, h8]; exact this
  · intro u hu; show Final c.n r.data (r.pc u); rw [h3]; exact hfin u hu
  · intro u hu hne
    have e : u ≠ t := by rintro rfl; exact hne hag
    show r.pc u = _
    rw [(ho u e).1]; exact h.rel u hu hne
  · have := Term.tot_change (n := c.n) (t := t) (f := left c { s with term := r }) (g := left c s) htn
      (fun u hu => by simp only [left, (ho u hu).1])
    have h12 : left c { s with term := r } t < left c s t := by
      simp only [left]; omega
    show tot c.n (left c { s with term := r }) < _
    omega

/-- Over: the leader moves on. -/
theorem Over.lead (h : Over c s) {m : Mode} (e : Nat) (hn : 0 < c.n)
    (hg : ∀ i, m = .give i → i + 1 ≤ c.n) (hm : m = .again ∨ ∃ i, m = .give i) (hp : s.term.pc 0 = .report)
    (he : e + due c.n m = s.resumes + due c.n (s.mode 0)) (hlt : mrank c.n m < mrank c.n (s.mode 0)) :
    Over c { s with mode := upd s.mode 0 m, resumes := e } ∧
    tot c.n (left c { s with mode := upd s.mode 0 m, resumes := e }) < tot c.n (left c s) := by
  have hw : m ≠ .wait := by rcases hm with rfl | ⟨i, rfl⟩ <;> simp
  have ht : taken (s.mode 0) = 0 := by
    have := (h.mode 0 hn).2
    revert this
    cases s.mode 0 <;> simp [taken]
  have htm : taken m = 0 := by rcases hm with rfl | ⟨i, rfl⟩ <;> rfl
  refine ⟨⟨h.agreed, h.bal, ?_, ?_, h.final, ?_⟩, ?_⟩
  · refine h.bar.lead s.dones e hn hw (fun i hi => ?_) (fun i hi => ⟨hp, hg i hi⟩) (by omega) he
    rcases hm with rfl | ⟨j, rfl⟩ <;> cases hi
  · intro u hu
    dsimp only
    by_cases e : u = 0
    · subst e; rw [upd_same]; rcases hm with rfl | ⟨i, rfl⟩ <;> simp
    · rw [upd_ne _ _ e]; exact h.mode u hu
  · intro u hu hne
    dsimp only at hne ⊢
    by_cases e : u = 0
    · subst e; exact hp
    · rw [upd_ne _ _ e] at hne; exact h.rel u hu hne
  · have := Term.tot_change (n := c.n) (t := 0) (f := left c { s with mode := upd s.mode 0 m, resumes := e })
      (g := left c s) hn (fun u hu => by simp only [left, upd_ne _ _ hu])
    have : left c { s with mode := upd s.mode 0 m, resumes := e } 0 < left c s 0 := by
      simp only [left, upd_same]; omega
    omega

theorem Over.take (h : Over c s) {t : Nat} (h0 : 0 < t) (ht : t < c.n) (hm : s.mode t = .wait) (hr : 0 < s.resumes) :
    Over c { s with mode := upd s.mode t .again, resumes := s.resumes - 1 } ∧
    tot c.n (left c { s with mode := upd s.mode t .again, resumes := s.resumes - 1 }) < tot c.n (left c s) := by
  have hp := h.rel t ht (by rw [hm]; simp)
  refine ⟨⟨h.agreed, h.bal, h.bar.take h0 ht hm hr hp, ?_, h.final, ?_⟩, ?_⟩
  · intro u hu
    dsimp only
    by_cases e : u = t
    · subst e; rw [upd_same]; simp
    · rw [upd_ne _ _ e]; exact h.mode u hu
  · intro u hu hne
    dsimp only at hne ⊢
    by_cases e : u = t
    · subst e; exact hp
    · rw [upd_ne _ _ e] at hne; exact h.rel u hu hne
  · have := Term.tot_change (n := c.n) (t := t) (f := left c { s with mode := upd s.mode t .again, resumes := s.resumes - 1 })
      (g := left c s) ht (fun u hu => by simp only [left, upd_ne _ _ hu])
    have : left c { s with mode := upd s.mode t .again, resumes := s.resumes - 1 } t < left c s t := by
      simp only [left, upd_same, hm, mrank]; omega
    omega

/-- A callback that sends nothing. -/
theorem Busy.over (h : Busy c s) {i : Nat} (hm : s.mode 0 = .coll i) (hi : i + 1 = c.n) :
    Over c { s with term := called c.n s.term [], mode := upd s.mode 0 (.give 0), calls := 0 :: s.calls } := by
  obtain ⟨h1, h2, h3, h4⟩ := h.bar.full hm hi
  have ha := h.levels.agreed h3
  have hn : 0 < c.n := by omega
  have hpc : ∀ t, t < c.n → (called c.n s.term []).pc t = .report := fun t ht => by rw [called_pc, if_pos ht]
  have hq : (called c.n s.term []).queue = s.term.queue := by funext t; simp [called]
  have hms : (called c.n s.term []).msgSend = s.term.msgSend := by
    simp only [called, if_true, List.length_nil, Nat.add_zero]; exact upd_self _ _ _ rfl
  refine ⟨⟨?_, ?_, ?_, ?_⟩, ?_, h.bar.call hm hi [], ?_, ?_, fun t ht _ => hpc t ht⟩
  · intro t ht
    obtain ⟨e1, e2, _, e4⟩ := ha.still t ht
    exact ⟨by rw [hq]; exact e1, by simpa [called] using e2, by rw [hpc t ht]; rfl, by simpa [called] using e4⟩
  · intro t ht; simpa [called] using ha.votes t ht
  · intro t ht; simpa [called] using ha.view t ht
  · intro t ht
    have := ha.data t ht
    simp only [Term.St.acts] at this ⊢
    rw [hms]; simpa [called] using this
  · have e := (Term.nothing_of_still ha.still h.levels.bal).2
    have e1 : tot c.n (called c.n s.term []).outs = tot c.n s.term.msgSend := tot_congr fun t ht => by
      simp [Term.St.outs, hpc t ht, Term.sentNow, hms]
    have e2 : tot c.n (called c.n s.term []).ins = tot c.n s.term.msgRecv := tot_congr fun t ht => by
      obtain ⟨e1, e2, _, _⟩ := ha.still t ht
      simp [Term.St.ins, hpc t ht, Term.hand, hq, e1]
      simp [called, e2]
    show tot c.n (called c.n s.term []).outs = tot c.n (called c.n s.term []).ins
    rw [e1, e2]; exact e
  · intro t ht
    dsimp only
    by_cases e : t = 0
    · subst e; rw [upd_same]; simp
    · rw [upd_ne _ _ e, h4 t (by omega) ht]; simp
  · intro t ht; show Final _ _ ((called c.n s.term []).pc t); rw [hpc t ht]; trivial

/-- All invariants. -/
def Inv (c : Cfg) (s : St) : Prop :=
  (s.calls.head? ≠ some 0 ∧ Busy c s) ∨ (s.calls.head? = some 0 ∧ 0 < c.n ∧ Over c s)

theorem busy_step (hmax : 0 < c.max) (h : Busy c s) (hs : step c s a = some s') :
    (s'.calls = s.calls ∧ Busy c s') ∨ ∃ qs i, a = .call qs ∧ s.mode 0 = .coll i ∧ i + 1 = c.n ∧
      s'.calls = qs.length :: s.calls ∧ ((qs ≠ [] ∧ Busy c s') ∨ (qs = [] ∧ Over c s')) := by
  cases a with
  | loop x =>
    left
    simp only [step] at hs
    split at hs
    · cases hs
    · rename_i t hx
      split at hs
      · rename_i hm
        obtain ⟨r, hr, rfl⟩ := Option.map_eq_some_iff.1 hs
        exact ⟨rfl, h.loop hmax hx hm hr⟩
      · cases hs
  | post t =>
    left
    simp only [step] at hs
    split at hs
    · rename_i hc; cases hs; exact ⟨rfl, h.post hc.1 hc.2.1 hc.2.2.1 hc.2.2.2⟩
    · cases hs
  | lead =>
    left
    simp only [step] at hs
    split at hs
    · rename_i hc
      cases hs
      have hn : 0 < c.n := by
        by_contra hn
        have := (h.far 0 (by omega)).1
        rw [hc.2] at this; cases this
      refine ⟨rfl, h.lead (m := .coll 0) s.dones s.resumes hn (by simp) ?_ ?_ ?_ ?_ ?_⟩
      · intro i e; cases e; exact ⟨hc.2, by omega⟩
      · intro i e; cases e
      · intro e; cases e
      · rw [hc.1]; rfl
      · rw [hc.1]; rfl
    · cases hs
  | collect =>
    left
    simp only [step] at hs
    split at hs
    · rename_i i hm
      split at hs
      · rename_i hc
        cases hs
        refine ⟨rfl, h.lead (m := .coll (i + 1)) (s.dones - 1) s.resumes (by omega) (by simp) ?_ ?_ ?_ ?_ ?_⟩
        · intro j e; cases e; exact ⟨(h.bar.coll i hm).1, by omega⟩
        · intro j e; cases e
        · intro e; cases e
        · rw [hm]; simp only [taken]; omega
        · rw [hm]; rfl
      · cases hs
    · cases hs
  | call qs =>
    right
    simp only [step] at hs
    split at hs
    · rename_i i hm
      split at hs
      · rename_i hc
        cases hs
        refine ⟨qs, i, rfl, hm, hc.1, rfl, ?_⟩
        by_cases he : qs = []
        · subst he; exact Or.inr ⟨rfl, h.over hm hc.1⟩
        · exact Or.inl ⟨he, h.call hm hc.1 hc.2 he⟩
      · cases hs
    · cases hs
  | give =>
    left
    simp only [step] at hs
    split at hs
    · rename_i i hm
      split at hs
      · rename_i hc
        cases hs
        refine ⟨rfl, h.lead (m := .give (i + 1)) s.dones (s.resumes + 1) (by omega) (by simp) ?_ ?_ ?_ ?_ ?_⟩
        · intro j e; cases e
        · intro j e; cases e; exact ⟨⟨Or.inr ⟨i, hm⟩, (h.bar.give i hm).1⟩, by omega⟩
        · intro e; cases e
        · rw [hm]; rfl
        · rw [hm]; simp only [due]; omega
      · cases hs
    · cases hs
  | recheck =>
    left
    simp only [step] at hs
    split at hs
    · rename_i i hm
      split at hs
      · rename_i hc
        cases hs
        have hp := (h.bar.give i hm).1
        rw [at_same hp]
        refine ⟨rfl, h.lead (m := .again) s.dones s.resumes (by omega) (by simp) ?_ ?_ ?_ ?_ ?_⟩
        · intro j e; cases e
        · intro j e; cases e
        · intro _
          rw [hp, (h.slp 0 (by omega) ⟨Or.inr ⟨i, hm⟩, hp⟩).1]; rfl
        · rw [hm]; rfl
        · rw [hm]; simp only [due]; omega
      · cases hs
    · cases hs
  | take t =>
    left
    simp only [step] at hs
    split at hs
    · rename_i hc
      cases hs
      obtain ⟨hp, hb⟩ := h.take hc.1 hc.2.1 hc.2.2.1 hc.2.2.2
      rw [at_same hp]
      exact ⟨rfl, hb⟩
    · cases hs

theorem over_step (hn : 0 < c.n) (h : Over c s) (hs : step c s a = some s') :
    s'.calls = s.calls ∧ Over c s' ∧ tot c.n (left c s') < tot c.n (left c s) := by
  cases a with
  | loop x =>
    simp only [step] at hs
    split at hs
    · cases hs
    · rename_i t hx
      split at hs
      · rename_i hm
        obtain ⟨r, hr, rfl⟩ := Option.map_eq_some_iff.1 hs
        exact ⟨rfl, h.loop hx hm hr⟩
      · cases hs
  | post t =>
    simp only [step] at hs
    split at hs
    · rename_i hc; exact absurd hc.2.2.1 (h.mode t hc.2.1).1
    · cases hs
  | lead =>
    simp only [step] at hs
    split at hs
    · rename_i hc; exact absurd hc.1 (h.mode 0 hn).1
    · cases hs
  | collect =>
    simp only [step] at hs
    split at hs
    · rename_i i hm; exact absurd hm ((h.mode 0 hn).2 i)
    · cases hs
  | call qs =>
    simp only [step] at hs
    split at hs
    · rename_i i hm; exact absurd hm ((h.mode 0 hn).2 i)
    · cases hs
  | give =>
    simp only [step] at hs
    split at hs
    · rename_i i hm
      split at hs
      · rename_i hc
        cases hs
        refine ⟨rfl, h.lead (m := .give (i + 1)) (s.resumes + 1) hn ?_ (Or.inr ⟨_, rfl⟩) (h.bar.give i hm).1 ?_ ?_⟩
        · intro j e; cases e; omega
        · rw [hm]; simp only [due]; omega
        · rw [hm]; simp only [mrank]; omega
      · cases hs
    · cases hs
  | recheck =>
    simp only [step] at hs
    split at hs
    · rename_i i hm
      split at hs
      · rename_i hc
        cases hs
        have hp := (h.bar.give i hm).1
        rw [at_same hp]
        refine ⟨rfl, h.lead (m := .again) s.resumes hn ?_ (Or.inl rfl) hp ?_ ?_⟩
        · intro j e; cases e
        · rw [hm]; simp only [due]; omega
        · rw [hm]; simp only [mrank]; omega
      · cases hs
    · cases hs
  | take t =>
    simp only [step] at hs
    split at hs
    · rename_i hc
      cases hs
      rw [at_same (h.rel t hc.2.1 (by rw [hc.2.2.1]; simp))]
      exact ⟨rfl, h.take hc.1 hc.2.1 hc.2.2.1 hc.2.2.2⟩
    · cases hs

theorem inv_step (hmax : 0 < c.max) (h : Inv c s) (hs : step c s a = some s') : Inv c s' := by
  rcases h with ⟨h1, h2⟩ | ⟨h1, hn, h2⟩
  · rcases busy_step hmax h2 hs with ⟨e, hb⟩ | ⟨qs, i, _, _, hi, e, ⟨hq, hb⟩ | ⟨hq, hb⟩⟩
    · exact Or.inl ⟨by rw [e]; exact h1, hb⟩
    · refine Or.inl ⟨?_, hb⟩
      rw [e]
      cases qs with
      | nil => exact absurd rfl hq
      | cons q qs => simp
    · exact Or.inr ⟨by rw [e, hq]; rfl, by omega, hb⟩
  · obtain ⟨e, ho, _⟩ := over_step hn h2 hs
    exact Or.inr ⟨by rw [e]; exact h1, hn, ho⟩

theorem inv_start (h : Start c s) : Inv c s := by
  refine Or.inl ⟨by rw [h.calls]; simp, Levels.start h.term h.closed, ?_, ?_, ?_, ?_⟩
  · constructor
    · intro e; exact absurd (h.mode 0) e
    · intro t _; exact Or.inl (h.mode t)
    · rw [h.mode]; simp
    · intro t e; rw [h.mode] at e; cases e
    · intro i e; rw [h.mode] at e; cases e
    · intro i e; rw [h.mode] at e; cases e
    · rw [h.mode, h.dones]
      exact Finset.sum_eq_zero fun t _ => by simp [awake, h.mode]
    · rw [h.mode, h.resumes]
      exact Finset.sum_eq_zero fun t _ => by simp [asleep, h.mode]
  · intro t ht; exact ⟨h.term.pc t, h.far t ht, h.term.buff t⟩
  · rintro t _ ⟨e, _⟩; rw [h.mode] at e; simp at e
  · intro t e; rw [h.mode] at e; cases e

theorem inv_run (hmax : 0 < c.max) {as : List Act} (h : Inv c s) (hr : run c s as = some s') : Inv c s' := by
  induction as generalizing s with
  | nil => cases hr; exact h
  | cons a as ih =>
    simp only [run] at hr
    cases hs : step c s a with
    | none => rw [hs] at hr; cases hr
    | some s1 => rw [hs] at hr; exact ih (inv_step hmax h hs) hr

end

variable {c : Cfg} {s0 s s' : St} {as bs : List Act}

/-- C73: `OnSuperStepConverged` is called only when nothing is in flight and all other threads wait for
the leader, their checks having returned true; in every execution. -/
theorem C73_callback (hmax : 0 < c.max) (h0 : Start c s0) (h : run c s0 as = some s) {qs : List Nat}
    (hs : step c s (.call qs) = some s') :
    Term.NothingInFlight c s.term ∧ (∀ t, t < c.n → s.term.pc t = .done) ∧ ∀ t, 0 < t → t < c.n → s.mode t = .wait := by
  rcases inv_run hmax (inv_start h0) h with ⟨_, hb⟩ | ⟨_, hn, ho⟩
  · rcases busy_step hmax hb hs with ⟨e, _⟩ | ⟨qs', i, _, hm, hi, _⟩
    · exfalso
      simp only [step] at hs
      split at hs
      · split at hs
        · cases hs; simp at e
        · cases hs
      · cases hs
    · obtain ⟨_, _, h3, h4⟩ := hb.bar.full hm hi
      exact ⟨Term.nothing_of_still (hb.levels.agreed h3).still hb.levels.bal, h3, h4⟩
  · exfalso
    have e := (over_step hn ho hs).1
    simp only [step] at hs
    split at hs
    · split at hs
      · cases hs; simp at e
      · cases hs
    · cases hs

/-- C73: a thread leaves its loop only after a call that sent nothing; nothing is in flight then, and the
numbers of notifications sent (by callbacks too) and received agree. -/
theorem C73_end (hmax : 0 < c.max) (h0 : Start c s0) (h : run c s0 as = some s) {t : Nat} (ht : t < c.n)
    (hf : Finished s t) : s.calls.head? = some 0 ∧ Term.NothingInFlight c s.term := by
  rcases inv_run hmax (inv_start h0) h with ⟨_, hb⟩ | ⟨h1, hn, ho⟩
  · have := (hb.low t hf.1).2
    rw [hf.2] at this
    exact absurd this (by simp [Low])
  · exact ⟨h1, Term.nothing_of_still ho.agreed.still ho.bal⟩

/-- C73: a call that sends nothing is the last one. -/
theorem C73_last (hmax : 0 < c.max) (h0 : Start c s0) (h : run c s0 as = some s) (hl : s.calls.head? = some 0)
    (h' : run c s bs = some s') : s'.calls = s.calls := by
  rcases inv_run hmax (inv_start h0) h with ⟨h1, _⟩ | ⟨_, hn, ho⟩
  · exact absurd hl h1
  · rename_i hz
    clear h h0 hl hz
    induction bs generalizing s with
    | nil => cases h'; rfl
    | cons a bs ih =>
      simp only [run] at h'
      cases hs : step c s a with
      | none => rw [hs] at h'; cases h'
      | some s1 =>
        rw [hs] at h'
        obtain ⟨e1, e2, _⟩ := over_step hn ho hs
        rw [ih h' e2, e1]

/-- The program counter stops at the end of a check only. -/
theorem go_enabled {r : Term.St} {t : Nat} (ht : t < c.n) (hp : r.pc t ≠ .done) : (Term.step c r (.go t)).isSome = true := by
  unfold Term.step Term.goStep
  simp only [ht, if_true]
  cases h : r.pc t with
  | work w k e n => cases w <;> simp
  | done => exact absurd h hp
  | _ => dsimp only; repeat' split
         all_goals rfl

/-- C73: the barrier does not deadlock: as long as some thread has not left its loop, something can be done. -/
theorem C73_enabled (hmax : 0 < c.max) (h0 : Start c s0) (h : run c s0 as = some s) {t : Nat} (ht : t < c.n)
    (hf : ¬ Finished s t) : ∃ a, (step c s a).isSome = true := by
  have hn : 0 < c.n := by omega
  by_contra hno
  have hno : ∀ a, step c s a = none := fun a => by
    cases e : step c s a with
    | none => rfl
    | some r => exact absurd ⟨a, by rw [e]; rfl⟩ hno
  have hgo : ∀ u, u < c.n → moving (s.mode u) = true → s.term.pc u = .done := by
    intro u hu hm
    by_contra hp
    have := hno (.loop (.go u))
    simp only [step, loopThread, hm, if_true] at this
    have e := go_enabled hu hp
    rw [Option.map_eq_none_iff] at this
    rw [this] at e; cases e
  have hbar : Bar c s := by
    rcases inv_run hmax (inv_start h0) h with ⟨_, hb⟩ | ⟨_, _, ho⟩
    · exact hb.bar
    · exact ho.bar
  have hgive : ∀ i, s.mode 0 ≠ .give i := by
    intro i hm
    have hi := (hbar.give i hm).2
    by_cases e : i + 1 = c.n
    · have := hno .recheck; simp [step, hm, e] at this
    · have := hno .give
      have e' : i + 1 < c.n := by omega
      simp [step, hm, e'] at this
  have hres : s.resumes = 0 := by
    by_contra hr
    obtain ⟨u, hu, h1, h2⟩ := hbar.someone (by omega)
    have hu0 : 0 < u := by
      rcases Nat.eq_zero_or_pos u with e | e
      · subst e; exact absurd h1 hbar.follow
      · exact e
    have := hno (.take u)
    simp only [step] at this
    rw [if_pos ⟨hu0, hu, h1, by omega⟩] at this
    cases this
  have hasl : ∀ u, u < c.n → ¬ (s.mode u = .wait ∧ s.term.pc u = .report) := by
    rintro u hu hh
    have e1 : asleep s u = 1 := by simp [asleep, hh]
    have e2 : asleep s u ≤ tot c.n (asleep s) := Finset.single_le_sum (f := asleep s) (fun _ _ => Nat.zero_le _) (Finset.mem_range.2 hu)
    have := hbar.cntS
    have e3 : due c.n (s.mode 0) = 0 := by
      revert hgive; cases s.mode 0 <;> simp [due]
    omega
  rcases inv_run hmax (inv_start h0) h with ⟨_, hb⟩ | ⟨_, _, ho⟩
  · have hag : ∀ u, u < c.n → s.mode u ≠ .again := by
      intro u hu hm
      have := (hb.low u hm).2
      rw [hgo u hu (by rw [hm]; rfl)] at this
      exact absurd this (by simp [Low])
    have hrun : ∀ u, 0 < u → u < c.n → s.mode u = .wait := by
      intro u h0 hu
      rcases hbar.leader u (by omega) with e | e | e
      · exfalso
        have := hno (.post u)
        simp only [step] at this
        rw [if_pos ⟨h0, hu, e, hgo u hu (by rw [e]; rfl)⟩] at this
        cases this
      · exact e
      · exact absurd e (hag u hu)
    cases hm : s.mode 0 with
    | run =>
      have := hno .lead
      simp only [step] at this
      rw [if_pos ⟨hm, hgo 0 hn (by rw [hm]; rfl)⟩] at this
      cases this
    | wait => exact hbar.follow hm
    | give i => exact hgive i hm
    | again => exact hag 0 hn hm
    | coll i =>
      have hi := (hbar.coll i hm).2
      by_cases e : i + 1 = c.n
      · have := hno (.call [])
        simp [step, hm, e] at this
      · have hA := hbar.cntA
        rw [hm] at hA
        simp only [taken] at hA
        have hone : ∀ u, 0 < u → u < c.n → awake s u = 1 := by
          intro u h0 hu
          have hw := hrun u h0 hu
          rcases (hbar.wait u hw).2 with e | e
          · simp [awake, hw, e]
          · exact absurd ⟨hw, e⟩ (hasl u hu)
        have e1 : ∀ m, tot (m + 1) (fun t => if t = 0 then 0 else 1) = m := by
          intro m
          induction m with
          | zero => simp [tot]
          | succ m ih => rw [Term.tot_succ, ih]; simp
        have e2 : tot c.n (awake s) = tot c.n (fun t => if t = 0 then 0 else 1) := tot_congr fun u hu => by
          by_cases e : u = 0
          · subst e; simp [awake, hm]
          · simp [e, hone u (by omega) hu]
        obtain ⟨m, hm'⟩ : ∃ m, c.n = m + 1 := ⟨c.n - 1, by omega⟩
        rw [e2, hm', e1] at hA
        have := hno .collect
        simp only [step, hm] at this
        rw [if_pos ⟨by omega, by omega⟩] at this
        cases this
  · have hag : s.mode t = .again := by
      by_contra hne
      have hp := ho.rel t ht hne
      have h1 := ho.mode t ht
      cases hm : s.mode t with
      | run => exact h1.1 hm
      | wait => exact hasl t ht ⟨hm, hp⟩
      | coll i => exact h1.2 i hm
      | again => exact hne hm
      | give i =>
        by_cases e : t = 0
        · subst e; exact hgive i hm
        · have := hbar.leader t e
          rw [hm] at this; simp at this
    exact hf ⟨hag, hgo t ht (by rw [hag]; rfl)⟩

/-- C73: after a call that sends nothing, boundedly many steps are left, whatever the interleaving, and
when none is left, every thread has left its loop. -/
theorem C73_finish (hmax : 0 < c.max) (h0 : Start c s0) (h : run c s0 as = some s) (hl : s.calls.head? = some 0)
    (h' : run c s bs = some s') : bs.length ≤ c.n * (6 * c.n + 12) ∧
      ((∀ a, step c s' a = none) → ∀ t, t < c.n → Finished s' t) := by
  constructor
  · rcases inv_run hmax (inv_start h0) h with ⟨h1, _⟩ | ⟨_, hn, ho⟩
    · exact absurd hl h1
    · have key : bs.length ≤ tot c.n (left c s) := by
        rename_i hz
        clear h h0 hl hz
        induction bs generalizing s with
        | nil => exact Nat.zero_le _
        | cons a bs ih =>
          simp only [run] at h'
          cases hs : step c s a with
          | none => rw [hs] at h'; cases h'
          | some s1 =>
            rw [hs] at h'
            obtain ⟨_, e2, e3⟩ := over_step hn ho hs
            have := ih h' e2
            simp only [List.length_cons]; omega
      refine le_trans key ?_
      have : tot c.n (left c s) ≤ tot c.n (fun _ => 6 * c.n + 12) := Term.tot_le fun t _ => by
        have e1 : rank c.n (s.term.pc t) ≤ 5 * c.n + 12 := by cases s.term.pc t <;> simp only [rank] <;> omega
        have e2 : mrank c.n (s.mode t) ≤ c.n := by cases s.mode t <;> simp only [mrank] <;> omega
        simp only [left]; omega
      simpa [tot] using this
  · intro hno t ht
    by_contra hf
    have hr : run c s0 (as ++ bs) = some s' := by
      clear hno hf ht hl
      induction as generalizing s0 with
      | nil => cases h; exact h'
      | cons a as ih =>
        simp only [run, List.cons_append] at h ⊢
        cases hs : step c s0 a with
        | none => rw [hs] at h; cases h
        | some s1 =>
          rw [hs] at h
          -- the start is not needed
          have aux : ∀ (l : List Act) (p q : St), run c p l = some q → run c q bs = some s' → run c p (l ++ bs) = some s' := by
            intro l
            induction l with
            | nil => intro p q h1 h2; cases h1; exact h2
            | cons b l ih =>
              intro p q h1 h2
              simp only [run, List.cons_append] at h1 ⊢
              cases e : step c p b with
              | none => rw [e] at h1; cases h1
              | some r => rw [e] at h1; exact ih r q h1 h2
          exact aux as s1 s h h'
    obtain ⟨a, ha⟩ := C73_enabled hmax h0 hr ht hf
    rw [hno a] at ha; cases ha

/-- C73: the channels, of capacity `n` (`superstep.go:8-11`), never fill up, so that no send blocks. -/
theorem C73_channels (hmax : 0 < c.max) (h0 : Start c s0) (h : run c s0 as = some s) (hn : 0 < c.n) :
    s.dones < c.n ∧ s.resumes < c.n := by
  have hbar : Bar c s := by
    rcases inv_run hmax (inv_start h0) h with ⟨_, hb⟩ | ⟨_, _, ho⟩
    · exact hb.bar
    · exact ho.bar
  have h1 := (tot_full (n := c.n) (f := awake s) (fun t => by unfold awake; split <;> omega) (by simp [awake, hbar.follow]) hn).1
  have h2 := (tot_full (n := c.n) (f := asleep s) (fun t => by unfold asleep; split <;> omega) (by simp [asleep, hbar.follow]) hn).1
  have := hbar.cntA
  have := hbar.cntS
  omega

/-! ### An execution -/

/-- Take the actions that are possible, leaving out the others. -/
def greedy (c : Cfg) (s : St) : List Act → List Act × St
  | [] => ([], s)
  | a :: as =>
    match step c s a with
    | none => greedy c s as
    | some s' => (a :: (greedy c s' as).1, (greedy c s' as).2)

theorem greedy_run (c : Cfg) (l : List Act) : ∀ s, run c s (greedy c s l).1 = some (greedy c s l).2 := by
  induction l with
  | nil => intro s; rfl
  | cons a l ih =>
    intro s
    simp only [greedy]
    split
    · exact ih s
    · rename_i s' h
      simp only [run, h]
      exact ih s'

/-- Two threads; one notification is waiting for thread 1. -/
def case0 : St where
  term :=
    { pc := fun _ => .top 0, queue := fun t => if t = 1 then [⟨0, 0, true⟩] else [], buff := fun _ => []
      msgSend := fun t => if t = 0 then 1 else 0, msgRecv := fun _ => 0, events := fun _ => 0, closed := fun _ => true
      data := fun _ => 0, view := fun _ => 0, votes := fun _ => 0, cand := fun _ _ => 0, xs := fun _ _ => 0
      rd := fun _ _ => 0, mark := fun _ _ => 0, inst := fun _ => false, ptime := fun _ => 0, clock := 0 }
  mode := fun _ => .run
  dones := 0
  resumes := 0
  calls := []

theorem case0_start : Start ⟨2, 10⟩ case0 := by
  refine ⟨?_, ?_, fun _ => rfl, fun _ => rfl, rfl, rfl, rfl⟩
  · constructor
    all_goals try (intros; rfl)
    · intro t sl h
      simp only [case0] at h
      split at h
      · simp only [List.mem_singleton] at h
        subst h
        decide
      · cases h
  · intro t ht
    have ht : 2 ≤ t := ht
    simp only [case0]
    rw [if_neg (by omega)]

/-- One round: a step of each kind, with a callback that sends to thread 0 if it is the first one. -/
def round : List Act := [.loop (.go 0), .loop (.go 1), .post 1, .lead, .collect, .give, .recheck, .take 1]

/-- Both threads leave their loops after two calls, of which the first sent a notification. -/
def schedule : List Act :=
  (List.replicate 150 round).flatten ++ [.call [0]] ++ (List.replicate 150 round).flatten ++ [.call []] ++
    (List.replicate 60 round).flatten

theorem case0_end : (fun s : St => (s.calls, s.mode 0, s.mode 1, s.term.pc 0, s.term.pc 1, s.term.msgRecv 0, s.term.msgRecv 1))
    (greedy ⟨2, 10⟩ case0 schedule).2 = ([0, 1], .again, .again, .done, .done, 1, 1) := by
  decide +kernel

/-- The hypotheses of the theorems are met: an execution with two calls that ends. -/
example : ∃ as s, run ⟨2, 10⟩ case0 as = some s ∧ s.calls = [0, 1] ∧ Finished s 0 ∧ Finished s 1 := by
  have h := case0_end
  simp only [Prod.mk.injEq] at h
  exact ⟨_, _, greedy_run _ schedule case0, h.1, ⟨h.2.1, h.2.2.2.1⟩, h.2.2.1, h.2.2.2.2.1⟩

end Verif.Super
