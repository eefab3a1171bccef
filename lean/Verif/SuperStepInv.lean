import Verif.SuperStep
import Verif.TerminateAll
import Verif.Props.Terminate

/-! Invariants of the super-step machine (see `Verif.Props.SuperStep` for the results). -/

namespace Verif.Super

open Verif.Term (tot L1 L2 L3 L5 PC Cfg)

/-! ### The termination machine -/

/-- In its current check the thread has found the vote of `u` nonzero. -/
def cnt : PC → Nat → Bool
  | .zeros i, u => u < i
  | .two, _ | .ready .., _ | .fall .., _ | .three, _ | .all .., _ | .done, _ => true
  | _, _ => false

/-- A check that began with the own vote at zero. -/
def Low : PC → Nat → Prop
  | .report, v | .sum .., v | .cmp .., v | .reset .., v | .views .., v | .begin, v => v = 0
  | .zeros .., v | .two, v => v = 1
  | .lower x, v => x = 1 ∧ v = 1
  | _, _ => False

section
variable {c : Cfg} {s s' : Term.St} {x : Term.Act}

theorem other_step {t : Nat} (ht : loopThread x = some t) (hs : Term.step c s x = some s') :
    t < c.n ∧ ∀ u, u ≠ t → s'.pc u = s.pc u ∧ s'.votes u = s.votes u := by
  cases x <;> simp only [loopThread, Option.some.injEq] at ht
  all_goals first | cases ht; done | skip
  all_goals subst ht
  all_goals step_cases hs
  all_goals grind [upd]

theorem cnt_step (hs : Term.step c s x = some s') {t : Nat} (htn : t < c.n) (hv : s.votes t = 0)
    (h : ∀ u, cnt (s.pc u) t = false) : ∀ u, cnt (s'.pc u) t = false := by
  step_cases hs
  all_goals grind [upd, cnt]

theorem low_step {t : Nat} (hs : Term.step c s x = some s') (ht : loopThread x = some t)
    (h : Low (s.pc t) (s.votes t)) : Low (s'.pc t) (s'.votes t) ∨ ∃ k, s'.pc t = .top k := by
  cases x <;> simp only [loopThread, Option.some.injEq] at ht
  all_goals first | cases ht; done | skip
  all_goals subst ht
  all_goals step_cases hs
  all_goals grind [upd, Low]

theorem three_step (hs : Term.step c s x = some s')
    (h : ∀ t i, s.pc t = .all i ∨ s.pc t = .done → s.votes t = 3) :
    ∀ t i, s'.pc t = .all i ∨ s'.pc t = .done → s'.votes t = 3 := by
  step_cases hs
  all_goals grind [upd]

theorem closed_step (hs : Term.step c s x = some s') (h : ∀ t, s.closed t = true) :
    ∀ t, s'.closed t = true := by
  step_cases hs
  all_goals grind [upd]

theorem far_step (hs : Term.step c s x = some s')
    (h : ∀ t, c.n ≤ t → s.pc t = .top 0 ∧ s.queue t = [] ∧ s.buff t = []) :
    ∀ t, c.n ≤ t → s'.pc t = .top 0 ∧ s'.queue t = [] ∧ s'.buff t = [] := by
  step_cases hs
  all_goals grind [upd]

/-! ### What holds while there is something to do -/

/-- Everything known about the termination machine within a phase. -/
structure Levels (c : Cfg) (s : Term.St) : Prop where
  l1 : L1 c s
  l2 : L2 c s
  l3 : L3 c s
  l5 : ∃ rt vt clk, L5 c s rt vt clk
  bal : tot c.n s.outs = tot c.n s.ins
  three : ∀ t i, s.pc t = .all i ∨ s.pc t = .done → s.votes t = 3
  closed : ∀ t, s.closed t = true

theorem Levels.step (hm : 0 < c.max) (h : Levels c s) (hs : Term.step c s x = some s') : Levels c s' := by
  obtain ⟨rt, vt, clk, h5⟩ := h.l5
  exact ⟨Term.L1_step h.l1 hs, Term.L2_step h.l1 h.l2 hs, Term.L3_step hm h.l1 h.l2 h.l3 hs,
    ⟨_, _, _, Term.L5_step h.l1 h.l2 h5 hs⟩, Term.balance_step h.bal hs, three_step hs h.three,
    closed_step hs h.closed⟩

theorem Levels.start (h : Term.Start c s) (hc : ∀ t, s.closed t = true) : Levels c s := by
  have hi := Term.inv_start h
  exact ⟨hi.l1, hi.l2, hi.l3, ⟨_, _, _, Term.L5_start h⟩, Term.balance_start h,
    fun t i e => (by rw [h.pc] at e; rcases e with e | e <;> cases e), hc⟩

/-- All threads agree: nothing is in flight, everything is reported, all views are the total. -/
structure Agreed (c : Cfg) (s : Term.St) : Prop where
  still : Term.Still c s
  votes : ∀ t, t < c.n → s.votes t = 3
  view : ∀ t, t < c.n → s.view t = tot c.n s.data
  data : ∀ t, t < c.n → s.data t = s.acts t

theorem Levels.agreed (h : Levels c s) (hd : ∀ t, t < c.n → s.pc t = .done) : Agreed c s := by
  obtain ⟨rt, vt, clk, h5⟩ := h.l5
  refine ⟨fun t ht => ?_, fun t ht => h.three t 0 (Or.inr (hd t ht)), fun t ht => ?_,
    fun t ht => h.l1.rep t (by rw [hd t ht]; rfl)⟩
  · obtain ⟨h1, h2⟩ := Term.empty_of_done h.l1 h.l2 h.l3 h5 hd t ht
    exact ⟨h1, h2, by rw [hd t ht]; rfl, h.closed t⟩
  · obtain ⟨u, hu, hlast⟩ := Term.exists_last rt c.n (by omega)
    have kd : ∀ v, v < c.n → Term.kept (s.pc v) = true := fun v hv => by rw [hd v hv]; rfl
    have e1 : s.view u = tot c.n s.data := by
      rw [← h5.xsV u (kd u hu)]
      exact Finset.sum_congr rfl fun v hv =>
        h5.keptR u (kd u hu) v (Finset.mem_range.1 hv) (hlast v (Finset.mem_range.1 hv))
    rw [← e1]
    refine h5.seen u t ht (by rw [hd u hu]; rfl) (lt_of_lt_of_le (h5.vr t ?_) (hlast t ht))
    rw [hd t ht]; rfl

/-- After a callback that sent something, a phase starts anew. -/
theorem Levels.restart (h : Levels c s) (hd : ∀ t, t < c.n → s.pc t = .done)
    (far : ∀ t, c.n ≤ t → s.pc t = .top 0 ∧ s.queue t = [] ∧ s.buff t = []) (hn : 0 < c.n)
    {qs : List Nat} (hq : ∀ q ∈ qs, q < c.n) (hne : qs ≠ []) : Levels c (called c.n s qs) := by
  have ha := h.agreed hd
  have hqe : ∀ t, s.queue t = [] := fun t => by
    by_cases e : t < c.n
    · exact (ha.still t e).1
    · exact (far t (by omega)).2.1
  have hbe : ∀ t, s.buff t = [] := fun t => by
    by_cases e : t < c.n
    · exact (ha.still t e).2.1
    · exact (far t (by omega)).2.2
  have hpc : ∀ t, (called c.n s qs).pc t = .report ∨ (called c.n s qs).pc t = .top 0 := by
    intro t
    simp only [Super.called, if_neg hne]
    split
    · exact Or.inl rfl
    · exact Or.inr (far t (by omega)).1
  have hlen : 0 < qs.length := List.length_pos_of_ne_nil hne
  have hact : s.acts 0 < (called c.n s qs).acts 0 := by
    simp only [Super.called, if_neg hne, Term.St.acts, upd_same]; omega
  have hslot : ∀ q sl, sl ∈ (called c.n s qs).queue q → sl = ⟨0, s.acts 0, true⟩ := by
    intro q sl hsl
    simp only [Super.called, if_neg hne, hqe, List.nil_append, List.mem_map] at hsl
    obtain ⟨_, _, e⟩ := hsl
    exact e.symm
  have hbuf : ∀ t, (called c.n s qs).buff t = [] := fun t => by
    simp only [Super.called, if_neg hne]; exact hbe t
  have hdata : ∀ t, (called c.n s qs).data t = 0 := fun t => by simp [Super.called, if_neg hne]
  have hview : ∀ t, (called c.n s qs).view t = 0 := fun t => by simp [Super.called, if_neg hne]
  have hcand : ∀ t u, (called c.n s qs).cand t u = 0 := fun t u => by simp [Super.called, if_neg hne]
  have hrd : ∀ t u, (called c.n s qs).rd t u = 0 := fun t u => by simp [Super.called, if_neg hne]
  have hmark : ∀ t u, (called c.n s qs).mark t u = 0 := fun t u => by simp [Super.called, if_neg hne]
  have hinst : ∀ t, (called c.n s qs).inst t = false := fun t => by simp [Super.called, if_neg hne]
  have hclo : ∀ t, (called c.n s qs).closed t = true := fun t => by
    simp only [Super.called, if_neg hne]; exact h.closed t
  generalize hS : called c.n s qs = S at *
  refine ⟨?_, ?_, ?_, ⟨fun _ => 0, fun _ => 0, 1, ?_⟩, ?_, ?_, hclo⟩
  · constructor
    · intro t k e n hp; rcases hpc t with q | q <;> rw [q] at hp <;> cases hp
    · intro t k e n q' hp; rcases hpc t with q | q <;> rw [q] at hp <;> cases hp
    · intro t w k e n hp; rcases hpc t with q | q <;> rw [q] at hp <;> cases hp
    · intro t w k e n q' hp; rcases hpc t with q | q <;> rw [q] at hp <;> cases hp
    · intro t k hp; rcases hpc t with q | q <;> rw [q] at hp <;> cases hp
    · intro t; rw [hdata]; exact Nat.zero_le _
    · intro t hp; rcases hpc t with q | q <;> rw [q] at hp <;> cases hp
    · intro t _; exact hclo t
    · intro t _; exact hclo t
    · intro q sl hsl
      rw [hslot q sl hsl]
      exact ⟨hn, lt_of_lt_of_le hact (Term.begun_ge _ _)⟩
    · intro q sl hsl; rw [hbuf] at hsl; cases hsl
    · intro q sl hsl hf; rw [hslot q sl hsl] at hf; cases hf
  · constructor
    · intro t u; rw [hcand]; exact Nat.zero_le _
    · intro t u; rw [hmark]; exact Nat.zero_le _
    · intro t u _; rw [hrd]; exact Nat.zero_le _
    · intro t; rw [hview]; exact Finset.sum_eq_zero fun u _ => hrd t u
    · intro t _ u _; rw [hrd]; exact Nat.zero_le _
    · intro t i acc hp; rcases hpc t with q | q <;> rw [q] at hp <;> cases hp
    · intro t i acc hp; rcases hpc t with q | q <;> rw [q] at hp <;> cases hp
    · intro t i acc hp; rcases hpc t with q | q <;> rw [q] at hp <;> cases hp
    · intro t acc hp; rcases hpc t with q | q <;> rw [q] at hp <;> cases hp
    · intro t acc hp; rcases hpc t with q | q <;> rw [q] at hp <;> cases hp
    · intro t t'; left; intro u; rw [hcand, hcand]
    · intro t t'; left; intro u; rw [hmark, hcand]
    · intro t t'; left; intro u; rw [hmark, hmark]
  · constructor
    · intro t sl _ _; rw [hcand]; exact Nat.zero_le _
    · intro t sl hi; rw [hinst] at hi; cases hi
    · intro t hi; rw [hinst] at hi; cases hi
    · intro t hi; rw [hinst] at hi; cases hi
  · constructor
    · intro t; exact Nat.zero_lt_one
    · intro t; exact Nat.zero_lt_one
    all_goals intro t
    all_goals intros
    all_goals (rcases hpc t with q | q <;> simp_all [Term.reads, Term.kept, Term.saw])
  · have hb := h.bal
    have hb' := (Term.nothing_of_still ha.still hb).2
    have e1 : tot c.n S.outs = tot c.n s.msgSend + qs.length := by
      have : tot c.n S.outs = tot c.n S.msgSend := Finset.sum_congr rfl fun t _ => by
        rcases hpc t with q | q <;> simp [Term.St.outs, q, Term.sentNow]
      rw [this, ← hS]
      simp only [Super.called, if_neg hne]
      have := Term.tot_change (n := c.n) (t := 0) (f := upd s.msgSend 0 (s.msgSend 0 + qs.length))
        (g := s.msgSend) hn (fun u hu => upd_ne _ _ hu)
      rw [upd_same] at this
      omega
    have e2 : tot c.n S.ins = tot c.n s.msgRecv + tot c.n (fun q => (S.queue q).length) := by
      rw [← Finset.sum_add_distrib]
      refine Finset.sum_congr rfl fun t _ => ?_
      have hr : S.msgRecv t = s.msgRecv t := by rw [← hS]; simp [Super.called, if_neg hne]
      rcases hpc t with q | q <;> simp [Term.St.ins, q, Term.hand, hbuf, hr]
    have e3 : tot c.n (fun q => (S.queue q).length) = qs.length := by
      have : ∀ q, (S.queue q).length = (qs.filter (fun x => x = q)).length := fun q => by
        rw [← hS]; simp [Super.called, if_neg hne, hqe]
      simp only [this]
      clear hne hslot hbuf hdata hview hcand hrd hmark hinst hclo e1 e2 this hlen hact hS hpc
      induction qs with
      | nil => simp [tot]
      | cons a l ih =>
        have := Term.tot_change (n := c.n) (t := a)
          (f := fun q => ((a :: l).filter (fun x => x = q)).length)
          (g := fun q => (l.filter (fun x => x = q)).length) (hq a (by simp))
          (fun u hu => by simp [List.filter_cons, Ne.symm hu])
        simp only [List.filter_cons, decide_true, if_true, List.length_cons] at this
        have ih := ih (fun q hq' => hq q (by simp [hq']))
        simp only [List.filter_cons, List.length_cons]
        omega
    rw [e1, e2, e3]
    have : tot c.n s.msgSend = tot c.n s.msgRecv := hb'
    omega
  · intro t i e; rcases hpc t with q | q <;> rw [q] at e <;> rcases e with e | e <;> cases e

end

/-! ### The barrier -/

/-- Waits for the leader, after a check that returned true. -/
def awake (s : St) (t : Nat) : Nat := if s.mode t = .wait ∧ s.term.pc t = .done then 1 else 0

/-- Released, but has not taken its message from the channel yet. -/
def asleep (s : St) (t : Nat) : Nat := if s.mode t = .wait ∧ s.term.pc t = .report then 1 else 0

/-- Messages the leader has taken from the first channel in this round. -/
def taken : Mode → Nat
  | .coll i => i
  | _ => 0

/-- Messages the leader has yet to put into the second channel. -/
def due (n : Nat) : Mode → Nat
  | .give i => n - 1 - i
  | _ => 0

/-- The thread is inside `AwaitSuperStepConvergence`, released. -/
def Released (s : St) (t : Nat) : Prop := (s.mode t = .wait ∨ ∃ i, s.mode t = .give i) ∧ s.term.pc t = .report

/-- The barrier, in any phase. -/
structure Bar (c : Cfg) (s : St) : Prop where
  n : s.mode 0 ≠ .run → 0 < c.n
  leader : ∀ t, t ≠ 0 → s.mode t = .run ∨ s.mode t = .wait ∨ s.mode t = .again
  follow : s.mode 0 ≠ .wait
  wait : ∀ t, s.mode t = .wait → t < c.n ∧ (s.term.pc t = .done ∨ s.term.pc t = .report)
  coll : ∀ i, s.mode 0 = .coll i → s.term.pc 0 = .done ∧ i + 1 ≤ c.n
  give : ∀ i, s.mode 0 = .give i → s.term.pc 0 = .report ∧ i + 1 ≤ c.n
  cntA : tot c.n (awake s) = s.dones + taken (s.mode 0)
  cntS : tot c.n (asleep s) = s.resumes + due c.n (s.mode 0)

/-- While there is something to do. -/
structure Busy (c : Cfg) (s : St) : Prop where
  levels : Levels c s.term
  bar : Bar c s
  far : ∀ t, c.n ≤ t → s.term.pc t = .top 0 ∧ s.term.queue t = [] ∧ s.term.buff t = []
  slp : ∀ t, t < c.n → Released s t → s.term.votes t = 0 ∧ ∀ u, cnt (s.term.pc u) t = false
  low : ∀ t, s.mode t = .again → t < c.n ∧ Low (s.term.pc t) (s.term.votes t)

/-- The checks of a phase in which all agree. -/
def Final (n : Nat) (data : Nat → Nat) : PC → Prop
  | .report | .begin | .zeros _ | .two | .ready _ | .three | .all _ | .done => True
  | .sum i acc => i ≤ n ∧ acc = tot i data
  | .cmp acc | .views _ acc => acc = tot n data
  | _ => False

/-- After a callback that has sent nothing. -/
structure Over (c : Cfg) (s : St) : Prop where
  agreed : Agreed c s.term
  bal : tot c.n s.term.outs = tot c.n s.term.ins
  bar : Bar c s
  mode : ∀ t, t < c.n → s.mode t ≠ .run ∧ ∀ i, s.mode t ≠ .coll i
  final : ∀ t, t < c.n → Final c.n s.term.data (s.term.pc t)
  rel : ∀ t, t < c.n → s.mode t ≠ .again → s.term.pc t = .report

section
variable {c : Cfg} {s s' : St} {a : Act}

theorem tot_congr {n : Nat} {f g : Nat → Nat} (h : ∀ t, t < n → f t = g t) : tot n f = tot n g :=
  Finset.sum_congr rfl fun t ht => h t (Finset.mem_range.1 ht)

theorem back_eq (p : PC) (m : Mode) (h : moving m = true) : back p m = .run ∨ back p m = .again := by
  unfold back
  cases m <;> simp [moving] at h <;> cases p <;> simp

theorem back_moving (p : PC) (m : Mode) (h : moving m = true) : moving (back p m) = true := by
  rcases back_eq p m h with e | e <;> rw [e] <;> rfl

/-- A step of the termination machine does not touch the barrier. -/
theorem Bar.loop (h : Bar c s) {x : Term.Act} {t : Nat} (hx : loopThread x = some t) (hm : moving (s.mode t) = true)
    {r : Term.St} (hs : Term.step c s.term x = some r) :
    Bar c { s with term := r, mode := upd s.mode t (back (r.pc t) (s.mode t)) } := by
  obtain ⟨htn, ho⟩ := other_step hx hs
  have hb := back_eq (r.pc t) (s.mode t) hm
  have hmt : s.mode t = .run ∨ s.mode t = .again := by
    revert hm; cases s.mode t <;> simp [moving]
  have m0 : ∀ m, (m ≠ .run ∧ m ≠ .again) → upd s.mode t (back (r.pc t) (s.mode t)) 0 = m → s.mode 0 = m ∧ t ≠ 0 := by
    intro m h1 h2
    by_cases e : t = 0
    · subst e; rw [upd_same] at h2; rw [h2] at hb; grind
    · rw [upd_ne _ _ (Ne.symm e)] at h2; exact ⟨h2, e⟩
  have hfree : ∀ u, awake { s with term := r, mode := upd s.mode t (back (r.pc t) (s.mode t)) } u = awake s u ∧
      asleep { s with term := r, mode := upd s.mode t (back (r.pc t) (s.mode t)) } u = asleep s u := by
    intro u
    unfold awake asleep
    by_cases e : u = t
    · subst e
      simp only [upd_same]
      rcases hb with e1 | e1 <;> rcases hmt with e2 | e2 <;> rw [e1, e2] <;> simp
    · simp only [upd_ne _ _ e, (ho u e).1, and_self]
  have h0 : taken (upd s.mode t (back (r.pc t) (s.mode t)) 0) = taken (s.mode 0) ∧
      due c.n (upd s.mode t (back (r.pc t) (s.mode t)) 0) = due c.n (s.mode 0) := by
    by_cases e : t = 0
    · subst e
      rw [upd_same]
      rcases hb with e1 | e1 <;> rcases hmt with e2 | e2 <;> rw [e1, e2] <;> simp [taken, due]
    · rw [upd_ne _ _ (Ne.symm e)]; exact ⟨rfl, rfl⟩
  constructor
  · intro _; omega
  · intro u hu
    dsimp only
    by_cases e : u = t
    · subst e; rw [upd_same]; tauto
    · rw [upd_ne _ _ e]; exact h.leader u hu
  · intro e
    exact h.follow (m0 _ (by simp) e).1
  · intro u hu
    have hu : upd s.mode t (back (r.pc t) (s.mode t)) u = .wait := hu
    show u < c.n ∧ (r.pc u = _ ∨ r.pc u = _)
    by_cases e : u = t
    · subst e; rw [upd_same] at hu; rw [hu] at hb; simp at hb
    · rw [upd_ne _ _ e] at hu; rw [(ho u e).1]; exact h.wait u hu
  · intro i hi
    obtain ⟨e1, e2⟩ := m0 _ (by simp) hi
    show r.pc 0 = _ ∧ _
    rw [(ho 0 (Ne.symm e2)).1]; exact h.coll i e1
  · intro i hi
    obtain ⟨e1, e2⟩ := m0 _ (by simp) hi
    show r.pc 0 = _ ∧ _
    rw [(ho 0 (Ne.symm e2)).1]; exact h.give i e1
  · show tot c.n _ = s.dones + taken (upd s.mode t _ 0)
    rw [h0.1, ← h.cntA]; exact tot_congr fun u _ => (hfree u).1
  · show tot c.n _ = s.resumes + due c.n (upd s.mode t _ 0)
    rw [h0.2, ← h.cntS]; exact tot_congr fun u _ => (hfree u).2

theorem Busy.loop (hmax : 0 < c.max) (h : Busy c s) {x : Term.Act} {t : Nat} (hx : loopThread x = some t)
    (hm : moving (s.mode t) = true) {r : Term.St} (hs : Term.step c s.term x = some r) :
    Busy c { s with term := r, mode := upd s.mode t (back (r.pc t) (s.mode t)) } := by
  obtain ⟨htn, ho⟩ := other_step hx hs
  have hb := back_eq (r.pc t) (s.mode t) hm
  refine ⟨h.levels.step hmax hs, h.bar.loop hx hm hs, far_step hs h.far, ?_, ?_⟩
  · rintro u hu ⟨hmu, hpu⟩
    have hmu : upd s.mode t (back (r.pc t) (s.mode t)) u = .wait ∨ ∃ i, upd s.mode t (back (r.pc t) (s.mode t)) u = .give i := hmu
    have hpu : r.pc u = .report := hpu
    have e : u ≠ t := by
      rintro rfl
      rw [upd_same] at hmu
      rcases hb with e1 | e1 <;> rw [e1] at hmu <;> simp at hmu
    rw [upd_ne _ _ e] at hmu
    rw [(ho u e).1] at hpu
    obtain ⟨h1, h2⟩ := h.slp u hu ⟨hmu, hpu⟩
    exact ⟨by show r.votes u = 0; rw [(ho u e).2]; exact h1, cnt_step hs hu h1 h2⟩
  · intro u hu
    have hu : upd s.mode t (back (r.pc t) (s.mode t)) u = .again := hu
    show u < c.n ∧ Low (r.pc u) (r.votes u)
    by_cases e : u = t
    · subst e
      rw [upd_same] at hu
      have hag : s.mode u = .again := by
        revert hu hm; unfold back; cases s.mode u <;> simp [moving]
      rcases low_step hs hx (h.low u hag).2 with e1 | ⟨k, e1⟩
      · exact ⟨htn, e1⟩
      · rw [e1, hag] at hu; simp [back] at hu
    · rw [upd_ne _ _ e] at hu
      rw [(ho u e).1, (ho u e).2]; exact h.low u hu

theorem at_same {r : Term.St} {t : Nat} {p : PC} (h : r.pc t = p) : r.at t p = r := by
  have : upd r.pc t p = r.pc := by
    funext u
    by_cases e : u = t
    · subst e; rw [upd_same, h]
    · rw [upd_ne _ _ e]
  unfold Term.St.at
  rw [this]

theorem awake_upd (s : St) (t : Nat) (m : Mode) (d e : Nat) (u : Nat) (hu : u ≠ t) :
    awake { s with mode := upd s.mode t m, dones := d, resumes := e } u = awake s u ∧
    asleep { s with mode := upd s.mode t m, dones := d, resumes := e } u = asleep s u := by
  simp only [awake, asleep, upd_ne _ _ hu, and_self]

theorem cnt_change (s : St) {n t : Nat} (ht : t < n) (m : Mode) (d e : Nat) :
    tot n (awake { s with mode := upd s.mode t m, dones := d, resumes := e }) + awake s t =
      tot n (awake s) + awake { s with mode := upd s.mode t m, dones := d, resumes := e } t ∧
    tot n (asleep { s with mode := upd s.mode t m, dones := d, resumes := e }) + asleep s t =
      tot n (asleep s) + asleep { s with mode := upd s.mode t m, dones := d, resumes := e } t :=
  ⟨Term.tot_change ht fun u hu => (awake_upd s t m d e u hu).1,
    Term.tot_change ht fun u hu => (awake_upd s t m d e u hu).2⟩

/-- A thread with a check that returned true has counted everybody. -/
theorem Busy.no_release (h : Busy c s) {u : Nat} (hu : s.term.pc u = .done) : ∀ t, t < c.n → ¬ Released s t := by
  intro t ht hr
  have := (h.slp t ht hr).2 u
  rw [hu] at this
  cases this

theorem Busy.post (h : Busy c s) {t : Nat} (h0 : 0 < t) (ht : t < c.n) (hm : s.mode t = .run)
    (hp : s.term.pc t = .done) : Busy c { s with mode := upd s.mode t .wait, dones := s.dones + 1 } := by
  have hz : ∀ m, upd s.mode t m 0 = s.mode 0 := fun m => upd_ne _ _ (by omega)
  refine ⟨h.levels, ?_, h.far, ?_, ?_⟩
  · constructor
    · intro _; omega
    · intro u hu
      dsimp only
      by_cases e : u = t
      · subst e; rw [upd_same]; tauto
      · rw [upd_ne _ _ e]; exact h.bar.leader u hu
    · dsimp only; rw [hz]; exact h.bar.follow
    · intro u hu
      dsimp only at hu ⊢
      by_cases e : u = t
      · subst e; exact ⟨ht, Or.inl hp⟩
      · rw [upd_ne _ _ e] at hu; exact h.bar.wait u hu
    · intro i; dsimp only; rw [hz]; exact h.bar.coll i
    · intro i; dsimp only; rw [hz]; exact h.bar.give i
    · have hch := (cnt_change s ht .wait (s.dones + 1) s.resumes).1
      have e1 : awake s t = 0 := by simp [awake, hm]
      have e2 : awake { s with mode := upd s.mode t .wait, dones := s.dones + 1 } t = 1 := by simp [awake, hp]
      have := h.bar.cntA
      dsimp only; rw [hz]; omega
    · have hch := (cnt_change s ht .wait (s.dones + 1) s.resumes).2
      have e1 : asleep s t = 0 := by simp [asleep, hm]
      have e2 : asleep { s with mode := upd s.mode t .wait, dones := s.dones + 1 } t = 0 := by simp [asleep, hp]
      have := h.bar.cntS
      dsimp only; rw [hz]; omega
  · rintro u hu ⟨h1, h2⟩
    dsimp only at h1 h2 ⊢
    by_cases e : u = t
    · subst e; rw [hp] at h2; cases h2
    · rw [upd_ne _ _ e] at h1; exact h.slp u hu ⟨h1, h2⟩
  · intro u hu
    dsimp only at hu ⊢
    by_cases e : u = t
    · subst e; rw [upd_same] at hu; cases hu
    · rw [upd_ne _ _ e] at hu; exact h.low u hu

/-- The leader goes on to another point of the barrier. -/
theorem Bar.lead (h : Bar c s) {m : Mode} (d e : Nat) (hn : 0 < c.n) (hw : m ≠ .wait)
    (hc : ∀ i, m = .coll i → s.term.pc 0 = .done ∧ i + 1 ≤ c.n)
    (hg : ∀ i, m = .give i → s.term.pc 0 = .report ∧ i + 1 ≤ c.n)
    (hd : d + taken m = s.dones + taken (s.mode 0))
    (he : e + due c.n m = s.resumes + due c.n (s.mode 0)) :
    Bar c { s with mode := upd s.mode 0 m, dones := d, resumes := e } := by
  constructor
  · intro _; exact hn
  · intro u hu; dsimp only; rw [upd_ne _ _ hu]; exact h.leader u hu
  · dsimp only; rw [upd_same]; exact hw
  · intro u hu
    dsimp only at hu ⊢
    by_cases e : u = 0
    · subst e; rw [upd_same] at hu; exact absurd hu hw
    · rw [upd_ne _ _ e] at hu; exact h.wait u hu
  · intro i; dsimp only; rw [upd_same]; exact hc i
  · intro i; dsimp only; rw [upd_same]; exact hg i
  · have := Term.tot_change (n := c.n) hn (fun u hu => (awake_upd s 0 m d e u hu).1)
    have e1 : awake s 0 = 0 := by simp [awake, h.follow]
    have e2 : awake { s with mode := upd s.mode 0 m, dones := d, resumes := e } 0 = 0 := by simp [awake, hw]
    have := h.cntA
    dsimp only; rw [upd_same]; omega
  · have := Term.tot_change (n := c.n) hn (fun u hu => (awake_upd s 0 m d e u hu).2)
    have e1 : asleep s 0 = 0 := by simp [asleep, h.follow]
    have e2 : asleep { s with mode := upd s.mode 0 m, dones := d, resumes := e } 0 = 0 := by simp [asleep, hw]
    have := h.cntS
    dsimp only; rw [upd_same]; omega

theorem Busy.lead (h : Busy c s) {m : Mode} (d e : Nat) (hn : 0 < c.n) (hw : m ≠ .wait)
    (hc : ∀ i, m = .coll i → s.term.pc 0 = .done ∧ i + 1 ≤ c.n)
    (hg : ∀ i, m = .give i → Released s 0 ∧ i + 1 ≤ c.n)
    (ha : m = .again → Low (s.term.pc 0) (s.term.votes 0))
    (hd : d + taken m = s.dones + taken (s.mode 0))
    (he : e + due c.n m = s.resumes + due c.n (s.mode 0)) :
    Busy c { s with mode := upd s.mode 0 m, dones := d, resumes := e } := by
  refine ⟨h.levels, h.bar.lead d e hn hw hc (fun i hi => ⟨(hg i hi).1.2, (hg i hi).2⟩) hd he, h.far, ?_, ?_⟩
  · rintro u hu ⟨h1, h2⟩
    dsimp only at h1 h2 ⊢
    by_cases e : u = 0
    · subst e
      rw [upd_same] at h1
      rcases h1 with h1 | ⟨i, h1⟩
      · exact absurd h1 hw
      · exact h.slp 0 hu (hg i h1).1
    · rw [upd_ne _ _ e] at h1; exact h.slp u hu ⟨h1, h2⟩
  · intro u hu
    dsimp only at hu ⊢
    by_cases e : u = 0
    · subst e; rw [upd_same] at hu; exact ⟨hn, ha hu⟩
    · rw [upd_ne _ _ e] at hu; exact h.low u hu

/-- A thread takes the message that releases it. -/
theorem Bar.take (h : Bar c s) {t : Nat} (h0 : 0 < t) (ht : t < c.n) (hm : s.mode t = .wait) (hr : 0 < s.resumes)
    (hp : s.term.pc t = .report) : Bar c { s with mode := upd s.mode t .again, resumes := s.resumes - 1 } := by
  have hz : ∀ m, upd s.mode t m 0 = s.mode 0 := fun m => upd_ne _ _ (by omega)
  constructor
  · intro _; omega
  · intro u hu
    dsimp only
    by_cases e : u = t
    · subst e; rw [upd_same]; tauto
    · rw [upd_ne _ _ e]; exact h.leader u hu
  · dsimp only; rw [hz]; exact h.follow
  · intro u hu
    dsimp only at hu ⊢
    by_cases e : u = t
    · subst e; rw [upd_same] at hu; cases hu
    · rw [upd_ne _ _ e] at hu; exact h.wait u hu
  · intro i; dsimp only; rw [hz]; exact h.coll i
  · intro i; dsimp only; rw [hz]; exact h.give i
  · have hch := (cnt_change s ht .again s.dones (s.resumes - 1)).1
    have e1 : awake s t = 0 := by simp [awake, hp]
    have e2 : awake { s with mode := upd s.mode t .again, resumes := s.resumes - 1 } t = 0 := by simp [awake]
    have := h.cntA
    dsimp only; rw [hz]; omega
  · have hch := (cnt_change s ht .again s.dones (s.resumes - 1)).2
    have e1 : asleep s t = 1 := by simp [asleep, hm, hp]
    have e2 : asleep { s with mode := upd s.mode t .again, resumes := s.resumes - 1 } t = 0 := by simp [asleep]
    have := h.cntS
    dsimp only; rw [hz]; omega

theorem exists_of_tot {n : Nat} {f : Nat → Nat} (h : 0 < tot n f) : ∃ t, t < n ∧ 0 < f t := by
  by_contra hn
  push_neg at hn
  have : tot n f = 0 := Finset.sum_eq_zero fun t ht => by
    have := hn t (Finset.mem_range.1 ht); omega
  omega

/-- There is a message to release a thread only while one is released. -/
theorem Bar.someone (h : Bar c s) (hr : 0 < s.resumes) : ∃ t, t < c.n ∧ s.mode t = .wait ∧ s.term.pc t = .report := by
  have := h.cntS
  obtain ⟨t, ht, hf⟩ := exists_of_tot (n := c.n) (f := asleep s) (by omega)
  refine ⟨t, ht, ?_⟩
  unfold asleep at hf
  split at hf
  · assumption
  · omega

theorem Busy.take (h : Busy c s) {t : Nat} (h0 : 0 < t) (ht : t < c.n) (hm : s.mode t = .wait) (hr : 0 < s.resumes) :
    s.term.pc t = .report ∧ Busy c { s with mode := upd s.mode t .again, resumes := s.resumes - 1 } := by
  have hp : s.term.pc t = .report := by
    rcases (h.bar.wait t hm).2 with e | e
    · obtain ⟨u, hu, h1, h2⟩ := h.bar.someone hr
      exact absurd ⟨Or.inl h1, h2⟩ (h.no_release e u hu)
    · exact e
  refine ⟨hp, h.levels, h.bar.take h0 ht hm hr hp, h.far, ?_, ?_⟩
  · rintro u hu ⟨h1, h2⟩
    dsimp only at h1 h2 ⊢
    by_cases e : u = t
    · subst e; rw [upd_same] at h1; simp at h1
    · rw [upd_ne _ _ e] at h1; exact h.slp u hu ⟨h1, h2⟩
  · intro u hu
    dsimp only at hu ⊢
    by_cases e : u = t
    · subst e
      refine ⟨ht, ?_⟩
      have := (h.slp u ht ⟨Or.inl hm, hp⟩).1
      rw [hp, this]; rfl
    · rw [upd_ne _ _ e] at hu; exact h.low u hu

theorem tot_full {n : Nat} {f : Nat → Nat} (h1 : ∀ t, f t ≤ 1) (h0 : f 0 = 0) : 0 < n → tot n f ≤ n - 1 ∧
    (tot n f = n - 1 → ∀ t, 0 < t → t < n → f t = 1) := by
  intro hn
  have key : tot n f ≤ tot n (fun t => if t = 0 then 0 else 1) :=
    Term.tot_le fun u _ => by
      by_cases e : u = 0
      · subst e; simp [h0]
      · simpa [e] using h1 u
  have e1 : ∀ m, tot (m + 1) (fun t => if t = 0 then 0 else 1) = m := by
    intro m
    induction m with
    | zero => simp [tot]
    | succ m ih => rw [Term.tot_succ, ih]; simp
  obtain ⟨m, rfl⟩ : ∃ m, n = m + 1 := ⟨n - 1, by omega⟩
  rw [e1] at key
  refine ⟨by omega, fun he t ht htn => ?_⟩
  have := Term.eq_of_tot_eq (n := m + 1) (f := f) (g := fun t => if t = 0 then 0 else 1)
    (fun u _ => by
      by_cases e : u = 0
      · subst e; simp [h0]
      · simpa [e] using h1 u) (by rw [e1, he]; omega) t htn
  rw [this, if_neg (by omega)]

/-- When the leader has collected all messages, everybody waits after a check that returned true. -/
theorem Bar.full (h : Bar c s) {i : Nat} (hm : s.mode 0 = .coll i) (hi : i + 1 = c.n) :
    s.dones = 0 ∧ s.resumes = 0 ∧ (∀ t, t < c.n → s.term.pc t = .done) ∧ ∀ t, 0 < t → t < c.n → s.mode t = .wait := by
  have hn : 0 < c.n := by omega
  have h1 : ∀ t, awake s t ≤ 1 := fun t => by unfold awake; split <;> omega
  obtain ⟨ha, hb⟩ := tot_full (n := c.n) h1 (by simp [awake, h.follow]) hn
  have hA := h.cntA
  rw [hm] at hA
  simp only [taken] at hA
  have hall : ∀ t, 0 < t → t < c.n → s.mode t = .wait ∧ s.term.pc t = .done := by
    intro t h0 ht
    have := hb (by omega) t h0 ht
    unfold awake at this
    split at this
    · assumption
    · omega
  have hd : ∀ t, t < c.n → s.term.pc t = .done := fun t ht => by
    by_cases e : t = 0
    · subst e; exact (h.coll i hm).1
    · exact (hall t (by omega) ht).2
  refine ⟨by omega, ?_, hd, fun t h0 ht => (hall t h0 ht).1⟩
  have hS := h.cntS
  rw [hm] at hS
  simp only [due] at hS
  have : tot c.n (asleep s) = 0 := Finset.sum_eq_zero fun t ht => by
    unfold asleep; rw [hd t (Finset.mem_range.1 ht)]; simp
  omega

theorem called_pc (n : Nat) (r : Term.St) (qs : List Nat) (t : Nat) :
    (called n r qs).pc t = if t < n then .report else r.pc t := by
  unfold called; split <;> rfl

theorem Bar.call (h : Bar c s) {i : Nat} (hm : s.mode 0 = .coll i) (hi : i + 1 = c.n) (qs : List Nat) :
    Bar c { s with term := called c.n s.term qs, mode := upd s.mode 0 (.give 0), calls := qs.length :: s.calls } := by
  obtain ⟨h1, h2, h3, h4⟩ := h.full hm hi
  have hn : 0 < c.n := by omega
  have hp : ∀ t, t < c.n → (called c.n s.term qs).pc t = .report := fun t ht => by rw [called_pc, if_pos ht]
  constructor
  · intro _; exact hn
  · intro u hu; dsimp only; rw [upd_ne _ _ hu]; exact h.leader u hu
  · dsimp only; rw [upd_same]; simp
  · intro u hu
    dsimp only at hu ⊢
    by_cases e : u = 0
    · subst e; rw [upd_same] at hu; cases hu
    · rw [upd_ne _ _ e] at hu
      have := (h.wait u hu).1
      exact ⟨this, Or.inr (hp u this)⟩
  · intro i; dsimp only; rw [upd_same]; intro e; cases e
  · intro i; dsimp only; rw [upd_same]; intro e; cases e; exact ⟨hp 0 hn, by omega⟩
  · dsimp only; rw [upd_same, h1]
    refine Finset.sum_eq_zero fun t ht => ?_
    simp [awake, hp t (Finset.mem_range.1 ht)]
  · have e1 : ∀ m, tot (m + 1) (fun t => if t = 0 then 0 else 1) = m := by
      intro m
      induction m with
      | zero => simp [tot]
      | succ m ih => rw [Term.tot_succ, ih]; simp
    have : ∀ t, t < c.n → asleep { s with term := called c.n s.term qs, mode := upd s.mode 0 (.give 0), calls := qs.length :: s.calls } t =
        if t = 0 then 0 else 1 := by
      intro t ht
      by_cases e : t = 0
      · subst e; simp [asleep]
      · simp [asleep, upd_ne _ _ e, h4 t (by omega) ht, hp t ht, e]
    rw [tot_congr this]
    dsimp only; rw [upd_same, h2]
    simp only [due, Nat.zero_add, Nat.sub_zero]
    obtain ⟨m, hm⟩ : ∃ m, c.n = m + 1 := ⟨c.n - 1, by omega⟩
    rw [hm, e1]; omega

/-- A callback that sends something. -/
theorem Busy.call (h : Busy c s) {i : Nat} (hm : s.mode 0 = .coll i) (hi : i + 1 = c.n) {qs : List Nat}
    (hq : ∀ q ∈ qs, q < c.n) (hne : qs ≠ []) :
    Busy c { s with term := called c.n s.term qs, mode := upd s.mode 0 (.give 0), calls := qs.length :: s.calls } := by
  obtain ⟨h1, h2, h3, h4⟩ := h.bar.full hm hi
  have hn : 0 < c.n := by omega
  refine ⟨h.levels.restart h3 h.far hn hq hne, h.bar.call hm hi qs, ?_, ?_, ?_⟩
  · intro t ht
    obtain ⟨e1, e2, e3⟩ := h.far t ht
    dsimp only
    refine ⟨by rw [called_pc, if_neg (by omega)]; exact e1, ?_, ?_⟩
    · have : qs.filter (fun x => x = t) = [] := by
        rw [List.filter_eq_nil_iff]
        intro q hq' e
        have := hq q hq'
        simp at e; omega
      simp [called, if_neg hne, e2, this]
    · simp [called, if_neg hne, e3]
  · intro t ht _
    dsimp only
    refine ⟨by simp [called, if_neg hne], fun u => ?_⟩
    rw [called_pc]
    split
    · rfl
    · rw [(h.far u (by omega)).1]; rfl
  · intro t ht
    dsimp only at ht
    exfalso
    by_cases e : t = 0
    · subst e; rw [upd_same] at ht; cases ht
    · rw [upd_ne _ _ e] at ht
      have := h.low t ht
      rw [h4 t (by omega) this.1] at ht; cases ht

/-! ### After a callback that sends nothing -/

theorem upd_self {α : Type} (f : Nat → α) (t : Nat) (x : α) (h : f t = x) : upd f t x = f := by
  funext u
  by_cases e : u = t
  · subst e; rw [upd_same, h]
  · rw [upd_ne _ _ e]

/-- Instructions left in a check in which all agree, at most. -/
def rank (n : Nat) : PC → Nat
  | .report => 5 * n + 12
  | .sum i _ => 4 * n + 11 + (n - i)
  | .cmp _ => 4 * n + 10
  | .views i _ => 3 * n + 9 + (n - i)
  | .begin => 3 * n + 8
  | .zeros i => 2 * n + 7 + (n - i)
  | .two => 2 * n + 6
  | .ready i => n + 5 + (n - i)
  | .three => n + 4
  | .all i => 3 + (n - i)
  | _ => 0

theorem final_step {r r' : Term.St} {x : Term.Act} {t : Nat} (h : Agreed c r) (ht : loopThread x = some t)
    (hf : Final c.n r.data (r.pc t)) (hs : Term.step c r x = some r') :
    r'.votes = r.votes ∧ r'.view = r.view ∧ r'.data = r.data ∧ r'.queue = r.queue ∧ r'.buff = r.buff ∧
    r'.msgSend = r.msgSend ∧ r'.msgRecv = r.msgRecv ∧ r'.events = r.events ∧ r'.closed = r.closed ∧
    Final c.n r.data (r'.pc t) ∧ rank c.n (r'.pc t) < rank c.n (r.pc t) := by
  have hv := h.votes
  have hw := h.view
  have hd := h.data
  have hu : ∀ t, t < c.n → upd r.votes t 3 = r.votes := fun t ht => upd_self _ _ _ (hv t ht)
  have hu2 : ∀ t, t < c.n → upd r.data t (r.acts t) = r.data := fun t ht => upd_self _ _ _ (hd t ht)
  have h0 : tot 0 r.data = 0 := Finset.sum_range_zero _
  have h1 := fun i => Term.tot_succ i r.data
  clear h
  cases x <;> simp only [loopThread, Option.some.injEq] at ht
  all_goals first | cases ht; done | skip
  all_goals subst ht
  all_goals step_cases hs
  all_goals try (rename_i hp; rw [hp] at hf; simp only [Final] at hf; done)
  all_goals try (simp_all [Final, rank]; done)
  all_goals try (grind [upd, Final, rank])

end

end Verif.Super
