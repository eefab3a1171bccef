import Verif.TerminateInv2

/-! Invariants of the termination protocol, third part: views and votes. -/

namespace Verif.Term

section
variable {c : Cfg} {s s' : St} {a : Act}

/-- In its current check the thread has compared its view with that of thread `u`. -/
def past : PC → Nat → Bool
  | .views i _, u => u < i
  | .begin, _ | .zeros .., _ | .lower .., _ | .two, _ | .ready .., _ | .fall .., _ | .three, _
  | .all .., _ => true
  | _, _ => false

/-- In its current check the thread has found the vote of `u` nonzero. -/
def counted : PC → Nat → Bool
  | .zeros i, u => u < i
  | .two, _ | .ready .., _ | .fall .., _ | .three, _ | .all .., _ => true
  | _, _ => false

/-- The own view was unchanged in the current check. -/
def same : PC → Bool
  | .views .. | .begin | .zeros .. | .lower .. | .two | .ready .. | .fall .. | .three
  | .all .. => true
  | _ => false

/-- `u` has moved on to a larger view than that of `x` and has not voted since. -/
def Ahead (s : St) (x u : Nat) : Prop :=
  s.view x < s.view u ∧ s.votes u = 0 ∧ past (s.pc u) x = false

/-- The snapshot of `u` is the one of view `V`. -/
def Agrees (c : Cfg) (s : St) (u V : Nat) : Prop := s.inst u = true ∧ tot c.n (s.mark u) = V

theorem past_of_counted (p : PC) (u : Nat) (h : counted p u = true) : past p u = true := by
  cases p <;> simp_all [counted, past]

structure L4 (c : Cfg) (s : St) : Prop where
  viewA : ∀ t i acc, s.pc t = .views i acc → acc = s.view t
  conf : ∀ t, s.votes t ≠ 0 → s.pc t ≠ .reset true → Agrees c s t (s.view t)
  own : ∀ t, same (s.pc t) = true → Agrees c s t (s.view t)
  le : ∀ x u, x < c.n → u < c.n → past (s.pc x) u = true → s.view x ≤ s.view u
  seen : ∀ x u, x < c.n → u < c.n → past (s.pc x) u = true →
    Agrees c s u (s.view x) ∨ s.view u = s.view x ∨ Ahead s x u
  cnt : ∀ x u, x < c.n → u < c.n → counted (s.pc x) u = true → Agrees c s u (s.view x) ∨ Ahead s x u
  last : ∀ x i, x < c.n → s.pc x = .all i → StillAt c s (s.view x) ∨ ∃ u, i ≤ u ∧ u < c.n ∧ Ahead s x u
  fin : ∀ x, x < c.n → s.pc x = .done → StillAt c s (s.view x)
  three : ∀ x i, s.pc x = .all i ∨ s.pc x = .done → s.votes x = 3

/-- The step does not read, in the loop of termination.go 63-64, the vote of a thread that is
between the two stores of termination.go 44 and 45. -/
def Fresh (s : St) (a : Act) : Prop :=
  ∀ t i, a = .go t → s.pc t = .zeros i → s.pc i ≠ .reset true

theorem L4.viewA_step (h : L4 c s) (hs : step c s a = some s') :
    ∀ t i acc, s'.pc t = .views i acc → acc = s'.view t := by
  have h1 := h.viewA
  clear h; step_cases hs
  all_goals grind [upd]

theorem L2.view_lt (h : L2 c s) : ∀ t acc, s.pc t = .cmp acc → s.view t ≠ acc → s.view t < acc := by
  intro t acc hp hne
  obtain ⟨ha, ht, ho⟩ := h.cmpA t acc hp
  have hx := h.cmpX t acc hp
  have hr := h.rdC t (by rw [hp]; rfl)
  have := tot_le (fun u hu => le_trans (hr u hu) (hx u hu).1)
  rw [h.rdV, ← ha] at this
  omega

theorem L4.own_step (h1 : L1 c s) (h2 : L2 c s) (h : L4 c s) (hs : step c s a = some s') :
    ∀ t, same (s'.pc t) = true → Agrees c s' t (s'.view t) := by
  have h3 := h.own
  have h4 : ∀ t acc, s.pc t = .cmp acc → s.view t = acc → tot c.n (s.cand t) = acc :=
    fun t acc hp hv => (confirm h1 h2 hp hv).2.1
  clear h h1 h2
  unfold Agrees at *
  step_cases hs
  all_goals grind [upd, same]

theorem L4.conf_step (h1 : L1 c s) (h2 : L2 c s) (h : L4 c s) (hs : step c s a = some s') :
    ∀ t, s'.votes t ≠ 0 → s'.pc t ≠ .reset true → Agrees c s' t (s'.view t) := by
  have h3 := h.own; have h5 := h.conf
  have h4 : ∀ t acc, s.pc t = .cmp acc → s.view t = acc → tot c.n (s.cand t) = acc :=
    fun t acc hp hv => (confirm h1 h2 hp hv).2.1
  clear h h1 h2
  unfold Agrees at *
  step_cases hs
  all_goals grind [upd, same]

theorem L4.le_step (h2 : L2 c s) (h : L4 c s) (hs : step c s a = some s') :
    ∀ x u, x < c.n → u < c.n → past (s'.pc x) u = true → s'.view x ≤ s'.view u := by
  have h3 := h.le; have h4 := h2.view_lt; have h5 := h.viewA
  clear h h2
  step_cases hs
  all_goals grind [upd, past]

theorem L4.seen_step (h1 : L1 c s) (h2 : L2 c s) (h : L4 c s) (hs : step c s a = some s') :
    ∀ x u, x < c.n → u < c.n → past (s'.pc x) u = true →
      Agrees c s' u (s'.view x) ∨ s'.view u = s'.view x ∨ Ahead s' x u := by
  intro x u hx hu
  have h3 := h.seen x u hx hu; have h5 := h.viewA; have h6 := h.conf u; have h7 := h.le x u hx hu
  have h4 : ∀ t acc, s.pc t = .cmp acc → s.view t = acc → tot c.n (s.cand t) = acc :=
    fun t acc hp hv => (confirm h1 h2 hp hv).2.1
  have h8 := h2.view_lt
  clear h h1 h2
  unfold Agrees Ahead at *
  step_cases hs
  all_goals grind [upd, past]

theorem L4.cnt_step (h1 : L1 c s) (h2 : L2 c s) (h : L4 c s) (hf : Fresh s a)
    (hs : step c s a = some s') :
    ∀ x u, x < c.n → u < c.n → counted (s'.pc x) u = true →
      Agrees c s' u (s'.view x) ∨ Ahead s' x u := by
  intro x u hx hu
  have h3 := h.seen x u hx hu; have h5 := h.viewA; have h6 := h.conf u; have h7 := h.le x u hx hu
  have h9 := h.cnt x u hx hu
  have h4 : ∀ t acc, s.pc t = .cmp acc → s.view t = acc → tot c.n (s.cand t) = acc :=
    fun t acc hp hv => (confirm h1 h2 hp hv).2.1
  have h8 := h2.view_lt
  clear h h1 h2
  unfold Agrees Ahead Fresh at *
  step_cases hs
  all_goals grind [upd, past, counted, past_of_counted]

theorem view_const (hs : step c s a = some s') :
    ∀ x i, s'.pc x = .all i ∨ s'.pc x = .done → s'.view x = s.view x := by
  step_cases hs
  all_goals grind [upd]

theorem L4.last_step (h1 : L1 c s) (h2 : L2 c s) (h3 : L3 c s) (h : L4 c s)
    (hs : step c s a = some s') :
    ∀ x i, x < c.n → s'.pc x = .all i →
      StillAt c s' (s'.view x) ∨ ∃ u, i ≤ u ∧ u < c.n ∧ Ahead s' x u := by
  intro x i hx hp
  rw [view_const hs x i (Or.inl hp)]
  have hst : (∀ u, u < c.n → Agrees c s u (s.view x)) → StillAt c s' (s.view x) := fun hV =>
    stillAt_step (still_of_marks h1 h2 h3 (by omega) hV) hs
  have hst2 : StillAt c s (s.view x) → StillAt c s' (s.view x) := fun hh => stillAt_step hh hs
  have h5 := h.viewA; have h6 := h.last x
  have h9 : s.pc x = .three → StillAt c s' (s.view x) ∨ ∃ u, u < c.n ∧ Ahead s x u := by
    intro hp
    by_cases hn : ∃ u, u < c.n ∧ Ahead s x u
    · exact Or.inr hn
    · refine Or.inl (hst fun u hu => ?_)
      rcases h.cnt x u hx hu (by rw [hp]; rfl) with e | e
      · exact e
      · exact absurd ⟨u, hu, e⟩ hn
  have h8 := h2.view_lt
  clear h h1 h2 h3 hst
  generalize StillAt c s' (s.view x) = S at *
  generalize StillAt c s (s.view x) = S0 at *
  unfold Ahead at *
  revert hp
  step_cases hs
  all_goals grind [upd, past]

theorem L4.fin_step (h : L4 c s) (hs : step c s a = some s') :
    ∀ x, x < c.n → s'.pc x = .done → StillAt c s' (s'.view x) := by
  intro x hx hp
  rw [view_const hs x 0 (Or.inr hp)]
  have hst2 : StillAt c s (s.view x) → StillAt c s' (s.view x) := fun hh => stillAt_step hh hs
  have h6 := h.last x
  have h7 := h.fin x
  clear h
  generalize StillAt c s' (s.view x) = S at *
  generalize StillAt c s (s.view x) = S0 at *
  revert hp
  step_cases hs
  all_goals grind [upd]

theorem L4.three_step (h : L4 c s) (hs : step c s a = some s') :
    ∀ x i, s'.pc x = .all i ∨ s'.pc x = .done → s'.votes x = 3 := by
  have h6 := h.three
  clear h
  step_cases hs
  all_goals grind [upd]

theorem L4_step (h1 : L1 c s) (h2 : L2 c s) (h3 : L3 c s) (h : L4 c s) (hf : Fresh s a)
    (hs : step c s a = some s') : L4 c s' :=
  ⟨h.viewA_step hs, h.conf_step h1 h2 hs, h.own_step h1 h2 hs, h.le_step h2 hs,
    h.seen_step h1 h2 hs, h.cnt_step h1 h2 hf hs, h.last_step h1 h2 h3 hs, h.fin_step hs,
    h.three_step hs⟩

/-- All invariants. -/
structure Inv (c : Cfg) (s : St) : Prop where
  l1 : L1 c s
  l2 : L2 c s
  l3 : L3 c s
  l4 : L4 c s

theorem inv_step (hmax : 0 < c.max) (h : Inv c s) (hf : Fresh s a) (hs : step c s a = some s') :
    Inv c s' :=
  ⟨L1_step h.l1 hs, L2_step h.l1 h.l2 hs, L3_step hmax h.l1 h.l2 h.l3 hs,
    L4_step h.l1 h.l2 h.l3 h.l4 hf hs⟩

theorem inv_start (h : Start c s) : Inv c s := by
  refine ⟨?_, ?_, ?_, ?_⟩
  · constructor
    all_goals intros
    all_goals simp_all [h.pc, h.buff, h.data, h.inst, reported, St.begun, busy]
    · exact (h.full _ _ (by assumption)).2
    · have := (h.full _ _ (by assumption)).1; simp_all
  · constructor
    all_goals intros
    all_goals simp_all [h.pc, h.data, h.cand, h.mark, h.rd, h.view, started, Below]
  · constructor
    all_goals intros
    all_goals simp_all [h.pc, h.inst, dry]
  · constructor
    all_goals intros
    all_goals simp_all [h.pc, h.votes, past, counted, same]

/-! ### Counting messages -/

/-- Messages sent by the batch in progress. -/
def sentNow : PC → Nat
  | .work _ _ _ n | .put _ _ _ n _ => n
  | _ => 0

/-- Notifications in hand. -/
def hand : PC → Nat
  | .top k | .pullB k | .pullQ k | .drain k | .polled k | .recvd k | .work _ k _ _
  | .put _ k _ _ _ => k
  | _ => 0

def St.outs (s : St) (t : Nat) : Nat := s.msgSend t + sentNow (s.pc t)

def St.ins (s : St) (t : Nat) : Nat :=
  s.msgRecv t + hand (s.pc t) + (s.queue t).length + (s.buff t).length

def Act.thread : Act → Nat
  | .go t | .drain t | .events t _ | .send t _ | .cont t | .close t => t

def Act.target : Act → Nat
  | .send _ q => q
  | a => a.thread

theorem bal_step (hs : step c s a = some s') :
    a.thread < c.n ∧ a.target < c.n ∧ (∀ u, u ≠ a.thread → s'.outs u = s.outs u) ∧
    (∀ u, u ≠ a.target → s'.ins u = s.ins u) ∧
    s'.outs a.thread + s.ins a.target = s.outs a.thread + s'.ins a.target := by
  step_cases hs
  all_goals simp only [St.outs, St.ins, Act.thread, Act.target] at *
  all_goals grind [upd, sentNow, hand]

theorem tot_change {n t : Nat} {f g : Nat → Nat} (ht : t < n) (h : ∀ u, u ≠ t → f u = g u) :
    tot n f + g t = tot n g + f t := by
  have h1 : f t + ((Finset.range n).erase t).sum f = tot n f :=
    Finset.add_sum_erase (Finset.range n) f (Finset.mem_range.2 ht)
  have h2 : g t + ((Finset.range n).erase t).sum g = tot n g :=
    Finset.add_sum_erase (Finset.range n) g (Finset.mem_range.2 ht)
  have h3 : ((Finset.range n).erase t).sum f = ((Finset.range n).erase t).sum g :=
    Finset.sum_congr rfl fun u hu => h u (Finset.ne_of_mem_erase hu)
  omega

theorem balance_step (h : tot c.n s.outs = tot c.n s.ins) (hs : step c s a = some s') :
    tot c.n s'.outs = tot c.n s'.ins := by
  obtain ⟨h1, h2, h3, h4, h5⟩ := bal_step hs
  have e1 := tot_change h1 h3
  have e2 := tot_change h2 h4
  omega

end

end Verif.Term
