import Verif.TerminateInv3

/-! Progress of the termination protocol: once nothing is in flight, six passes of every thread
through its loop suffice.  Each pass establishes one further fact about every thread, which from
then on stays true (`Rep`, `Seen`, `Voted`, `Second`, `Third`, and `done`). -/

namespace Verif.Term

section
variable {c : Cfg} {s s' : St} {a : Act} {V : Nat}

/-- How far the thread is in its check (20: before or after it). -/
def stage : PC → Nat
  | .pullB _ | .pullQ _ | .drain _ | .polled _ | .recvd _ | .report => 1
  | .sum .. => 2
  | .cmp .. => 3
  | .views .. => 4
  | .begin => 5
  | .zeros .. => 6
  | .two => 7
  | .ready .. => 8
  | .three => 9
  | .all .. => 10
  | .done => 11
  | _ => 20

/-- The partial results held by the thread are those for `V` actions. -/
def okAcc (c : Cfg) (s : St) (V : Nat) : PC → Prop
  | .sum i acc => i ≤ c.n ∧ acc = tot i s.data
  | .cmp acc | .views _ acc => acc = V
  | _ => True

/-- What is assumed throughout: nothing is in flight, and the invariants hold. -/
structure Base (c : Cfg) (V : Nat) (s : St) : Prop where
  still : Still c s
  tot : tot c.n s.acts = V
  fall : ∀ t i, t < c.n → s.pc t = .fall i → i < c.n
  low : ∀ t x, s.pc t = .lower x → x ≠ 0
  inv : Inv c s

theorem Base.fin (h : Base c V s) (t : Nat) (ht : t < c.n) (hp : s.pc t = .done) :
    s.data t = s.acts t ∧ s.view t = V ∧ s.votes t = 3 := by
  obtain ⟨_, h2, h3⟩ := h.inv.l4.fin t ht hp
  exact ⟨h3 t ht, by rw [← h2]; exact h.tot, h.inv.l4.three t 0 (Or.inr hp)⟩

/-- The thread has reported all its actions. -/
def Rep (s : St) (t : Nat) : Prop := s.data t = s.acts t
/-- The thread has the final view. -/
def Seen (c : Cfg) (V : Nat) (s : St) (t : Nat) : Prop := s.view t = V ∧ okAcc c s V (s.pc t)
/-- The thread has voted and will not take its vote back. -/
def Voted (s : St) (t : Nat) : Prop := s.votes t ≠ 0 ∧ ∀ b, s.pc t ≠ .reset b
/-- The vote is at least 2 and will stay so. -/
def Second (s : St) (t : Nat) : Prop := 2 ≤ s.votes t ∧ ∀ x, x < 2 → s.pc t ≠ .lower x
/-- The vote is 3 and will stay so. -/
def Third (s : St) (t : Nat) : Prop :=
  s.votes t = 3 ∧ (∀ x, s.pc t ≠ .lower x) ∧ ∀ i, s.pc t ≠ .fall i

/-- Begun in this pass and not yet past stage `k`, or already achieved. -/
def Try (k : Nat) (s : St) (t : Nat) (p : Prop) : Prop := stage (s.pc t) ≤ k ∨ p

theorem data_const (hb : Base c V s) (h : ∀ t, t < c.n → Rep s t) (hs : step c s a = some s') :
    ∀ t, t < c.n → s'.data t = s.data t := by
  unfold Rep at h
  have := hb.still
  unfold Still at this
  clear hb
  step_cases hs
  all_goals simp only [St.acts] at *
  all_goals grind [upd, busy]

theorem tot_congr {n : Nat} {f g : Nat → Nat} (h : ∀ u, u < n → f u = g u) : tot n f = tot n g :=
  Finset.sum_congr rfl fun u hu => h u (Finset.mem_range.1 hu)

theorem base_step (hm : 0 < c.max) (h : Base c V s) (hf : Fresh s a) (hs : step c s a = some s') :
    Base c V s' := by
  have ha := still_acts h.still hs
  refine ⟨still_step h.still hs, ?_, ?_, ?_, inv_step hm h.inv hf hs⟩
  · rw [tot_congr ha]; exact h.tot
  · have h1 := h.fall
    clear h ha; step_cases hs
    all_goals grind [upd]
  · have h1 := h.low
    clear h ha; step_cases hs
    all_goals grind [upd]

/-! Stability and attempts, phase by phase. -/

theorem rep_step (h : Base c V s) (t : Nat) (ht : t < c.n) (hr : Rep s t)
    (hs : step c s a = some s') : Rep s' t := by
  have := h.still
  unfold Still Rep at *
  clear h
  step_cases hs
  all_goals simp only [St.acts] at *
  all_goals grind [upd, busy]

theorem rep_try (h : Base c V s) (t : Nat) (ht : t < c.n) (hr : Try 1 s t (Rep s t))
    (hs : step c s a = some s') : Try 1 s' t (Rep s' t) := by
  rcases hr with hr | hr
  · have := h.still
    unfold Still Rep Try at *
    clear h
    step_cases hs
    all_goals simp only [St.acts] at *
    all_goals grind [upd, busy, stage]
  · exact Or.inr (rep_step h t ht hr hs)

theorem okAcc_step (h : Base c V s) (hr : ∀ u, u < c.n → Rep s u) (t : Nat) 
    (ho : okAcc c s V (s.pc t)) (hs : step c s a = some s') : okAcc c s' V (s'.pc t) := by
  have hd : tot c.n s.data = V := by rw [← h.tot]; exact tot_congr hr
  have hc : ∀ i, i ≤ c.n → tot i s'.data = tot i s.data := fun i hi =>
    tot_congr fun u hu => data_const h hr hs u (by omega)
  have hz : ∀ i, tot (i + 1) s.data = tot i s.data + s.data i := fun i => tot_succ i s.data
  have h0 : ∀ f, tot 0 f = 0 := fun f => rfl
  clear h hr
  unfold okAcc at *
  step_cases hs
  all_goals grind [upd]

theorem view_step (t : Nat) (hv : s.view t = V) (ho : okAcc c s V (s.pc t))
    (hs : step c s a = some s') : s'.view t = V := by
  unfold okAcc at *
  step_cases hs
  all_goals grind [upd]

theorem seen_step (h : Base c V s) (hr : ∀ u, u < c.n → Rep s u) (t : Nat)
    (ho : Seen c V s t) (hs : step c s a = some s') : Seen c V s' t :=
  ⟨view_step t ho.1 ho.2 hs, okAcc_step h hr t ho.2 hs⟩

theorem seen_try (h : Base c V s) (hr : ∀ u, u < c.n → Rep s u) (t : Nat) (ht : t < c.n)
    (ho : okAcc c s V (s.pc t) ∧ Try 3 s t (Seen c V s t)) (hs : step c s a = some s') :
    okAcc c s' V (s'.pc t) ∧ Try 3 s' t (Seen c V s' t) := by
  have ha := okAcc_step h hr t ho.1 hs
  refine ⟨ha, ?_⟩
  rcases ho.2 with h1 | h1
  · have hst := h.still
    unfold Seen Try
    simp only [ha, and_true]
    have ho := ho.1
    unfold Still okAcc at *
    clear h ha hr
    step_cases hs
    all_goals grind [upd, busy, stage]
  · exact Or.inr (seen_step h hr t h1 hs)

/-- All views are final. -/
def AllSeen (c : Cfg) (V : Nat) (s : St) : Prop :=
  Base c V s ∧ (∀ u, u < c.n → Rep s u) ∧ ∀ u, u < c.n → Seen c V s u

theorem AllSeen.view (h : AllSeen c V s) : ∀ u, u < c.n → s.view u = V :=
  fun u hu => (h.2.2 u hu).1

theorem AllSeen.cmp (h : AllSeen c V s) : ∀ u acc, u < c.n → s.pc u = .cmp acc → acc = V := by
  intro u acc hu hp
  have := (h.2.2 u hu).2
  rw [hp] at this; exact this

theorem AllSeen.views (h : AllSeen c V s) : ∀ u i acc, u < c.n → s.pc u = .views i acc → acc = V := by
  intro u i acc hu hp
  have := (h.2.2 u hu).2
  rw [hp] at this; exact this

theorem voted_step (h : AllSeen c V s) (t : Nat) (ht : t < c.n) (hv : Voted s t)
    (hs : step c s a = some s') : Voted s' t := by
  have g1 := h.view; have g2 := h.cmp; have g3 := h.views; have g4 := h.1.low
  clear h
  unfold Voted at *
  step_cases hs
  all_goals grind [upd]

theorem voted_try (h : AllSeen c V s) (t : Nat) (ht : t < c.n) (hv : Try 5 s t (Voted s t))
    (hs : step c s a = some s') : Try 5 s' t (Voted s' t) := by
  rcases hv with hv | hv
  · have g1 := h.view; have g2 := h.cmp; have g3 := h.views; have hst := h.1.still
    clear h
    unfold Still Voted Try at *
    step_cases hs
    all_goals grind [upd, busy, stage]
  · exact Or.inr (voted_step h t ht hv hs)

theorem second_step (h : AllSeen c V s) (h3 : ∀ u, u < c.n → Voted s u) (t : Nat) (ht : t < c.n)
    (hv : Second s t) (hs : step c s a = some s') : Second s' t := by
  have g1 := h.view; have g2 := h.cmp; have g3 := h.views; have hf := h.1.fall
  clear h
  unfold Voted Second at *
  step_cases hs
  all_goals grind [upd]

theorem second_try (h : AllSeen c V s) (h3 : ∀ u, u < c.n → Voted s u) (t : Nat) (ht : t < c.n)
    (hv : Try 7 s t (Second s t)) (hs : step c s a = some s') : Try 7 s' t (Second s' t) := by
  rcases hv with hv | hv
  · have g1 := h.view; have g2 := h.cmp; have g3 := h.views; have hst := h.1.still
    clear h
    unfold Still Voted Second Try at *
    step_cases hs
    all_goals grind [upd, busy, stage]
  · exact Or.inr (second_step h h3 t ht hv hs)

theorem third_step (h : AllSeen c V s) (h3 : ∀ u, u < c.n → Voted s u)
    (h4 : ∀ u, u < c.n → Second s u) (t : Nat) (ht : t < c.n)
    (hv : Third s t) (hs : step c s a = some s') : Third s' t := by
  have g1 := h.view; have g2 := h.cmp; have g3 := h.views
  clear h
  unfold Voted Second Third at *
  step_cases hs
  all_goals grind [upd]

theorem third_try (h : AllSeen c V s) (h3 : ∀ u, u < c.n → Voted s u)
    (h4 : ∀ u, u < c.n → Second s u) (t : Nat) (ht : t < c.n)
    (hv : Try 9 s t (Third s t)) (hs : step c s a = some s') : Try 9 s' t (Third s' t) := by
  rcases hv with hv | hv
  · have g1 := h.view; have g2 := h.cmp; have g3 := h.views; have hst := h.1.still
    clear h
    unfold Still Voted Second Third Try at *
    step_cases hs
    all_goals grind [upd, busy, stage]
  · exact Or.inr (third_step h h3 h4 t ht hv hs)

theorem done_step (t : Nat) (hv : s.pc t = .done) (hs : step c s a = some s') : s'.pc t = .done := by
  step_cases hs
  all_goals grind [upd]

theorem done_try (h : AllSeen c V s) (h3 : ∀ u, u < c.n → Voted s u)
    (h4 : ∀ u, u < c.n → Second s u) (h5 : ∀ u, u < c.n → Third s u) (t : Nat) (ht : t < c.n)
    (hv : Try 10 s t (s.pc t = .done)) (hs : step c s a = some s') :
    Try 10 s' t (s'.pc t = .done) := by
  rcases hv with hv | hv
  · have g1 := h.view; have g2 := h.cmp; have g3 := h.views; have hst := h.1.still
    clear h
    unfold Still Voted Second Third Try at *
    step_cases hs
    all_goals grind [upd, busy, stage]
  · exact Or.inr (done_step t hv hs)

end

end Verif.Term
