import Verif.Query

/-!
# Invariants of the query protocol
-/

namespace Verif.Query

/-- The thread is in its loop. -/
def normal : PC → Bool
  | .top | .body | .tops | .alg => true
  | _ => false

/-- The thread has obeyed the command and not seen `RESUME`. -/
def Stuck (c : Cfg) (s : St) (t : Nat) : Prop :=
  match c.mode with
  | .epoch => s.pc t = .parkEpoch ∧ s.epoch t = true ∧ s.blockTop t = false
  | .blockAll => s.pc t = .parkAll ∧ s.epoch t = false ∧ s.blockTop t = false
  | .blockTop => normal (s.pc t) = true ∧ s.epoch t = false ∧ s.blockTop t = true

/-- The thread has taken the command and not acknowledged it. -/
def Pending (c : Cfg) (s : St) (t : Nat) : Prop :=
  match c.mode with
  | .epoch => (normal (s.pc t) = true ∨ s.pc t = .ackEpoch) ∧ s.epoch t = true ∧ s.blockTop t = false
  | .blockAll => s.pc t = .ackAll ∧ s.epoch t = false ∧ s.blockTop t = false
  | .blockTop => s.pc t = .ackTop ∧ s.epoch t = false ∧ s.blockTop t = true

def Free (c : Cfg) (s : St) (t : Nat) : Prop :=
  s.resp t = false ∧
    ((s.cmd t = none ∧ (normal (s.pc t) = true ∨ s.pc t = .dead) ∧ s.epoch t = false ∧ s.blockTop t = false) ∨
     (s.cmd t = some .resume ∧ Stuck c s t))

def Told (c : Cfg) (s : St) (t : Nat) : Prop :=
  (s.resp t = false ∧ s.cmd t = some .ask ∧ normal (s.pc t) = true ∧ s.epoch t = false ∧ s.blockTop t = false) ∨
  (s.resp t = false ∧ s.cmd t = none ∧ Pending c s t) ∨
  (s.resp t = true ∧ s.cmd t = none ∧ Stuck c s t)

def Held (c : Cfg) (s : St) (t : Nat) : Prop := s.resp t = false ∧ s.cmd t = none ∧ Stuck c s t

/-- What thread `t` may be doing, by the place of `LogTimeSeries`. -/
def Role (c : Cfg) (s : St) (t : Nat) : Prop :=
  match s.ctl with
  | .idle => Free c s t
  | .send i => (t < i → Told c s t) ∧ (i ≤ t → Free c s t)
  | .await i => (t < i → Held c s t) ∧ (i ≤ t → Told c s t)
  | .view _ | .hand | .reset => Held c s t
  | .resume i => (t < i → Free c s t) ∧ (i ≤ t → Held c s t)

/-- A query is being answered and the termination state not yet reset. -/
def before : CPC → Bool
  | .send _ | .await _ | .view _ | .hand | .reset => true
  | _ => false

structure Base (c : Cfg) (s : St) : Prop where
  wait : s.waiting = decide (s.ctl ≠ .idle)
  open_ : s.waiting = true → s.closed = false
  done : s.closed = true → s.emitted = c.len
  struc : ∀ t, s.strucClosed t = true → s.closed = true ∧ s.queue t = [] ∧ s.blockTop t = false
  dead : ∀ t, s.pc t = .dead → s.closed = true

macro "query_cases" h:ident : tactic => `(tactic|
  (simp only [step, ctlStep, finishStep, pollStep] at $h:ident
   repeat' split at $h:ident
   all_goals (try (cases $h:ident; done))
   all_goals (try (simp only [Option.some.injEq] at $h:ident; subst $h:ident))))

theorem base_step {c : Cfg} {s s' : St} {x : Act} (hb : Base c s) (hr : ∀ t, t < c.T → Role c s t) (h : step c s x = some s') : Base c s' := by
  obtain ⟨h1, h2, h3, h4, h5⟩ := hb
  cases x
  all_goals query_cases h
  all_goals constructor
  all_goals grind [upd, Role, Free, Told, Held, Stuck, Pending, normal, checkTerm, votes]

/-- The part of the state that `Role` of thread `t` depends on. -/
theorem role_congr {c : Cfg} {s s' : St} {t : Nat} (h0 : s'.ctl = s.ctl) (h1 : s'.pc t = s.pc t) (h2 : s'.cmd t = s.cmd t)
    (h3 : s'.resp t = s.resp t) (h4 : s'.epoch t = s.epoch t) (h5 : s'.blockTop t = s.blockTop t) (h : Role c s t) : Role c s' t := by
  simp only [Role, Free, Told, Held, Stuck, Pending, h0, h1, h2, h3, h4, h5] at h ⊢
  exact h

/-- The three kinds of roles. -/
theorem role_kinds {c : Cfg} {s : St} {t : Nat} (h : Role c s t) : Free c s t ∨ Told c s t ∨ Held c s t := by
  simp only [Role] at h
  split at h
  · exact .inl h
  · rename_i i _
    rcases Nat.lt_or_ge t i with hi | hi
    · exact .inr (.inl (h.1 hi))
    · exact .inl (h.2 hi)
  · rename_i i _
    rcases Nat.lt_or_ge t i with hi | hi
    · exact .inr (.inr (h.1 hi))
    · exact .inr (.inl (h.2 hi))
  · exact .inr (.inr h)
  · exact .inr (.inr h)
  · exact .inr (.inr h)
  · rename_i i _
    rcases Nat.lt_or_ge t i with hi | hi
    · exact .inl (h.1 hi)
    · exact .inr (.inr (h.2 hi))

/-- A step of thread `t` keeps its kind. -/
theorem role_keep {c : Cfg} {s s' : St} {t : Nat} (h0 : s'.ctl = s.ctl) (h : Role c s t)
    (h1 : Free c s t → Free c s' t) (h2 : Told c s t → Told c s' t) (h3 : Held c s t → Held c s' t) : Role c s' t := by
  simp only [Role, h0] at h ⊢
  split at h
  · exact h1 h
  · exact ⟨fun hi => h2 (h.1 hi), fun hi => h1 (h.2 hi)⟩
  · exact ⟨fun hi => h3 (h.1 hi), fun hi => h2 (h.2 hi)⟩
  · exact h3 h
  · exact h3 h
  · exact h3 h
  · exact ⟨fun hi => h1 (h.1 hi), fun hi => h3 (h.2 hi)⟩

/-- Thread of an action. -/
def Act.thread : Act → Option Nat
  | .poll t | .ack t | .wake t | .remit t _ _ | .topology t _ _ | .miss t | .alg t _ _ | .complete t => some t
  | _ => none

theorem other_step {c : Cfg} {s s' : St} {x : Act} {u t : Nat} (hx : x.thread = some u) (hne : t ≠ u) (h : step c s x = some s') :
    s'.ctl = s.ctl ∧ s'.pc t = s.pc t ∧ s'.cmd t = s.cmd t ∧ s'.resp t = s.resp t ∧ s'.epoch t = s.epoch t ∧ s'.blockTop t = s.blockTop t := by
  cases x <;> simp only [Act.thread, Option.some.injEq, reduceCtorEq] at hx <;> subst hx
  all_goals query_cases h
  all_goals simp [upd, hne]

theorem own_free {c : Cfg} {s s' : St} {x : Act} {t : Nat} (hb : Base c s) (hx : x.thread = some t) (h : step c s x = some s')
    (hf : Free c s t) : Free c s' t := by
  have h4 := hb.struc t
  cases x <;> simp only [Act.thread, Option.some.injEq, reduceCtorEq] at hx <;> subst hx
  all_goals query_cases h
  all_goals simp only [Free, Stuck] at hf ⊢
  all_goals cases hm : c.mode <;> simp only [hm] at hf ⊢
  all_goals grind [upd, normal, checkTerm, votes]

theorem own_told {c : Cfg} {s s' : St} {x : Act} {t : Nat} (hb : Base c s) (hx : x.thread = some t) (h : step c s x = some s')
    (hw : s.closed = false) (hf : Told c s t) : Told c s' t := by
  have h4 := hb.struc t
  cases x <;> simp only [Act.thread, Option.some.injEq, reduceCtorEq] at hx <;> subst hx
  all_goals query_cases h
  all_goals simp only [Told, Stuck, Pending] at hf ⊢
  all_goals cases hm : c.mode <;> simp only [hm] at hf ⊢
  all_goals grind [upd, normal, checkTerm, votes]

theorem own_held {c : Cfg} {s s' : St} {x : Act} {t : Nat} (hb : Base c s) (hx : x.thread = some t) (h : step c s x = some s')
    (hf : Held c s t) : Held c s' t := by
  have h4 := hb.struc t
  cases x <;> simp only [Act.thread, Option.some.injEq, reduceCtorEq] at hx <;> subst hx
  all_goals query_cases h
  all_goals simp only [Held, Stuck] at hf ⊢
  all_goals cases hm : c.mode <;> simp only [hm] at hf ⊢
  all_goals grind [upd, normal, checkTerm, votes]

theorem role_step {c : Cfg} {s s' : St} {x : Act} (hb : Base c s) (hr : ∀ t, t < c.T → Role c s t) (h : step c s x = some s') :
    ∀ t, t < c.T → Role c s' t := by
  intro t ht
  have hrt := hr t ht
  cases hx : x.thread with
  | some u =>
    by_cases hu : t = u
    · subst hu
      have hc : s'.ctl = s.ctl := by
        cases x <;> simp only [Act.thread, Option.some.injEq, reduceCtorEq] at hx
        all_goals query_cases h
        all_goals rfl
      by_cases hw : s.ctl = .idle
      · simp only [Role, hc, hw] at hrt ⊢
        exact own_free hb hx h hrt
      · have h1 := hb.wait
        have h2 := hb.open_
        simp only [ne_eq, hw, not_false_eq_true, decide_true] at h1
        exact role_keep hc hrt (own_free hb hx h) (own_told hb hx h (h2 h1)) (own_held hb hx h)
    · obtain ⟨h0, h1, h2, h3, h4, h5⟩ := other_step hx hu h
      exact role_congr h0 h1 h2 h3 h4 h5 hrt
  | none =>
    obtain ⟨h1, h2, h3, h4, h5⟩ := hb
    have h5 := h5 t
    cases x <;> simp only [Act.thread, reduceCtorEq] at hx
    all_goals query_cases h
    all_goals try exact role_congr rfl rfl rfl rfl rfl rfl hrt
    all_goals simp only [Role, Free, Told, Held, Stuck, Pending] at hrt ⊢
    case none.query.isTrue hg =>
      simp only [hg.2.2.2] at hrt
      exact ⟨fun hi => absurd hi (Nat.not_lt_zero _), fun _ => hrt⟩
    all_goals simp only [*] at hrt ⊢
    all_goals cases hm : c.mode <;> simp only [hm] at hrt ⊢
    all_goals grind (splits := 30) [upd, normal]

/-! ## Where the events are -/

/-- The events of thread `t` among the first `n`. -/
def share (c : Cfg) (t n : Nat) : List Nat := (List.range n).filter fun i => c.own i == t

theorem share_succ (c : Cfg) (t n : Nat) : share c t (n + 1) = share c t n ++ (if c.own n = t then [n] else []) := by
  simp only [share, List.range_succ, List.filter_append, List.filter_cons, List.filter_nil]
  by_cases h : c.own n = t <;> simp [h]

/-- Everything emitted is in a queue or in the graph. -/
def Kept (c : Cfg) (s : St) : Prop := ∀ t, s.applied t ++ s.queue t = share c t s.emitted

theorem kept_step {c : Cfg} {s s' : St} {x : Act} (hk : Kept c s) (h : step c s x = some s') : Kept c s' := by
  intro t
  have hkt := hk t
  cases x
  all_goals query_cases h
  all_goals try exact hkt
  case emit =>
    rw [share_succ, ← hkt]
    by_cases ht : c.own s.emitted = t
    · subst ht; simp
    · simp [upd, ht, Ne.symm ht]
  case topology u k out hg hh hk0 hkl =>
    by_cases hu : t = u
    · subst hu; simp only [upd_same, List.append_assoc, List.take_append_drop, hkt]
    · simp [upd, hu, hkt]

/-! ## Termination of an epoch -/

structure Conv (c : Cfg) (s : St) : Prop where
  /-- A thread that has made its check. -/
  ready : ∀ t, t < c.T → s.ready t = true → s.queue t = [] ∧ (s.closed = true ∨ (before s.ctl = true ∧ s.epoch t = true ∧ s.cmd t = none))
  quiet : s.quiet = true → ∀ t, t < c.T → s.ready t = true ∧ s.notes t = 0
  found : ∀ t, t < c.T → before s.ctl = true → s.cmd t = none → (s.pc t = .ackEpoch ∨ s.pc t = .parkEpoch) → s.quiet = true

/-- What is known of a thread in an epoch. -/
structure InEpoch (c : Cfg) (s : St) (t : Nat) : Prop where
  alg : normal (s.pc t) = true → s.epoch t = true → before s.ctl = true ∧ s.cmd t = none ∧ s.blockTop t = false
  ack : s.pc t = .ackEpoch → s.epoch t = true ∧ before s.ctl = true ∧ s.cmd t = none ∧ s.blockTop t = false
  park : s.pc t = .parkEpoch → s.epoch t = true ∧ s.cmd t ≠ some .ask ∧ s.blockTop t = false
  only : s.epoch t = true → normal (s.pc t) = true ∨ s.pc t = .ackEpoch ∨ s.pc t = .parkEpoch
  resume : s.cmd t = some .resume → s.epoch t = true → s.pc t = .parkEpoch
  held : s.resp t = true → s.epoch t = true → s.pc t = .parkEpoch

theorem inEpoch {c : Cfg} {s : St} {t : Nat} (hr : Role c s t) : InEpoch c s t := by
  have : Free c s t ∨ (before s.ctl = true ∧ Told c s t) ∨ Held c s t := by
    simp only [Role] at hr
    split at hr
    · exact .inl hr
    · rename_i i hk
      rw [hk]
      rcases Nat.lt_or_ge t i with hi | hi
      · exact .inr (.inl ⟨rfl, hr.1 hi⟩)
      · exact .inl (hr.2 hi)
    · rename_i i hk
      rw [hk]
      rcases Nat.lt_or_ge t i with hi | hi
      · exact .inr (.inr (hr.1 hi))
      · exact .inr (.inl ⟨rfl, hr.2 hi⟩)
    · exact .inr (.inr hr)
    · exact .inr (.inr hr)
    · exact .inr (.inr hr)
    · rename_i i _
      rcases Nat.lt_or_ge t i with hi | hi
      · exact .inl (hr.1 hi)
      · exact .inr (.inr (hr.2 hi))
  simp only [Free, Told, Held, Stuck, Pending] at this
  cases hm : c.mode <;> simp only [hm] at this <;> constructor <;> grind [normal]

theorem before_wait {c : Cfg} {s : St} (hb : Base c s) (h : before s.ctl = true) : s.waiting = true ∧ s.closed = false := by
  have h1 : s.waiting = true := by
    rw [hb.wait]
    cases hk : s.ctl <;> simp [hk, before] at h ⊢
  exact ⟨h1, hb.open_ h1⟩

theorem ready_step {c : Cfg} {s s' : St} {x : Act} (hb : Base c s) (hr : ∀ t, t < c.T → Role c s t) (hv : Conv c s)
    (h : step c s x = some s') :
    ∀ t, t < c.T → s'.ready t = true → s'.queue t = [] ∧ (s'.closed = true ∨ (before s'.ctl = true ∧ s'.epoch t = true ∧ s'.cmd t = none)) := by
  intro t ht
  obtain ⟨i1, i2, i3, i4, i5, i6⟩ := inEpoch (hr t ht)
  have hw := before_wait hb
  have h2 := hb.struc t
  have h3 := hv.ready t ht
  have h4 := hb.done
  have h5 := hb.open_
  have h6 := hb.wait
  have h7 : ∀ i, s.ctl = .send i → i ≤ t → s.cmd t = none → s.epoch t = false := by
    intro i hk hi hn
    have := hr t ht
    simp only [Role, hk] at this
    have := this.2 hi
    simp only [Free, hn] at this
    grind
  cases x
  all_goals query_cases h
  all_goals grind [upd, normal, checkTerm, votes, before]

theorem quiet_step {c : Cfg} {s s' : St} {x : Act} (hb : Base c s) (hr : ∀ t, t < c.T → Role c s t) (hv : Conv c s)
    (h : step c s x = some s') : s'.quiet = true → ∀ t, t < c.T → s'.ready t = true ∧ s'.notes t = 0 := by
  intro hq t ht
  have h3 := hv.ready
  have h4 := hv.quiet
  cases x
  all_goals query_cases h
  all_goals grind [upd]

theorem found_step {c : Cfg} {s s' : St} {x : Act} (hb : Base c s) (hr : ∀ t, t < c.T → Role c s t) (hv : Conv c s)
    (h : step c s x = some s') :
    ∀ t, t < c.T → before s'.ctl = true → s'.cmd t = none → (s'.pc t = .ackEpoch ∨ s'.pc t = .parkEpoch) → s'.quiet = true := by
  intro t ht
  obtain ⟨i1, i2, i3, i4, i5, i6⟩ := inEpoch (hr t ht)
  have hrt := hr t ht
  have hw := before_wait hb
  have h3 := hv.found t ht
  cases x
  all_goals query_cases h
  all_goals grind [upd, normal, before, Role, Free]

end Verif.Query
