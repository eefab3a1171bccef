import Verif.QueryInv
import Mathlib.Data.List.Induction

/-!
# Queries (C42, C59)

Statements about `Verif/Query.lean`, for every number of threads, every stream and every interleaving.
-/

namespace Verif.Query

/-! ## The protocol -/

structure Inv (c : Cfg) (s : St) : Prop where
  base : Base c s
  role : ∀ t, t < c.T → Role c s t
  kept : Kept c s
  conv : Conv c s

theorem inv_start (c : Cfg) : Inv c start := by
  refine ⟨⟨rfl, by simp [start], by simp [start], by simp [start], by simp [start]⟩, fun t _ => ?_, fun t => ?_, ?_⟩
  · exact ⟨rfl, .inl ⟨rfl, .inl rfl, rfl, rfl⟩⟩
  · simp [start, share]
  · constructor <;> simp [start]

theorem inv_step {c : Cfg} {s s' : St} {x : Act} (hi : Inv c s) (h : step c s x = some s') : Inv c s' :=
  ⟨base_step hi.base hi.role h, role_step hi.base hi.role h, kept_step hi.kept h,
    ready_step hi.base hi.role hi.conv h, quiet_step hi.base hi.role hi.conv h,
    found_step hi.base hi.role hi.conv h⟩

theorem run_snoc (c : Cfg) (xs : List Act) (x : Act) : ∀ s, run c s (xs ++ [x]) = (run c s xs).bind fun s' => step c s' x := by
  induction xs with
  | nil => intro s; simp only [List.nil_append, run, Option.bind_some]; cases step c s x <;> rfl
  | cons y ys ih =>
    intro s
    simp only [List.cons_append, run]
    cases step c s y with
    | none => rfl
    | some s' => exact ih s'

theorem inv_run {c : Cfg} (xs : List Act) : ∀ s, Inv c s → ∀ s', run c s xs = some s' → Inv c s' := by
  induction xs with
  | nil => intro s hi s' h; simp only [run, Option.some.injEq] at h; exact h ▸ hi
  | cons x xs ih =>
    intro s hi s' h
    simp only [run] at h
    cases hs : step c s x with
    | none => rw [hs] at h; cases h
    | some s1 => rw [hs] at h; exact ih s1 (inv_step hi hs) s' h

theorem inv_of {c : Cfg} {xs : List Act} {s : St} (h : run c start xs = some s) : Inv c s := inv_run xs _ (inv_start c) _ h

/-- `LogTimeSeries` has all acknowledgements and has not begun to send `RESUME`. -/
def Asked (s : St) : Prop := (∃ i, s.ctl = .view i) ∨ s.ctl = .hand ∨ s.ctl = .reset

theorem asked_held {c : Cfg} {s : St} (hr : ∀ t, t < c.T → Role c s t) (ha : Asked s) : ∀ t, t < c.T → Held c s t := by
  intro t ht
  have := hr t ht
  rcases ha with ⟨i, h⟩ | h | h <;> simpa only [Role, h] using this

theorem thread_lt {c : Cfg} {s s' : St} {x : Act} {t : Nat} (hx : x.thread = some t) (h : step c s x = some s') : t < c.T := by
  cases x <;> simp only [Act.thread, Option.some.injEq, reduceCtorEq] at hx <;> subst hx
  all_goals query_cases h
  all_goals grind

theorem held_stops {c : Cfg} {s s' : St} {x : Act} {t : Nat} (hx : x.thread = some t) (hh : Held c s t)
    (h : step c s x = some s') : c.mode = .blockTop ∧ s'.applied = s.applied ∧ s'.queue = s.queue ∧ s'.remits = s.remits ∧
      s'.remitClosed = s.remitClosed := by
  cases x <;> simp only [Act.thread, Option.some.injEq, reduceCtorEq] at hx <;> subst hx
  all_goals query_cases h
  all_goals simp only [Held, Stuck] at hh
  all_goals cases hm : c.mode <;> simp only [hm] at hh
  all_goals grind [normal]

/-- **C42**, `EPOCH` and `BLOCK_ALL`: once all acknowledgements have arrived, no thread can do anything until
`RESUME` is sent. -/
theorem C42_stopped {c : Cfg} {xs : List Act} {s : St} (h : run c start xs = some s) (ha : Asked s) (hm : c.mode ≠ .blockTop)
    (x : Act) (t : Nat) (hx : x.thread = some t) : step c s x = none := by
  cases hs : step c s x with
  | none => rfl
  | some s' => exact absurd (held_stops hx (asked_held (inv_of h).role ha t (thread_lt hx hs)) hs).1 hm

/-- **C42**, all commands: once all acknowledgements have arrived, no thread changes the topology (its out-edges
or, by remitting, its in-edges and vertices) until `RESUME` is sent. -/
theorem C42_topology {c : Cfg} {xs : List Act} {s s' : St} (h : run c start xs = some s) (ha : Asked s) (x : Act) (t : Nat)
    (hx : x.thread = some t) (hs : step c s x = some s') : s'.applied = s.applied ∧ s'.remits = s.remits :=
  have := held_stops hx (asked_held (inv_of h).role ha t (thread_lt hx hs)) hs
  ⟨this.2.1, this.2.2.2.1⟩

/-- **C42**: at that point every thread has taken the command, and no other command or acknowledgement is on its
way; the remitter is waiting. -/
theorem C42_channels {c : Cfg} {xs : List Act} {s : St} (h : run c start xs = some s) (ha : Asked s) :
    s.waiting = true ∧ ∀ t, t < c.T → s.cmd t = none ∧ s.resp t = false ∧
      (c.mode = .epoch → s.epoch t = true) ∧ (c.mode = .blockTop → s.blockTop t = true) := by
  have hi := inv_of h
  refine ⟨?_, fun t ht => ?_⟩
  · rw [hi.base.wait]
    rcases ha with ⟨i, h⟩ | h | h <;> simp [h]
  · have hh := asked_held hi.role ha t ht
    simp only [Held, Stuck] at hh
    refine ⟨hh.2.1, hh.1, fun hm => ?_, fun hm => ?_⟩ <;> simp only [hm] at hh
    · exact hh.2.2.2.1
    · exact hh.2.2.2.2

/-- **C42**: no thread ever finds another command than `RESUME` where it waits for it, nor terminates while its
topology is blocked. -/
theorem C42_no_panic {c : Cfg} {xs : List Act} {s : St} (h : run c start xs = some s) (t : Nat) (ht : t < c.T) : s.pc t ≠ .panic := by
  have := role_kinds ((inv_of h).role t ht)
  simp only [Free, Told, Held, Stuck, Pending] at this
  cases hm : c.mode <;> simp only [hm] at this <;> grind [normal]

/-! ## What a query sees -/

/-- What has been read so far is still so. -/
def View (c : Cfg) (s : St) : Prop :=
  (∀ i, s.ctl = .view i → ∀ t, t < i → t < c.T → (s.part t).1 = s.applied t ∧ s.buf s.cur t = (s.applied t).length ∧
    (c.mode ≠ .blockTop → (s.part t).2 = s.prop t)) ∧
  (s.ctl = .hand → ∀ t, t < c.T → s.buf s.cur t = (s.applied t).length)

theorem view_step {c : Cfg} {s s' : St} {x : Act} (hi : Inv c s) (hv : View c s) (h : step c s x = some s') : View c s' := by
  have hw := hi.base.wait
  cases hx : x.thread with
  | some u =>
    have hc : s'.ctl = s.ctl ∧ s'.part = s.part ∧ s'.buf = s.buf ∧ s'.cur = s.cur := by
      cases x <;> simp only [Act.thread, Option.some.injEq, reduceCtorEq] at hx
      all_goals query_cases h
      all_goals exact ⟨rfl, rfl, rfl, rfl⟩
    obtain ⟨h1, h2, h3, h4⟩ := hc
    simp only [View, h1, h2, h3, h4]
    refine ⟨fun i hk t hti ht => ?_, fun hk t ht => ?_⟩
    · have hh := held_stops hx (asked_held hi.role (.inl ⟨i, hk⟩) u (thread_lt hx h)) h
      obtain ⟨g1, g2, g3⟩ := hv.1 i hk t hti ht
      rw [hh.2.1]
      exact ⟨g1, g2, fun hm => absurd hh.1 hm⟩
    · have hh := held_stops hx (asked_held hi.role (.inr (.inl hk)) u (thread_lt hx h)) h
      rw [hh.2.1]
      exact hv.2 hk t ht
  | none =>
    obtain ⟨v1, v2⟩ := hv
    cases x <;> simp only [Act.thread, reduceCtorEq] at hx
    all_goals query_cases h
    all_goals try have v3 := v1 _ (by assumption)
    all_goals constructor
    all_goals try simp only [upd_same]
    all_goals grind [upd]

/-- A result describes the state `s`. -/
def Describes (c : Cfg) (s : St) (r : Result) : Prop :=
  r.asked = s.emitted ∧ ∀ t, t < c.T → r.evs t = s.applied t ∧ r.prop t = s.prop t

/-- The graph is that of the events before the query, and the algorithm has converged on it. -/
def Converged (c : Cfg) (s : St) : Prop :=
  (∀ t, t < c.T → s.applied t = share c t s.emitted ∧ s.notes t = 0)

theorem converged {c : Cfg} {s : St} (hi : Inv c s) (hm : c.mode = .epoch) (ha : Asked s) : Converged c s := by
  have hbef : before s.ctl = true := by rcases ha with ⟨i, h⟩ | h | h <;> simp [h, before]
  intro t ht
  have hh := asked_held hi.role ha t ht
  simp only [Held, Stuck, hm] at hh
  have hq := hi.conv.found t ht hbef hh.2.1 (.inr hh.2.2.1)
  obtain ⟨h1, h2⟩ := hi.conv.quiet hq t ht
  have h3 := (hi.conv.ready t ht h1).1
  have h4 := hi.kept t
  rw [h3, List.append_nil] at h4
  exact ⟨h4, h2⟩

/-- **C59.** With `EPOCH`, what a query reports is the state of the graph and the properties at one moment, at
which the graph consists of exactly the events before the query and the algorithm has converged. -/
def C59Statement : Prop :=
  ∀ (c : Cfg), c.mode = .epoch → ∀ (xs : List Act) (s : St), run c start xs = some s → ∀ r ∈ s.log,
    ∃ ys zs s', xs = ys ++ zs ∧ run c start ys = some s' ∧ Describes c s' r ∧ Converged c s'

theorem inv_view {c : Cfg} (xs : List Act) : ∀ s, run c start xs = some s → View c s := by
  induction xs using List.reverseRecOn with
  | nil => intro s h; simp only [run, Option.some.injEq] at h; subst h; constructor <;> simp [start]
  | append_singleton xs x ih =>
    intro s h
    rw [run_snoc] at h
    cases hr : run c start xs with
    | none => rw [hr] at h; cases h
    | some s1 =>
      rw [hr] at h
      exact view_step (inv_of hr) (ih s1 hr) h

theorem log_step {c : Cfg} {s s' : St} {x : Act} (h : step c s x = some s') :
    s'.log = s.log ∨
    (∃ i, c.T ≤ i ∧ s.ctl = .view i ∧ c.mustFinish = false ∧
      s'.log = s.log ++ [⟨s.emitted, fun t => (s.part t).1, fun t => (s.part t).2, s.buf s.cur⟩]) ∨
    (∃ i b q, c.T ≤ i ∧ s.fin = some (i, b, q) ∧
      s'.log = s.log ++ [⟨q, fun t => (s.fpart t).1, fun t => (s.fpart t).2, s.buf b⟩]) := by
  cases x
  all_goals query_cases h
  all_goals try exact .inl rfl
  case h_4.isFalse.isFalse a hk h1 h2 => exact .inr (.inl ⟨a, by omega, hk, by simpa using h2, rfl⟩)
  case h_2.isFalse i b q hk h1 => exact .inr (.inr ⟨i, b, q, by omega, hk, rfl⟩)

/-- The buffer that is being finished is not the current one and holds the counters of its query. -/
def Finishing (c : Cfg) (s : St) : Prop :=
  ∀ i b q, s.fin = some (i, b, q) → c.mustFinish = true ∧ b = !s.cur ∧
    (c.mode = .epoch → ∀ t, t < c.T → s.buf b t = (share c t q).length)

theorem finishing_step {c : Cfg} {s s' : St} {x : Act} (hi : Inv c s) (hv : View c s) (hf : Finishing c s)
    (hh : s.ctl = .hand → c.mustFinish = true) (h : step c s x = some s') : Finishing c s' := by
  have hc := fun hm hk => converged (c := c) (s := s) hi hm (.inr (.inl hk))
  have hv2 := hv.2
  cases x
  all_goals query_cases h
  all_goals try exact hf
  all_goals simp only [Finishing, Converged] at hf hc ⊢
  all_goals intro i b q hq
  all_goals try have g := hf i b q hq
  all_goals try (rw [upd_ne _ _ (by rw [g.2.1]; simp)]; exact g)
  all_goals grind

theorem hand_step {c : Cfg} {s s' : St} {x : Act} (hh : s.ctl = .hand → c.mustFinish = true) (h : step c s x = some s') :
    s'.ctl = .hand → c.mustFinish = true := by
  cases x
  all_goals query_cases h
  all_goals grind

theorem finishing_run {c : Cfg} (xs : List Act) : ∀ s, run c start xs = some s → Finishing c s ∧ (s.ctl = .hand → c.mustFinish = true) := by
  induction xs using List.reverseRecOn with
  | nil => intro s h; simp only [run, Option.some.injEq] at h; subst h; constructor <;> simp [start, Finishing]
  | append_singleton xs x ih =>
    intro s h
    rw [run_snoc] at h
    cases hr : run c start xs with
    | none => rw [hr] at h; cases h
    | some s1 =>
      rw [hr] at h
      have := ih s1 hr
      exact ⟨finishing_step (inv_of hr) (inv_view _ _ hr) this.1 this.2 h, hand_step this.2 h⟩

/-- Without `OnFinish`, every result describes a moment at which all threads had acknowledged. -/
theorem described {c : Cfg} (hf : c.mustFinish = false) (hm : c.mode ≠ .blockTop) (xs : List Act) : ∀ s, run c start xs = some s →
    ∀ r ∈ s.log, ∃ ys zs s', xs = ys ++ zs ∧ run c start ys = some s' ∧ Describes c s' r ∧ Asked s' := by
  induction xs using List.reverseRecOn with
  | nil => intro s h; simp only [run, Option.some.injEq] at h; subst h; simp [start]
  | append_singleton xs x ih =>
    intro s h r hrm
    rw [run_snoc] at h
    cases hr : run c start xs with
    | none => rw [hr] at h; cases h
    | some s1 =>
      rw [hr] at h
      have hold : r ∈ s1.log → ∃ ys zs s', xs ++ [x] = ys ++ zs ∧ run c start ys = some s' ∧ Describes c s' r ∧ Asked s' := by
        intro hr1
        obtain ⟨ys, zs, s', h1, h2⟩ := ih s1 hr r hr1
        exact ⟨ys, zs ++ [x], s', by rw [h1, List.append_assoc], h2⟩
      rcases log_step h with hl | ⟨i, hi, hk, _, hl⟩ | ⟨i, b, q, hi, hk, hl⟩
      · exact hold (hl ▸ hrm)
      · rw [hl, List.mem_append, List.mem_singleton] at hrm
        rcases hrm with hrm | rfl
        · exact hold hrm
        · refine ⟨xs, [x], s1, rfl, hr, ⟨rfl, fun t ht => ?_⟩, .inl ⟨i, hk⟩⟩
          obtain ⟨h1, _, h2⟩ := (inv_view _ _ hr).1 i hk t (by omega) ht
          exact ⟨h1, h2 hm⟩
      · have := ((finishing_run _ _ hr).1 i b q hk).1
        rw [hf] at this
        cases this

/-- **C59** for algorithms without `OnFinish`. -/
theorem C59_partial (c : Cfg) (hm : c.mode = .epoch) (hf : c.mustFinish = false) (xs : List Act) (s : St)
    (h : run c start xs = some s) (r : Result) (hr : r ∈ s.log) :
    ∃ ys zs s', xs = ys ++ zs ∧ run c start ys = some s' ∧ Describes c s' r ∧ Converged c s' := by
  obtain ⟨ys, zs, s', h1, h2, h3, h4⟩ := described hf (by rw [hm]; decide) xs s h r hr
  exact ⟨ys, zs, s', h1, h2, h3, converged (inv_of h2) hm h4⟩

/-- The targets of the notifications that are sent in a step: those of an action in which the thread has processed something. -/
def sentBy (s s' : St) : Act → List Nat
  | .topology t _ out => if s'.prop t = s.prop t then [] else out
  | .alg t _ out => if s'.prop t = s.prop t then [] else out
  | _ => []

/-- The targets of the notifications that are sent in a run. -/
def sent (c : Cfg) : St → List Act → List Nat
  | _, [] => []
  | s, x :: xs =>
    match step c s x with
    | none => []
    | some s' => sentBy s s' x ++ sent c s' xs

theorem notes_step {c : Cfg} {s s' : St} {x : Act} (h : step c s x = some s') (t : Nat) :
    s'.prop t + s'.notes t + (s.applied t).length = s.prop t + s.notes t + (sentBy s s' x).count t + (s'.applied t).length := by
  cases x
  all_goals query_cases h
  all_goals simp only [sentBy, upd, deliver, List.count_nil]
  all_goals grind

theorem notes_run {c : Cfg} (t : Nat) (xs : List Act) : ∀ s s', run c s xs = some s' →
    s'.prop t + s'.notes t + (s.applied t).length = s.prop t + s.notes t + (sent c s xs).count t + (s'.applied t).length := by
  induction xs with
  | nil => intro s s' h; cases h; simp [sent]
  | cons x xs ih =>
    intro s s' h
    simp only [run] at h
    cases hs : step c s x with
    | none => rw [hs] at h; cases h
    | some s1 =>
      rw [hs] at h
      have h1 := notes_step hs t
      have h2 := ih s1 s' h
      have e : sent c s (x :: xs) = sentBy s s1 x ++ sent c s1 xs := by simp only [sent, hs]
      rw [e, List.count_append]
      omega

/-- **C59** for an algorithm without `OnFinish`, the notifications: the properties of a result have taken in the events before the
query and every notification that any thread had sent up to the moment that the result describes. -/
theorem C59_notes_partial (c : Cfg) (hm : c.mode = .epoch) (hf : c.mustFinish = false) (xs : List Act) (s : St)
    (h : run c start xs = some s) (r : Result) (hr : r ∈ s.log) :
    ∃ ys zs, xs = ys ++ zs ∧ ∀ t, t < c.T → r.prop t = (share c t r.asked).length + (sent c start ys).count t := by
  obtain ⟨ys, zs, s', h1, h2, ⟨h3, h4⟩, h5⟩ := C59_partial c hm hf xs s h r hr
  refine ⟨ys, zs, h1, fun t ht => ?_⟩
  have := notes_run t ys start s' h2
  obtain ⟨a, b⟩ := h5 t ht
  rw [(h4 t ht).2, h3, ← a]
  have e : start.prop t = 0 ∧ start.notes t = 0 ∧ (start.applied t).length = 0 := ⟨rfl, rfl, rfl⟩
  omega

/-- **C59** without convergence (`BLOCK_ALL`) and without `OnFinish`: still one moment; each thread may be behind. -/
theorem C59_block_partial (c : Cfg) (hm : c.mode = .blockAll) (hf : c.mustFinish = false) (xs : List Act) (s : St)
    (h : run c start xs = some s) (r : Result) (hr : r ∈ s.log) :
    ∃ ys zs s', xs = ys ++ zs ∧ run c start ys = some s' ∧ Describes c s' r ∧
      ∀ t, t < c.T → s'.applied t <+: share c t s'.emitted := by
  obtain ⟨ys, zs, s', h1, h2, h3, h4⟩ := described hf (by rw [hm]; decide) xs s h r hr
  exact ⟨ys, zs, s', h1, h2, h3, fun t _ => ⟨_, (inv_of h2).kept t⟩⟩

/-- **C59**, with or without `OnFinish`: the counters of a result are those of the events before its query, however
long the finishing of earlier queries takes. -/
theorem C59_counts (c : Cfg) (hm : c.mode = .epoch) (xs : List Act) : ∀ s, run c start xs = some s →
    ∀ r ∈ s.log, ∀ t, t < c.T → r.num t = (share c t r.asked).length := by
  induction xs using List.reverseRecOn with
  | nil => intro s h; simp only [run, Option.some.injEq] at h; subst h; simp [start]
  | append_singleton xs x ih =>
    intro s h r hrm t ht
    rw [run_snoc] at h
    cases hr : run c start xs with
    | none => rw [hr] at h; cases h
    | some s1 =>
      rw [hr] at h
      rcases log_step h with hl | ⟨i, hi, hk, _, hl⟩ | ⟨i, b, q, hi, hk, hl⟩
      · exact ih s1 hr r (hl ▸ hrm) t ht
      · rw [hl, List.mem_append, List.mem_singleton] at hrm
        rcases hrm with hrm | rfl
        · exact ih s1 hr r hrm t ht
        · obtain ⟨_, h1, _⟩ := (inv_view _ _ hr).1 i hk t (by omega) ht
          have := (converged (inv_of hr) hm (.inl ⟨i, hk⟩) t ht).1
          simp only [h1, this]
      · rw [hl, List.mem_append, List.mem_singleton] at hrm
        rcases hrm with hrm | rfl
        · exact ih s1 hr r hrm t ht
        · exact ((finishing_run _ _ hr).1 i b q hk).2.2 hm t ht

/-! ## With `OnFinish` -/

/-- One thread, two events. -/
def one (mustFinish : Bool) : Cfg := { T := 1, len := 2, own := fun _ => 0, mode := .epoch, mustFinish := mustFinish }

/-- A loop of the thread that applies one event, and one that does nothing. -/
def busy : List Act := [.poll 0, .remit 0 0 false, .topology 0 1 []]
def lazy : List Act := [.poll 0, .remit 0 0 false, .topology 0 0 [], .alg 0 0 []]

/-- A query after the first event; the second one is applied before `QueryFinishConcurrent` reads the properties. -/
def late : List Act :=
  [.emit, .query, .ctl, .ctl] ++ busy ++ lazy ++
  [.poll 0, .remit 0 0 false, .topology 0 0 [], .complete 0, .ack 0, .ctl, .ctl, .ctl, .ctl, .ctl, .ctl, .ctl, .ctl, .wake 0] ++
  [.emit] ++ busy ++ [.finish, .finish]

theorem late_run : (run (one true) start late).map (fun s => s.log.map fun r => (r.asked, r.evs 0, r.prop 0, r.num 0)) =
    some [(1, [0, 1], 2, 1)] := by decide +kernel

/-- **C59** is violated by algorithms with `OnFinish`: the properties reported for the query after the first event are
those after the second. -/
theorem C59_false : ¬ C59Statement := by
  intro h
  obtain ⟨s, hr, hk⟩ := Option.map_eq_some_iff.1 late_run
  have hl : ∃ r, r ∈ s.log ∧ r.asked = 1 ∧ r.evs 0 = [0, 1] := by
    rcases hlog : s.log with _ | ⟨r, l⟩
    · rw [hlog] at hk; cases hk
    · rw [hlog] at hk
      simp only [List.map_cons, List.cons.injEq, Prod.mk.injEq] at hk
      exact ⟨r, by simp, hk.1.1, hk.1.2.1⟩
  obtain ⟨r, hr1, hr2, hr3⟩ := hl
  obtain ⟨ys, zs, s', _, _, ⟨h3, h4⟩, h5⟩ := h (one true) rfl late s hr r hr1
  have h6 := (h4 0 (by decide)).1
  rw [(h5 0 (by decide)).1, hr3, ← h3, hr2] at h6
  exact absurd h6 (by decide)

/-- The same query without `OnFinish`. -/
example : (run (one false) start ([.emit, .query, .ctl, .ctl] ++ busy ++ lazy ++
    [.poll 0, .remit 0 0 false, .topology 0 0 [], .complete 0, .ack 0, .ctl, .ctl, .ctl, .ctl, .ctl, .ctl, .ctl, .wake 0, .emit] ++
    busy)).map (fun s => (s.log.map fun r => (r.asked, r.evs 0, r.prop 0, r.num 0), s.applied 0)) =
    some ([(1, [0], 1, 1)], [0, 1]) := by decide +kernel

/-- The first event sends a notification, which is processed before the query is answered. -/
example : (run (one false) start ([.emit, .query, .ctl, .ctl] ++ [.poll 0, .remit 0 0 false, .topology 0 1 [0]] ++
    [.poll 0, .remit 0 0 false, .topology 0 0 [], .alg 0 1 []] ++ lazy ++
    [.poll 0, .remit 0 0 false, .topology 0 0 [], .complete 0, .ack 0, .ctl, .ctl, .ctl, .ctl])).map
      (fun s => s.log.map fun r => (r.asked, r.evs 0, r.prop 0, r.num 0)) = some [(1, [0], 2, 1)] ∧
    sent (one false) start ([.emit, .query, .ctl, .ctl] ++ [.poll 0, .remit 0 0 false, .topology 0 1 [0]]) = [0] := by
  constructor <;> decide +kernel

/-- Two threads, `BLOCK_TOP`: at the point where all acknowledgements have arrived, thread 1 may still process
notifications but not its event. -/
example : (run { T := 2, len := 2, own := id, mode := .blockTop, mustFinish := false } start
    [.emit, .emit, .query, .ctl, .ctl, .ctl, .poll 0, .poll 1, .ack 0, .ack 1, .ctl, .ctl, .ctl, .remit 1 3 false, .topology 1 1 [],
     .alg 1 0 []]).map (fun s => (decide (s.ctl = .view 0), s.applied 1, s.queue 1, s.remits 1)) = some (true, [], [1], 0) := by decide +kernel

/-- A look at a queue that has only grown does not lead to a vote: the thread cannot end the epoch after it, and the
result asked next covers the event. -/
example : (run (one false) start ([.emit, .grow 0, .query, .ctl, .ctl] ++ [.poll 0, .remit 0 0 false, .miss 0])).map
      (fun s => (decide (s.pc 0 = .alg), checkTerm s 0, (step (one false) s (.complete 0)).isSome)) = some (true, true, false) ∧
    (run (one false) start ([.emit, .grow 0, .query, .ctl, .ctl] ++ [.poll 0, .remit 0 0 false, .miss 0, .alg 0 0 []] ++ busy ++ lazy ++
      [.poll 0, .remit 0 0 false, .topology 0 0 [], .complete 0, .ack 0, .ctl, .ctl, .ctl, .ctl, .ctl, .ctl, .ctl])).map
      (fun s => s.log.map fun r => (r.asked, r.evs 0, r.prop 0, r.num 0)) = some [(1, [0], 1, 1)] := by
  constructor <;> decide +kernel

end Verif.Query
