import Verif.PullLoop

/-!
# C99: topology events between queue and graph
-/

namespace Verif.Pull

variable {E : Type}

/-- Events are in the buffer and not yet handed on. -/
def holding : PC → Bool
  | .accept | .isClosed | .apply => true
  | _ => false

/-- The rest of the iteration will signal. -/
def pending : PC → Bool
  | .apply | .after | .tail => true
  | _ => false

/-- What has been pulled but not handed to `EnactTopologyEvents`. -/
def held (s : St E) : List (Option E) := if holding s.pc then s.buff.take s.topCount else []

structure Inv (c : Cfg) (s : St E) : Prop where
  pos : 1 ≤ s.pullUpTo
  fit : s.doneEvents = 0 → s.pullUpTo ≤ s.buff.length
  none : s.strucClosed = false → s.doneEvents = 0
  late : pending s.pc = true → s.doneEvents = 0
  sent : s.strucClosed = true → pending s.pc = false → s.doneEvents = 1
  looking : s.pc = .accept ∨ s.pc = .isClosed → s.strucClosed = false
  remit : s.doneRemit = if s.remitClosed then 1 else 0
  ended : s.remitClosed = true → s.emitEnd = true
  struc : s.strucClosed = true → s.closed = true ∧ s.queue = []
  count : holding s.pc = true ∨ pending s.pc = true → s.topCount ≤ s.pullUpTo
  order : s.given.map some = s.batches.flatten ++ held s ++ s.queue.map some
  sizes : ∀ b ∈ s.batches, b ≠ [] ∧ b.length ≤ s.pullUpTo
  dead : s.pc = .dead → s.strucClosed = true ∧ s.remitClosed = true
  calm : s.pc ≠ .panic

theorem inv_start (c : Cfg) (hb : 1 ≤ c.base) (hr : c.base ≤ c.room) : Inv c (start E c) := by
  constructor <;> simp [start, pending, holding, held, hb, hr]

macro "pull_cases" h:ident : tactic => `(tactic|
  (simp only [step] at $h:ident
   repeat' split at $h:ident
   all_goals (try (cases $h:ident; done))
   all_goals (try (simp only [Option.some.injEq] at $h:ident; subst $h:ident))))

theorem take_set_succ {l : List (Option E)} {n : Nat} {x : Option E} (h : n < l.length) : (l.set n x).take (n + 1) = l.take n ++ [x] := by
  rw [List.take_add_one, List.take_set_of_le (Nat.le_refl n)]
  simp [h]

theorem order_step {c : Cfg} {s s' : St E} {x : Act E} (hi : Inv c s) (h : step c s x = some s') :
    s'.given.map some = s'.batches.flatten ++ held s' ++ s'.queue.map some := by
  have ho := hi.order
  have h1 := hi.looking
  have h2 := hi.fit
  have h3 := hi.none
  unfold held at ho ⊢
  cases x
  all_goals pull_cases h
  all_goals (try simp_all [holding]; done)
  all_goals (try (simp only [holding, *] at ho ⊢; simp_all [take_set_succ, List.take_set_of_le]; done))
  all_goals grind

theorem sizes_step {c : Cfg} {s s' : St E} {x : Act E} (hi : Inv c s) (h : step c s x = some s') :
    ∀ b ∈ s'.batches, b ≠ [] ∧ b.length ≤ s'.pullUpTo := by
  have ho := hi.sizes
  have h1 := hi.pos
  have h2 := hi.fit
  have h3 := hi.late
  have h4 := hi.count
  cases x
  all_goals pull_cases h
  all_goals (try exact ho)
  all_goals grind [pending, holding]

theorem inv_step {c : Cfg} {s s' : St E} {x : Act E} (hi : Inv c s) (h : step c s x = some s') : Inv c s' := by
  have ho := order_step hi h
  have hs := sizes_step hi h
  obtain ⟨h1, h2, h3, h4, h5, h6, h7, h8, h9, h10, -, -, h13, h14⟩ := hi
  refine ⟨?_, ?_, ?_, ?_, ?_, ?_, ?_, ?_, ?_, ?_, ho, hs, ?_, ?_⟩
  all_goals clear ho hs
  all_goals cases x
  all_goals pull_cases h
  all_goals grind [pending, holding]

theorem run_snoc (c : Cfg) (xs : List (Act E)) (x : Act E) : ∀ s, run c s (xs ++ [x]) = (run c s xs).bind fun s' => step c s' x := by
  induction xs with
  | nil => intro s; simp [run]
  | cons y ys ih =>
    intro s
    simp only [List.cons_append, run]
    cases step c s y with
    | none => rfl
    | some s1 => exact ih s1

theorem inv_run {c : Cfg} (xs : List (Act E)) : ∀ s, Inv c s → ∀ s', run c s xs = some s' → Inv c s' := by
  induction xs with
  | nil => intro s hi s' h; injection h with h; subst h; exact hi
  | cons y ys ih =>
    intro s hi s' h
    simp only [run] at h
    cases h1 : step c s y with
    | none => rw [h1] at h; cases h
    | some s1 => rw [h1] at h; exact ih s1 (inv_step hi h1) s' h

theorem inv_of {c : Cfg} (hb : 1 ≤ c.base) (hr : c.base ≤ c.room) {xs : List (Act E)} {s : St E} (h : run c (start E c) xs = some s) : Inv c s :=
  inv_run xs _ (inv_start c hb hr) _ h

/-! ## Events and signals -/

/-- C99: no index is out of range: events are pulled only as long as there is room in the buffer, also
when the number pulled at once is doubled. -/
theorem C99_no_panic (c : Cfg) (hb : 1 ≤ c.base) (hr : c.base ≤ c.room) (xs : List (Act E)) (s : St E) (h : run c (start E c) xs = some s) : s.pc ≠ .panic :=
  (inv_of hb hr h).calm

/-- C99: what `EnactTopologyEvents` is given is what was put in the queue, each event once and in order: at
any time what it has not been given is still in the queue or in the buffer. It never gets a zero value,
and it is never called without events. -/
theorem C99_order (c : Cfg) (hb : 1 ≤ c.base) (hr : c.base ≤ c.room) (xs : List (Act E)) (s : St E) (h : run c (start E c) xs = some s) :
    ∃ mid : List E, s.given.map some = s.batches.flatten ++ mid.map some ++ s.queue.map some ∧ mid.length ≤ s.pullUpTo ∧
      (s.pc = .top → mid = []) ∧ (∀ b ∈ s.batches, b ≠ []) := by
  have hi := inv_of hb hr h
  have ho := hi.order
  have hall : ∀ x ∈ held s, ∃ e, x = some e := by
    intro x hx
    have : x ∈ s.given.map some := by rw [ho]; simp [hx]
    obtain ⟨e, -, he⟩ := List.mem_map.1 this
    exact ⟨e, he.symm⟩
  have hm : ∃ mid : List E, held s = mid.map some := by
    generalize held s = l at hall
    induction l with
    | nil => exact ⟨[], rfl⟩
    | cons a l ih =>
      obtain ⟨e, rfl⟩ := hall a (List.mem_cons_self ..)
      obtain ⟨m, hm⟩ := ih (fun x hx => hall x (List.mem_cons_of_mem _ hx))
      exact ⟨e :: m, by simp [hm]⟩
  obtain ⟨mid, hm⟩ := hm
  refine ⟨mid, by rw [← hm]; exact ho, ?_, ?_, fun b hb => (hi.sizes b hb).1⟩
  · have h1 : mid.length = (held s).length := by rw [hm]; simp
    rw [h1]
    unfold held
    split
    · rename_i hh
      have := hi.count (.inl hh)
      simp only [List.length_take]; omega
    · simp
  · intro hp
    have : held s = [] := by simp [held, hp, holding]
    rw [this] at hm
    simpa using hm.symm

/-- C99: each thread signals `doneEvents` at most once, and only when its queue is closed and all events have
been enacted; `doneRemit` at most once, and only when the emitter has closed. The sends do not block, since
the channels have a place for every thread (`run-dynamic.go:363-364`). -/
theorem C99_signals (c : Cfg) (hb : 1 ≤ c.base) (hr : c.base ≤ c.room) (xs : List (Act E)) (s : St E) (h : run c (start E c) xs = some s) :
    s.doneEvents ≤ 1 ∧ s.doneRemit ≤ 1 ∧ (s.doneRemit = 1 → s.emitEnd = true) ∧
    (s.doneEvents = 1 → s.closed = true ∧ s.batches.flatten = s.given.map some) := by
  have hi := inv_of hb hr h
  obtain ⟨h1, h2, h3, h4, h5, h6, h7, h8, h9, h10, h11, h12, h13, h14⟩ := hi
  refine ⟨by grind, by grind, by grind, ?_⟩
  intro hd
  have hs : s.strucClosed = true := by grind
  refine ⟨(h9 hs).1, ?_⟩
  have hh : held s = [] := by
    unfold held
    split
    · rename_i hh
      cases hp : s.pc <;> simp_all [holding, pending]
    · rfl
  rw [h11, hh, (h9 hs).2]; simp

/-- C99: a thread that has left the loop has signalled both and enacted everything. -/
theorem C99_left (c : Cfg) (hb : 1 ≤ c.base) (hr : c.base ≤ c.room) (xs : List (Act E)) (s : St E) (h : run c (start E c) xs = some s) (hd : s.pc = .dead) :
    s.doneEvents = 1 ∧ s.doneRemit = 1 ∧ s.batches.flatten = s.given.map some := by
  have hi := inv_of hb hr h
  have h1 := hi.dead hd
  have h2 : s.doneEvents = 1 := hi.sent h1.1 (by simp [hd, pending])
  refine ⟨h2, by rw [hi.remit, h1.2]; rfl, ((C99_signals c hb hr xs s h).2.2.2 h2).2⟩

/-- C99: a batch never has more events than `pullUpToBase`, which stays below 2^27 for the sizes of the
code, so that the places fit in the `uint32` of the pending lists (`stream-enact-events.go:221`). -/
theorem C99_size (c : Cfg) (hb : 1 ≤ c.base) (hr : c.base ≤ c.room) (xs : List (Act E)) (s : St E) (h : run c (start E c) xs = some s) :
    (∀ b ∈ s.batches, b.length ≤ s.pullUpTo) ∧ s.pullUpTo ≤ max c.base (2 ^ 27) := by
  refine ⟨fun b hb' => ((inv_of hb hr h).sizes b hb').2, ?_⟩
  have key : ∀ (xs : List (Act E)) (s s' : St E), s.pullUpTo ≤ max c.base (2 ^ 27) ∧ s.numEdges < 2 ^ 32 → run c s xs = some s' →
      s'.pullUpTo ≤ max c.base (2 ^ 27) ∧ s'.numEdges < 2 ^ 32 := by
    intro xs
    induction xs with
    | nil => intro s s' hs h; injection h with h; subst h; exact hs
    | cons x xs ih =>
      intro s s' hs h
      simp only [run] at h
      cases h1 : step c s x with
      | none => rw [h1] at h; cases h
      | some s1 =>
        rw [h1] at h
        refine ih s1 s' ?_ h
        clear ih h
        cases x
        all_goals pull_cases h1
        all_goals (try exact hs)
        all_goals grind
  exact (key xs (start E c) s ⟨by simp only [start]; exact Nat.le_max_left _ _, by simp [start]⟩ h).1

/-! ## The loop can end -/

/-- Work that is left. -/
def work (s : St E) : Nat := s.queue.length + (if s.strucClosed then 0 else 1) + (if s.remitClosed then 0 else 1)

/-- Steps of the thread up to the next thing that is done. -/
def rank (s : St E) : Nat :=
  match s.pc with
  | .top => 20
  | .remit => 19
  | .pull => if s.strucClosed = true ∧ s.remitClosed = false then 36 else 18
  | .accept => if s.topCount = 0 then 17 else 35
  | .isClosed => if s.queue = [] then 16 else 34
  | .apply => 33
  | .after => 32
  | .tail => 31
  | .alg => if s.strucClosed = true ∧ s.remitClosed = true then 1 else 30
  | .dead | .panic => 0

/-- What the thread does next if nobody interferes. -/
def next (s : St E) : Act E :=
  match s.pc with
  | .remit => if s.remitClosed then .go else .remit 0 true
  | .accept => if s.topCount < s.pullUpTo then (if s.queue = [] then .miss else .accept) else .go
  | .isClosed => .isClosed (decide (s.queue = []))
  | .apply => if s.topCount = 0 then .go else .enact s.buff 0
  | .alg => if s.strucClosed = true ∧ s.remitClosed = true then .complete else .go
  | _ => .go

/-- The input has ended and no command is being obeyed. -/
structure Ended (s : St E) : Prop where
  closed : s.closed = true
  emitEnd : s.emitEnd = true
  block : s.blockTop = false
  epoch : s.epoch = false

theorem next_step {c : Cfg} {s : St E} (hi : Inv c s) (he : Ended s) (hd : s.pc ≠ .dead) :
    ∃ s', step c s (next s) = some s' ∧ Ended s' ∧ 40 * work s' + rank s' < 40 * work s + rank s := by
  have hp := hi.calm
  have h1 := hi.pos
  have h2 := hi.fit
  have h3 := hi.none
  have h4 := hi.looking
  obtain ⟨e1, e2, e3, e4⟩ := he
  cases hpc : s.pc
  case dead => exact absurd hpc hd
  case panic => exact absurd hpc hp
  case top => exact ⟨{ s with pc := .remit }, by simp [next, step, hpc], ⟨e1, e2, e3, e4⟩, by simp only [work, rank, hpc]; omega⟩
  case remit =>
    cases hr : s.remitClosed with
    | true => exact ⟨{ s with remitCount := 0, pc := .pull }, by simp [next, step, hpc, hr], ⟨e1, e2, e3, e4⟩, by simp [work, rank, hpc, hr]⟩
    | false =>
      exact ⟨{ s with remitClosed := true, remitCount := 0, doneRemit := s.doneRemit + 1, pc := .pull }, by simp [next, step, hpc, hr, e2, e3, e4], ⟨e1, e2, e3, e4⟩,
        by simp [work, rank, hpc, hr]; omega⟩
  case pull =>
    cases hs : s.strucClosed with
    | true => exact ⟨{ s with pc := .alg }, by simp [next, step, hpc, hs], ⟨e1, e2, e3, e4⟩, by simp only [work, rank, hpc, hs]; cases s.remitClosed <;> simp⟩
    | false => exact ⟨{ s with topCount := 0, pc := .accept }, by simp [next, step, hpc, hs, e3], ⟨e1, e2, e3, e4⟩, by simp [work, rank, hpc, hs]⟩
  case accept =>
    have hs := h4 (.inl hpc)
    have hl := h2 (h3 hs)
    by_cases ht : s.topCount < s.pullUpTo
    · have hlt : s.topCount < s.buff.length := by omega
      cases hq : s.queue with
      | nil =>
        refine ⟨{ s with buff := s.buff.set s.topCount none, grown := false, pc := .isClosed }, by simp [next, step, hpc, hq, ht, hlt], ⟨e1, e2, e3, e4⟩, ?_⟩
        by_cases h0 : s.topCount = 0 <;> simp [work, rank, hpc, hq, h0]
      | cons e q =>
        refine ⟨{ s with buff := s.buff.set s.topCount (some e), queue := q, topCount := s.topCount + 1 }, by simp [next, step, hpc, hq, ht, hlt], ⟨e1, e2, e3, e4⟩, ?_⟩
        simp [work, rank, hpc, hq]; split <;> omega
    · refine ⟨{ s with pc := .apply }, by simp [next, step, hpc, ht], ⟨e1, e2, e3, e4⟩, ?_⟩
      have : s.topCount ≠ 0 := by omega
      simp [work, rank, hpc, this]
  case isClosed =>
    have hs := h4 (.inr hpc)
    by_cases hq : s.queue = []
    · refine ⟨{ s with strucClosed := true, pc := .apply }, by simp [next, step, hpc, hq, e1], ⟨e1, e2, e3, e4⟩, ?_⟩
      simp [work, rank, hpc, hq, hs]; omega
    · refine ⟨{ s with strucClosed := false, pc := .apply }, by simp [next, step, hpc, hq], ⟨e1, e2, e3, e4⟩, ?_⟩
      simp [work, rank, hpc, hq, hs]
  case apply =>
    by_cases ht : s.topCount = 0
    · by_cases hy : s.topSync = true ∧ s.remitCount = 0
      · exact ⟨{ s with topSync := false, acks := s.acks + 1, pc := .tail }, by simp [next, step, hpc, ht, hy], ⟨e1, e2, e3, e4⟩, by simp [work, rank, hpc]⟩
      · refine ⟨{ s with pc := .tail }, ?_, ⟨e1, e2, e3, e4⟩, by simp [work, rank, hpc]⟩
        simp only [next, step, hpc, ht, if_true, ne_eq, not_true_eq_false, if_false, if_neg hy]
    · exact ⟨{ s with batches := s.batches ++ [s.buff.take s.topCount], buff := s.buff, numEdges := 0, pc := .after }, by simp [next, step, hpc, ht], ⟨e1, e2, e3, e4⟩,
        by simp [work, rank, hpc]⟩
  case after =>
    simp only [next, hpc, step]
    repeat' split
    all_goals exact ⟨_, rfl, ⟨e1, e2, e3, e4⟩, by simp [work, rank, hpc]⟩
  case tail =>
    cases hs : s.strucClosed with
    | true => exact ⟨{ s with buff := [], doneEvents := s.doneEvents + 1, pc := .alg }, by simp [next, step, hpc, hs], ⟨e1, e2, e3, e4⟩, by simp only [work, rank, hpc, hs]; cases s.remitClosed <;> simp⟩
    | false => exact ⟨{ s with pc := .alg }, by simp [next, step, hpc, hs], ⟨e1, e2, e3, e4⟩, by simp [work, rank, hpc, hs]⟩
  case alg =>
    by_cases hc : s.strucClosed = true ∧ s.remitClosed = true
    · exact ⟨{ s with pc := .dead }, by simp [next, step, hpc, hc, e4], ⟨e1, e2, e3, e4⟩, by simp [work, rank, hpc, hc]⟩
    · refine ⟨{ s with pc := .top }, by simp only [next, step, hpc, if_neg hc], ⟨e1, e2, e3, e4⟩, ?_⟩
      simp only [work, rank, hpc, if_neg hc]; omega

/-- Steps of the thread itself. -/
def Act.own : Act E → Bool
  | .go | .remit .. | .accept | .miss | .isClosed _ | .enact .. | .complete => true
  | _ => false

theorem next_own (s : St E) : (next s).own = true := by
  unfold next
  repeat' split
  all_goals rfl

/-- C99: when the input has ended and no command is being obeyed, the thread can always take all events
from the queue and leave, by steps of its own. -/
theorem C99_can_leave (c : Cfg) (hb : 1 ≤ c.base) (hr : c.base ≤ c.room) (xs : List (Act E)) (s : St E) (h : run c (start E c) xs = some s)
    (h1 : s.closed = true) (h2 : s.emitEnd = true) (h3 : s.blockTop = false) (h4 : s.epoch = false) :
    ∃ ys s', (∀ y ∈ ys, y.own = true) ∧ run c s ys = some s' ∧ s'.pc = .dead := by
  have key : ∀ (n : Nat) (s : St E), Inv c s → Ended s → 40 * work s + rank s < n → ∃ ys s', (∀ y ∈ ys, y.own = true) ∧ run c s ys = some s' ∧ s'.pc = .dead := by
    intro n
    induction n with
    | zero => intro s _ _ hn; omega
    | succ n ih =>
      intro s hi he hn
      by_cases hd : s.pc = .dead
      · exact ⟨[], s, by simp, rfl, hd⟩
      · obtain ⟨s1, a1, a2, a3⟩ := next_step hi he hd
        obtain ⟨ys, s', b1, b2, b3⟩ := ih s1 (inv_step hi a1) a2 (by omega)
        refine ⟨next s :: ys, s', ?_, by simp [run, a1, b2], b3⟩
        intro y hy
        rcases List.mem_cons.1 hy with rfl | hy
        · exact next_own s
        · exact b1 y hy
  exact key _ s (inv_of hb hr h) ⟨h1, h2, h3, h4⟩ (Nat.lt_succ_self _)

/-! ## `TOP_SYNC` -/

/-- C99 for `TOP_SYNC`: it is acknowledged only when all events put before it are in the graph, and as long as
it has not been acknowledged it can be. -/
def C99Sync : Prop :=
  (∀ (c : Cfg), 1 ≤ c.base → c.base ≤ c.room → ∀ (xs : List (Act Nat)) (s s' : St Nat), run c (start Nat c) xs = some s → step c s .go = some s' → s'.acks ≠ s.acks →
    s.asked ≤ s.batches.flatten.length) ∧
  (∀ (c : Cfg), 1 ≤ c.base → c.base ≤ c.room → ∀ (xs : List (Act Nat)) (s : St Nat), run c (start Nat c) xs = some s → s.topSync = true →
    ∃ ys s', run c s ys = some s' ∧ s'.acks ≠ s.acks)

structure SyncInv (s : St E) : Prop where
  small : s.grown = false
  asked : s.asked ≤ s.given.length
  seen : s.pc = .isClosed ∨ s.pc = .apply → s.topCount = 0 → s.topSync = true → s.asked ≤ s.batches.flatten.length

/-- `TOP_SYNC` is truthful as long as the queue does not grow. Missing: a queue that grows (see `C99_sync_false`), and
that the acknowledgement comes (see `C99_sync_lost`). -/
theorem C99_sync_partial (c : Cfg) (hb : 1 ≤ c.base) (hr : c.base ≤ c.room) (xs : List (Act E)) (hx : ∀ x ∈ xs, x ≠ .grow) (s s' : St E)
    (h : run c (start E c) xs = some s) (h1 : step c s .go = some s') (h2 : s'.acks ≠ s.acks) : s.asked ≤ s.batches.flatten.length := by
  have one : ∀ (s s' : St E) (x : Act E), x ≠ .grow → Inv c s → SyncInv s → step c s x = some s' → SyncInv s' := by
    intro s s' x hx hi hs hst
    have hlen : s.given.length = s.batches.flatten.length + (held s).length + s.queue.length := by
      have := congrArg List.length hi.order
      rw [List.length_append, List.length_append, List.length_map, List.length_map] at this
      exact this
    have hheld : s.pc = .accept → s.topCount = 0 → held s = [] := by intro _ h0; simp [held, h0]
    have hpos := hi.pos
    have hfit := hi.fit
    have hnone := hi.none
    have hlook := hi.looking
    obtain ⟨a1, a2, a3⟩ := hs
    cases x
    all_goals pull_cases hst
    all_goals (try exact absurd rfl hx)
    all_goals constructor
    all_goals (try (first | exact a1 | exact a2 | exact a3))
    all_goals grind
  have key : ∀ (xs : List (Act E)), (∀ x ∈ xs, x ≠ .grow) → ∀ (s s' : St E), Inv c s → SyncInv s → run c s xs = some s' → SyncInv s' := by
    intro xs
    induction xs with
    | nil => intro _ s s' _ hs h; injection h with h; subst h; exact hs
    | cons x xs ih =>
      intro hx s s' hi hs h
      simp only [run] at h
      cases h1 : step c s x with
      | none => rw [h1] at h; cases h
      | some s1 =>
        rw [h1] at h
        exact ih (fun y hy => hx y (List.mem_cons_of_mem _ hy)) s1 s' (inv_step hi h1) (one s s1 x (hx x (List.mem_cons_self ..)) hi hs h1) h
  have hs := key xs hx _ _ (inv_start c hb hr) ⟨rfl, by simp [start], by simp [start]⟩ h
  have h3 := hs.seen
  pull_cases h1
  all_goals (try exact absurd rfl h2)
  all_goals grind

/-- Sizes scaled down: two events fill the queue and are pulled at once. -/
def tiny : Cfg := { base := 2, room := 128, ring := 2, series := false }

/-- One iteration in which `n` events are pulled. -/
def pulls (n : Nat) : List (Act Nat) := [.go, .remit 0 false, .go] ++ List.replicate n .accept

/-- Three events; the queue grows for the third. `TOP_SYNC` is taken, two events are pulled, which is all that may be
pulled at once, and the next look at the queue finds it grown. -/
def early : List (Act Nat) :=
  [.put 1, .put 2, .grow, .put 3, .sync] ++ pulls 2 ++ [.go, .enact (List.replicate 128 none) 2, .go] ++ pulls 0 ++ [.miss, .isClosed false]

theorem early_run : (run tiny (start Nat tiny) early).any (fun s => (step tiny s .go).any fun s' => decide (s'.acks ≠ s.acks) && decide (s.asked = 3) &&
    decide (s.batches = [[some 1, some 2]]) && decide (s.queue = [3])) = true := by decide +kernel

/-- `TOP_SYNC` is taken, and the queue is closed after its last event: the thread pulls the event and sees the end at once. -/
def closes : List (Act Nat) :=
  [.put 1, .sync] ++ pulls 1 ++ [.close, .miss, .isClosed true, .enact (List.replicate 128 none) 1, .go]

theorem closes_run : (run tiny (start Nat tiny) closes).any (fun s => s.topSync && s.strucClosed && decide (s.pc = .top) && decide (s.acks = 0) &&
    decide (s.batches = [[some 1]])) = true := by decide +kernel

/-- After the end of the queue has been seen nothing is acknowledged any more. -/
theorem never {c : Cfg} : ∀ (ys : List (Act E)) (s s' : St E), s.strucClosed = true → pending s.pc = false → s.pc ≠ .accept → s.pc ≠ .isClosed →
    run c s ys = some s' → s'.acks = s.acks := by
  intro ys
  induction ys with
  | nil => intro s s' _ _ _ _ h; injection h with h; subst h; rfl
  | cons y ys ih =>
    intro s s' h1 h2 h3 h4 h
    simp only [run] at h
    cases h5 : step c s y with
    | none => rw [h5] at h; cases h
    | some s1 =>
      rw [h5] at h
      have : s1.strucClosed = true ∧ pending s1.pc = false ∧ s1.pc ≠ .accept ∧ s1.pc ≠ .isClosed ∧ s1.acks = s.acks := by
        clear ih h
        cases y
        all_goals pull_cases h5
        all_goals grind [pending]
      rw [ih s1 s' this.1 this.2.1 this.2.2.1 this.2.2.2.1 h, this.2.2.2.2]

/-- A `TOP_SYNC` that a thread has taken before the end of its queue may never be acknowledged: who sent it waits for ever. -/
theorem C99_sync_lost : ∃ (s : St Nat), run tiny (start Nat tiny) closes = some s ∧ s.topSync = true ∧ s.asked ≤ s.batches.flatten.length ∧
    ∀ ys s', run tiny s ys = some s' → s'.acks = s.acks := by
  have hc := closes_run
  cases h : run tiny (start Nat tiny) closes with
  | none => rw [h] at hc; cases hc
  | some s =>
    rw [h] at hc
    simp only [Option.any_some, Bool.and_eq_true, decide_eq_true_eq] at hc
    obtain ⟨⟨⟨⟨a1, a2⟩, a3⟩, a4⟩, a5⟩ := hc
    have hask : (run tiny (start Nat tiny) closes).any (fun s => decide (s.asked = 1)) = true := by decide +kernel
    rw [h] at hask
    simp only [Option.any_some, decide_eq_true_eq] at hask
    exact ⟨s, rfl, a1, by rw [hask, a5]; decide, fun ys s' hy => never ys s s' a2 (by rw [a3]; rfl) (by rw [a3]; decide) (by rw [a3]; decide) hy⟩

/-- The code violates C99 for `TOP_SYNC`. -/
theorem C99_sync_false : ¬ C99Sync := by
  rintro ⟨h, -⟩
  have he := early_run
  cases h1 : run tiny (start Nat tiny) early with
  | none => rw [h1] at he; cases he
  | some s =>
    rw [h1, Option.any_some] at he
    cases h2 : step tiny s .go with
    | none => rw [h2] at he; cases he
    | some s' =>
      rw [h2] at he
      simp only [Option.any_some, Bool.and_eq_true, decide_eq_true_eq] at he
      obtain ⟨⟨⟨a1, a2⟩, a3⟩, a4⟩ := he
      have := h tiny (by decide) (by decide) early s s' h1 h2 a1
      rw [a2, a3] at this
      exact absurd this (by decide)

/-- A whole run in which the buffer grows: 2 of 3 events are pulled, 192 edges or more double the number, the
last event comes with the end of the queue, and the thread leaves. -/
def whole : List (Act Nat) :=
  [.put 1, .put 2, .grow, .put 3] ++ pulls 2 ++ [.go, .enact (List.replicate 2 none) 192, .go] ++ [.emitEnd, .close, .go, .remit 0 true, .go, .miss, .isClosed false, .go, .go, .go] ++
  [.go, .go, .go, .accept, .miss, .isClosed true, .enact (List.replicate 4 none) 193, .go, .go, .complete]

example : (run { tiny with room := 2 } (start Nat { tiny with room := 2 }) whole).any (fun s => decide (s.pc = .dead) && decide (s.pullUpTo = 4) &&
    decide (s.doneEvents = 1) && decide (s.doneRemit = 1) && decide (s.batches = [[some 1, some 2], [some 3]])) = true := by decide +kernel

end Verif.Pull
