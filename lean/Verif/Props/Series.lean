import Verif.Props.Query

/-!
# The time series is complete when the run returns (C74)

`Launch` (`algorithm.go:172-223`) returns after all graph threads have ended, and the programs then print the series
(`PrintTimeSeries`, `lp-pagerank/main.go:44-46`, `lp-colouring/main.go:145-147`, `lp-temporal-paths/main.go:25-27`). Nothing
waits for `LogTimeSeries` or `QueryFinishConcurrent` (`close(g.LogEntryChan)`, `algorithm.go:213`, and
`close(ConcurrentFinishChan)`, `queries.go:145`, only tell them to end). The model is that of `Verif/Query.lean`; an entry
of `log` is a call of `OnApplyTimeSeries` (180).
-/

namespace Verif.Query

/-- The queries asked in an execution: for each, the number of events emitted before it. -/
def asks : Nat → List Act → List Nat
  | _, [] => []
  | n, .emit :: xs => asks (n + 1) xs
  | n, .query :: xs => n :: asks n xs
  | n, _ :: xs => asks n xs

/-- The events emitted in an execution. -/
def emits : List Act → Nat
  | [] => 0
  | .emit :: xs => emits xs + 1
  | _ :: xs => emits xs

theorem emits_snoc (xs : List Act) (x : Act) : emits (xs ++ [x]) = emits xs + emits [x] := by
  induction xs with
  | nil => simp [emits]
  | cons y ys ih => cases y <;> simp only [List.cons_append, emits, ih, Nat.add_right_comm]

theorem asks_snoc (xs : List Act) (x : Act) : ∀ n, asks n (xs ++ [x]) = asks n xs ++ asks (n + emits xs) [x] := by
  induction xs with
  | nil => intro n; simp [asks, emits]
  | cons y ys ih =>
    intro n
    cases y <;> simp only [List.cons_append, asks, emits, ih, List.cons_append]
    rw [Nat.add_right_comm, Nat.add_assoc]

/-- The query `LogTimeSeries` has taken and not yet handed over or applied. -/
def inHand (s : St) : List Nat :=
  match s.ctl with
  | .send _ | .await _ | .view _ | .hand => [s.emitted]
  | _ => []

/-- The query `QueryFinishConcurrent` works on. -/
def finishing (s : St) : List Nat :=
  match s.fin with
  | none => []
  | some (_, _, q) => [q]

theorem series_step {c : Cfg} {s s' : St} {x : Act} (hi : Inv c s) (hm : c.mustFinish = false → s.fin = none ∧ s.ctl ≠ .hand)
    (h : step c s x = some s') : s'.emitted = s.emitted + emits [x] ∧ (c.mustFinish = false → s'.fin = none ∧ s'.ctl ≠ .hand) ∧
      s'.log.map (·.asked) ++ finishing s' ++ inHand s' = s.log.map (·.asked) ++ finishing s ++ inHand s ++ asks s.emitted [x] := by
  have hw := hi.base.wait
  cases x
  all_goals query_cases h
  all_goals simp only [emits, asks, inHand, finishing] at *
  all_goals grind

theorem series {c : Cfg} (xs : List Act) : ∀ s, run c start xs = some s → s.emitted = emits xs ∧
    (c.mustFinish = false → s.fin = none ∧ s.ctl ≠ .hand) ∧ s.log.map (·.asked) ++ finishing s ++ inHand s = asks 0 xs := by
  induction xs using List.reverseRecOn with
  | nil => intro s h; simp only [run, Option.some.injEq] at h; subst h; simp [start, emits, asks, inHand, finishing]
  | append_singleton xs x ih =>
    intro s h
    rw [run_snoc] at h
    cases hr : run c start xs with
    | none => rw [hr] at h; cases h
    | some s1 =>
      rw [hr] at h
      obtain ⟨h1, h2, h3⟩ := ih s1 hr
      obtain ⟨k1, k2, k3⟩ := series_step (inv_of hr) h2 h
      exact ⟨by rw [k1, h1, emits_snoc], k2, by rw [k3, h3, h1, asks_snoc, Nat.zero_add]⟩

/-- **C74**: all graph threads have ended, so `Launch` returns. -/
def Returned (c : Cfg) (s : St) : Prop := ∀ t, t < c.T → s.pc t = .dead

/-- **C74**, full statement: when the run returns, the series has one entry for each query that was asked, in the
order of the queries. -/
def C74Statement : Prop := ∀ (c : Cfg), 0 < c.T → ∀ xs s, run c start xs = some s → Returned c s → s.log.map (·.asked) = asks 0 xs

theorem idle_of_returned {c : Cfg} {s : St} (hi : Inv c s) (hT : 0 < c.T) (hd : Returned c s) : s.waiting = false ∧ s.ctl = .idle := by
  have h1 := hi.base.dead 0 (hd 0 hT)
  have h2 : s.waiting = false := by
    cases hw : s.waiting with
    | false => rfl
    | true => rw [hi.base.open_ hw] at h1; cases h1
  refine ⟨h2, ?_⟩
  have := hi.base.wait
  rw [h2] at this
  simpa using this.symm

/-- **C74**, algorithms without `OnFinish`: whenever no query keeps the remitter waiting, and so when the run returns,
every query asked so far has its entry. -/
theorem C74_partial {c : Cfg} {xs : List Act} {s : St} (h : run c start xs = some s) (hm : c.mustFinish = false)
    (hw : s.waiting = false) : s.log.map (·.asked) = asks 0 xs := by
  obtain ⟨_, h2, h3⟩ := series xs s h
  have hc : s.ctl = .idle := by
    have := (inv_of h).base.wait
    rw [hw] at this
    simpa using this.symm
  simpa [finishing, (h2 hm).1, inHand, hc] using h3

/-- **C74**, algorithms without `OnFinish`, at the end of the run. -/
theorem C74_end_partial {c : Cfg} (hT : 0 < c.T) {xs : List Act} {s : St} (h : run c start xs = some s) (hm : c.mustFinish = false)
    (hd : Returned c s) : s.log.map (·.asked) = asks 0 xs :=
  C74_partial h hm (idle_of_returned (inv_of h) hT hd).1

/-- **C74**, all algorithms: when the run returns, at most the last query is missing, and it is one that
`QueryFinishConcurrent` is still working on. -/
theorem C74_last_partial {c : Cfg} (hT : 0 < c.T) {xs : List Act} {s : St} (h : run c start xs = some s) (hd : Returned c s) :
    (s.log.map (·.asked) = asks 0 xs ∧ s.fin = none) ∨
      ∃ i b q, s.fin = some (i, b, q) ∧ s.log.map (·.asked) ++ [q] = asks 0 xs := by
  obtain ⟨_, _, h3⟩ := series xs s h
  have hc := (idle_of_returned (inv_of h) hT hd).2
  cases hf : s.fin with
  | none => exact .inl ⟨by simpa [finishing, hf, inHand, hc] using h3, rfl⟩
  | some p =>
    obtain ⟨i, b, q⟩ := p
    exact .inr ⟨i, b, q, rfl, by simpa [finishing, hf, inHand, hc] using h3⟩

/-- The last event applied, the stream found closed, and the end. -/
def ending : List Act := [.poll 0, .remit 0 0 true, .topology 0 0 [], .complete 0]

/-- A query after the first event, answered; then the rest of the stream; `QueryFinishConcurrent` has not run. -/
def short : List Act :=
  [.emit, .query, .ctl, .ctl] ++ busy ++ lazy ++
  [.poll 0, .remit 0 0 false, .topology 0 0 [], .complete 0, .ack 0, .ctl, .ctl, .ctl, .ctl, .ctl, .ctl, .ctl, .ctl, .wake 0] ++
  [.emit] ++ busy ++ [.close] ++ ending

theorem short_run : (run (one true) start short).map (fun s => (s.log.length, s.fin, decide (s.pc 0 = .dead))) =
    some (0, some (0, false, 1), true) := by decide +kernel

/-- **C74** is violated by algorithms with `OnFinish` (PageRank): the run may return while the last query is still being
finished. The series is then printed without it; and `Run` has by then normalised the properties it is reading. -/
theorem C74_false : ¬ C74Statement := by
  intro h
  obtain ⟨s, hr, hk⟩ := Option.map_eq_some_iff.1 short_run
  simp only [Prod.mk.injEq, decide_eq_true_eq] at hk
  have := h (one true) (by decide) short s hr (fun t ht => by
    have : t = 0 := by simp only [one] at ht; omega
    exact this ▸ hk.2.2)
  have hl := congrArg List.length this
  rw [List.length_map, hk.1] at hl
  exact absurd hl (by decide)

/-- Two queries, without `OnFinish`, to the end. -/
example : (run (one false) start ([.emit, .query, .ctl, .ctl] ++ busy ++ lazy ++
    [.poll 0, .remit 0 0 false, .topology 0 0 [], .complete 0, .ack 0, .ctl, .ctl, .ctl, .ctl, .ctl, .ctl, .ctl, .wake 0] ++
    [.emit] ++ busy ++ [.query, .ctl, .ctl] ++ lazy ++
    [.poll 0, .remit 0 0 false, .topology 0 0 [], .complete 0, .ack 0, .ctl, .ctl, .ctl, .ctl, .ctl, .ctl, .ctl, .wake 0] ++
    [.close] ++ ending)).map (fun s => (s.log.map (·.asked), decide (s.pc 0 = .dead), s.waiting)) = some ([1, 2], true, false) := by
  decide +kernel

end Verif.Query
