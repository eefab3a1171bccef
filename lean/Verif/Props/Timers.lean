import Verif.Timers
import Verif.Props.Query

/-!
# The timers of a run with queries (C96)

Full statement: no call on the two stopwatches panics; the time `Run` reports is the time from its start without the
stretches in which queries were being answered (`counted`); the `AlgTimeSinceLast` of each query is the time that has
passed, outside these stretches, since the previous query was noted (before it is answered, or with
`AlgTimeIncludeQuery` after the threads have acknowledged it). The last part is false with `AllowAsyncVertexProps`:
what is noted is the time at which the query was taken up, so that `AlgTimeIncludeQuery` has no effect, and the time of
the first query is counted from `Init`.
-/

namespace Verif.Timers

open Verif.Watch (Watch)
open Verif.Query (CPC)

/-! ## Invariant -/

/-- Between a query being taken up and the last acknowledgement. -/
def asking : CPC → Bool
  | .send _ | .await _ => true
  | _ => false

structure Time (o : Opts) (t1 t0 : Int) (s : St) : Prop where
  algp : s.alg.paused = (counted o s || s.took.isSome)
  wallp : s.wall.paused = comparing s
  algt : s.took = none → Watch.elapsed s.alg s.now = s.now - t0 - s.away
  wallt : Watch.elapsed s.wall s.now = s.now - t1 - s.cmpAway
  since : o.allowAsync = false → s.since = s.works ∧ (s.took = none → s.last + s.work = s.now - t0 - s.away)
  gap : o.allowAsync = true → s.runtime + s.span = s.now - t1 - s.cmpAway ∧
    (o.includeQuery = true → asking s.q.ctl = true → s.spans = s.since ++ [s.runtime - s.last]) ∧
    (o.includeQuery = false ∨ asking s.q.ctl = false → s.spans = s.since ∧ s.last = s.runtime)

structure Place (o : Opts) (s : St) : Prop where
  ok : s.fault = false
  cmp : s.cmp ≠ .before → s.q.ctl = .reset
  orc : s.cmp = .during → s.already = true
  fin : s.final = .during → s.already = true
  fin0 : s.took = none → s.final = .before
  over : s.took.isSome = true → s.q.closed = true ∧ s.q.ctl = .idle

structure J (o : Opts) (t1 t0 : Int) (s : St) : Prop where
  q : Query.Inv o.cfg s.q
  place : Place o s
  time : Time o t1 t0 s

theorem j_start (o : Opts) (t1 t0 : Int) : J o t1 t0 (start t1 t0) := by
  refine ⟨Query.inv_start _, ⟨rfl, ?_, ?_, ?_, ?_, ?_⟩, ⟨?_, ?_, ?_, ?_, ?_, ?_⟩⟩ <;>
    simp [start, counted, comparing, Watch.elapsed, Query.start, asking]

theorem place_tick {o : Opts} {s : St} (h : Place o s) (t : Int) : Place o (tick o s t) := ⟨h.1, h.2, h.3, h.4, h.5, h.6⟩

theorem time_tick {o : Opts} {t1 t0 : Int} {s : St} (h : Time o t1 t0 s) (t : Int) : Time o t1 t0 (tick o s t) := by
  obtain ⟨h1, h2, h3, h4, h5, h6⟩ := h
  have c1 : counted o (tick o s t) = counted o s := rfl
  have c2 : comparing (tick o s t) = comparing s := rfl
  refine ⟨by rw [c1]; exact h1, by rw [c2]; exact h2, ?_, ?_, ?_, ?_⟩
  · intro ht
    have h3 := h3 ht
    have ht : s.took = none := ht
    simp only [Watch.elapsed, tick] at h3 ⊢
    rw [ht] at h1
    simp only [Option.isSome_none, Bool.or_false] at h1
    cases hp : counted o s <;> rw [hp] at h1 <;> simp only [h1] at h3 ⊢ <;> simp only [if_true, if_false, Bool.false_eq_true] at h3 ⊢ <;> omega
  · simp only [Watch.elapsed, tick] at h4 ⊢
    cases hp : comparing s <;> rw [hp] at h2 <;> simp only [h2] at h4 ⊢ <;> simp only [if_true, if_false, Bool.false_eq_true] at h4 ⊢ <;> omega
  · intro ha
    refine ⟨(h5 ha).1, fun ht => ?_⟩
    have := (h5 ha).2 ht
    simp only [tick]
    cases counted o s <;> simp only [if_true, if_false, Bool.false_eq_true] <;> omega
  · intro ha
    have := h6 ha
    refine ⟨?_, this.2⟩
    have := this.1
    simp only [tick]
    cases comparing s <;> simp only [if_true, if_false, Bool.false_eq_true] <;> omega

/-! ## Steps of `LogTimeSeries` -/

/-- The places of `LogTimeSeries` one after the other. -/
inductive Next : CPC → CPC → Prop
  | send (i j) : Next (.send i) (.send j)
  | sent (i) : Next (.send i) (.await 0)
  | await (i j) : Next (.await i) (.await j)
  | awaited (i) : Next (.await i) (.view 0)
  | view (i j) : Next (.view i) (.view j)
  | hand (i) : Next (.view i) .hand
  | viewed (i) : Next (.view i) .reset
  | handed : Next .hand .reset
  | reset : Next .reset (.resume 0)
  | resume (i j) : Next (.resume i) (.resume j)
  | resumed (i) : Next (.resume i) .idle

theorem ctl_next {c : Query.Cfg} {q q' : Query.St} (h : Query.ctlStep c q = some q') : Next q.ctl q'.ctl := by
  simp only [Query.ctlStep] at h
  repeat' split at h
  all_goals (try (cases h; done))
  all_goals simp only [Option.some.injEq] at h
  all_goals subst h
  all_goals (rename_i hc; first | (rw [hc]; constructor) | skip)
  all_goals simp_all
  all_goals constructor

theorem ctl_kept {c : Query.Cfg} {q q' : Query.St} {x : Query.Act} (h : Query.step c q x = some q') (h1 : x ≠ .query) (h2 : x ≠ .ctl) :
    q'.ctl = q.ctl := by
  cases x <;> first | exact absurd rfl h1 | exact absurd rfl h2 | skip
  all_goals query_cases h
  all_goals rfl

theorem closed_kept {c : Query.Cfg} {q q' : Query.St} {x : Query.Act} (h : Query.step c q x = some q') (hc : q.closed = true) :
    q'.closed = true := by
  cases x
  all_goals query_cases h
  all_goals first | exact hc | rfl

/-- The graph changes, nothing is called. -/
theorem j_move {o : Opts} {t1 t0 : Int} {s : St} {q : Query.St} (h : J o t1 t0 s) (hq : Query.Inv o.cfg q)
    (hc : s.q.closed = true → q.closed = true) (hi : s.q.ctl = .idle → q.ctl = .idle) (hr : s.q.ctl = .reset → q.ctl = .reset)
    (hk : counted o { s with q := q } = counted o s) (ha : asking q.ctl = asking s.q.ctl) : J o t1 t0 { s with q := q } := by
  obtain ⟨_, ⟨p1, p2, p3, p4, p5, p6⟩, ⟨h1, h2, h3, h4, h5, h6⟩⟩ := h
  refine ⟨hq, ⟨p1, fun x => hr (p2 x), p3, p4, p5, fun x => ⟨hc (p6 x).1, hi (p6 x).2⟩⟩,
    ⟨by rw [hk]; exact h1, h2, h3, h4, h5, fun x => ?_⟩⟩
  dsimp only
  rw [ha]
  exact h6 x

/-- `note`. -/
theorem time_note {o : Opts} {t1 t0 : Int} {s : St} (hf : s.took = none) (hp : o.allowAsync = false → s.alg.paused = false)
    (hc : o.allowAsync = false → counted o s = true) (hca : o.allowAsync = true → s.alg.paused = counted o s)
    (hw : s.wall.paused = comparing s)
    (ht : Watch.elapsed s.alg s.now = s.now - t0 - s.away) (hwt : Watch.elapsed s.wall s.now = s.now - t1 - s.cmpAway)
    (hs : o.allowAsync = false → s.since = s.works ∧ s.last + s.work = s.now - t0 - s.away)
    (hg : o.allowAsync = true → s.runtime + s.span = s.now - t1 - s.cmpAway ∧ s.spans = s.since ++ [s.runtime - s.last] ∧
      (o.includeQuery = false ∨ asking s.q.ctl = false)) :
    Time o t1 t0 (note o s) ∧ (note o s).fault = s.fault := by
  cases ha : o.allowAsync with
  | true =>
    simp only [ha, if_true, note]
    obtain ⟨g1, g2, g3⟩ := hg ha
    refine ⟨⟨?_, hw, fun _ => ht, hwt, fun x => by simp [ha] at x, fun _ => ⟨g1, ?_, fun _ => ⟨g2, rfl⟩⟩⟩, trivial⟩
    · simp only [hf, Option.isSome_none, Bool.or_false]
      exact hca ha
    · intro hi hk
      rcases g3 with g3 | g3
      · rw [hi] at g3; cases g3
      · dsimp only at hk; rw [g3] at hk; cases hk
  | false =>
    have hp := hp ha
    have hs := hs ha
    have e : Watch.pause s.alg s.now = some ({ s.alg with pauseTime := s.now, paused := true }, s.now - s.alg.adjustedTime) := by
      simp [Watch.pause, hp]
    have e2 : s.now - s.alg.adjustedTime = s.now - t0 - s.away := by
      rw [← ht]; simp [Watch.elapsed, hp]
    simp only [note, ha, e, Bool.false_eq_true, if_false]
    refine ⟨⟨?_, hw, fun _ => ?_, hwt, fun _ => ⟨?_, fun _ => ?_⟩, fun x => by simp [ha] at x⟩, trivial⟩
    · have := hc ha
      simp only [counted] at this ⊢
      simp only [this, Bool.true_or]
    · simp only [Watch.elapsed, if_true]; omega
    · have e3 : s.now - s.alg.adjustedTime - s.last = s.work := by omega
      rw [hs.1, e3]
    · dsimp only; omega

theorem note_q (o : Opts) (s : St) : (note o s).q = s.q ∧ (note o s).cmp = s.cmp ∧ (note o s).final = s.final ∧
    (note o s).already = s.already ∧ (note o s).took = s.took := by
  simp only [note]
  split
  · simp
  · split <;> simp

/-- A query is taken up. -/
theorem j_take {o : Opts} {t1 t0 : Int} {s : St} {q : Query.St} (h : J o t1 t0 s) (hq : Query.Inv o.cfg q)
    (h0 : s.q.ctl = .idle) (h1 : s.q.closed = false) (h2 : q.ctl = .send 0) : J o t1 t0 (takeUp o { s with q := q }) := by
  obtain ⟨_, ⟨p1, p2, p3, p4, p5, p6⟩, ⟨a1, a2, a3, a4, a5, a6⟩⟩ := h
  have hf : s.took = none := by
    cases ht : s.took with
    | none => rfl
    | some d => have := (p6 (by rw [ht]; rfl)).1; rw [h1] at this; cases this
  have hb : s.cmp = .before := by
    by_contra hb; have := p2 hb; rw [h0] at this; cases this
  have hcnt : counted o s = false := by
    simp only [counted, h0, hb]; cases o.allowAsync <;> simp
  have hal : s.alg.paused = false := by rw [a1, hcnt, hf]; rfl
  have hfin := p5 hf
  cases hi : o.includeQuery with
  | true =>
    simp only [takeUp, hi, if_true]
    refine ⟨hq, ⟨p1, fun x => absurd hb x, p3, p4, p5, fun x => by simp [hf] at x⟩, ⟨?_, a2, a3, a4, a5, fun ha => ⟨?_, fun _ _ => ?_, fun x => ?_⟩⟩⟩
    · dsimp only
      rw [hal, hf]
      simp only [counted, h2, hb, hi]
      cases o.allowAsync <;> rfl
    · dsimp only; omega
    · dsimp only
      have := a6 ha
      have g := this.2.2 (.inr (by rw [h0]; rfl))
      rw [g.1, g.2, a4]
      congr 2
      omega
    · simp [hi, h2, asking] at x
  | false =>
    simp only [takeUp, hi, Bool.false_eq_true, if_false]
    have n := note_q o { s with q := q, runtime := Watch.elapsed s.wall s.now, spans := s.spans ++ [s.span], span := 0 }
    have := time_note (o := o) (t1 := t1) (t0 := t0)
      (s := { s with q := q, runtime := Watch.elapsed s.wall s.now, spans := s.spans ++ [s.span], span := 0 })
      hf (fun _ => hal) (fun ha => by simp [counted, ha, h2, hb, hi]) (fun ha => by simp [counted, ha, hb, hal]) a2 (a3 hf) a4
      (fun ha => ⟨(a5 ha).1, (a5 ha).2 hf⟩)
      (fun ha => ⟨by dsimp only; omega, by
        have := a6 ha
        have g := this.2.2 (.inl hi)
        dsimp only
        rw [g.1, g.2, a4]; congr 2; omega, .inl hi⟩)
    refine ⟨by rw [n.1]; exact hq, ⟨this.2.trans p1, fun x => ?_, fun x => ?_, fun x => ?_, fun _ => ?_, fun x => ?_⟩, this.1⟩
    · rw [n.2.1] at x; exact absurd hb x
    · rw [n.2.1] at x; dsimp only at x; rw [hb] at x; cases x
    · rw [n.2.2.1] at x; dsimp only at x; rw [hfin] at x; cases x
    · rw [n.2.2.1]; exact hfin
    · rw [n.2.2.2.2] at x; simp [hf] at x

/-- All threads have acknowledged. -/
theorem j_asked {o : Opts} {t1 t0 : Int} {s : St} {q : Query.St} (h : J o t1 t0 s) (hq : Query.Inv o.cfg q)
    {i : Nat} (h0 : s.q.ctl = .await i) (h2 : q.ctl = .view 0) :
    J o t1 t0 (if o.includeQuery then note o { s with q := q } else { s with q := q }) := by
  obtain ⟨_, ⟨p1, p2, p3, p4, p5, p6⟩, ⟨a1, a2, a3, a4, a5, a6⟩⟩ := h
  have hf : s.took = none := by
    cases ht : s.took with
    | none => rfl
    | some d => have := (p6 (by rw [ht]; rfl)).2; rw [h0] at this; cases this
  have hb : s.cmp = .before := by
    by_contra hb; have := p2 hb; rw [h0] at this; cases this
  have hfin := p5 hf
  cases hi : o.includeQuery with
  | false =>
    simp only [Bool.false_eq_true, if_false]
    refine ⟨hq, ⟨p1, fun x => absurd hb x, p3, p4, p5, fun x => by simp [hf] at x⟩, ⟨?_, a2, a3, a4, a5, fun ha => ⟨(a6 ha).1, fun x => ?_, fun _ => (a6 ha).2.2 (.inl hi)⟩⟩⟩
    · dsimp only
      rw [a1]
      simp only [counted, h2, hb, hi, h0]
      cases o.allowAsync <;> rfl
    · rw [hi] at x; cases x
  | true =>
    simp only [if_true]
    have hcnt : counted o s = false := by
      simp only [counted, h0, hb, hi]; cases o.allowAsync <;> simp
    have hal : s.alg.paused = false := by rw [a1, hcnt, hf]; rfl
    have n := note_q o { s with q := q }
    have := time_note (o := o) (t1 := t1) (t0 := t0) (s := { s with q := q })
      hf (fun _ => hal) (fun ha => by simp [counted, ha, h2, hb]) (fun ha => by simp [counted, ha, hb, hal]) a2 (a3 hf) a4
      (fun ha => ⟨(a5 ha).1, (a5 ha).2 hf⟩)
      (fun ha => ⟨(a6 ha).1, (a6 ha).2.1 hi (by rw [h0]; rfl), .inr (by rw [h2]; rfl)⟩)
    refine ⟨by rw [n.1]; exact hq, ⟨this.2.trans p1, fun x => ?_, fun x => ?_, fun x => ?_, fun _ => ?_, fun x => ?_⟩, this.1⟩
    · rw [n.2.1] at x; exact absurd hb x
    · rw [n.2.1] at x; dsimp only at x; rw [hb] at x; cases x
    · rw [n.2.2.1] at x; dsimp only at x; rw [hfin] at x; cases x
    · rw [n.2.2.1]; exact hfin
    · rw [n.2.2.2.2] at x; simp [hf] at x

/-- `RESUME` is next. -/
theorem j_reset {o : Opts} {t1 t0 : Int} {s : St} {q : Query.St} (h : J o t1 t0 s) (hq : Query.Inv o.cfg q)
    (h0 : s.q.ctl = .reset) (hc : s.cmp = .after) (h2 : q.ctl = .resume 0) : J o t1 t0 { s with q := q, cmp := .before } := by
  obtain ⟨_, ⟨p1, p2, p3, p4, p5, p6⟩, ⟨a1, a2, a3, a4, a5, a6⟩⟩ := h
  have hf : s.took = none := by
    cases ht : s.took with
    | none => rfl
    | some d => have := (p6 (by rw [ht]; rfl)).2; rw [h0] at this; cases this
  refine ⟨hq, ⟨p1, fun x => absurd rfl x, fun x => (by cases x), p4, p5, fun x => by simp [hf] at x⟩, ⟨?_, ?_, a3, a4, a5, fun ha => ⟨(a6 ha).1, fun _ x => ?_, fun _ => ?_⟩⟩⟩
  · dsimp only
    rw [a1]
    simp only [counted, h2, hc, h0]
    cases o.allowAsync <;> rfl
  · rw [a2]; simp [comparing, hc]
  · simp [h2, asking] at x
  · exact (a6 ha).2.2 (.inr (by rw [h0]; rfl))

/-- The comparison, or its absence. -/
theorem j_compare {o : Opts} {t1 t0 : Int} {s s' : St} (h : J o t1 t0 s) (h0 : s.q.ctl = .reset)
    (hs : compare o s = some s') : J o t1 t0 s' := by
  obtain ⟨hq, ⟨p1, p2, p3, p4, p5, p6⟩, ⟨a1, a2, a3, a4, a5, a6⟩⟩ := h
  have hf : s.took = none := by
    cases ht : s.took with
    | none => rfl
    | some d => have := (p6 (by rw [ht]; rfl)).2; rw [h0] at this; cases this
  have hfin := p5 hf
  have a3 := a3 hf
  simp only [compare] at hs
  cases hc : s.cmp with
  | after => rw [hc] at hs; cases hs
  | before =>
    have hcnt : counted o s = !o.allowAsync := by
      simp only [counted, h0, hc]; cases o.allowAsync <;> simp
    have hal : s.alg.paused = !o.allowAsync := by rw [a1, hcnt, hf]; simp
    have hw : s.wall.paused = false := by rw [a2]; simp [comparing, hc, hfin]
    simp only [hc] at hs
    simp only [Watch.elapsed, hw, Bool.false_eq_true, if_false] at a4
    cases hor : o.oracle with
    | true =>
      cases ha : o.allowAsync with
      | true =>
        simp only [hor, ha, if_true, cmpBegin, onAlg, onWall, Watch.pause, Bool.not_true, hal, hw, Bool.false_eq_true, not_false_eq_true,
          Option.map_some, Option.some.injEq] at hs
        subst hs
        simp only [Watch.elapsed, hal, ha, Bool.not_true, Bool.false_eq_true, if_false] at a3
        refine ⟨hq, ⟨p1, fun _ => h0, fun _ => rfl, fun _ => rfl, p5, p6⟩, ⟨?_, ?_, fun _ => ?_, ?_, fun x => ?_, fun x => ⟨(a6 ha).1, (a6 ha).2⟩⟩⟩
        · simp [counted, ha]
        · simp [comparing]
        · simp only [Watch.elapsed, if_true]; omega
        · simp only [Watch.elapsed, if_true]; omega
        · rw [ha] at x; cases x
      | false =>
        simp only [hor, ha, if_true, cmpBegin, onWall, Watch.pause, Bool.not_false, hal, hw, Bool.false_eq_true, not_false_eq_true, if_false,
          Option.map_some, Option.some.injEq] at hs
        subst hs
        refine ⟨hq, ⟨p1, fun _ => h0, fun _ => rfl, fun _ => rfl, p5, p6⟩, ⟨?_, ?_, fun _ => ?_, ?_, fun x => a5 x, fun x => ?_⟩⟩
        · simp [counted, ha, hal, h0]
        · simp [comparing]
        · exact a3
        · simp only [Watch.elapsed, if_true]; omega
        · rw [ha] at x; cases x
    | false =>
      cases ha : o.allowAsync with
      | true =>
        simp only [hor, ha, if_true, Bool.false_eq_true, if_false, Option.some.injEq] at hs
        subst hs
        refine ⟨hq, ⟨p1, fun _ => h0, fun x => (by cases x), p4, p5, p6⟩, ⟨?_, ?_, fun _ => a3, ?_, fun x => ?_, fun x => a6 x⟩⟩
        · simp [counted, ha, hal, hf]
        · simp [comparing, hw, hfin]
        · simp only [Watch.elapsed, hw, Bool.false_eq_true, if_false]; exact a4
        · rw [ha] at x; cases x
      | false =>
        simp only [hor, ha, Bool.false_eq_true, if_false, onAlg, Watch.unPause, hal, Bool.not_false, if_true, Option.some.injEq] at hs
        subst hs
        simp only [Watch.elapsed, hal, ha, Bool.not_false, if_true] at a3
        refine ⟨hq, ⟨p1, fun _ => h0, fun x => (by cases x), p4, p5, p6⟩, ⟨?_, ?_, fun _ => ?_, ?_, fun x => a5 x, fun x => ?_⟩⟩
        · simp [counted, ha, hf]
        · simp [comparing, hw, hfin]
        · simp only [Watch.elapsed, Bool.false_eq_true, if_false]; omega
        · simp only [Watch.elapsed, hw, Bool.false_eq_true, if_false]; exact a4
        · rw [ha] at x; cases x
  | during =>
    have hcnt : counted o s = true := by
      simp only [counted, h0, hc]; cases o.allowAsync <;> simp
    have hal : s.alg.paused = true := by rw [a1, hcnt]; rfl
    have hw : s.wall.paused = true := by rw [a2]; simp [comparing, hc]
    simp only [hc, cmpEnd, p3 hc, if_true, onAlg, onWall, Watch.unPause, hal, hw, Option.some.injEq] at hs
    subst hs
    simp only [Watch.elapsed, hal, if_true] at a3
    simp only [Watch.elapsed, hw, if_true] at a4
    refine ⟨hq, ⟨p1, fun _ => h0, fun x => (by cases x), fun _ => rfl, p5, p6⟩, ⟨?_, ?_, fun _ => ?_, ?_, fun x => a5 x, fun x => a6 x⟩⟩
    · simp [counted, hf]
    · simp [comparing, hfin]
    · simp only [Watch.elapsed, Bool.false_eq_true, if_false]; omega
    · simp only [Watch.elapsed, Bool.false_eq_true, if_false]; omega

/-- The end of `Run`. -/
theorem j_finish {o : Opts} {t1 t0 : Int} {s s' : St} (hT : 0 < o.T) (h : J o t1 t0 s) (hs : perform o s .finish = some s') :
    J o t1 t0 s' ∧ s'.took = some (s'.now - t0 - s'.away) := by
  obtain ⟨hq, ⟨p1, p2, p3, p4, p5, p6⟩, ⟨a1, a2, a3, a4, a5, a6⟩⟩ := h
  simp only [perform] at hs
  split at hs
  · rename_i hd
    obtain ⟨hf, hd⟩ := hd
    have hcl : s.q.closed = true := hq.base.dead 0 (hd 0 hT)
    have hid : s.q.ctl = .idle := by
      have h1 := hq.base.wait
      have h2 := hq.base.open_
      cases hw : s.q.waiting with
      | true => rw [h2 hw] at hcl; cases hcl
      | false =>
        rw [hw] at h1
        by_contra hx
        simp [hx] at h1
    have hb : s.cmp = .before := by
      by_contra hb; have := p2 hb; rw [hid] at this; cases this
    have hcnt : counted o s = false := by
      simp only [counted, hid, hb]; cases o.allowAsync <;> simp
    have hal : s.alg.paused = false := by rw [a1, hcnt, hf]; rfl
    have a3 := a3 hf
    simp only [Watch.elapsed, hal, Bool.false_eq_true, if_false] at a3
    simp only [Watch.pause, hal, Bool.false_eq_true, not_false_eq_true, if_true, Option.some.injEq] at hs
    subst hs
    refine ⟨⟨hq, ⟨p1, p2, p3, p4, fun x => (by cases x), fun _ => ⟨hcl, hid⟩⟩, ⟨?_, a2, fun x => (by cases x), a4, fun x => ⟨(a5 x).1, fun y => (by cases y)⟩, a6⟩⟩, ?_⟩
    · simp
    · dsimp only; rw [a3]
  · cases hs

/-- The comparison after the run. -/
theorem j_final {o : Opts} {t1 t0 : Int} {s s' : St} (h : J o t1 t0 s) (hs : perform o s .final = some s') : J o t1 t0 s' := by
  obtain ⟨hq, ⟨p1, p2, p3, p4, p5, p6⟩, ⟨a1, a2, a3, a4, a5, a6⟩⟩ := h
  simp only [perform] at hs
  split at hs
  · rename_i hd
    have hid := (p6 hd.1).2
    have hb : s.cmp = .before := by
      by_contra hb; have := p2 hb; rw [hid] at this; cases this
    have hal : s.alg.paused = true := by rw [a1, hd.1]; simp
    have nt : s.took ≠ none := by intro x; rw [x] at hd; cases hd.1
    cases hf : s.final with
    | after => rw [hf] at hs; cases hs
    | before =>
      have hw : s.wall.paused = false := by rw [a2]; simp [comparing, hb, hf]
      simp only [Watch.elapsed, hw, Bool.false_eq_true, if_false] at a4
      simp only [hf, cmpBegin, onWall, Watch.pause, hw, Bool.false_eq_true, not_false_eq_true, if_true, Option.map_some, hal, Option.some.injEq] at hs
      subst hs
      refine ⟨hq, ⟨p1, p2, fun _ => rfl, fun _ => rfl, fun x => absurd x nt, p6⟩, ⟨?_, ?_, fun x => absurd x nt, ?_, a5, a6⟩⟩
      · simp [hal, hd.1]
      · simp [comparing]
      · simp only [Watch.elapsed, if_true]; omega
    | during =>
      have hw : s.wall.paused = true := by rw [a2]; simp [comparing, hf]
      simp only [Watch.elapsed, hw, if_true] at a4
      simp only [hf, cmpEnd, p4 hf, if_true, onWall, Watch.unPause, hw, Option.some.injEq] at hs
      subst hs
      refine ⟨hq, ⟨p1, p2, fun _ => rfl, fun x => (by cases x), fun x => absurd x nt, p6⟩, ⟨?_, ?_, fun x => absurd x nt, ?_, a5, a6⟩⟩
      · simp [hal, hd.1]
      · simp [comparing, hb]
      · simp only [Watch.elapsed, Bool.false_eq_true, if_false]; omega
  · cases hs

theorem j_act {o : Opts} {t1 t0 : Int} {s s' : St} {x : Query.Act} (h : J o t1 t0 s) (hs : perform o s (.act x) = some s') : J o t1 t0 s' := by
  simp only [perform] at hs
  cases hq : Query.step o.cfg s.q x with
  | none => rw [hq] at hs; cases hs
  | some q =>
    rw [hq] at hs
    simp only [Option.bind_some] at hs
    have hi := Query.inv_step h.q hq
    have hcl := closed_kept hq
    by_cases hx : x = .query
    · subst hx
      simp only [Option.some.injEq] at hs
      subst hs
      query_cases hq
      rename_i hc
      exact j_take h hi hc.2.2.2 hc.2.1 rfl
    by_cases hy : x = .ctl
    · subst hy
      have hn : Next s.q.ctl q.ctl := ctl_next hq
      have hb : s.q.ctl ≠ .reset → s.cmp = .before := fun hr => by
        by_contra hb; exact hr (h.place.cmp hb)
      have hk : s.q.ctl ≠ .idle := by intro e; rw [e] at hn; cases hn
      cases e1 : s.q.ctl with
      | idle => exact absurd e1 hk
      | send i =>
        have hb := hb (by rw [e1]; simp)
        rw [e1] at hn hs
        cases e2 : q.ctl <;> rw [e2] at hn hs <;> simp only [Option.some.injEq] at hs <;> try (cases hn; done)
        all_goals subst hs
        all_goals refine j_move h hi hcl (fun e => by rw [e1] at e; cases e) (fun e => by rw [e1] at e; cases e) ?_ ?_
        all_goals simp [counted, asking, e1, e2]
      | await i =>
        have hb := hb (by rw [e1]; simp)
        rw [e1] at hn hs
        cases e2 : q.ctl <;> rw [e2] at hn hs <;> try (cases hn; done)
        · simp only [Option.some.injEq] at hs
          subst hs
          refine j_move h hi hcl (fun e => by rw [e1] at e; cases e) (fun e => by rw [e1] at e; cases e) ?_ ?_
          all_goals simp [counted, asking, e1, e2]
        · simp only [Option.some.injEq] at hs
          subst hs
          cases hn
          exact j_asked h hi e1 e2
      | view i =>
        have hb := hb (by rw [e1]; simp)
        rw [e1] at hn hs
        cases e2 : q.ctl <;> rw [e2] at hn hs <;> simp only [Option.some.injEq] at hs <;> try (cases hn; done)
        all_goals subst hs
        all_goals refine j_move h hi hcl (fun e => by rw [e1] at e; cases e) (fun e => by rw [e1] at e; cases e) ?_ ?_
        all_goals simp [counted, asking, e1, e2]
      | hand =>
        have hb := hb (by rw [e1]; simp)
        rw [e1] at hn hs
        cases e2 : q.ctl <;> rw [e2] at hn hs <;> simp only [Option.some.injEq] at hs <;> try (cases hn; done)
        all_goals subst hs
        all_goals refine j_move h hi hcl (fun e => by rw [e1] at e; cases e) (fun e => by rw [e1] at e; cases e) ?_ ?_
        all_goals simp [counted, asking, e1, e2]
      | reset =>
        rw [e1] at hn hs
        cases e2 : q.ctl <;> rw [e2] at hn hs <;> try (cases hn; done)
        simp only at hs
        split at hs
        · rename_i hc
          simp only [Option.some.injEq] at hs
          subst hs
          cases hn
          exact j_reset h hi e1 hc e2
        · cases hs
      | resume i =>
        have hb := hb (by rw [e1]; simp)
        rw [e1] at hn hs
        cases e2 : q.ctl <;> rw [e2] at hn hs <;> simp only [Option.some.injEq] at hs <;> try (cases hn; done)
        all_goals subst hs
        all_goals refine j_move h hi hcl (fun e => by rw [e1] at e; cases e) (fun e => by rw [e1] at e; cases e) ?_ ?_
        all_goals simp [counted, asking, e1, e2]
    · have hk := ctl_kept hq hx hy
      have hs : some { s with q := q } = some s' := by
        rw [← hs]
        split <;> first | rfl | exact absurd rfl hx | exact absurd rfl hy
      simp only [Option.some.injEq] at hs
      subst hs
      exact j_move h hi hcl (fun e => hk.trans e) (fun e => hk.trans e) (by simp only [counted, hk]) (by rw [hk])

theorem j_step {o : Opts} (hT : 0 < o.T) {t1 t0 : Int} {s s' : St} {a : Act} {t : Int} (h : J o t1 t0 s) (hs : step o s a t = some s') :
    J o t1 t0 s' := by
  simp only [step] at hs
  split at hs
  · have h : J o t1 t0 (tick o s t) := ⟨h.q, place_tick h.place t, time_tick h.time t⟩
    cases a with
    | act x => exact j_act h hs
    | compare =>
      simp only [perform] at hs
      split at hs
      · rename_i hc
        exact j_compare h hc hs
      · cases hs
    | finish => exact (j_finish hT h hs).1
    | final => exact j_final h hs
  · cases hs

theorem j_run {o : Opts} (hT : 0 < o.T) {t1 t0 : Int} (xs : List (Act × Int)) : ∀ {s s' : St}, J o t1 t0 s → run o s xs = some s' → J o t1 t0 s' := by
  induction xs with
  | nil => intro s s' h hs; simp only [run, Option.some.injEq] at hs; exact hs ▸ h
  | cons x xs ih =>
    intro s s' h hs
    simp only [run] at hs
    cases hx : step o s x.1 x.2 with
    | none => rw [hx] at hs; cases hs
    | some s1 => rw [hx] at hs; exact ih (j_step hT h hx) hs

/-! ## C96 -/

/-- **C96**: no call on a stopwatch panics, whatever the options and the schedule. -/
theorem C96_no_panic {o : Opts} (hT : 0 < o.T) {t1 t0 : Int} {xs : List (Act × Int)} {s : St} (h : run o (start t1 t0) xs = some s) :
    s.fault = false := (j_run hT xs (j_start o t1 t0) h).place.ok

/-- **C96**: the time reported at the end (`Termination:`) is the time since the start without the time in which queries were
being answered. -/
theorem C96_total {o : Opts} (hT : 0 < o.T) {t1 t0 : Int} {xs : List (Act × Int)} {s s' : St} (h : run o (start t1 t0) xs = some s)
    {t : Int} (hf : step o s .finish t = some s') : s'.took = some (t - t0 - s.away) ∧ s'.away = s.away := by
  have hj := j_run hT xs (j_start o t1 t0) h
  have hf' := hf
  simp only [step] at hf
  split at hf
  · have hj : J o t1 t0 (tick o s t) := ⟨hj.q, place_tick hj.place t, time_tick hj.time t⟩
    have := (j_finish hT hj hf).2
    have en : s'.now = t ∧ s'.away = (tick o s t).away := by
      simp only [perform] at hf
      split at hf
      · split at hf <;> simp only [Option.some.injEq] at hf <;> subst hf <;> exact ⟨rfl, rfl⟩
      · cases hf
    have ea : (tick o s t).away = s.away := by
      have hc : counted o s = false := by
        simp only [perform] at hf
        split at hf
        · rename_i hd
          have hcl : s.q.closed = true := hj.q.base.dead 0 (hd.2 0 hT)
          have hid : s.q.ctl = .idle := by
            have h1 := hj.q.base.wait
            have h2 := hj.q.base.open_
            change s.q.waiting = _ at h1
            change s.q.waiting = true → s.q.closed = false at h2
            cases hw : s.q.waiting with
            | true => rw [h2 hw] at hcl; cases hcl
            | false =>
              rw [hw] at h1
              by_contra hx
              have hx : (tick o s t).q.ctl ≠ .idle := hx
              simp [hx] at h1
          have hb : s.cmp = .before := by
            by_contra hb
            have : s.q.ctl = .reset := hj.place.cmp hb
            rw [hid] at this; cases this
          simp only [counted, hid, hb]; cases o.allowAsync <;> simp
        · cases hf
      simp only [tick, hc, Bool.false_eq_true, if_false]
    rw [this, en.1, en.2, ea]
    exact ⟨rfl, rfl⟩
  · cases hf

/-- The last part of C96 in full. -/
def C96Statement : Prop :=
  ∀ (o : Opts) (t1 t0 : Int) (xs : List (Act × Int)) (s : St), 0 < o.T → run o (start t1 t0) xs = some s → s.since = s.works

/-- **C96** (partial): without `AllowAsyncVertexProps` the times of the queries are right. -/
theorem C96_since_partial {o : Opts} (hT : 0 < o.T) (ha : o.allowAsync = false) {t1 t0 : Int} {xs : List (Act × Int)} {s : St}
    (h : run o (start t1 t0) xs = some s) : s.since = s.works := ((j_run hT xs (j_start o t1 t0) h).time.since ha).1

/-- **C96** (partial): with it they are the times between the moments at which queries were taken up, the first
counted from `Init`, without comparisons; with and without `AlgTimeIncludeQuery`. -/
theorem C96_async_partial {o : Opts} (hT : 0 < o.T) (ha : o.allowAsync = true) {t1 t0 : Int} {xs : List (Act × Int)} {s : St}
    (h : run o (start t1 t0) xs = some s) (hk : asking s.q.ctl = false) : s.since = s.spans :=
  (((j_run hT xs (j_start o t1 t0) h).time.gap ha).2.2 (.inr hk)).1.symm

/-- **C96**: `Watch` runs except during comparisons. -/
theorem C96_watch {o : Opts} (hT : 0 < o.T) {t1 t0 : Int} {xs : List (Act × Int)} {s : St} (h : run o (start t1 t0) xs = some s) :
    Watch.elapsed s.wall s.now = s.now - t1 - s.cmpAway := (j_run hT xs (j_start o t1 t0) h).time.wallt

/-! ## Cases -/

/-- PageRank's settings (`lp-pagerank/main.go:20-21`) with `-tquery`. -/
def pr : Opts := ⟨1, 1, fun _ => 0, true, true, true, false, false⟩

/-- `Init` at 0, `Run` at 5; a query is taken up at 10 and acknowledged at 30. -/
def slow : List (Act × Int) :=
  [(.act .emit, 6), (.act .query, 10), (.act .ctl, 10), (.act .ctl, 11), (.act (.poll 0), 20), (.act (.ack 0), 30), (.act .ctl, 30), (.act .ctl, 30)]

theorem slow_run : (run pr (start 0 5) slow).any (fun s => decide (s.since = [10] ∧ s.works = [25])) = true := by decide +kernel

/-- **C96**, negation of the last part. -/
theorem C96_false : ¬ C96Statement := by
  intro h
  obtain ⟨s, hs, hp⟩ := Option.any_eq_true _ _ |>.1 slow_run
  have hp := of_decide_eq_true hp
  have := h pr 0 5 slow s (by decide) hs
  rw [hp.1, hp.2] at this
  exact absurd this (by decide)

/-- One query, from 10 to 60, with a comparison from 40 on; the run ends at 100 and is compared once more. -/
def whole : List (Act × Int) :=
  [(.act .emit, 6), (.act .query, 10), (.act .ctl, 10), (.act .ctl, 11), (.act (.poll 0), 20), (.act (.remit 0 0 false), 20),
   (.act (.topology 0 1 []), 21), (.act (.poll 0), 22), (.act (.remit 0 0 false), 22), (.act (.topology 0 0 []), 22), (.act (.complete 0), 25),
   (.act (.ack 0), 30), (.act .ctl, 30), (.act .ctl, 30), (.act .ctl, 31), (.act .ctl, 32), (.compare, 40), (.compare, 60), (.act .ctl, 61),
   (.act .ctl, 62), (.act (.wake 0), 63), (.act .ctl, 63), (.act .close, 70), (.act (.poll 0), 71), (.act (.remit 0 0 true), 71),
   (.act (.topology 0 0 []), 72), (.act (.complete 0), 80), (.finish, 100), (.final, 110), (.final, 130)]

/-- A case of the theorems above, full convergence for each query. -/
example : (run ⟨1, 1, fun _ => 0, false, false, false, true, false⟩ (start 0 5) whole).any
    (fun s => decide (s.took = some 45 ∧ s.since = [5] ∧ s.away = 50 ∧ s.cmpAway = 40 ∧ s.fault = false)) = true := by decide +kernel

/-- With `AlgTimeIncludeQuery` the time until the acknowledgement at 30 is the algorithm's. -/
example : (run ⟨1, 1, fun _ => 0, false, false, true, true, false⟩ (start 0 5) whole).any
    (fun s => decide (s.took = some 65 ∧ s.since = [25] ∧ s.away = 30)) = true := by decide +kernel

/-- With `AllowAsyncVertexProps` only the comparison is left out. -/
example : (run ⟨1, 1, fun _ => 0, false, true, false, true, false⟩ (start 0 5) whole).any
    (fun s => decide (s.took = some 75 ∧ s.since = [10] ∧ s.spans = [10] ∧ s.away = 20)) = true := by decide +kernel

end Verif.Timers
