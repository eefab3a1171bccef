import Verif.PipelineInv
import Verif.Props.Ids
import Mathlib.Data.List.Induction

/-!
# C23, C44, C45, C52, C53: the construction pipeline

The invariant is in `Verif/PipelineInv.lean`. Schedules are lists of actions; a theorem about
`run p stream (start p) as = some s` is about every schedule. Where the race of the remitter's
receive matters, schedules without `remGiveUp` are considered (see `C52_statement_false`).
-/

namespace Verif.Props.Pipeline

open Verif.Pipeline
open Verif.Loader (Typ Ev)

variable {E : Type}

/-! ## C52: order -/

/-- The event as it was in the stream. -/
def strip (r : REv E) : Ev E := ⟨r.typ, r.idx, r.src, r.dst, r.prop⟩

theorem strip_eq {T : Nat} {ths : Nat → Th} {b : List (Ev E)} {e : Ev E} {r : REv E} (h : Conv T ths b e r) : strip r = e := by
  obtain ⟨a1, a2, a3, a4, a5, -, -, -⟩ := h
  simp only [strip, a1, a2, a3, a4, a5]

theorem remitted_strip {p : Params E} {stream : List (Ev E)} {s : St E} (hi : Inv p stream s) :
    s.remitted.length ≤ stream.length ∧ s.remitted.map strip = stream.take s.remitted.length := by
  have hle : s.remitted.length ≤ stream.length := by
    rcases Nat.eq_zero_or_pos s.remitted.length with h | h
    · omega
    · obtain ⟨e, he, -⟩ := hi.remd (s.remitted.length - 1) _ (List.getElem?_eq_getElem (by omega))
      have := lt_of_get he; omega
  refine ⟨hle, ?_⟩
  apply List.ext_getElem?
  intro k
  rw [List.getElem?_map, List.getElem?_take]
  by_cases hk : k < s.remitted.length
  · rw [if_pos hk, List.getElem?_eq_getElem hk]
    obtain ⟨e, he, hc⟩ := hi.remd k _ (List.getElem?_eq_getElem hk)
    rw [he, Option.map_some, strip_eq hc]
  · rw [if_neg hk, List.getElem?_eq_none (by omega)]; rfl

theorem filter_map_strip (T t : Nat) (l : List (REv E)) : (l.filter (ownR T t)).map strip = (l.map strip).filter (ownS T t) := by
  rw [List.filter_map]; rfl

/-- The statement of C52: at any moment, what the remitter has passed on is an initial part of
the stream. -/
def C52Statement : Prop :=
  ∀ (E : Type) (p : Params E) (stream : List (Ev E)) (as : List Act) (s : St E), 0 < p.T →
    run p stream (start p) as = some s → s.remitted.map strip <+: stream

/-- One edge 5 -> 7, one thread: the remitter looks into the empty `ToRemitQueue`; the thread
passes the edge and, the emitter having finished, closes the queue; the remitter sees "closed" and
goes on with an all-zero event. -/
def race : List Act :=
  [.emitPut, .emitOrder, .remTake, .remLook, .emitClose, .emitClose, .convert 0, .threadClose 0, .remGiveUp, .remPut, .remStop, .enact 0]

def oneThread : Params Unit := ⟨1, 1, 1, 1, 1, none, ()⟩

/-- What the race does: the graph gets the edge 0 -> 0 and loses the edge 5 -> 7. -/
theorem C52_race : (run oneThread [⟨.add, 0, 5, 7, ()⟩] (start oneThread) race).map
    (fun s => (s.enacted 0).map (fun x => ((x.2.src, x.2.dst) : UInt32 × UInt32))) = some [(0, 0)] := by decide +kernel

/-- Violated: the race delivers an edge that is not in the stream. -/
theorem C52_statement_false : ¬ C52Statement := by
  intro h
  have hex : ∃ s, run oneThread [⟨.add, 0, 5, 7, ()⟩] (start oneThread) race = some s ∧ s.remitted.map strip = [⟨.add, 0, 0, 0, ()⟩] := by
    refine ⟨_, rfl, ?_⟩
    decide
  obtain ⟨s, h1, h2⟩ := hex
  have := h Unit oneThread [⟨.add, 0, 5, 7, ()⟩] race s (by decide) h1
  rw [h2] at this
  obtain ⟨tl, htl⟩ := this
  simp only [List.cons_append, List.nil_append, List.cons.injEq, Ev.mk.injEq] at htl
  exact absurd htl.1.2.2.1 (by decide)

/-- **C52**, what holds: in every schedule without that race, the remitter passes the events on in
stream order, without loss, duplication or change, and every thread applies exactly its own
sources' events in stream order. Missing for the full statement: schedules with `remGiveUp`. -/
theorem C52_stream_order_partial (p : Params E) (stream : List (Ev E)) (as : List Act) (s : St E) (hn : Act.remGiveUp ∉ as)
    (h : run p stream (start p) as = some s) :
    s.remitted.map strip <+: stream ∧
    ∀ t, (s.enacted t).map (fun x => strip x.2) <+: stream.filter (fun e => decide (owner p.T e.src = t)) := by
  have hi := inv_run p stream as hn (inv_start p stream) h
  obtain ⟨h1, h2⟩ := remitted_strip hi
  have hp : s.remitted.map strip <+: stream := by rw [h2]; exact List.take_prefix _ _
  refine ⟨hp, ?_⟩
  intro t
  have h3 : (s.enacted t).map (fun x => strip x.2) = ((s.topo t).take (s.topoN t)).map strip := by
    rw [← hi.en t, List.map_map]; rfl
  rw [h3, List.map_take, hi.topo t, filter_map_strip]
  refine (List.take_prefix _ _).trans ?_
  exact hp.filter _

/-- C52 (completeness): when the remitter has stopped, it has passed on the whole stream; when the
threads have also emptied their queues, every thread has applied all its events. -/
theorem C52_complete_partial (p : Params E) (stream : List (Ev E)) (as : List Act) (s : St E) (hn : Act.remGiveUp ∉ as)
    (h : run p stream (start p) as = some s) (hs : s.rem = .stopped) :
    s.remitted.map strip = stream ∧
    ∀ t, s.topoN t = (s.topo t).length →
      (s.enacted t).map (fun x => strip x.2) = stream.filter (fun e => decide (owner p.T e.src = t)) := by
  have hi := inv_run p stream as hn (inv_start p stream) h
  obtain ⟨h1, h2⟩ := remitted_strip hi
  have hr := hi.rem
  simp only [RemOk, hs] at hr
  rw [hr.2, List.take_length] at h2
  refine ⟨h2, ?_⟩
  intro t ht
  have h3 : (s.enacted t).map (fun x => strip x.2) = ((s.topo t).take (s.topoN t)).map strip := by
    rw [← hi.en t, List.map_map]; rfl
  rw [h3, ht, List.take_length, hi.topo t, filter_map_strip, h2]
  rfl

/-! ## C23: in-edge positions -/

/-- **C23.** The in-edge position of an added edge is the number of earlier additions to the same
destination in the stream: it does not depend on the schedule or the thread count. Deletions get
no position. -/
theorem C23_position (p : Params E) (stream : List (Ev E)) (as : List Act) (s : St E) (hn : Act.remGiveUp ∉ as)
    (h : run p stream (start p) as = some s) (k : Nat) (r : REv E) (hk : s.remitted[k]? = some r) :
    (r.typ = .add → r.pos = some ((stream.take k).filter (fun e => decide (e.typ = .add) && decide (e.dst = r.dst))).length) ∧
    (r.typ = .del → r.pos = none) := by
  have hi := inv_run p stream as hn (inv_start p stream) h
  obtain ⟨e, he, hc⟩ := hi.remd k r hk
  have hpos := hc.pos
  constructor
  · intro hr
    rw [hpos, if_pos (by rw [← hc.typ]; exact hr), countAdds, List.countP_eq_length_filter, hc.dst]
  · intro hr
    rw [hpos, if_neg (by rw [← hc.typ, hr]; decide)]

theorem positions_range (p : Params E) (stream : List (Ev E)) (ths : Nat → Th) (l : List (REv E)) (d : UInt32)
    (h : ∀ (k : Nat) (r : REv E), l[k]? = some r → ∃ e, stream[k]? = some e ∧ Conv p.T ths (stream.take k) e r) :
    (l.filter (fun r => decide (r.typ = .add) && decide (r.dst = d))).map REv.pos =
      (List.range (countAdds (stream.take l.length) d)).map some := by
  induction l using List.reverseRecOn with
  | nil => simp [countAdds]
  | append_singleton l r ih =>
    have hl : ∀ (k : Nat) (r' : REv E), l[k]? = some r' → ∃ e, stream[k]? = some e ∧ Conv p.T ths (stream.take k) e r' := by
      intro k r' hk
      exact h k r' (by rw [List.getElem?_append_left (lt_of_get hk)]; exact hk)
    obtain ⟨e, he, hc⟩ := h l.length r (by simp)
    rw [List.filter_append, List.map_append, ih hl, List.length_append, List.length_singleton, take_succ_of he, countAdds_snoc,
      ← hc.typ, ← hc.dst]
    by_cases hr : r.typ = .add ∧ r.dst = d
    · have hpos := hc.pos
      rw [if_pos (by rw [← hc.typ]; exact hr.1), ← hc.dst, hr.2] at hpos
      rw [if_pos hr, List.range_succ, List.map_append]
      simp [hr.1, hr.2, hpos]
    · rw [if_neg hr]
      have : (decide (r.typ = .add) && decide (r.dst = d)) = false := by
        simp only [Bool.and_eq_false_iff, decide_eq_false_iff_not]
        by_cases h1 : r.typ = .add
        · exact .inr (fun h2 => hr ⟨h1, h2⟩)
        · exact .inl h1
      simp [this]

/-- **C23** (dense): for every destination the positions of the edges passed on are 0, 1, 2, ... in
this order, without gaps or repetitions. -/
theorem C23_dense (p : Params E) (stream : List (Ev E)) (as : List Act) (s : St E) (hn : Act.remGiveUp ∉ as)
    (h : run p stream (start p) as = some s) (d : UInt32) :
    ∃ m, (s.remitted.filter (fun r => decide (r.typ = .add) && decide (r.dst = d))).map REv.pos = (List.range m).map some := by
  have hi := inv_run p stream as hn (inv_start p stream) h
  exact ⟨_, positions_range p stream s.th s.remitted d hi.remd⟩

/-- C23 (counter): when the remitter has stopped, the in-event counter of every vertex is the
number of additions that have it as destination. -/
theorem C23_counter (p : Params E) (stream : List (Ev E)) (as : List Act) (s : St E) (hn : Act.remGiveUp ∉ as)
    (h : run p stream (start p) as = some s) (hs : s.rem = .stopped) (t i : Nat) (v : Vx) (hv : (s.th t).verts[i]? = some v) :
    v.inPos = (stream.filter (fun e => decide (e.typ = .add) && decide (e.dst = v.raw))).length := by
  have hi := inv_run p stream as hn (inv_start p stream) h
  have hr := hi.rem
  simp only [RemOk, hs] at hr
  have h1 := hi.pos t i v hv
  have ho := ((hi.th t).bwd i v hv).2
  have hf : fetched s = stream.length := by simp [fetched, hs, hr.2]
  have h2 := hi.trN t
  rw [hf, List.take_length] at h2
  have h3 := hi.trLe t
  have h4 := hi.trLen t
  have h5 := hi.feN t
  have h6 : (s.fe t).length ≤ (stream.filter (ownD p.T t)).length := by
    rw [hi.fe t]
    have := (List.take_prefix s.emitted stream).filter (ownD p.T t)
    exact this.length_le
  have h7 : s.fe t = stream.filter (ownD p.T t) := by
    have hpre : s.fe t <+: stream.filter (ownD p.T t) := by
      rw [hi.fe t]; exact (List.take_prefix s.emitted stream).filter (ownD p.T t)
    exact hpre.eq_of_length (by omega)
  rw [h1, List.take_of_length_le (by omega), h7, ← ho, countAdds_filter, countAdds, List.countP_eq_length_filter]

/-! ## C45: one id per raw vertex -/

theorem lookup_ext (th : Th) (raw : UInt32) (n : Nat) : Ext th (lookup th raw n).1 := by
  intro r i hr
  unfold lookup
  cases hm : th.vmap raw with
  | some j => exact hr
  | none =>
    have : r ≠ raw := by intro e; rw [e, hm] at hr; cases hr
    simp only [newVertex, upd_ne _ _ this, hr]

theorem convert_ext {t : Nat} {th th' : Th} {e : Ev E} {r : REv E} (h : convert t th e = some (th', r)) : Ext th th' := by
  unfold convert at h
  have hx := lookup_ext th e.dst e.idx
  generalize lookup th e.dst e.idx = q at h hx
  obtain ⟨th1, i⟩ := q
  simp only at h hx
  cases ht : e.typ with
  | add =>
    rw [ht] at h
    cases hv : th1.verts[i]? with
    | none => rw [hv] at h; cases h
    | some v => rw [hv] at h; injection h with h; injection h with h1 h2; subst h1; exact hx
  | del => rw [ht] at h; injection h with h; injection h with h1 h2; subst h1; exact hx

theorem step_ext {p : Params E} {stream : List (Ev E)} {s s' : St E} (a : Act) (h : step p stream s a = some s') :
    ∀ t, Ext (s.th t) (s'.th t) := by
  have key : s'.th = s.th ∨ ∃ t th, s'.th = upd s.th t th ∧ Ext (s.th t) th := by
    cases a with
    | convert t =>
      simp only [step] at h
      split at h
      · split at h
        · cases h
        · split at h
          · cases h
          · rename_i hc
            injection h with h; subst h
            exact .inr ⟨t, _, rfl, convert_ext hc⟩
      · cases h
    | enact t =>
      simp only [step] at h
      split at h
      · split at h
        · cases h
        · injection h with h; subst h
          exact .inr ⟨t, _, rfl, lookup_ext _ _ _⟩
      · cases h
    | emitPut =>
      simp only [step] at h
      repeat' split at h
      all_goals first | (cases h; done) | (injection h with h; subst h; exact .inl rfl)
    | emitOrder =>
      simp only [step] at h
      repeat' split at h
      all_goals first | (cases h; done) | (injection h with h; subst h; exact .inl rfl)
    | emitClose =>
      simp only [step] at h
      repeat' split at h
      all_goals first | (cases h; done) | (injection h with h; subst h; exact .inl rfl)
    | threadClose t =>
      simp only [step] at h
      repeat' split at h
      all_goals first | (cases h; done) | (injection h with h; subst h; exact .inl rfl)
    | remTake =>
      simp only [step] at h
      repeat' split at h
      all_goals first | (cases h; done) | (injection h with h; subst h; exact .inl rfl)
    | remStop =>
      simp only [step] at h
      repeat' split at h
      all_goals first | (cases h; done) | (injection h with h; subst h; exact .inl rfl)
    | remGet =>
      simp only [step] at h
      repeat' split at h
      all_goals first | (cases h; done) | (injection h with h; subst h; exact .inl rfl)
    | remLook =>
      simp only [step] at h
      repeat' split at h
      all_goals first | (cases h; done) | (injection h with h; subst h; exact .inl rfl)
    | remRetry =>
      simp only [step] at h
      repeat' split at h
      all_goals first | (cases h; done) | (injection h with h; subst h; exact .inl rfl)
    | remGiveUp =>
      simp only [step] at h
      repeat' split at h
      all_goals first | (cases h; done) | (injection h with h; subst h; exact .inl rfl)
    | remPut =>
      simp only [step] at h
      repeat' split at h
      all_goals first | (cases h; done) | (injection h with h; subst h; exact .inl rfl)
    | remQuery =>
      simp only [step] at h
      repeat' split at h
      all_goals first | (cases h; done) | (injection h with h; subst h; exact .inl rfl)
  rcases key with k | ⟨t, th, k, hx⟩
  · intro t; rw [k]; exact Ext.refl _
  · intro t'; rw [k]; exact ext_upd hx t'

theorem run_ext {p : Params E} {stream : List (Ev E)} : ∀ (as : List Act) {s s' : St E}, run p stream s as = some s' →
    ∀ t, Ext (s.th t) (s'.th t) := by
  intro as
  induction as with
  | nil => intro s s' h; injection h with h; subst h; exact fun t => Ext.refl _
  | cons a as ih =>
    intro s s' h t
    obtain ⟨s1, h1, h2⟩ := run_cons h
    exact fun r i hr => ih h2 t r i (step_ext a h1 t r i hr)

/-- **C45** (stable): once a raw id has an internal id it keeps it, whatever happens later. -/
theorem C45_stable (p : Params E) (stream : List (Ev E)) (s s' : St E) (as : List Act) (h : run p stream s as = some s')
    (r : UInt32) (id : Nat × Nat) (hr : fromRaw p s r = some id) : fromRaw p s' r = some id := by
  unfold fromRaw at *
  obtain ⟨i, h1, h2⟩ := Option.map_eq_some_iff.1 hr
  rw [run_ext as h _ _ _ h1, Option.map_some, h2]

/-- The part of the invariant that C45 needs; it holds in all schedules. -/
structure InvT (p : Params E) (s : St E) : Prop where
  th : ∀ t, ThOk p.T t (s.th t)
  fe : ∀ t, ∀ e ∈ s.fe t, owner p.T e.dst = t
  topo : ∀ t, ∀ r ∈ s.topo t, owner p.T r.src = t

theorem convert_ok {T t : Nat} {th th' : Th} {e : Ev E} {r : REv E} (ho : owner T e.dst = t) (h0 : ThOk T t th)
    (h : convert t th e = some (th', r)) : ThOk T t th' := by
  unfold convert at h
  have hx := (lookup_spec h0 e.dst e.idx ho).1
  generalize lookup th e.dst e.idx = q at h hx
  obtain ⟨th1, i⟩ := q
  simp only at h hx
  cases ht : e.typ with
  | add =>
    rw [ht] at h
    cases hv : th1.verts[i]? with
    | none => rw [hv] at h; cases h
    | some v =>
      rw [hv] at h; injection h with h; injection h with h1 h2; subst h1
      constructor
      · intro r j hr
        obtain ⟨w, hw, hwr⟩ := hx.fwd r j hr
        by_cases ej : j = i
        · subst ej
          rw [hv] at hw; injection hw with hw; subst hw
          exact ⟨{ v with inPos := v.inPos + 1 }, by rw [List.getElem?_set_self (lt_of_get hv)], hwr⟩
        · exact ⟨w, by rw [List.getElem?_set_ne (Ne.symm ej)]; exact hw, hwr⟩
      · intro j w hw
        by_cases ej : j = i
        · subst ej
          simp only [List.getElem?_set_self (lt_of_get hv)] at hw
          injection hw with hw; subst hw
          exact hx.bwd j v hv
        · simp only [List.getElem?_set_ne (Ne.symm ej)] at hw
          exact hx.bwd j w hw
  | del => rw [ht] at h; injection h with h; injection h with h1 h2; subst h1; exact hx

theorem invT_step {p : Params E} {stream : List (Ev E)} {s s' : St E} (a : Act) (hi : InvT p s) (h : step p stream s a = some s') :
    InvT p s' := by
  have thUpd : ∀ (t : Nat) (th : Th), ThOk p.T t th → ∀ t', ThOk p.T t' (upd s.th t th t') := by
    intro t th ht t'
    by_cases et : t' = t
    · subst et; rw [upd_same]; exact ht
    · rw [upd_ne _ _ et]; exact hi.th t'
  cases a with
  | emitPut =>
    simp only [step] at h
    split at h
    · cases h
    · rename_i e _
      split at h
      · injection h with h; subst h
        refine ⟨hi.th, ?_, hi.topo⟩
        intro t e' he'
        simp only at he'
        by_cases et : t = owner p.T e.dst
        · subst et
          simp only [upd_same, List.mem_append, List.mem_singleton] at he'
          rcases he' with h1 | h1
          · exact hi.fe _ e' h1
          · rw [h1]
        · simp only [upd_ne _ _ et] at he'
          exact hi.fe t e' he'
      · cases h
  | convert t =>
    simp only [step] at h
    split at h
    · split at h
      · cases h
      · rename_i e he
        split at h
        · cases h
        · rename_i hc
          injection h with h; subst h
          exact ⟨thUpd t _ (convert_ok (hi.fe t e (List.mem_of_getElem? he)) (hi.th t) hc), hi.fe, hi.topo⟩
    · cases h
  | enact t =>
    simp only [step] at h
    split at h
    · split at h
      · cases h
      · rename_i r hr
        injection h with h; subst h
        exact ⟨thUpd t _ (lookup_spec (hi.th t) r.src r.idx (hi.topo t r (List.mem_of_getElem? hr))).1, hi.fe, hi.topo⟩
    · cases h
  | remPut =>
    simp only [step] at h
    split at h
    · rename_i r _
      have key : ∀ t, ∀ r' ∈ upd s.topo (owner p.T r.src) (s.topo (owner p.T r.src) ++ [r]) t, owner p.T r'.src = t := by
        intro t r' hr'
        by_cases et : t = owner p.T r.src
        · subst et
          simp only [upd_same, List.mem_append, List.mem_singleton] at hr'
          rcases hr' with h1 | h1
          · exact hi.topo _ r' h1
          · rw [h1]
        · simp only [upd_ne _ _ et] at hr'
          exact hi.topo t r' hr'
      repeat' split at h
      all_goals first | (cases h; done) | (injection h with h; subst h; exact ⟨hi.th, hi.fe, key⟩)
    · cases h
  | emitOrder =>
    simp only [step] at h
    repeat' split at h
    all_goals first | (cases h; done) | (injection h with h; subst h; exact ⟨hi.th, hi.fe, hi.topo⟩)
  | emitClose =>
    simp only [step] at h
    repeat' split at h
    all_goals first | (cases h; done) | (injection h with h; subst h; exact ⟨hi.th, hi.fe, hi.topo⟩)
  | threadClose t =>
    simp only [step] at h
    repeat' split at h
    all_goals first | (cases h; done) | (injection h with h; subst h; exact ⟨hi.th, hi.fe, hi.topo⟩)
  | remTake =>
    simp only [step] at h
    repeat' split at h
    all_goals first | (cases h; done) | (injection h with h; subst h; exact ⟨hi.th, hi.fe, hi.topo⟩)
  | remStop =>
    simp only [step] at h
    repeat' split at h
    all_goals first | (cases h; done) | (injection h with h; subst h; exact ⟨hi.th, hi.fe, hi.topo⟩)
  | remGet =>
    simp only [step] at h
    repeat' split at h
    all_goals first | (cases h; done) | (injection h with h; subst h; exact ⟨hi.th, hi.fe, hi.topo⟩)
  | remLook =>
    simp only [step] at h
    repeat' split at h
    all_goals first | (cases h; done) | (injection h with h; subst h; exact ⟨hi.th, hi.fe, hi.topo⟩)
  | remRetry =>
    simp only [step] at h
    repeat' split at h
    all_goals first | (cases h; done) | (injection h with h; subst h; exact ⟨hi.th, hi.fe, hi.topo⟩)
  | remGiveUp =>
    simp only [step] at h
    repeat' split at h
    all_goals first | (cases h; done) | (injection h with h; subst h; exact ⟨hi.th, hi.fe, hi.topo⟩)
  | remQuery =>
    simp only [step] at h
    repeat' split at h
    all_goals first | (cases h; done) | (injection h with h; subst h; exact ⟨hi.th, hi.fe, hi.topo⟩)

theorem invT_run {p : Params E} {stream : List (Ev E)} : ∀ (as : List Act) {s s' : St E}, InvT p s →
    run p stream s as = some s' → InvT p s' := by
  intro as
  induction as with
  | nil => intro s s' hi h; injection h with h; subst h; exact hi
  | cons a as ih =>
    intro s s' hi h
    obtain ⟨s1, h1, h2⟩ := run_cons h
    exact ih (invT_step a hi h1) h2

theorem invT_start (p : Params E) : InvT p (start p) :=
  ⟨fun t => ⟨by simp [start], by simp [start]⟩, by simp [start], by simp [start]⟩

/-- The part of the invariant that C23 needs; it holds in all schedules. -/
structure InvC (p : Params E) (stream : List (Ev E)) (s : St E) : Prop where
  em3 : s.emitted ≤ stream.length
  fe : ∀ t, s.fe t = (stream.take s.emitted).filter (ownD p.T t)
  feN : ∀ t, s.feN t ≤ (s.fe t).length
  trLen : ∀ t, (s.tr t).length = s.feN t
  tr : ∀ t i e r, (s.fe t)[i]? = some e → (s.tr t)[i]? = some r → Conv p.T s.th ((s.fe t).take i) e r
  pos : ∀ t, PosOk (s.th t) ((s.fe t).take (s.feN t))
  known : ∀ t, Known (s.th t) ((s.fe t).take (s.feN t))

theorem invC_step {p : Params E} {stream : List (Ev E)} {s s' : St E} (a : Act) (ht : InvT p s) (hi : InvC p stream s)
    (h : step p stream s a = some s') : InvC p stream s' := by
  cases a with
  | emitPut =>
    simp only [step] at h
    cases he : stream[s.emitted]? with
    | none => rw [he] at h; cases h
    | some e =>
      rw [he] at h; simp only at h
      split at h
      · rename_i hc
        injection h with h; subst h
        have hlt := lt_of_get he
        have hfe : ∀ t, upd s.fe (owner p.T e.dst) (s.fe (owner p.T e.dst) ++ [e]) t = s.fe t ++ (if owner p.T e.dst = t then [e] else []) := by
          intro t
          by_cases et : t = owner p.T e.dst
          · subst et; simp
          · rw [upd_ne _ _ et, if_neg (Ne.symm et)]; simp
        have hpre : ∀ t, (upd s.fe (owner p.T e.dst) (s.fe (owner p.T e.dst) ++ [e]) t).take (s.feN t) = (s.fe t).take (s.feN t) := by
          intro t; rw [hfe, List.take_append_of_le_length (hi.feN t)]
        refine { hi with
          em3 := by simp only; omega
          fe := ?_, feN := ?_, tr := ?_, pos := ?_, known := ?_ }
        · intro t
          simp only
          rw [hfe, take_succ_of he, List.filter_append, hi.fe t]
          congr 1
          by_cases et : owner p.T e.dst = t <;> simp [ownD, et]
        · intro t; simp only; rw [hfe]; have := hi.feN t; simp; omega
        · intro t i e' r h1 h2
          simp only at h1 h2 ⊢
          have hir := lt_of_get h2
          rw [hi.trLen] at hir
          have hle := hi.feN t
          rw [hfe, List.getElem?_append_left (by omega)] at h1
          rw [hfe, List.take_append_of_le_length (by omega)]
          exact hi.tr t i e' r h1 h2
        · intro t; simp only; rw [hpre]; exact hi.pos t
        · intro t; simp only; rw [hpre]; exact hi.known t
      · cases h
  | convert t =>
    simp only [step] at h
    split at h
    · rename_i hc
      cases he : (s.fe t)[s.feN t]? with
      | none => rw [he] at h; cases h
      | some e =>
        rw [he] at h; simp only at h
        have hown : owner p.T e.dst = t := ht.fe t e (List.mem_of_getElem? he)
        obtain ⟨th', r, e1, h1, h2, h3, h4, h5⟩ := convert_spec (ht.th t) e hown (hi.pos t) (hi.known t)
        rw [e1] at h; simp only at h
        injection h with h; subst h
        have hlt := lt_of_get he
        have hext := ext_upd (f := s.th) h2
        refine { hi with
          feN := ?_, trLen := ?_, tr := ?_, pos := ?_, known := ?_ }
        · intro t'
          by_cases et : t' = t
          · subst et; simp only [upd_same]; omega
          · simp only [upd_ne _ _ et]; exact hi.feN t'
        · intro t'
          by_cases et : t' = t
          · subst et; simp only [upd_same, List.length_append, List.length_singleton, hi.trLen]
          · simp only [upd_ne _ _ et]; exact hi.trLen t'
        · intro t' i e' r' g1 g2
          simp only at g1 g2 ⊢
          by_cases et : t' = t
          · subst et
            simp only [upd_same] at g2
            by_cases hil : i < (s.tr t').length
            · rw [List.getElem?_append_left hil] at g2
              exact (hi.tr t' i e' r' g1 g2).mono hext
            · have := lt_of_get g2
              simp only [List.length_append, List.length_singleton] at this
              obtain rfl : i = (s.tr t').length := by omega
              rw [List.getElem?_concat_length] at g2
              injection g2 with g2; subst g2
              rw [hi.trLen] at g1 ⊢
              rw [he] at g1; injection g1 with g1; subst g1
              exact h5 _ (by rw [upd_same])
          · simp only [upd_ne _ _ et] at g2
            exact (hi.tr t' i e' r' g1 g2).mono hext
        · intro t'
          by_cases et : t' = t
          · subst et; simp only [upd_same]; rw [take_succ_of he]; exact h3
          · simp only [upd_ne _ _ et]; exact hi.pos t'
        · intro t'
          by_cases et : t' = t
          · subst et; simp only [upd_same]; rw [take_succ_of he]; exact h4
          · simp only [upd_ne _ _ et]; exact hi.known t'
    · cases h
  | enact t =>
    simp only [step] at h
    split at h
    · cases hg : (s.topo t)[s.topoN t]? with
      | none => rw [hg] at h; cases h
      | some r =>
        rw [hg] at h; simp only at h
        injection h with h; subst h
        have hown : owner p.T r.src = t := ht.topo t r (List.mem_of_getElem? hg)
        obtain ⟨h1, h2, h3, -⟩ := lookup_spec (ht.th t) r.src r.idx hown
        have hext := ext_upd (f := s.th) h2
        refine { hi with tr := ?_, pos := ?_, known := ?_ }
        · intro t' i e' r' g1 g2
          exact (hi.tr t' i e' r' g1 g2).mono hext
        · intro t'
          by_cases et : t' = t
          · subst et; simp only [upd_same]; exact lookup_pos (ht.th t') r.src r.idx hown (hi.pos t') (hi.known t')
          · simp only [upd_ne _ _ et]; exact hi.pos t'
        · intro t'; exact (hi.known t').mono (hext t')
    · cases h
  | emitOrder =>
    simp only [step] at h
    repeat' split at h
    all_goals first | (cases h; done) | (injection h with h; subst h; exact ⟨hi.em3, hi.fe, hi.feN, hi.trLen, hi.tr, hi.pos, hi.known⟩)
  | emitClose =>
    simp only [step] at h
    repeat' split at h
    all_goals first | (cases h; done) | (injection h with h; subst h; exact ⟨hi.em3, hi.fe, hi.feN, hi.trLen, hi.tr, hi.pos, hi.known⟩)
  | threadClose t =>
    simp only [step] at h
    repeat' split at h
    all_goals first | (cases h; done) | (injection h with h; subst h; exact ⟨hi.em3, hi.fe, hi.feN, hi.trLen, hi.tr, hi.pos, hi.known⟩)
  | remTake =>
    simp only [step] at h
    repeat' split at h
    all_goals first | (cases h; done) | (injection h with h; subst h; exact ⟨hi.em3, hi.fe, hi.feN, hi.trLen, hi.tr, hi.pos, hi.known⟩)
  | remStop =>
    simp only [step] at h
    repeat' split at h
    all_goals first | (cases h; done) | (injection h with h; subst h; exact ⟨hi.em3, hi.fe, hi.feN, hi.trLen, hi.tr, hi.pos, hi.known⟩)
  | remGet =>
    simp only [step] at h
    repeat' split at h
    all_goals first | (cases h; done) | (injection h with h; subst h; exact ⟨hi.em3, hi.fe, hi.feN, hi.trLen, hi.tr, hi.pos, hi.known⟩)
  | remLook =>
    simp only [step] at h
    repeat' split at h
    all_goals first | (cases h; done) | (injection h with h; subst h; exact ⟨hi.em3, hi.fe, hi.feN, hi.trLen, hi.tr, hi.pos, hi.known⟩)
  | remRetry =>
    simp only [step] at h
    repeat' split at h
    all_goals first | (cases h; done) | (injection h with h; subst h; exact ⟨hi.em3, hi.fe, hi.feN, hi.trLen, hi.tr, hi.pos, hi.known⟩)
  | remGiveUp =>
    simp only [step] at h
    repeat' split at h
    all_goals first | (cases h; done) | (injection h with h; subst h; exact ⟨hi.em3, hi.fe, hi.feN, hi.trLen, hi.tr, hi.pos, hi.known⟩)
  | remPut =>
    simp only [step] at h
    repeat' split at h
    all_goals first | (cases h; done) | (injection h with h; subst h; exact ⟨hi.em3, hi.fe, hi.feN, hi.trLen, hi.tr, hi.pos, hi.known⟩)
  | remQuery =>
    simp only [step] at h
    repeat' split at h
    all_goals first | (cases h; done) | (injection h with h; subst h; exact ⟨hi.em3, hi.fe, hi.feN, hi.trLen, hi.tr, hi.pos, hi.known⟩)

theorem invC_run {p : Params E} {stream : List (Ev E)} : ∀ (as : List Act) {s s' : St E}, InvT p s → InvC p stream s →
    run p stream s as = some s' → InvC p stream s' := by
  intro as
  induction as with
  | nil => intro s s' _ hi h; injection h with h; subst h; exact hi
  | cons a as ih =>
    intro s s' ht hi h
    obtain ⟨s1, h1, h2⟩ := run_cons h
    exact ih (invT_step a ht h1) (invC_step a ht hi h1) h2

theorem invC_start (p : Params E) (stream : List (Ev E)) : InvC p stream (start p) := by
  refine ⟨by simp [start], by simp [start], by simp [start], by simp [start], by simp [start], ?_, ?_⟩
  · intro t i v h; simp [start] at h
  · intro t e h; simp [start] at h

/-- **C23**, in every schedule, at the place where positions are handed out. Thread `t` has
passed on a prefix of the stream's events with a destination of its own, in stream order and
otherwise unchanged. The position of the `j`-th of them is, for an addition, the number of
additions to the same destination among the earlier ones; a deletion gets none. -/
theorem C23_handed_out (p : Params E) (stream : List (Ev E)) (as : List Act) (s : St E)
    (h : run p stream (start p) as = some s) (t : Nat) :
    (s.tr t).map strip <+: stream.filter (fun e => decide (owner p.T e.dst = t)) ∧
    ∀ (j : Nat) (r : REv E), (s.tr t)[j]? = some r →
      (r.typ = .add → r.pos = some (((s.tr t).take j).filter (fun r' => decide (r'.typ = .add) && decide (r'.dst = r.dst))).length) ∧
      (r.typ = .del → r.pos = none) := by
  have hi := invC_run as (invT_start p) (invC_start p stream) h
  have hmap : (s.tr t).map strip = (s.fe t).take (s.feN t) := by
    apply List.ext_getElem?
    intro i
    rw [List.getElem?_map]
    by_cases hl : i < s.feN t
    · have h1 : i < (s.tr t).length := by rw [hi.trLen]; exact hl
      have h2 : i < (s.fe t).length := by have := hi.feN t; omega
      rw [List.getElem?_take, if_pos hl, List.getElem?_eq_getElem h1, List.getElem?_eq_getElem h2, Option.map_some]
      have hc := hi.tr t i _ _ (List.getElem?_eq_getElem h2) (List.getElem?_eq_getElem h1)
      rw [strip_eq hc]
    · rw [List.getElem?_eq_none (by rw [hi.trLen]; omega), List.getElem?_eq_none (by rw [List.length_take]; omega)]; rfl
  constructor
  · rw [hmap, hi.fe t]
    refine (List.take_prefix _ _).trans ?_
    exact (List.take_prefix _ _).filter _
  · intro j r hj
    have h1 := lt_of_get hj
    rw [hi.trLen] at h1
    have h2 : j < (s.fe t).length := by have := hi.feN t; omega
    have hc := hi.tr t j _ _ (List.getElem?_eq_getElem h2) hj
    constructor
    · intro hr
      rw [hc.pos, if_pos (by rw [← hc.typ]; exact hr)]
      have hpre : (s.fe t).take j = ((s.tr t).take j).map strip := by
        rw [List.map_take, hmap, List.take_take, Nat.min_eq_left (by omega)]
      rw [hpre, countAdds, List.countP_map, List.countP_eq_length_filter]
      congr 2
      apply List.filter_congr
      intro r' _
      simp only [Function.comp, strip]
      rw [hc.dst]; rfl
    · intro hr
      rw [hc.pos, if_neg (by rw [← hc.typ, hr]; decide)]

/-- **C45.** In every schedule at every moment: internal ids and raw ids correspond one to one;
the id names the thread that owns the raw id. -/
theorem C45_one_id (p : Params E) (stream : List (Ev E)) (as : List Act) (s : St E) (h : run p stream (start p) as = some s)
    (r : UInt32) (id : Nat × Nat) : fromRaw p s r = some id ↔ rawId s id = some r ∧ id.1 = owner p.T r := by
  have hi := invT_run as (invT_start p) h
  unfold fromRaw rawId
  constructor
  · intro hr
    obtain ⟨i, h1, rfl⟩ := Option.map_eq_some_iff.1 hr
    obtain ⟨v, h2, h3⟩ := (hi.th _).fwd r i h1
    exact ⟨by simp only; rw [h2, Option.map_some, h3], rfl⟩
  · rintro ⟨h1, h2⟩
    obtain ⟨v, h3, h4⟩ := Option.map_eq_some_iff.1 h1
    obtain ⟨h5, h6⟩ := (hi.th id.1).bwd id.2 v h3
    rw [← h4, h6, h5]; rfl

/-- C45 (every vertex is on its owner's thread). -/
theorem C45_owner (p : Params E) (stream : List (Ev E)) (as : List Act) (s : St E) (h : run p stream (start p) as = some s)
    (id : Nat × Nat) (r : UInt32) (hr : rawId s id = some r) : id.1 = owner p.T r := by
  have hi := invT_run as (invT_start p) h
  obtain ⟨v, h3, h4⟩ := Option.map_eq_some_iff.1 hr
  rw [← h4]; exact ((hi.th id.1).bwd id.2 v h3).2.symm

/-- C45 (applied events refer to the right vertices): the source index stored with an applied
event and the destination id inside it are the ids of its raw endpoints. -/
theorem C45_endpoints (p : Params E) (stream : List (Ev E)) (as : List Act) (s : St E) (hn : Act.remGiveUp ∉ as)
    (h : run p stream (start p) as = some s) (t i : Nat) (r : REv E) (hr : (i, r) ∈ s.enacted t) :
    fromRaw p s r.src = some (t, i) ∧ fromRaw p s r.dst = some r.didx := by
  have hi := inv_run p stream as hn (inv_start p stream) h
  have hmem : r ∈ s.topo t := by
    have : r ∈ (s.enacted t).map Prod.snd := List.mem_map.2 ⟨_, hr, rfl⟩
    rw [hi.en t] at this
    exact List.mem_of_mem_take this
  rw [hi.topo t, List.mem_filter] at hmem
  have ho : owner p.T r.src = t := by simpa [ownR] using hmem.2
  constructor
  · unfold fromRaw; rw [ho, hi.enS t i r hr]; rfl
  · obtain ⟨k, hk⟩ := List.getElem?_of_mem hmem.1
    obtain ⟨e, he, hc⟩ := hi.remd k r hk
    unfold fromRaw
    rw [hc.dst, hc.vertex, Option.map_some, ← hc.thread]

/-- C45 (as 32-bit ids): with at most 32 threads and fewer than 2^27 vertices per thread, two raw
ids with the same 32-bit internal id are equal. -/
theorem C45_encoded (p : Params E) (stream : List (Ev E)) (as : List Act) (s : St E) (h : run p stream (start p) as = some s)
    (hT : 0 < p.T) (hT2 : p.T ≤ 32) (hv : ∀ t, (s.th t).verts.length < 2 ^ 27) (r r' : UInt32) (id id' : Nat × Nat)
    (h1 : fromRaw p s r = some id) (h2 : fromRaw p s r' = some id')
    (he : Ids.newVidx (UInt32.ofNat id.1) (UInt32.ofNat id.2) = Ids.newVidx (UInt32.ofNat id'.1) (UInt32.ofNat id'.2)) : r = r' := by
  have bound : ∀ (r : UInt32) (id : Nat × Nat), fromRaw p s r = some id → id.1 < 32 ∧ id.2 < 2 ^ 27 ∧ rawId s id = some r := by
    intro r id hr
    obtain ⟨a, b⟩ := (C45_one_id p stream as s h r id).1 hr
    refine ⟨?_, ?_, a⟩
    · rw [b]; have : owner p.T r < p.T := Nat.mod_lt _ hT; omega
    · obtain ⟨v, c, -⟩ := Option.map_eq_some_iff.1 a
      have := lt_of_get c
      have := hv id.1; omega
  obtain ⟨a1, a2, a3⟩ := bound r id h1
  obtain ⟨b1, b2, b3⟩ := bound r' id' h2
  have tn : ∀ n, n < 2 ^ 27 → (UInt32.ofNat n).toNat = n := by
    intro n hn
    exact UInt32.toNat_ofNat_of_lt' (by simp only [UInt32.size]; omega)
  have := Verif.Props.Ids.C18_id_injective (UInt32.ofNat id.1) (UInt32.ofNat id.2) (UInt32.ofNat id'.1) (UInt32.ofNat id'.2)
    (by rw [tn _ (by omega)]; exact a1) (by rw [tn _ a2]; exact a2)
    (by rw [tn _ (by omega)]; exact b1) (by rw [tn _ b2]; exact b2) he
  have e1 := congrArg UInt32.toNat this.1
  have e2 := congrArg UInt32.toNat this.2
  rw [tn _ (by omega), tn _ (by omega)] at e1 e2
  have : id = id' := Prod.ext e1 e2
  rw [this, b3] at a3
  injection a3 with a3; exact a3.symm

/-! ## Examples -/

/-- Two threads, three edges (5 -> 7, 6 -> 7, 7 -> 5). -/
def twoThreads : Params Unit := ⟨2, 4, 4, 4, 4, some 2, ()⟩

def three : List (Ev Unit) := [⟨.add, 0, 5, 7, ()⟩, ⟨.add, 1, 6, 7, ()⟩, ⟨.add, 2, 7, 5, ()⟩]

def exAs : List Act :=
  [.emitPut, .emitOrder, .emitPut, .convert 1, .remTake, .remGet, .remPut, .enact 1, .emitOrder, .emitPut, .emitOrder,
   .convert 1, .convert 1, .remTake, .remGet, .remPut, .enact 0, .remQuery, .emitClose, .emitClose, .emitClose,
   .remTake, .remGet, .remPut, .remStop, .enact 1]

example : (run twoThreads three (start twoThreads) exAs).map (fun s => s.remitted.map REv.pos) = some [some 0, some 1, some 0] := by
  decide +kernel

example : (run twoThreads three (start twoThreads) exAs).map (fun s => (s.enacted 1).map Prod.fst) = some [1, 0] := by
  decide +kernel

example : (run twoThreads three (start twoThreads) exAs).map (fun s => s.queries) = some [(2, [1, 1])] := by
  decide +kernel

end Verif.Props.Pipeline
