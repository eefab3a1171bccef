import Verif.Receive
import Verif.DequeOps

/-!
# Property C07: back-pressure never loses or reorders a notification
-/

namespace Verif.Props.Receive

open Verif.Deque Verif.Receive

variable {N : Type}

/-- Everything still held for the thread: the deque's items, then the queue. -/
def Pending (s : St N) (l : List N) : Prop := ∃ c, Rep s.dq c ∧ l = c ++ s.q

theorem popLoop_spec (z : N) : ∀ (room : Nat) (d : Dq N) (acc c : List N), Rep d c →
    ∃ d' c1 c2, popLoop z room d acc = some (d', acc ++ c1) ∧ c = c1 ++ c2 ∧ Rep d' c2 ∧
      c1.length ≤ room ∧ (c1.length < room → c2 = []) := by
  intro room
  induction room with
  | zero => intro d acc c h; exact ⟨d, [], c, by simp [popLoop], rfl, h, by simp, by simp⟩
  | succ room ih =>
    intro d acc c h
    cases c with
    | nil => exact ⟨d, [], [], by simp [popLoop, tryPopFront_nil z h], rfl, h, by simp, by simp⟩
    | cons x c =>
      obtain ⟨d1, e, h1⟩ := tryPopFront_cons z h
      obtain ⟨d', c1, c2, e2, rfl, h2, hl, hr⟩ := ih (updatePopFront d1) (acc ++ [x]) c h1
      refine ⟨d', x :: c1, c2, ?_, rfl, h2, by simp; omega, ?_⟩
      · simp only [popLoop, e, e2]; simp
      · intro hlt; exact hr (by simp at hlt; omega)

theorem acceptLoop_spec : ∀ (room : Nat) (vis : List Bool) (q acc : List N),
    ∃ q1, (acceptLoop room vis q acc).2.2 = acc ++ q1 ∧ q = q1 ++ (acceptLoop room vis q acc).2.1 ∧
      q1.length ≤ room ∧
      (0 < room → (acceptLoop room vis q acc).2.2 = acc → (accept vis q).1 = none) ∧
      (∀ k, vis = List.replicate k true → q.length ≤ k →
        ∃ k', (acceptLoop room vis q acc).1 = List.replicate k' true ∧ (acceptLoop room vis q acc).2.1.length ≤ k' ∧
          (q1.length < room → (acceptLoop room vis q acc).2.1 = [])) := by
  intro room
  induction room with
  | zero => intro vis q acc; exact ⟨[], by simp [acceptLoop], by simp [acceptLoop], by simp, by omega, fun k hk hq => ⟨k, hk, hq, by simp⟩⟩
  | succ room ih =>
    intro vis q acc
    match vis, q with
    | true :: vis, x :: q =>
      obtain ⟨q1, h1, h2, h3, h4, h5⟩ := ih vis q (acc ++ [x])
      have e : acceptLoop (room + 1) (true :: vis) (x :: q) acc = acceptLoop room vis q (acc ++ [x]) := rfl
      refine ⟨x :: q1, by rw [e, h1]; simp, by rw [e, List.cons_append, ← h2], by simp; omega, ?_, ?_⟩
      · intro _ h; rw [e, h1] at h; simp at h
      · intro k hk hq
        cases k with
        | zero => simp at hk
        | succ k =>
          simp only [List.replicate_succ, List.cons.injEq, true_and] at hk
          obtain ⟨k', g1, g2, g3⟩ := h5 k hk (by simp at hq; omega)
          exact ⟨k', g1, g2, fun h => g3 (by simp at h; omega)⟩
    | true :: vis, [] =>
      refine ⟨[], by simp [acceptLoop, accept], by simp [acceptLoop, accept], by simp, fun _ _ => rfl, ?_⟩
      intro k hk hq
      cases k with
      | zero => simp at hk
      | succ k =>
        simp only [List.replicate_succ, List.cons.injEq, true_and] at hk
        exact ⟨k, hk, by simp [acceptLoop, accept], fun _ => rfl⟩
    | false :: vis, q =>
      refine ⟨[], by simp [acceptLoop, accept], by simp [acceptLoop, accept], by simp, fun _ _ => rfl, ?_⟩
      intro k hk
      cases k <;> simp [List.replicate_succ] at hk
    | [], q =>
      refine ⟨[], by simp [acceptLoop, accept], by simp [acceptLoop, accept], by simp, fun _ _ => rfl, ?_⟩
      intro k hk hq
      cases k with
      | succ k => simp [List.replicate_succ] at hk
      | zero =>
        have : q = [] := by simpa using hq
        subst this
        exact ⟨0, rfl, by simp [acceptLoop, accept], fun _ => rfl⟩

theorem drainLoop_spec (z : N) : ∀ (vis : List Bool) (q : List N) (d : Dq N) (c : List N), Rep d c →
    ∃ d' q1 q2, drainLoop z vis q d = some (d', q2) ∧ q = q1 ++ q2 ∧ Rep d' (c ++ q1) := by
  intro vis
  induction vis with
  | nil => intro q d c h; exact ⟨d, [], q, by simp [drainLoop], rfl, by simpa using h⟩
  | cons b vis ih =>
    intro q d c h
    cases b with
    | false => exact ⟨d, [], q, by simp [drainLoop], rfl, by simpa using h⟩
    | true =>
      cases q with
      | nil => exact ⟨d, [], [], by simp [drainLoop], rfl, by simpa using h⟩
      | cons x q =>
        obtain ⟨⟨d1, e, h1⟩, e2⟩ := pushBack_spec z h x
        obtain ⟨d', q1, q2, e3, rfl, h3⟩ := ih q d1 (c ++ [x]) h1
        exact ⟨d', x :: q1, q2, by simp [drainLoop, e2, e, e3], rfl, by simpa using h3⟩

/-- One call of `ReceiveMessages` with what the caller observes. -/
theorem receive_spec (z : N) (s : St N) (acc : List N) (vis : List Bool) (press : Bool) (l : List N)
    (h : Pending s l) :
    ∃ s' got rest, receive z s acc vis press = some (s', acc ++ got) ∧ l = got ++ rest ∧ Pending s' rest ∧
      got.length ≤ msgMax - acc.length ∧
      (acc.length < msgMax → got = [] → s.dq.len = 0 ∧ (accept vis s.q).1 = none) ∧
      (∀ k, vis = List.replicate k true → s.q.length ≤ k → got.length < msgMax - acc.length → rest = []) := by
  obtain ⟨c, hrep, rfl⟩ := h
  have r1 : ∃ d1 c1 c2, (if s.dq.len ≠ 0 then popLoop z (msgMax - acc.length) s.dq acc else some (s.dq, acc)) = some (d1, acc ++ c1) ∧
      c = c1 ++ c2 ∧ Rep d1 c2 ∧ c1.length ≤ msgMax - acc.length ∧ (c1.length < msgMax - acc.length → c2 = []) := by
    by_cases h0 : s.dq.len ≠ 0
    · rw [if_pos h0]; exact popLoop_spec z _ _ _ _ hrep
    · rw [if_neg h0]
      have : c = [] := length_eq_nil (by rw [← hrep.len]; omega)
      subst this
      exact ⟨s.dq, [], [], by simp, rfl, hrep, by simp, by simp⟩
  obtain ⟨d1, c1, c2, e1, rfl, h1, hl1, hr1⟩ := r1
  obtain ⟨q1, e2, e3, hl2, hidle, hfull⟩ := acceptLoop_spec (msgMax - (acc ++ c1).length) vis s.q (acc ++ c1)
  generalize hal : acceptLoop (msgMax - (acc ++ c1).length) vis s.q (acc ++ c1) = al at *
  obtain ⟨vis', q', acc'⟩ := al
  simp only at e2 e3 hidle hfull
  subst e2
  have r3 : ∃ d' q3 q4, (if press then drainLoop z vis' q' d1 else some (d1, q')) = some (d', q4) ∧ q' = q3 ++ q4 ∧ Rep d' (c2 ++ q3) := by
    by_cases hp : press = true
    · rw [if_pos hp]; exact drainLoop_spec z vis' q' d1 c2 h1
    · rw [if_neg hp]; exact ⟨d1, [], q', rfl, rfl, by simpa using h1⟩
  obtain ⟨d', q3, q4, e5, rfl, h5⟩ := r3
  have hlen : (acc ++ c1).length = acc.length + c1.length := by simp
  -- items are taken from the queue only once the deque is empty
  have hord : q1 = [] ∨ c2 = [] := by
    rcases Nat.lt_or_ge c1.length (msgMax - acc.length) with h | h
    · exact Or.inr (hr1 h)
    · exact Or.inl (length_eq_nil (by omega))
  refine ⟨⟨q4, d'⟩, c1 ++ q1, c2 ++ q3 ++ q4, ?_, ?_, ⟨c2 ++ q3, h5, rfl⟩, ?_, ?_, ?_⟩
  · rw [receive, e1]
    simp only [Option.bind_some]
    rw [hal]
    simp only [e5, Option.map_some, List.append_assoc]
  · rw [e3]
    rcases hord with rfl | rfl <;> simp
  · simp; omega
  · intro hlt hgot
    have hc1 : c1 = [] := by simp at hgot; exact hgot.1
    have hq1 : q1 = [] := by simp at hgot; exact hgot.2
    subst hc1 hq1
    have hc2 : c2 = [] := hr1 (by simp; omega)
    subst hc2
    refine ⟨by simpa using hrep.len, hidle (by simp; omega) (by simp)⟩
  · intro k hk hq hlt
    obtain ⟨k', g1, g2, g3⟩ := hfull k hk hq
    have hq : q3 ++ q4 = [] := g3 (by simp at hlt ⊢; omega)
    have hc2 : c2 = [] := hr1 (by simp at hlt; omega)
    simp at hq
    simp [hc2, hq.1, hq.2]

theorem iterate_spec (z : N) : ∀ (es : List (Env N)) (s : St N) (l : List N), Pending s l →
    ∃ s' gots rest, iterate z s es = some (s', gots) ∧ l ++ (es.map (·.arrive)).flatten = gots.flatten ++ rest ∧
      Pending s' rest ∧ gots.length = es.length ∧ ∀ g ∈ gots, g.length ≤ msgMax := by
  intro es
  induction es with
  | nil => intro s l h; exact ⟨s, [], l, rfl, by simp, h, rfl, by simp⟩
  | cons e es ih =>
    intro s l h
    obtain ⟨c, hr, rfl⟩ := h
    obtain ⟨s1, got, rest, e1, e2, h1, hl, -, -⟩ := receive_spec z { s with q := s.q ++ e.arrive } [] e.vis e.press
      (c ++ (s.q ++ e.arrive)) ⟨c, hr, rfl⟩
    obtain ⟨s', gots, rest', e3, e4, h3, hl3, hb⟩ := ih s1 rest h1
    refine ⟨s', got :: gots, rest', ?_, ?_, h3, by simp [hl3], ?_⟩
    · simp only [List.nil_append] at e1
      rw [iterate, e1]; simp [e3]
    · simp only [List.map_cons, List.flatten_cons, List.append_assoc]
      rw [← e4, ← List.append_assoc got, ← e2]; simp
    · intro g hg
      rcases List.mem_cons.1 hg with rfl | hg
      · simpa using hl
      · exact hb g hg

/-- Start: `NotificationBuff.Init()` (`graph.go:142`), empty queue. -/
def start (d : Dq N) : St N := ⟨[], init d⟩

theorem pending_start (d : Dq N) : Pending (start d) [] :=
  ⟨[], ⟨rfl, rfl, Or.inl ⟨rfl, rfl, rfl⟩⟩, rfl⟩

/-- **C07.** For every pattern of arrivals, visibility and pressure tests: the thread never
panics, no batch exceeds `MSG_MAX`, and what it has processed is a prefix of what arrived in its
queue, in queue order - nothing lost, duplicated, invented or reordered. -/
theorem C07_processed_is_prefix (z : N) (d : Dq N) (es : List (Env N)) :
    ∃ s gots, iterate z (start d) es = some (s, gots) ∧ gots.flatten <+: (es.map (·.arrive)).flatten ∧
      ∀ g ∈ gots, g.length ≤ 1024 := by
  obtain ⟨s, gots, rest, e1, e2, -, -, hb⟩ := iterate_spec z es (start d) [] (pending_start d)
  refine ⟨s, gots, e1, ⟨rest, by simpa using e2.symm⟩, hb⟩

theorem iterate_append (z : N) : ∀ (es fs : List (Env N)) (s s1 : St N) (g : List (List N)), iterate z s es = some (s1, g) →
    iterate z s (es ++ fs) = (iterate z s1 fs).map (fun p => (p.1, g ++ p.2)) := by
  intro es
  induction es with
  | nil => intro fs s s1 g h; simp [iterate] at h; obtain ⟨rfl, rfl⟩ := h; rw [List.nil_append]; cases iterate z s fs <;> simp
  | cons e es ih =>
    intro fs s s1 g h
    rw [List.cons_append, iterate]
    rw [iterate] at h
    rcases hr : receive z { s with q := s.q ++ e.arrive } [] e.vis e.press with _ | ⟨s2, got⟩
    · rw [hr] at h; cases h
    · rw [hr] at h
      simp only at h ⊢
      rcases hi : iterate z s2 es with _ | ⟨s3, g3⟩
      · rw [hi] at h; cases h
      · rw [hi] at h; simp at h; obtain ⟨rfl, rfl⟩ := h
        rw [ih fs s2 s3 g3 hi, Option.map_map]
        cases iterate z s3 fs <;> simp

/-- Nothing stays behind: once arrivals stop and the queue's items are visible, at most as many
further iterations as there are items bring the processed sequence to everything that arrived
(whatever the pressure tests say). -/
theorem C07_all_processed (z : N) (d : Dq N) (es : List (Env N)) (quiet : List Bool) (k : Nat)
    (hk : ((es.map (·.arrive)).flatten).length ≤ k) (hn : ((es.map (·.arrive)).flatten).length ≤ quiet.length) :
    ∃ s gots, iterate z (start d) (es ++ quiet.map (fun p => ⟨[], List.replicate k true, p⟩)) = some (s, gots) ∧
      gots.flatten = (es.map (·.arrive)).flatten := by
  obtain ⟨s, gots, rest, e1, e2, hp, -, -⟩ := iterate_spec z es (start d) [] (pending_start d)
  rw [List.nil_append] at e2
  have key : ∀ (quiet : List Bool) (s : St N) (rest : List N), Pending s rest → rest.length ≤ k → rest.length ≤ quiet.length →
      ∃ s' g, iterate z s (quiet.map (fun p => ⟨[], List.replicate k true, p⟩)) = some (s', g) ∧ g.flatten = rest := by
    intro quiet
    induction quiet with
    | nil =>
      intro s rest _ _ h
      have : rest = [] := by simpa using h
      exact ⟨s, [], rfl, by simp [this]⟩
    | cons b quiet ih =>
      intro s rest hp hk hl
      obtain ⟨s1, got, rest1, f1, f2, hp1, -, hidle, hall⟩ := receive_spec z s [] (List.replicate k true) b rest hp
      have hq : s.q.length ≤ k := by
        obtain ⟨c, -, rfl⟩ := hp
        simp at hk; omega
      have hprog : rest1.length ≤ quiet.length := by
        cases got with
        | nil =>
          have := hall k rfl hq (by simp [msgMax])
          simp [this]
        | cons x got => simp [f2] at hl; omega
      obtain ⟨s', g, g1, g2⟩ := ih s1 rest1 hp1 (by simp [f2] at hk; omega) hprog
      refine ⟨s', got :: g, ?_, by simp [f2, g2]⟩
      simp only [List.map_cons, iterate, List.append_nil]
      simp only [List.nil_append] at f1
      rw [f1]; simp [g1]
  have hr : rest.length ≤ ((es.map (·.arrive)).flatten).length := by rw [e2]; simp
  obtain ⟨s', g, g1, g2⟩ := key quiet s rest hp (by omega) (by omega)
  refine ⟨s', gots ++ g, ?_, by simp [g2, e2]⟩
  rw [iterate_append z es _ (start d) s gots e1, g1]; rfl

/-- An empty batch is a truthful report: the deque was empty and the queue had nothing visible
(this is what the termination check relies on). -/
theorem C07_empty_batch (z : N) (d : Dq N) (es : List (Env N)) (s s' : St N) (gots : List (List N))
    (vis : List Bool) (press : Bool) (h : iterate z (start d) es = some (s, gots))
    (hr : receive z s [] vis press = some (s', [])) :
    gots.flatten ++ s.q = (es.map (·.arrive)).flatten ∧ (accept vis s.q).1 = none := by
  obtain ⟨s0, g0, rest, e1, e2, hp, -, -⟩ := iterate_spec z es (start d) [] (pending_start d)
  rw [h] at e1
  simp at e1
  obtain ⟨rfl, rfl⟩ := e1
  obtain ⟨s1, got, rest1, f1, -, -, -, hidle, -⟩ := receive_spec z s [] vis press rest hp
  rw [hr] at f1
  simp at f1
  obtain ⟨h1, h2⟩ := hidle (by simp [msgMax]) f1.2
  obtain ⟨c, hc, rfl⟩ := hp
  have : c = [] := length_eq_nil (by rw [← hc.len, h1])
  subst this
  exact ⟨by simpa using e2.symm, h2⟩

/-- A case with more arrivals than a batch holds, pressure, and a late item. -/
example : ((iterate 0 (start zeroDq) [⟨List.range 1030, List.replicate 1029 true, true⟩, ⟨[7], [true, true, true], false⟩]).map
    (fun p => (p.2.map List.length, p.1.dq.len, (p.2.getD 1 [])))) =
    some ([1024, 7], 0, [1024, 1025, 1026, 1027, 1028, 1029, 7]) := by decide +kernel

end Verif.Props.Receive
