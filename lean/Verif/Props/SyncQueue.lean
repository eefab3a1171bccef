import Verif.Props.Sync
import Mathlib.Algebra.BigOperators.Group.Finset.Basic
import Mathlib.Algebra.Order.BigOperators.Group.Finset
import Mathlib.Algebra.BigOperators.Ring.Finset

/-!
# The notification queue in synchronous execution (C58)

`ConvergeSync` takes one notification out of its queue for every vertex it finds active and relies on it
being there (`run-sync.go:33`, "must exist, should discard"). The sender activates the vertex first and
puts the notification afterwards, so that it may not be there yet; it is then left over.
-/

namespace Verif.Props.Sync

open Verif
open Verif.Async (Edge Alg Task)
open Verif.Sync

variable {P M N E : Type}

/-- A notification for a vertex of thread `t` is about to be put. -/
def puts (c : Cfg M) (t : Nat) : Task P M N E → Nat
  | .put _ w _ _ => if c.own w = t then 1 else 0
  | _ => 0

/-- Notifications for vertices of thread `t` about to be put. -/
def onWay (c : Cfg M) (task : Nat → Task P M N E) (t : Nat) : Nat := (Finset.range c.T).sum fun u => puts c t (task u)

/-- An active vertex of thread `t`. -/
def live (c : Cfg M) (t : Nat) (x : Int) (v : Nat) : Nat := if c.own v = t ∧ x ≠ 0 then 1 else 0

/-- Number of active vertices of thread `t`. -/
def active (c : Cfg M) (act : Nat → Int) (t : Nat) : Nat := (Finset.range c.n).sum fun v => live c t (act v) v

theorem sum_change {n i : Nat} {f g : Nat → Nat} (hi : i < n) (h : ∀ u, u ≠ i → f u = g u) :
    (Finset.range n).sum f + g i = (Finset.range n).sum g + f i := by
  have h1 : f i + ((Finset.range n).erase i).sum f = (Finset.range n).sum f :=
    Finset.add_sum_erase (Finset.range n) f (Finset.mem_range.2 hi)
  have h2 : g i + ((Finset.range n).erase i).sum g = (Finset.range n).sum g :=
    Finset.add_sum_erase (Finset.range n) g (Finset.mem_range.2 hi)
  have h3 : ((Finset.range n).erase i).sum f = ((Finset.range n).erase i).sum g :=
    Finset.sum_congr rfl fun u hu => h u (Finset.ne_of_mem_erase hu)
  omega

theorem onWay_upd (c : Cfg M) (task : Nat → Task P M N E) {i : Nat} (hi : i < c.T) (k : Task P M N E) (t : Nat) :
    onWay c (upd task i k) t + puts c t (task i) = onWay c task t + puts c t k := by
  have := sum_change (f := fun u => puts c t (upd task i k u)) (g := fun u => puts c t (task u)) hi
    (fun u hu => by simp only [upd_ne _ _ hu])
  simp only [upd_same] at this
  exact this

theorem active_upd (c : Cfg M) (act : Nat → Int) {v : Nat} (hv : v < c.n) (x : Int) (t : Nat) :
    active c (upd act v x) t + live c t (act v) v = active c act t + live c t x v := by
  have := sum_change (f := fun u => live c t (upd act v x u) u) (g := fun u => live c t (act u) u) hv
    (fun u hu => by simp only [upd_ne _ _ hu])
  simp only [upd_same] at this
  exact this

theorem onWay_idle (c : Cfg M) (task : Nat → Task P M N E) (h : ∀ u, u < c.T → task u = .idle) (t : Nat) : onWay c task t = 0 :=
  Finset.sum_eq_zero fun u hu => by rw [h u (Finset.mem_range.1 hu)]; rfl

theorem active_pos (c : Cfg M) (act : Nat → Int) {v : Nat} (hv : v < c.n) (h : act v ≠ 0) : 0 < active c act (c.own v) := by
  have h1 : live c (c.own v) (act v) v ≤ active c act (c.own v) :=
    Finset.single_le_sum (s := Finset.range c.n) (f := fun u => live c (c.own v) (act u) u) (fun _ _ => Nat.zero_le _) (Finset.mem_range.2 hv)
  simp only [live, h, ne_eq, not_false_eq_true, and_self, if_true] at h1
  omega

section
variable {a : Alg P M N E} {c : Cfg M} {s s' : St P M N E} {x : Act}

/-- Notifications go to vertices of the graph. -/
structure Low (c : Cfg M) (s : St P M N E) : Prop where
  task : ∀ t, (s.task t).Below c.n
  dst : ∀ v e, e ∈ s.edges v → e.dst < c.n

theorem low_step (ha : Async.Local a c.n) (h : Low c s) (hs : step a c s x = some s') : Low c s' := by
  refine ⟨?_, by rw [edges_step hs]; exact h.dst⟩
  have h1 := h.task
  have h2 := ha.upd
  have h3 := h.dst
  clear h ha
  sync_cases hs
  all_goals grind [upd, Async.Task.Below, Async.Prog.Below]

/-- One notification in the queue or on its way for every active vertex of the thread. -/
def Exact (c : Cfg M) (s : St P M N E) : Prop := ∀ t, (s.queue t).length + onWay c s.task t = active c s.act t

theorem exact_step (hc : c.Ok) (hp : c.prev = true) (hi : Inv c s) (hl : Low c s) (h : Exact c s) (hs : step a c s x = some s') : Exact c s' := by
  intro t
  have h0 := h t
  have h1 := fun i hi k => onWay_upd c s.task (i := i) hi k t
  have h2 := fun v hv x => active_upd c s.act (v := v) hv x t
  have h3 := hl.task
  have h4 := hi.uniq
  have h5 := fun t i v (e : (c.verts t)[i]? = some v) => (hc.mem t v).1 (List.mem_of_getElem? e)
  have h6 := hi.act
  have h7 := fun hph : s.phase = .collect => onWay_idle c s.task (hi.idle hph) t
  have h8 := fun v (hv : v < c.n) hx => active_pos c s.act hv hx
  clear h hc hi hl
  sync_cases hs
  all_goals grind [upd, Async.Task.Below, Async.Prog.Below, Async.Task.Unique, Async.Prog.Unique, puts, live, Async.Task.isIdle]

theorem keep_run (hu : ∀ v p es n i m, (a.onUpdate v p es n i m).2.Unique) (hc : c.Ok) (hp : c.prev = true) (ha : Async.Local a c.n) :
    ∀ (xs : List Act) (s : St P M N E), Inv c s → Low c s → Exact c s → run a c s xs = some s' → Inv c s' ∧ Low c s' ∧ Exact c s'
  | [], s, h1, h2, h3, hr => by simp only [run, Option.some.injEq] at hr; rw [← hr]; exact ⟨h1, h2, h3⟩
  | x :: xs, s, h1, h2, h3, hr => by
    simp only [run] at hr
    obtain ⟨s1, e1, e2⟩ := Option.bind_eq_some_iff.1 hr
    exact keep_run hu hc hp ha xs s1 (inv_step hu hc h1 e1) (low_step ha h2 e1) (exact_step hc hp h1 h2 h3 e1) e2

theorem keep_start {es0 : Nat → List (Edge E)} (hes : Within c.n es0) : Inv c (start a es0) ∧ Low c (start a es0) ∧ Exact c (start a es0) := by
  refine ⟨inv_start es0, ⟨fun _ => trivial, hes.dst⟩, fun t => ?_⟩
  have h1 : onWay c (start a es0).task t = 0 := onWay_idle c _ (fun _ _ => rfl) t
  have h2 : active c (start a es0).act t = 0 := Finset.sum_eq_zero fun v _ => by simp [live, start]
  rw [h1, h2]
  rfl

theorem pos_step (h : ∀ t, s.pos t ≤ (c.verts t).length) (hs : step a c s x = some s') : ∀ t, s'.pos t ≤ (c.verts t).length := by
  sync_cases hs
  all_goals grind [upd]

theorem pos_run : ∀ (xs : List Act) (s : St P M N E), (∀ t, s.pos t ≤ (c.verts t).length) → run a c s xs = some s' →
    ∀ t, s'.pos t ≤ (c.verts t).length
  | [], s, h, hr => by simp only [run, Option.some.injEq] at hr; rw [← hr]; exact h
  | x :: xs, s, h, hr => by
    simp only [run] at hr
    obtain ⟨s1, e1, e2⟩ := Option.bind_eq_some_iff.1 hr
    exact pos_run xs s1 (pos_step h e1) e2

/-- No more active vertices than vertices. -/
theorem active_le (hc : c.Ok) (act : Nat → Int) (t : Nat) : active c act t ≤ (c.verts t).length := by
  have h1 : active c act t = ((Finset.range c.n).filter fun v => c.own v = t ∧ act v ≠ 0).card := by
    rw [Finset.card_filter]; rfl
  rw [h1]
  refine le_trans (Finset.card_le_card (t := (c.verts t).toFinset) ?_) (List.toFinset_card_le _)
  intro v hv
  simp only [Finset.mem_filter, Finset.mem_range] at hv
  exact List.mem_toFinset.2 ((hc.mem t v).2 ⟨hv.1, hv.2.1⟩)

end

/-- Room for one notification per vertex of each thread. -/
def Room (c : Cfg M) : Prop := ∀ t, (c.verts t).length ≤ c.cap

/-- **C58**, for `ConvergeSyncPrevOnly`: the queue of a thread never holds more than one notification per
active vertex, and is empty at the end. -/
theorem C58_bounded_partial (a : Alg P M N E) (hu : ∀ v p es n i m, (a.onUpdate v p es n i m).2.Unique) (c : Cfg M) (hc : c.Ok)
    (hp : c.prev = true) (ha : Async.Local a c.n) (es0 : Nat → List (Edge E)) (hes : Within c.n es0) (xs : List Act) (s : St P M N E)
    (h : run a c (start a es0) xs = some s) (t : Nat) :
    (s.queue t).length ≤ (c.verts t).length ∧ (s.phase = .stopped → s.queue t = []) := by
  obtain ⟨h1, h2, h3⟩ := keep_start (a := a) (c := c) hes
  obtain ⟨hi, hl, he⟩ := keep_run hu hc hp ha xs _ h1 h2 h3 h
  refine ⟨?_, fun hst => ?_⟩
  · have := he t
    have := active_le hc s.act t
    omega
  · have h4 := he t
    have h5 : active c s.act t = 0 := Finset.sum_eq_zero fun v hv => by
      simp [live, (hi.quiet hst).1 v (Finset.mem_range.1 hv)]
    exact List.length_eq_zero_iff.1 (by omega)

/-- A run that has not stopped can go on if no thread waits for room. -/
theorem goes_on {a : Alg P M N E} {c : Cfg M} (hc : c.Ok) {es0 : Nat → List (Edge E)} {xs : List Act} {s : St P M N E}
    (h : run a c (start a es0) xs = some s) (hgo : ∀ t, t < c.T → s.task t ≠ .idle → ∃ s', step a c s (.go t) = some s')
    (hst : s.phase ≠ .stopped) : ∃ x s', step a c s x = some s' := by
  by_cases hb : ∃ t, t < c.T ∧ s.task t ≠ .idle
  · obtain ⟨t, ht, hb⟩ := hb
    obtain ⟨s', h'⟩ := hgo t ht hb
    exact ⟨_, s', h'⟩
  · have hidle : ∀ t, t < c.T → s.task t = .idle := fun t ht => by
      by_contra hk; exact hb ⟨t, ht, hk⟩
    have hscan : (s.phase = .collect ∨ s.phase = .visit) → ∀ t, t < c.T → s.pos t < (c.verts t).length → ∃ x s', step a c s x = some s' := by
      intro hph t ht hpos
      have hg : (c.verts t)[s.pos t]? = some (c.verts t)[s.pos t] := List.getElem?_eq_getElem hpos
      have h0 : t < c.T ∧ (s.task t).isIdle = true := ⟨ht, by rw [hidle t ht]; rfl⟩
      rcases hph with hph | hph
      · refine ⟨.scan t, ?_⟩
        simp only [step, if_pos h0, hg, hph]
        split <;> exact ⟨_, rfl⟩
      · refine ⟨.scan t, ?_⟩
        simp only [step, if_pos h0, hg, hph]
        split <;> split <;> exact ⟨_, rfl⟩
    have hpos := pos_run xs _ (by intro t; simp [start]) h
    have hend : (s.phase = .collect ∨ s.phase = .visit) → (¬ ∃ t, t < c.T ∧ s.pos t < (c.verts t).length) → atEnd c s = true := by
      intro hph hn
      simp only [atEnd, List.all_eq_true, List.mem_range, Bool.and_eq_true, decide_eq_true_eq]
      intro t ht
      refine ⟨by rw [hidle t ht]; rfl, ?_⟩
      have := hpos t
      by_contra hne
      exact hn ⟨t, ht, by omega⟩
    cases hph : s.phase with
    | stopped => exact absurd hph hst
    | init =>
      by_cases hl : ∃ v, v < c.n ∧ s.inited v = false
      · obtain ⟨v, hv, hin⟩ := hl
        refine ⟨.init (c.own v) v, ?_⟩
        have hot := hc.own v hv
        simp only [step, hph, hot, hv, hidle _ hot, Async.Task.isIdle, hin, and_self, if_true]
        split
        · split <;> exact ⟨_, rfl⟩
        · exact ⟨_, rfl⟩
      · refine ⟨.barrier, ?_⟩
        have : loaded c s = true := by
          simp only [loaded, List.all_eq_true, List.mem_range, Bool.and_eq_true]
          refine ⟨fun t ht => by rw [hidle t ht]; rfl, fun v hv => ?_⟩
          by_contra hne
          exact hl ⟨v, hv, by simpa using hne⟩
        simp only [step, hph, this, if_true]
        exact ⟨_, rfl⟩
    | collect =>
      by_cases hn : ∃ t, t < c.T ∧ s.pos t < (c.verts t).length
      · obtain ⟨t, ht, hn⟩ := hn
        exact hscan (.inl hph) t ht hn
      · exact ⟨.barrier, _, by simp only [step, hph, hend (.inl hph) hn, if_true]; rfl⟩
    | visit =>
      by_cases hn : ∃ t, t < c.T ∧ s.pos t < (c.verts t).length
      · obtain ⟨t, ht, hn⟩ := hn
        exact hscan (.inr hph) t ht hn
      · refine ⟨.barrier, ?_⟩
        simp only [step, hph, hend (.inr hph) hn, if_true]
        split <;> exact ⟨_, rfl⟩

/-- **C58**, for `ConvergeSyncPrevOnly`: with room for one notification per vertex of each thread, a run
that has not stopped can go on, and no thread ever waits for room. -/
theorem C58_partial (a : Alg P M N E) (hu : ∀ v p es n i m, (a.onUpdate v p es n i m).2.Unique) (c : Cfg M) (hc : c.Ok)
    (hcap : Room c) (hp : c.prev = true) (ha : Async.Local a c.n) (es0 : Nat → List (Edge E)) (hes : Within c.n es0) (xs : List Act)
    (s : St P M N E) (h : run a c (start a es0) xs = some s) :
    (∀ t, t < c.T → s.task t ≠ .idle → ∃ s', step a c s (.go t) = some s') ∧
    (s.phase ≠ .stopped → ∃ x s', step a c s x = some s') := by
  obtain ⟨h1, h2, h3⟩ := keep_start (a := a) (c := c) hes
  obtain ⟨hi, hl, he⟩ := keep_run hu hc hp ha xs _ h1 h2 h3 h
  have hgo : ∀ t, t < c.T → s.task t ≠ .idle → ∃ s', step a c s (.go t) = some s' := by
    intro t ht hb
    simp only [step, if_pos ht]
    cases hk : s.task t with
    | idle => exact absurd hk hb
    | load v g => exact ⟨_, rfl⟩
    | run v q =>
      cases q with
      | done => exact ⟨_, rfl⟩
      | post w m k => simp only [goStep]; split <;> exact ⟨_, rfl⟩
      | send w m k => exact ⟨_, rfl⟩
    | cas v w k => simp only [goStep]; split <;> exact ⟨_, rfl⟩
    | put v w m k =>
      have h4 := he (c.own w)
      have h5 := active_le hc s.act (c.own w)
      have h6 := hcap (c.own w)
      have h7 : puts c (c.own w) (s.task t) ≤ onWay c s.task (c.own w) :=
        Finset.single_le_sum (s := Finset.range c.T) (f := fun u => puts c (c.own w) (s.task u)) (fun _ _ => Nat.zero_le _) (Finset.mem_range.2 ht)
      rw [hk] at h7
      simp only [puts, if_true] at h7
      simp only [goStep]
      rw [if_pos (by omega)]
      exact ⟨_, rfl⟩
  exact ⟨hgo, goes_on hc h hgo⟩

/-! ## `ConvergeSync` -/

/-- **C58.** With room for one notification per vertex of each thread, a synchronous run of shortest paths
that has not stopped can go on. -/
def C58Statement : Prop :=
  ∀ (c : Cfg MinLabel.Dist), c.Ok → Room c → ∀ (es0 : Nat → List (Edge ℚ)), Within c.n es0 → ∀ (xs : List Act) (s : St MinLabel.Dist MinLabel.Dist Unit ℚ),
    run MinLabel.sssp c (start MinLabel.sssp es0) xs = some s → s.phase ≠ .stopped → ∃ x s', step MinLabel.sssp c s x = some s'

open MinLabel

/-- Vertices 0, 1, 2 on thread 0 and 3, 4, 5 on thread 1, room for three notifications. -/
def six : Cfg Dist :=
  { n := 6, T := 2, own := fun v => v / 3, verts := fun t => if t = 0 then [0, 1, 2] else if t = 1 then [3, 4, 5] else [],
    initMail := fun v => if v = 0 then some 0 else none, prev := false, cap := 3 }

/-- 0 → 1 (1), 1 → 5 (10), 1 → 2 (1), 2 → 3, 4, 5 (1). -/
def web : Nat → List (Edge ℚ)
  | 0 => [⟨1, 1⟩]
  | 1 => [⟨5, 10⟩, ⟨2, 1⟩]
  | 2 => [⟨3, 1⟩, ⟨4, 1⟩, ⟨5, 1⟩]
  | _ => []

theorem six_ok : six.Ok := by
  refine ⟨fun t v => ?_, fun v hv => ?_⟩
  · simp only [six]
    split
    · simp; omega
    · split
      · simp; omega
      · simp; omega
  · simp only [six] at hv ⊢; omega

theorem web_within : Within 6 web := by
  refine ⟨fun v hv => ?_, fun v e he => ?_⟩
  · match v, hv with
    | v + 6, _ => rfl
  · match v, he with
    | 0, he => simp [web] at he; subst he; decide
    | 1, he => simp [web] at he; rcases he with rfl | rfl <;> decide
    | 2, he => simp [web] at he; rcases he with rfl | rfl | rfl <;> decide
    | v + 3, he => simp [web] at he

/-- Vertex 5 is visited between its activation and the arrival of its notification, which stays in the
queue; the next visit activates all three vertices of thread 1. -/
def leak : List Act :=
  [.init 0 0, .go 0, .go 0, .go 0, .go 0, .go 0, .init 0 1, .init 0 2, .init 1 3, .init 1 4, .init 1 5, .barrier,
   .scan 1, .scan 1, .scan 0, .scan 0, .go 0,
   .go 0, .go 0, .scan 1, .go 1, .go 1, .go 0,
   .go 0, .go 0, .go 0, .go 0,
   .scan 0, .go 0, .go 0, .go 0, .go 0, .go 0, .go 0, .go 0, .go 0, .go 0]

def leaked (s : St Dist Dist Unit ℚ) : Bool :=
  decide (s.phase = .visit) && decide (puts six 1 (s.task 0) = 1) && (s.task 1).isIdle && decide (s.pos 1 = 3) && decide ((s.queue 1).length = 3)

theorem leak_run : (run sssp six (start sssp web) leak).map (fun s => leaked s) = some true := by decide +kernel

/-- **C58** is violated by `ConvergeSync`: thread 0 waits for ever for room in the queue of thread 1,
which has finished its loop and waits for thread 0. -/
theorem C58_stuck : ∃ s, run sssp six (start sssp web) leak = some s ∧ s.phase ≠ .stopped ∧ ∀ x, step sssp six s x = none := by
  obtain ⟨s, hr, hk⟩ := Option.map_eq_some_iff.1 leak_run
  simp only [leaked, Bool.and_eq_true, decide_eq_true_eq] at hk
  obtain ⟨⟨⟨⟨hph, ht0⟩, ht1⟩, hpos⟩, hq⟩ := hk
  have h1 := idle_of ht1
  have h0 : ∃ v w m k, s.task 0 = .put v w m k ∧ six.own w = 1 := by
    cases hk : s.task 0 with
    | put v w m k =>
      rw [hk] at ht0
      simp only [puts] at ht0
      exact ⟨v, w, m, k, rfl, by by_contra hn; rw [if_neg hn] at ht0; cases ht0⟩
    | _ => rw [hk] at ht0; cases ht0
  obtain ⟨v, w, m, k, h0, hw⟩ := h0
  refine ⟨s, hr, by rw [hph]; decide, fun x => ?_⟩
  have hlt : ∀ t, t < six.T → t = 0 ∨ t = 1 := by
    intro t ht
    have : t < 2 := ht
    omega
  cases x with
  | init t u => simp [step, hph]
  | scan t =>
    simp only [step]
    split
    · rename_i hg
      rcases hlt t hg.1 with rfl | rfl
      · rw [h0] at hg; exact absurd hg.2 (by simp [Async.Task.isIdle])
      · rw [hpos]; rfl
    · rfl
  | go t =>
    simp only [step]
    split
    · rename_i hg
      rcases hlt t hg with rfl | rfl
      · rw [h0]
        simp only [goStep, hw, hq]
        rfl
      · rw [h1]; rfl
    · rfl
  | barrier =>
    simp only [step, hph]
    have : atEnd six s = false := by
      simp only [atEnd, List.all_eq_false]
      exact ⟨0, by decide, by rw [h0]; simp [Async.Task.isIdle]⟩
    rw [this]
    rfl

theorem C58_false : ¬ C58Statement := by
  intro h
  obtain ⟨s, hr, hst, hn⟩ := C58_stuck
  obtain ⟨x, s', h'⟩ := h six six_ok (fun t => by
    simp only [six]
    split
    · decide
    · split <;> decide) web web_within leak s hr hst
  rw [hn x] at h'
  cases h'

/-- The other variant: `C58_partial` and `C58_bounded_partial` apply. -/
example : (run sssp (cfg true) (start sssp tri) (runPrev.take 20)).map (fun s => (s.queue 0, s.queue 1, onWay (cfg true) s.task 0, active (cfg true) s.act 0)) =
    some ([2], [], 0, 1) := by decide +kernel

example : Room (cfg true) ∧ (cfg true).Ok ∧ (cfg true).prev = true := by
  refine ⟨fun t => ?_, cfg_ok _, rfl⟩
  simp only [cfg]
  split
  · decide
  · split <;> decide

end Verif.Props.Sync
