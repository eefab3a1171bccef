import Verif.SendCapacity
import Verif.Props.Async
import Verif.Props.MinLabel
import Mathlib.Data.List.Nodup
import Mathlib.Data.List.Perm.Subperm

/-!
# Notification queues of bounded size (C57)
-/

namespace Verif.SendCapacity

open Verif.Async (Edge Prog Alg Task Cfg)

variable {P M N E : Type}

/-! ## Every run is a run without bounds -/

section
variable {a : Alg P M N E} {c : Cfg M N} {cap : Nat} {s s' : St P M N E}

/-- The actions other than taking notifications out of the queue. -/
def bases : List (Act E) → List (Async.Act E)
  | [] => []
  | .pull _ :: xs => bases xs
  | .base x :: xs => x :: bases xs

theorem base_step {x : Async.Act E} (h : step a c cap s (.base x) = some s') : Async.step a c s.base x = some s'.base := by
  cases x with
  | go t =>
    simp only [step] at h
    split at h
    · split at h
      · obtain ⟨b, hb, rfl⟩ := Option.map_eq_some_iff.1 h; exact hb
      · cases h
    · obtain ⟨b, hb, rfl⟩ := Option.map_eq_some_iff.1 h; exact hb
  | recv t v i =>
    simp only [step] at h
    split at h
    · obtain ⟨b, hb, rfl⟩ := Option.map_eq_some_iff.1 h; exact hb
    · cases h
  | init t v => simp only [step] at h; obtain ⟨b, hb, rfl⟩ := Option.map_eq_some_iff.1 h; exact hb
  | add t v es => simp only [step] at h; obtain ⟨b, hb, rfl⟩ := Option.map_eq_some_iff.1 h; exact hb
  | del t v es => simp only [step] at h; obtain ⟨b, hb, rfl⟩ := Option.map_eq_some_iff.1 h; exact hb

theorem pull_step {t : Nat} (h : step a c cap s (.pull t) = some s') : s'.base = s.base ∧
    ∃ w, s.queue t = w :: s'.queue t ∧ s'.held t = s.held t ++ [w] ∧
      (∀ u, u ≠ t → s'.queue u = s.queue u ∧ s'.held u = s.held u) := by
  simp only [step] at h
  split at h
  · split at h
    · cases h
    · rename_i w q e
      simp only [Option.some.injEq] at h
      subst h
      refine ⟨rfl, w, by simp [e], by simp, fun u hu => ?_⟩
      simp [upd_ne _ _ hu]
  · cases h

/-- Every run with bounded queues is one without bounds, so that what is proved about those holds here. -/
theorem base_run : ∀ (xs : List (Act E)) (s : St P M N E), run a c cap s xs = some s' →
    Async.run a c s.base (bases xs) = some s'.base
  | [], s, h => by simp only [run, Option.some.injEq] at h; rw [← h]; rfl
  | .pull t :: xs, s, h => by
    simp only [run] at h
    obtain ⟨s1, h1, h2⟩ := Option.bind_eq_some_iff.1 h
    rw [← (pull_step h1).1]
    exact base_run xs s1 h2
  | .base x :: xs, s, h => by
    simp only [run] at h
    obtain ⟨s1, h1, h2⟩ := Option.bind_eq_some_iff.1 h
    simp only [bases, Async.run, base_step h1, Option.bind_some]
    exact base_run xs s1 h2

/-! ## What is in the queues -/

structure Stored (c : Cfg M N) (s : St P M N E) : Prop where
  own : ∀ t v, v ∈ s.queue t ∨ v ∈ s.held t → c.own v = t
  cnt : ∀ v, (s.queue (c.own v)).count v + (s.held (c.own v)).count v = (s.base.pend v).length

theorem pend_init {b : Async.St P M N E} {b' : Async.St P M N E} {t v : Nat} (h : Async.step a c b (.init t v) = some b') : b'.pend = b.pend := by
  simp only [Async.step] at h
  repeat' split at h
  all_goals cases h
  all_goals rfl

theorem pend_add {b : Async.St P M N E} {b' : Async.St P M N E} {t v : Nat} {es : List (Edge E)} (h : Async.step a c b (.add t v es) = some b') : b'.pend = b.pend := by
  simp only [Async.step] at h
  repeat' split at h
  all_goals cases h
  all_goals rfl

theorem pend_del {b : Async.St P M N E} {b' : Async.St P M N E} {t v : Nat} {k : List Bool} (h : Async.step a c b (.del t v k) = some b') : b'.pend = b.pend := by
  simp only [Async.step] at h
  repeat' split at h
  all_goals cases h
  all_goals rfl

theorem pend_recv {b : Async.St P M N E} {b' : Async.St P M N E} {t v i : Nat} (h : Async.step a c b (.recv t v i) = some b') :
    c.own v = t ∧ (b'.pend v).length + 1 = (b.pend v).length ∧ ∀ u, u ≠ v → b'.pend u = b.pend u := by
  simp only [Async.step] at h
  split at h
  · rename_i hf
    split at h
    · cases h
    · rename_i n hn
      simp only [Option.some.injEq] at h
      subst h
      simp only [Async.free, Bool.and_eq_true, decide_eq_true_eq] at hf
      refine ⟨hf.1.2, ?_, fun u hu => by simp only [upd_ne _ _ hu]⟩
      have hi : i < (b.pend v).length := by
        by_contra hn'
        rw [List.getElem?_eq_none (by omega)] at hn
        cases hn
      simp only [upd_same]
      rw [List.length_eraseIdx_of_lt hi]
      omega
  · cases h

theorem pend_go {b : Async.St P M N E} {b' : Async.St P M N E} {t : Nat} (h : Async.step a c b (.go t) = some b') :
    match target (b.task t) with
    | some w => (b'.pend w).length = (b.pend w).length + 1 ∧ ∀ u, u ≠ w → b'.pend u = b.pend u
    | none => b'.pend = b.pend := by
  simp only [Async.step] at h
  split at h
  swap
  · cases h
  cases hk : b.task t with
  | idle => rw [hk] at h; cases h
  | load v g => rw [hk] at h; cases h; rfl
  | run v q =>
    rw [hk] at h
    cases q with
    | done => cases h; rfl
    | post w m k => simp only [Async.goStep] at h; split at h <;> (cases h; rfl)
    | send w m k => cases h; rfl
  | cas v w k => rw [hk] at h; simp only [Async.goStep] at h; split at h <;> (cases h; rfl)
  | put v w n k =>
    rw [hk] at h
    cases h
    exact ⟨by simp, fun u hu => by simp [upd_ne _ _ hu]⟩

theorem Stored.keep (h : Stored c s) {b : Async.St P M N E} (hb : b.pend = s.base.pend) : Stored c { s with base := b } :=
  ⟨h.own, fun v => by rw [h.cnt v]; simp only [hb]⟩

theorem stored_step {x : Act E} (h : Stored c s) (hs : step a c cap s x = some s') : Stored c s' := by
  cases x with
  | pull t =>
    obtain ⟨hb, w, hq, hh, ho⟩ := pull_step hs
    constructor
    · intro u v hv
      by_cases hu : u = t
      · subst hu
        rcases hv with hv | hv
        · exact h.own u v (.inl (by rw [hq]; exact List.mem_cons_of_mem _ hv))
        · rw [hh] at hv
          rcases List.mem_append.1 hv with hv | hv
          · exact h.own u v (.inr hv)
          · exact h.own u v (.inl (by rw [hq, List.mem_singleton.1 hv]; exact List.mem_cons_self))
      · rw [(ho u hu).1, (ho u hu).2] at hv
        exact h.own u v hv
    · intro v
      have := h.cnt v
      rw [hb, ← this]
      by_cases hv : c.own v = t
      · rw [hv, hq, hh]
        simp only [List.count_append, List.count_cons, List.count_nil]
        omega
      · rw [(ho _ hv).1, (ho _ hv).2]
  | base x =>
    cases x with
    | init t v =>
      simp only [step] at hs
      obtain ⟨b, hb, rfl⟩ := Option.map_eq_some_iff.1 hs
      exact h.keep (pend_init hb)
    | add t v es =>
      simp only [step] at hs
      obtain ⟨b, hb, rfl⟩ := Option.map_eq_some_iff.1 hs
      exact h.keep (pend_add hb)
    | del t v es =>
      simp only [step] at hs
      obtain ⟨b, hb, rfl⟩ := Option.map_eq_some_iff.1 hs
      exact h.keep (pend_del hb)
    | recv t v i =>
      simp only [step] at hs
      split at hs
      swap
      · cases hs
      rename_i hm
      obtain ⟨b, hb, rfl⟩ := Option.map_eq_some_iff.1 hs
      obtain ⟨hov, hlen, hoth⟩ := pend_recv hb
      constructor
      · intro u y hy
        rcases hy with hy | hy
        · exact h.own u y (.inl hy)
        · by_cases hu : u = t
          · subst hu
            simp only [upd_same] at hy
            exact h.own u y (.inr (List.mem_of_mem_erase hy))
          · simp only [upd_ne _ _ hu] at hy
            exact h.own u y (.inr hy)
      · intro y
        have h1 := h.cnt y
        by_cases hy : y = v
        · subst hy
          simp only [hov, upd_same] at h1 ⊢
          have : 0 < (s.held t).count y := List.count_pos_iff.2 hm
          rw [List.count_erase_self]
          omega
        · simp only [hoth y hy]
          rw [← h1]
          by_cases hu : c.own y = t
          · rw [hu]; simp only [upd_same]; rw [List.count_erase_of_ne hy]
          · simp only [upd_ne _ _ hu]
    | go t =>
      simp only [step] at hs
      split at hs
      · rename_i w hw
        split at hs
        swap
        · cases hs
        obtain ⟨b, hb, rfl⟩ := Option.map_eq_some_iff.1 hs
        have hp := pend_go hb
        rw [hw] at hp
        obtain ⟨hlen, hoth⟩ := hp
        constructor
        · intro u y hy
          rcases hy with hy | hy
          · by_cases hu : u = c.own w
            · subst hu
              simp only [upd_same] at hy
              rcases List.mem_append.1 hy with hy | hy
              · exact h.own _ y (.inl hy)
              · rw [List.mem_singleton.1 hy]
            · simp only [upd_ne _ _ hu] at hy
              exact h.own u y (.inl hy)
          · exact h.own u y (.inr hy)
        · intro y
          have h1 := h.cnt y
          by_cases hy : y = w
          · subst hy
            simp only [upd_same, List.count_append, List.count_singleton_self]
            omega
          · simp only [hoth y hy]
            rw [← h1]
            by_cases hu : c.own y = c.own w
            · rw [hu]; simp only [upd_same, List.count_append]
              rw [List.count_singleton]
              simp [Ne.symm hy]
            · simp only [upd_ne _ _ hu]
      · rename_i hw
        obtain ⟨b, hb, rfl⟩ := Option.map_eq_some_iff.1 hs
        have hp := pend_go hb
        rw [hw] at hp
        exact h.keep hp

theorem stored_run : ∀ (xs : List (Act E)) (s : St P M N E), Stored c s → run a c cap s xs = some s' → Stored c s'
  | [], s, h, hr => by simp only [run, Option.some.injEq] at hr; rw [← hr]; exact h
  | x :: xs, s, h, hr => by
    simp only [run] at hr
    obtain ⟨s1, h1, h2⟩ := Option.bind_eq_some_iff.1 hr
    exact stored_run xs s1 (stored_step h h1) h2

theorem stored_start (es0 : Nat → List (Edge E)) : Stored c (start a es0) :=
  ⟨fun t v h => by simp [start] at h, fun v => by simp [start, Async.start]⟩

end

/-- Room for one notification per vertex of the thread. -/
def Room (c : Cfg M N) (n cap : Nat) : Prop := ∀ t, (mine c n t).length ≤ cap

/-- The graph has the vertices `0, …, n-1`. -/
structure Within (n : Nat) (es0 : Nat → List (Edge E)) : Prop where
  src : ∀ v, n ≤ v → es0 v = []
  dst : ∀ v e, e ∈ es0 v → e.dst < n

theorem putting_outstanding {c : Cfg M N} {b : Async.St P M N E} {t v w : Nat} {m : N} {k : Prog M N} (ht : t < c.T)
    (hk : b.task t = .put v w m k) : (b.pend w).length + 1 ≤ Props.Async.outstanding c b w := by
  unfold Props.Async.outstanding
  refine Nat.add_le_add_left ?_ _
  refine List.length_pos_of_mem (a := t) (List.mem_filter.2 ⟨List.mem_range.2 ht, ?_⟩)
  rw [hk]
  simp

/-- **C57**, the part that holds: with unique notifications and room for one notification per vertex of
each thread, a thread in a callback can always go on. -/
theorem C57_partial (a : Alg P M N E) (c : Cfg M N) (hu : Async.UniqueAlg a c) (n cap : Nat) (hcap : Room c n cap)
    (ha : Async.Local a n) (es0 : Nat → List (Edge E)) (hes : Within n es0) (xs : List (Act E))
    (hx : ∀ x ∈ bases xs, x.below n = true) (s : St P M N E) (h : run a c cap (start a es0) xs = some s)
    (t : Nat) (ht : t < c.T) (hbusy : s.base.task t ≠ .idle) :
    ∃ s', step a c cap s (.base (.go t)) = some s' := by
  have hb := base_run xs _ h
  have hst := stored_run xs _ (stored_start es0) h
  have hsup := Async.supp_run ha (List.all_eq_true.2 hx) (Async.supp_loaded a n es0 hes.src hes.dst) hb
  have hgo : ∃ b, Async.step a c s.base (.go t) = some b := by
    simp only [Async.step, if_pos ht]
    cases hk : s.base.task t with
    | idle => exact absurd hk hbusy
    | load v g => exact ⟨_, rfl⟩
    | run v q =>
      cases q with
      | done => exact ⟨_, rfl⟩
      | post w m k => simp only [Async.goStep]; split <;> exact ⟨_, rfl⟩
      | send w m k => exact ⟨_, rfl⟩
    | cas v w k => simp only [Async.goStep]; split <;> exact ⟨_, rfl⟩
    | put v w m k => exact ⟨_, rfl⟩
  obtain ⟨b, hgo⟩ := hgo
  simp only [step, hgo, Option.map_some]
  cases hw : target (s.base.task t) with
  | none => exact ⟨_, rfl⟩
  | some w =>
    simp only
    have hk : ∃ v m k, s.base.task t = .put v w m k := by
      cases hk : s.base.task t with
      | put v x m k => rw [hk] at hw; cases hw; exact ⟨v, m, k, rfl⟩
      | _ => rw [hk] at hw; cases hw
    obtain ⟨v, m, k, hk⟩ := hk
    have hone : ∀ y, Props.Async.outstanding c s.base y ≤ 1 := Props.Async.C29_unique a c hu _ _ hb
    have hp : s.base.pend w = [] := by
      have h1 := putting_outstanding ht hk
      have h2 := hone w
      exact List.length_eq_zero_iff.1 (by omega)
    have hle : ∀ y, (s.base.pend y).length ≤ 1 := fun y => by
      have := hone y
      unfold Props.Async.outstanding at this
      omega
    have hwn : w < n := by
      have := hsup.task t
      rw [hk] at this
      exact this.1
    have hnd : (w :: s.queue (c.own w)).Nodup := by
      refine List.nodup_cons.2 ⟨fun hm => ?_, List.nodup_iff_count_le_one.2 fun y => ?_⟩
      · have h1 := hst.cnt w
        rw [hp] at h1
        have : 0 < (s.queue (c.own w)).count w := List.count_pos_iff.2 hm
        simp at h1
        exact absurd h1.1 (by omega)
      · by_cases hy : y ∈ s.queue (c.own w)
        · have h1 := hst.cnt y
          rw [hst.own _ y (.inl hy)] at h1
          have := hle y
          omega
        · rw [List.count_eq_zero_of_not_mem hy]; exact Nat.zero_le _
    have hsub : (w :: s.queue (c.own w)) ⊆ mine c n (c.own w) := by
      intro y hy
      rcases List.mem_cons.1 hy with rfl | hy
      · simp [mine, hwn]
      · have ho := hst.own _ y (.inl hy)
        have h1 := hst.cnt y
        rw [ho] at h1
        have : 0 < (s.queue (c.own w)).count y := List.count_pos_iff.2 hy
        have hyn : y < n := by
          by_contra hn
          rw [hsup.pend y (Nat.le_of_not_lt hn)] at h1
          simp at h1
          omega
        simp [mine, hyn, ho]
    have hlen := (hnd.subperm hsub).length_le
    have := hcap (c.own w)
    simp only [List.length_cons] at hlen
    rw [if_pos (by omega)]
    exact ⟨_, rfl⟩

/-- **C57**, the part that holds: as long as something is outstanding, some thread can do something. -/
theorem C57_progress_partial (a : Alg P M N E) (c : Cfg M N) (hu : Async.UniqueAlg a c) (n cap : Nat) (hcap : Room c n cap)
    (ha : Async.Local a n) (hown : ∀ v, c.own v < c.T) (es0 : Nat → List (Edge E)) (hes : Within n es0) (xs : List (Act E))
    (hx : ∀ x ∈ bases xs, x.below n = true) (s : St P M N E) (h : run a c cap (start a es0) xs = some s)
    (hq : ¬ Async.Quiet c s.base) :
    ∃ x s', step a c cap s x = some s' ∧ ((∃ t, x = .base (.go t)) ∨ (∃ t, x = .pull t) ∨ ∃ t v, x = .base (.recv t v 0)) := by
  by_cases h1 : ∃ t, t < c.T ∧ s.base.task t ≠ .idle
  · obtain ⟨t, ht, hk⟩ := h1
    obtain ⟨s', h'⟩ := C57_partial a c hu n cap hcap ha es0 hes xs hx s h t ht hk
    exact ⟨_, s', h', .inl ⟨t, rfl⟩⟩
  · have h2 : ∀ t, t < c.T → s.base.task t = .idle := fun t ht => by
      by_contra hk; exact h1 ⟨t, ht, hk⟩
    have h3 : ∃ v, s.base.pend v ≠ [] := by
      by_contra h3
      exact hq ⟨h2, fun v => by by_contra hv; exact h3 ⟨v, hv⟩⟩
    obtain ⟨v, hv⟩ := h3
    have hst := stored_run xs _ (stored_start es0) h
    cases hqu : s.queue (c.own v) with
    | cons w q =>
      refine ⟨.pull (c.own v), { s with queue := upd s.queue (c.own v) q, held := upd s.held (c.own v) (s.held (c.own v) ++ [w]) }, ?_,
        .inr (.inl ⟨_, rfl⟩)⟩
      simp only [step]
      rw [if_pos ⟨hown v, by rw [h2 _ (hown v)]; rfl⟩, hqu]
    | nil =>
      have h4 := hst.cnt v
      rw [hqu] at h4
      have : 0 < (s.held (c.own v)).count v := by
        have := List.length_pos_iff.2 hv
        simp at h4
        omega
      have hm := List.count_pos_iff.1 this
      have hf : Async.free c s.base (c.own v) v = true := by
        simp [Async.free, hown v, h2 _ (hown v)]
      cases hp : s.base.pend v with
      | nil => exact absurd hp hv
      | cons m l =>
        have hb : ∃ b, Async.step a c s.base (.recv (c.own v) v 0) = some b :=
          ⟨_, by simp only [Async.step, if_pos hf, hp, List.getElem?_cons_zero]; rfl⟩
        obtain ⟨b, hb⟩ := hb
        exact ⟨.base (.recv (c.own v) v 0), { s with base := b, held := upd s.held (c.own v) ((s.held (c.own v)).erase v) },
          by simp only [step, if_pos hm, hb, Option.map_some], .inr (.inr ⟨_, v, rfl⟩)⟩

/-! ## What does not hold -/

/-- **C57.** A thread that waits for room in a queue can eventually go on: whatever the capacity, from
every reachable state there is a way on after which the thread has put its notification. -/
def C57Statement : Prop :=
  ∀ (c : Cfg MinLabel.Dist Unit) (cap : Nat), 0 < cap → ∀ (es0 : Nat → List (Edge ℚ)) (xs : List (Act ℚ)) (s : St MinLabel.Dist MinLabel.Dist Unit ℚ),
    run MinLabel.sssp c cap (start MinLabel.sssp es0) xs = some s → ∀ t, t < c.T → s.base.task t ≠ .idle →
    ∃ ys s' s'', run MinLabel.sssp c cap s ys = some s' ∧ step MinLabel.sssp c cap s' (.base (.go t)) = some s''

open MinLabel in
/-- One thread; the source is vertex 0. -/
def one : Cfg Dist Unit :=
  { T := 1, own := fun _ => 0, initMail := fun v => if v = 0 then some 0 else none, initNote := fun _ => none }

/-- Vertex 0 has edges of weight 1 to `1, …, k`. -/
def star (k : Nat) : Nat → List (Edge ℚ)
  | 0 => (List.range k).map fun i => ⟨i + 1, 1⟩
  | _ => []

open MinLabel in
/-- Posting to more vertices than there is room for ends in a state in which nothing can happen. -/
theorem fill (cap : Nat) : ∀ (ws : List (Nat × Dist)) (f : Bool) (k : Bool → Prog Dist Unit) (s : St Dist Dist Unit ℚ),
    s.base.task 0 = .run 0 (postAll ws f k) → (s.queue 0).length ≤ cap → (s.queue 0).length + ws.length = cap + 1 →
    (ws.map (·.1)).Nodup → (∀ w ∈ ws, s.base.act w.1 = 0 ∧ s.base.inbox w.1 = ⊤ ∧ w.2 < ⊤) →
    ∃ xs s' v w m q, run sssp one cap s xs = some s' ∧ s'.base.task 0 = .put v w m q ∧ (s'.queue 0).length = cap
  | [], f, k, s, _, h1, h2, _, _ => by simp at h2; omega
  | (w, x) :: ws, f, k, s, ht, h1, h2, h3, h4 => by
    obtain ⟨hact, hinb, hlt⟩ := h4 (w, x) List.mem_cons_self
    simp only at hact hinb hlt
    have e1 : step sssp one cap s (.base (.go 0)) = some { s with base := { s.base with
        inbox := upd s.base.inbox w x, task := upd s.base.task 0 (.cas 0 w fun b => postAll ws (f || b) k), log := s.base.log ++ [.dep w] } } := by
      simp [step, ht, target, postAll, Async.step, one, Async.goStep, sssp, hinb, hlt]
    have e2 : step sssp one cap { s with base := { s.base with
        inbox := upd s.base.inbox w x, task := upd s.base.task 0 (.cas 0 w fun b => postAll ws (f || b) k), log := s.base.log ++ [.dep w] } }
        (.base (.go 0)) = some { s with base := { s.base with
        inbox := upd s.base.inbox w x, act := upd s.base.act w 1, task := upd (upd s.base.task 0 (.cas 0 w fun b => postAll ws (f || b) k)) 0 (.put 0 w () (postAll ws (f || true) k)), log := s.base.log ++ [.dep w] } } := by
      simp [step, target, Async.step, one, Async.goStep, sssp, hact]
    by_cases hfull : (s.queue 0).length < cap
    · have e3 : step sssp one cap { s with base := { s.base with
          inbox := upd s.base.inbox w x, act := upd s.base.act w 1, task := upd (upd s.base.task 0 (.cas 0 w fun b => postAll ws (f || b) k)) 0 (.put 0 w () (postAll ws (f || true) k)), log := s.base.log ++ [.dep w] } }
          (.base (.go 0)) = some { s with
            queue := upd s.queue 0 (s.queue 0 ++ [w])
            base := { s.base with
              inbox := upd s.base.inbox w x, act := upd s.base.act w 1, pend := upd s.base.pend w (s.base.pend w ++ [()])
              task := upd (upd (upd s.base.task 0 (.cas 0 w fun b => postAll ws (f || b) k)) 0 (.put 0 w () (postAll ws (f || true) k))) 0 (.run 0 (postAll ws (f || true) k))
              log := s.base.log ++ [.dep w] } } := by
        simp [step, target, Async.step, one, Async.goStep, hfull]
      have hnd := List.nodup_cons.1 h3
      obtain ⟨xs, s', v', w', m', q', hr, ht', hl'⟩ := fill cap ws (f || true) k { s with
            queue := upd s.queue 0 (s.queue 0 ++ [w])
            base := { s.base with
              inbox := upd s.base.inbox w x, act := upd s.base.act w 1, pend := upd s.base.pend w (s.base.pend w ++ [()])
              task := upd (upd (upd s.base.task 0 (.cas 0 w fun b => postAll ws (f || b) k)) 0 (.put 0 w () (postAll ws (f || true) k))) 0 (.run 0 (postAll ws (f || true) k))
              log := s.base.log ++ [.dep w] } } (by simp only [upd_same]) (by simp; omega) (by simp at h2 ⊢; omega) hnd.2
        (fun y hy => by
          have hne : y.1 ≠ w := fun e => hnd.1 (List.mem_map.2 ⟨y, hy, e⟩)
          have := h4 y (List.mem_cons_of_mem _ hy)
          simp only [upd_ne _ _ hne]
          exact this)
      refine ⟨.base (.go 0) :: .base (.go 0) :: .base (.go 0) :: xs, s', v', w', m', q', ?_, ht', hl'⟩
      simp only [run, e1, Option.bind_some, e2, e3]
      exact hr
    · refine ⟨[.base (.go 0), .base (.go 0)], { s with base := { s.base with
          inbox := upd s.base.inbox w x, act := upd s.base.act w 1, task := upd (upd s.base.task 0 (.cas 0 w fun b => postAll ws (f || b) k)) 0 (.put 0 w () (postAll ws (f || true) k)), log := s.base.log ++ [.dep w] } },
        0, w, (), postAll ws (f || true) k, ?_, ?_, ?_⟩
      · simp only [run, e1, Option.bind_some, e2]
      · simp only [upd_same]
      · simp only; omega

open MinLabel in
/-- A thread that fills its own queue is stuck: nothing at all can happen. -/
theorem stuck {cap : Nat} {s : St Dist Dist Unit ℚ} {v w : Nat} {m : Unit} {q : Prog Dist Unit} (ht : s.base.task 0 = .put v w m q)
    (hl : (s.queue 0).length = cap) (x : Act ℚ) : step sssp one cap s x = none := by
  have hfree : ∀ t v, Async.free one s.base t v = false := by
    intro t v
    by_cases h : t = 0
    · subst h; simp [Async.free, ht]
    · simp [Async.free, one, h]
  cases x with
  | pull t =>
    by_cases h : t = 0
    · subst h; simp [step, ht, Async.Task.isIdle]
    · simp [step, one, h]
  | base x =>
    cases x with
    | init t v => simp [step, Async.step, hfree]
    | recv t v i => simp [step, Async.step, hfree]
    | add t v es => simp [step, Async.step, hfree]
    | del t v es => simp [step, Async.step, hfree]
    | go t =>
      by_cases h : t = 0
      · subst h; simp [step, ht, target, one, hl]
      · simp only [step]
        have : Async.step sssp one s.base (.go t) = none := by simp [Async.step, one, h]
        rw [this]
        split <;> simp

open MinLabel in
/-- **C57** is violated: whatever the capacity of the queue, shortest paths on one thread from a vertex
with more neighbours than that stops for ever in the first visit. -/
theorem C57_stuck (cap : Nat) : ∃ xs s, run sssp one cap (start sssp (star (cap + 1))) xs = some s ∧
    s.base.task 0 ≠ .idle ∧ ∀ x, step sssp one cap s x = none := by
  have e1 : step sssp one cap (start sssp (star (cap + 1))) (.base (.init 0 0)) = some
      { start sssp (star (cap + 1)) with base := { Async.start sssp (star (cap + 1)) with
        inited := upd (fun _ => false) 0 true, inbox := upd (fun _ => ⊤) 0 0, log := [.dep 0]
        task := upd (fun _ => .idle) 0 (.load 0 fun p es m => sssp.onUpdate 0 p es () 0 m) } } := by
    simp [step, start, Async.step, Async.free, Async.start, one, sssp]
  have e2 : step sssp one cap { start sssp (star (cap + 1)) with base := { Async.start sssp (star (cap + 1)) with
        inited := upd (fun _ => false) 0 true, inbox := upd (fun _ => ⊤) 0 0, log := [.dep 0]
        task := upd (fun _ => .idle) 0 (.load 0 fun p es m => sssp.onUpdate 0 p es () 0 m) } } (.base (.go 0)) = some
      { start sssp (star (cap + 1)) with base := { Async.start sssp (star (cap + 1)) with
        inited := upd (fun _ => false) 0 true, inbox := upd (upd (fun _ => ⊤) 0 0) 0 0, prop := upd (fun _ => ⊤) 0 0, log := [.dep 0] ++ [.obs 0]
        task := upd (upd (fun _ => .idle) 0 (.load 0 fun p es m => sssp.onUpdate 0 p es () 0 m)) 0
          (.run 0 (postAll ((star (cap + 1) 0).map fun e => (e.dst, 0 + (e.data : Dist))) false fun _ => .done)) } } := by
    simp [step, start, Async.step, Async.start, one, target, Async.goStep, sssp, ssspUpdate]
  obtain ⟨xs, s', v, w, m, q, hr, ht, hl⟩ := fill cap ((star (cap + 1) 0).map fun e => (e.dst, 0 + (e.data : Dist))) false (fun _ => .done)
    { start sssp (star (cap + 1)) with base := { Async.start sssp (star (cap + 1)) with
        inited := upd (fun _ => false) 0 true, inbox := upd (upd (fun _ => ⊤) 0 0) 0 0, prop := upd (fun _ => ⊤) 0 0, log := [.dep 0] ++ [.obs 0]
        task := upd (upd (fun _ => .idle) 0 (.load 0 fun p es m => sssp.onUpdate 0 p es () 0 m)) 0
          (.run 0 (postAll ((star (cap + 1) 0).map fun e => (e.dst, 0 + (e.data : Dist))) false fun _ => .done)) } }
    (by simp only [upd_same]) (by simp [start]) (by simp [start, star])
    (by
      simp only [star, List.map_map]
      refine List.Nodup.map ?_ List.nodup_range
      intro a b hab
      simpa using hab)
    (fun y hy => by
      simp only [star, List.map_map, List.mem_map, List.mem_range] at hy
      obtain ⟨i, hi, rfl⟩ := hy
      simp only [Function.comp, Async.start]
      refine ⟨trivial, by simp [upd], ?_⟩
      rw [zero_add]
      exact WithTop.coe_lt_top _)
  refine ⟨.base (.init 0 0) :: .base (.go 0) :: xs, s', ?_, by rw [ht]; simp, fun x => stuck ht hl x⟩
  simp only [run, e1, Option.bind_some, e2]
  exact hr

/-- **C57** is violated for every capacity. -/
theorem C57_false : ¬ C57Statement := by
  intro h
  obtain ⟨xs, s, hr, hb, hs⟩ := C57_stuck 1
  obtain ⟨ys, s', s'', h1, h2⟩ := h one 1 (by decide) _ xs s hr 0 (by decide) hb
  cases ys with
  | nil =>
    simp only [run, Option.some.injEq] at h1
    rw [← h1, hs] at h2
    cases h2
  | cons y ys =>
    simp only [run, hs, Option.bind_none] at h1
    cases h1

/-! ## Cases -/

open MinLabel in
theorem sssp_unique : Async.UniqueAlg sssp one := by
  have hp : ∀ (ws : List (Nat × Dist)) (b : Bool) (k : Bool → Prog Dist Unit), (∀ b, (k b).Unique) → (postAll ws b k).Unique := by
    intro ws
    induction ws with
    | nil => intro b k hk; exact hk b
    | cons w ws ih => intro b k hk b'; exact ih _ _ hk
  refine ⟨?_, ?_, fun _ _ _ _ _ => trivial, fun _ => rfl⟩
  · intro v p es x i m
    simp only [sssp, ssspUpdate]
    split
    · trivial
    · exact hp _ _ _ fun _ => trivial
  · intro v p es i m
    have hk : ∀ (q : Dist) (b : Bool), (if b = true then (.done : Prog Dist Unit) else if q < ⊤ then postAll ((es.drop i).map fun e => (e.dst, q + (e.data : Dist))) false fun _ => .done else .done).Unique := by
      intro q b
      split
      · trivial
      · split
        · exact hp _ _ _ fun _ => trivial
        · trivial
    simp only [sssp, ssspAdd, ssspUpdate]
    split
    · exact hk p false
    · exact hp _ _ _ (hk _)

theorem star_within (k : Nat) : Within (k + 1) (star k) := by
  constructor
  · intro v hv
    match v, hv with
    | v + 1, _ => rfl
  · intro v e he
    match v, he with
    | 0, he =>
      simp only [star, List.mem_map, List.mem_range] at he
      obtain ⟨i, hi, rfl⟩ := he
      simp only; omega
    | v + 1, he => simp [star] at he

/-- Two neighbours of the source; the notification of the first is in the queue, that of the second is
about to be put. -/
def two : List (Act ℚ) :=
  [.base (.init 0 0), .base (.go 0), .base (.go 0), .base (.go 0), .base (.go 0), .base (.go 0), .base (.go 0)]

example : (run MinLabel.sssp one 3 (start MinLabel.sssp (star 2)) two).map (fun s => (target (s.base.task 0), s.queue 0)) = some (some 2, [1]) := by
  decide +kernel

/-- `C57_partial` applies here: three vertices, room for three. -/
example : ∃ s s', run MinLabel.sssp one 3 (start MinLabel.sssp (star 2)) two = some s ∧
    step MinLabel.sssp one 3 s (.base (.go 0)) = some s' := by
  cases e : run MinLabel.sssp one 3 (start MinLabel.sssp (star 2)) two with
  | none => exact absurd (congrArg Option.isSome e) (by decide +kernel)
  | some s =>
    have ht : target (s.base.task 0) = some 2 := by
      have := congrArg (Option.map fun s => target (s.base.task 0)) e
      rw [show (run MinLabel.sssp one 3 (start MinLabel.sssp (star 2)) two).map (fun s => target (s.base.task 0)) = some (some 2) by decide +kernel] at this
      exact (Option.some.inj this).symm
    obtain ⟨s', h'⟩ := C57_partial MinLabel.sssp one sssp_unique 3 3
      (fun t => by have := List.length_filter_le (fun v => decide (one.own v = t)) (List.range 3); rw [List.length_range] at this; exact this)
      (MinLabel.sssp_eq ▸ MinLabel.minAlg_local _ _ 3) (star 2) (star_within 2) two (by decide) s e 0 (by decide)
      (fun hi => by rw [hi] at ht; cases ht)
    exact ⟨s, s', rfl, h'⟩

/-- With room for one the same run is stuck at this point. -/
example : (run MinLabel.sssp one 1 (start MinLabel.sssp (star 2)) two).map (fun s => (target (s.base.task 0), s.queue 0)) = some (some 2, [1]) ∧
    (run MinLabel.sssp one 1 (start MinLabel.sssp (star 2)) (two ++ [.base (.go 0)])).isNone = true := by
  constructor <;> decide +kernel

end Verif.SendCapacity
