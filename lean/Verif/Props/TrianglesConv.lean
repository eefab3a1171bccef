import Verif.Props.Triangles

/-!
# Triangle counting ends with the exact number (C69)

Every run has a bounded number of steps, whatever the schedule, and a run that cannot go on is done.
-/

namespace Verif.Triangles

/-- Initial notifications are for vertices of the input only. -/
def Within (c : Cfg) (xs : List Act) : Prop := ∀ t v, Act.init t v ∈ xs → ∃ e ∈ c.es, v = e.1 ∨ v = e.2

theorem within_lt {c : Cfg} {N : Nat} (hN : ∀ e ∈ c.es, e.1 < N ∧ e.2 < N) {v : Nat} (h : ∃ e ∈ c.es, v = e.1 ∨ v = e.2) : v < N := by
  obtain ⟨e, he, rfl | rfl⟩ := h
  · exact (hN e he).1
  · exact (hN e he).2

theorem exists_bound (c : Cfg) : ∃ N, ∀ e ∈ c.es, e.1 < N ∧ e.2 < N := by
  generalize c.es = l
  induction l with
  | nil => exact ⟨0, by simp⟩
  | cons a l ih =>
    obtain ⟨N, hN⟩ := ih
    refine ⟨N + a.1 + a.2 + 1, fun e he => ?_⟩
    rcases List.mem_cons.1 he with rfl | he
    · omega
    · have := hN e he; omega

/-- Nothing is on its way to other vertices. -/
structure Sup (c : Cfg) (N : Nat) (s : St) : Prop where
  pend : ∀ v, N ≤ v → s.pend v = []
  task : ∀ t, ∀ x ∈ queued (s.task t), x.1 < N
  tab : ∀ i, i < s.inCur (dst c i) → (s.tab i).isSome = true

theorem sup_start (c : Cfg) (N : Nat) : Sup c N start :=
  ⟨fun _ _ => rfl, fun t x hx => by simp [start, queued] at hx, fun i hi => absurd hi (Nat.not_lt_zero i)⟩

theorem out_lt {c : Cfg} {N : Nat} (hN : ∀ e ∈ c.es, e.1 < N ∧ e.2 < N) {s : St} (h : Shape c s) {v : Nat} {o : OutEdge} (ho : o ∈ s.out v) : o.dst < N := by
  rw [h.out, List.mem_map] at ho
  obtain ⟨i, hi, rfl⟩ := ho
  have h1 := (mem_batch.1 hi).1
  have h2 := h.cur v
  exact (src_lt hN (by omega)).2

theorem len_out {c : Cfg} {s : St} (h : Shape c s) (v : Nat) : (s.out v).length ≤ count c := by
  rw [h.out, List.length_map]
  unfold batch
  have := List.length_filter_le (fun i => decide (0 ≤ i) && decide (src c i = v)) (List.range (s.outCur v))
  rw [List.length_range] at this
  have := h.cur v
  omega

theorem len_range {α : Type} (f : Nat → Option α) (b : Nat) : ((List.range b).filterMap f).length ≤ b := by
  have := List.length_filterMap_le f (List.range b)
  rwa [List.length_range] at this

theorem onUpdate_lt {N : Nat} {l : List OutEdge} (hl : ∀ o ∈ l, o.dst < N) (u : Nat) (a : Int) : ∀ x ∈ (onUpdate l u a).2, x.1 < N := by
  intro x hx
  unfold onUpdate at hx
  split at hx
  · obtain ⟨w, n⟩ := x
    obtain ⟨o, ho, e, -⟩ := mem_sendOld hx
    show w < N
    rw [e]; exact hl o ho
  · cases hx

theorem onAdd_lt {N : Nat} {l : List OutEdge} (hl : ∀ o ∈ l, o.dst < N) (u i : Nat) (a : Int) : ∀ x ∈ (onAdd l u i a).2, x.1 < N := by
  intro x hx
  obtain ⟨w, n⟩ := x
  have : ∃ o ∈ l, w = o.dst ∧ n.pos = o.pos := by
    unfold onAdd at hx
    split at hx
    · rcases List.mem_append.1 hx with h | h
      · exact mem_sendOld h
      · exact mem_sendNew h
    · exact mem_sendNew hx
  obtain ⟨o, ho, e, -⟩ := this
  show w < N
  rw [e]; exact hl o ho

theorem sup_step {c : Cfg} {N : Nat} (hN : ∀ e ∈ c.es, e.1 < N ∧ e.2 < N) {s s' : St} {x : Act} (hx : ∀ t v, x = .init t v → v < N) (h : Shape c s) (hu : Sup c N s) (hs : step c s x = some s') : Sup c N s' := by
  have h' := shape_step h hs
  have htask : ∀ (t : Nat) (k : Task), (∀ x ∈ queued k, x.1 < N) → ∀ u, ∀ x ∈ queued (upd s.task t k u), x.1 < N := by
    intro t k hk u
    by_cases e : u = t
    · rw [e, upd_same]; exact hk
    · rw [upd_ne _ _ e]; exact hu.task u
  cases x with
  | obs t d i =>
    simp only [step] at hs
    split at hs
    · rename_i hg
      obtain ⟨-, h1, -, h3, h4⟩ := hg
      simp only [Option.some.injEq] at hs
      subst hs
      refine ⟨hu.pend, hu.task, fun j hj => ?_⟩
      by_cases e : j = i
      · subst e; simp [upd]
      · have : (upd s.tab i (some ⟨d, (onIn (s.map d) i (src c i) d (s.inPos d)).2, s.inPos d⟩)) j = s.tab j := upd_ne _ _ e
        simp only [this]
        refine hu.tab j ?_
        by_cases ed : dst c j = d
        · simp only [ed, upd_same] at hj
          by_contra hn
          exact h4 j (by omega) (by rw [← ed]; omega) ed
        · simp only [upd_ne _ _ ed] at hj
          exact hj
    · cases hs
  | add t v m =>
    simp only [step] at hs
    split at hs
    · rename_i hg
      split at hs
      · rename_i hd
        simp only [Option.some.injEq] at hs
        refine ⟨by rw [← hs]; exact hu.pend, ?_, by rw [← hs]; exact hu.tab⟩
        have hl : ∀ o ∈ s'.out v, o.dst < N := fun o ho => out_lt hN h' ho
        subst hs
        simp only [upd_same] at hl
        exact htask t _ (onAdd_lt hl _ _ _)
      · simp only [Option.some.injEq] at hs
        subst hs
        exact ⟨hu.pend, hu.task, hu.tab⟩
    · cases hs
  | init t v =>
    simp only [step] at hs
    split at hs
    · simp only [Option.some.injEq] at hs
      subst hs
      refine ⟨hu.pend, htask t _ fun x hm => ?_, hu.tab⟩
      simp only [queued, List.mem_singleton] at hm
      subst hm
      exact hx t v rfl
    · cases hs
  | recv t v i =>
    simp only [step] at hs
    split at hs
    · split at hs
      · cases hs
      · simp only [Option.some.injEq] at hs
        subst hs
        refine ⟨fun w hw => ?_, htask t _ (onUpdate_lt (fun o ho => out_lt hN h ho) _ _), hu.tab⟩
        by_cases e : w = v
        · simp only [e, upd_same]; rw [hu.pend v (by omega)]; rfl
        · simp only [upd_ne _ _ e]; exact hu.pend w hw
    · cases hs
  | go t =>
    simp only [step] at hs
    split at hs
    · split at hs
      · cases hs
      · simp only [Option.some.injEq] at hs
        subst hs
        exact ⟨hu.pend, htask t _ (by simp [queued]), hu.tab⟩
      · rename_i w n q hk
        simp only [Option.some.injEq] at hs
        subst hs
        refine ⟨hu.pend, htask t _ ?_, hu.tab⟩
        have := hu.task t
        rw [hk] at this
        exact this
      · rename_i w n q hk
        simp only [Option.some.injEq] at hs
        subst hs
        have := hu.task t
        rw [hk] at this
        refine ⟨fun v hv => ?_, htask t _ fun x hm => this x (by simp only [queued] at hm ⊢; exact List.mem_cons_of_mem _ hm), hu.tab⟩
        have hw : w < N := this (w, n) (by simp [queued])
        simp only [upd_ne _ _ (show v ≠ w by omega)]
        exact hu.pend v hv
    · cases hs

/-! ## A measure -/

def hot (s : St) (v : Nat) : Nat := if s.updAt v < (s.out v).length then 1 else 0

def weight : Task → Nat
  | .idle => 0
  | .run q => 1 + 4 * q.length
  | .put _ _ q => 4 + 4 * q.length

def vertexLeft (c : Cfg) (s : St) (v : Nat) : Nat :=
  (count c - s.inCur v) + (12 * count c + 2) * (count c - s.outCur v) + 4 * count c * hot s v + 2 * (s.pend v).length + (if s.inited v = true then 0 else 5)

def stepsLeft (c : Cfg) (N : Nat) (s : St) : Nat :=
  (∑ v ∈ Finset.range N, vertexLeft c s v) + ∑ t ∈ Finset.range c.T, weight (s.task t)

theorem hot_le (s : St) (v : Nat) : hot s v ≤ 1 := by unfold hot; split <;> omega

theorem len_onUpdate {l : List OutEdge} {u D : Nat} (hl : l.length ≤ D) (a : Int) :
    4 * (onUpdate l u a).2.length + 4 * D * (if (onUpdate l u a).1 < l.length then 1 else 0) ≤ 4 * D * (if u < l.length then 1 else 0) := by
  unfold onUpdate
  split
  · rename_i h
    have : (sendOld l u l.length).length ≤ l.length := len_range _ _
    simp only [Nat.lt_irrefl, if_false, h.2, if_true]
    omega
  · simp

theorem len_onAdd {l : List OutEdge} {i D : Nat} (hl : l.length ≤ D) (hi : i ≤ D) (u : Nat) (a : Int) : (onAdd l u i a).2.length ≤ 2 * D := by
  unfold onAdd
  split
  · have h1 : (sendOld l u i).length ≤ i := len_range _ _
    have h2 : (sendNew l i l.length).length ≤ l.length := len_range _ _
    rw [List.length_append]; omega
  · have h2 : (sendNew l i u).length ≤ l.length := len_range _ _
    show (sendNew l i u).length ≤ _
    omega

theorem weight_sum {c : Cfg} {s : St} {t : Nat} (ht : t < c.T) (k : Task) :
    (∑ u ∈ Finset.range c.T, weight (upd s.task t k u)) + weight (s.task t) = (∑ u ∈ Finset.range c.T, weight (s.task u)) + weight k := by
  have := sum_change ht (fun u => weight (s.task u)) (fun u => weight (upd s.task t k u)) (fun n hn => by simp [upd, hn])
  simpa using this

theorem left_of {c : Cfg} {N : Nat} {s s' : St} {t : Nat} (ht : t < c.T) (k : Task) (hk : s'.task = upd s.task t k) {v : Nat} (hv : v < N) (hoth : ∀ w, w ≠ v → vertexLeft c s' w = vertexLeft c s w)
    (hle : vertexLeft c s' v + weight k + 1 ≤ vertexLeft c s v + weight (s.task t)) : stepsLeft c N s' + 1 ≤ stepsLeft c N s := by
  have h1 := sum_change hv (vertexLeft c s) (vertexLeft c s') hoth
  have h2 := weight_sum (c := c) (s := s) ht k
  unfold stepsLeft
  rw [hk]
  omega

theorem left_task {c : Cfg} {N : Nat} {s s' : St} {t : Nat} (ht : t < c.T) (k : Task) (hk : s'.task = upd s.task t k) (hoth : ∀ w, vertexLeft c s' w = vertexLeft c s w)
    (hle : weight k + 1 ≤ weight (s.task t)) : stepsLeft c N s' + 1 ≤ stepsLeft c N s := by
  have h1 : (∑ v ∈ Finset.range N, vertexLeft c s' v) = ∑ v ∈ Finset.range N, vertexLeft c s v := Finset.sum_congr rfl fun w _ => hoth w
  have h2 := weight_sum (c := c) (s := s) ht k
  unfold stepsLeft
  rw [hk]
  omega

theorem upd_idle {s : St} {t : Nat} (h : s.task t = .idle) : s.task = upd s.task t .idle := by
  funext u
  by_cases e : u = t
  · rw [e, upd_same, h]
  · rw [upd_ne _ _ e]

theorem left_step {c : Cfg} {N : Nat} (hN : ∀ e ∈ c.es, e.1 < N ∧ e.2 < N) {s s' : St} {x : Act} (hx : ∀ t v, x = .init t v → v < N) (h : Shape c s) (hu : Sup c N s) (hs : step c s x = some s') :
    stepsLeft c N s' + 1 ≤ stepsLeft c N s := by
  have h' := shape_step h hs
  cases x with
  | obs t d i =>
    simp only [step] at hs
    split at hs
    · rename_i hg
      obtain ⟨hfree, h1, h2, h3, -⟩ := hg
      obtain ⟨f1, f2, f3⟩ := free_iff.1 hfree
      simp only [Option.some.injEq] at hs
      subst hs
      have hd : d < N := by rw [← h3]; exact (src_lt hN h2).2
      refine left_of f1 .idle (upd_idle f3) hd (fun w hw => by simp only [vertexLeft, hot, upd_ne _ _ hw]) ?_
      rw [f3]
      simp only [vertexLeft, hot, upd_same]
      omega
    · cases hs
  | add t v m =>
    have hlen := len_out h' v
    simp only [step] at hs
    split at hs
    · rename_i hg
      obtain ⟨hfree, h1, h2, -⟩ := hg
      obtain ⟨f1, f2, f3⟩ := free_iff.1 hfree
      obtain ⟨i, hi⟩ := List.exists_mem_of_ne_nil _ h2
      obtain ⟨m1, m2, m3⟩ := mem_batch.1 hi
      have hv : v < N := by rw [← m3]; exact (src_lt hN (by omega)).1
      have hmul : (12 * count c + 2) * (count c - m) + (12 * count c + 2) ≤ (12 * count c + 2) * (count c - s.outCur v) := by
        rw [← Nat.mul_succ]
        exact Nat.mul_le_mul_left _ (by omega)
      have hh : 4 * count c * hot s' v ≤ 4 * count c * 1 := Nat.mul_le_mul_left _ (hot_le s' v)
      split at hs
      · simp only [Option.some.injEq] at hs
        have hl := len_onAdd hlen (len_out h v) (s.updAt v) (s.act v)
        have e1 : s'.outCur v = m := by subst hs; simp
        have e2 : s'.inCur v = s.inCur v := by subst hs; rfl
        have e3 : s'.pend v = s.pend v := by subst hs; rfl
        have e4 : s'.inited v = s.inited v := by subst hs; rfl
        have e5 : s'.task = upd s.task t (.run (onAdd (s'.out v) (s.updAt v) (s.out v).length (s.act v)).2) := by subst hs; simp
        refine left_of f1 _ e5 hv (fun w hw => by subst hs; simp only [vertexLeft, hot, upd_ne _ _ hw]) ?_
        rw [f3]
        simp only [vertexLeft, e1, e2, e3, e4, weight]
        omega
      · simp only [Option.some.injEq] at hs
        have e1 : s'.outCur v = m := by subst hs; simp
        have e2 : s'.inCur v = s.inCur v := by subst hs; rfl
        have e3 : s'.pend v = s.pend v := by subst hs; rfl
        have e4 : s'.inited v = s.inited v := by subst hs; rfl
        have e5 : s'.task = s.task := by subst hs; rfl
        refine left_of f1 .idle (e5.trans (upd_idle f3)) hv (fun w hw => by subst hs; simp only [vertexLeft, hot, upd_ne _ _ hw]) ?_
        rw [f3]
        simp only [vertexLeft, e1, e2, e3, e4, weight]
        omega
    · cases hs
  | init t v =>
    simp only [step] at hs
    split at hs
    · rename_i hg
      obtain ⟨hfree, hn, -⟩ := hg
      obtain ⟨f1, f2, f3⟩ := free_iff.1 hfree
      simp only [Option.some.injEq] at hs
      subst hs
      refine left_of f1 _ rfl (hx t v rfl) (fun w hw => by simp only [vertexLeft, hot, upd_ne _ _ hw]) ?_
      rw [f3]
      simp only [vertexLeft, hot, upd_same, hn, weight, List.length_nil, Bool.false_eq_true, if_false, if_true]
      omega
    · cases hs
  | recv t v i =>
    simp only [step] at hs
    split at hs
    · rename_i hfree
      obtain ⟨f1, f2, f3⟩ := free_iff.1 hfree
      split at hs
      · cases hs
      · rename_i n hn
        have hi : i < (s.pend v).length := (List.getElem?_eq_some_iff.1 hn).1
        have hv : v < N := by
          by_contra hv
          rw [hu.pend v (by omega)] at hi
          cases hi
        simp only [Option.some.injEq] at hs
        subst hs
        have hl := len_onUpdate (u := s.updAt v) (len_out h v) (s.act v - 1)
        have hp := List.length_eraseIdx_of_lt hi
        refine left_of f1 _ rfl hv (fun w hw => by simp only [vertexLeft, hot, upd_ne _ _ hw]) ?_
        rw [f3]
        simp only [vertexLeft, hot, upd_same, weight, hp]
        omega
    · cases hs
  | go t =>
    simp only [step] at hs
    split at hs
    · rename_i ht
      split at hs
      · cases hs
      · rename_i hk
        simp only [Option.some.injEq] at hs
        subst hs
        refine left_task ht .idle rfl (fun w => rfl) ?_
        rw [hk]
        simp only [weight, List.length_nil]
        omega
      · rename_i w n q hk
        simp only [Option.some.injEq] at hs
        subst hs
        refine left_task ht (.put w n q) rfl (fun w => rfl) ?_
        rw [hk]
        simp only [weight, List.length_cons]
        omega
      · rename_i w n q hk
        have hwN : w < N := by
          have := hu.task t
          rw [hk] at this
          exact this (w, n) (by simp [queued])
        simp only [Option.some.injEq] at hs
        subst hs
        refine left_of ht (.run q) rfl hwN (fun u hne => by simp only [vertexLeft, hot, upd_ne _ _ hne]) ?_
        rw [hk]
        simp only [vertexLeft, hot, upd_same, weight, List.length_append, List.length_singleton]
        omega
    · cases hs

theorem left_run {c : Cfg} {N : Nat} (hN : ∀ e ∈ c.es, e.1 < N ∧ e.2 < N) : ∀ (xs : List Act) (s s' : St), Within c xs → Shape c s → Sup c N s → run c s xs = some s' →
    Shape c s' ∧ Sup c N s' ∧ stepsLeft c N s' + xs.length ≤ stepsLeft c N s
  | [], s, s', _, h, hu, hr => by simp only [run, Option.some.injEq] at hr; subst hr; exact ⟨h, hu, Nat.le_refl _⟩
  | x :: xs, s, s', hx, h, hu, hr => by
    simp only [run] at hr
    obtain ⟨m, hs, hr⟩ := Option.bind_eq_some_iff.1 hr
    have hx1 : ∀ t v, x = .init t v → v < N := fun t v e => within_lt hN (hx t v (by rw [e]; exact List.mem_cons_self))
    have := left_step hN hx1 h hu hs
    obtain ⟨h1, h2, h3⟩ := left_run hN xs m s' (fun t v hm => hx t v (List.mem_cons_of_mem _ hm)) (shape_step h hs) (sup_step hN hx1 h hu hs) hr
    refine ⟨h1, h2, ?_⟩
    rw [List.length_cons]; omega

/-! ## The theorems -/

/-- **C69.** One number bounds the steps of every run, whatever the threads do. -/
theorem C69_bound (c : Cfg) : ∃ B, ∀ xs s, Within c xs → run c start xs = some s → xs.length ≤ B := by
  obtain ⟨N, hN⟩ := exists_bound c
  refine ⟨stepsLeft c N start, fun xs s hx hr => ?_⟩
  have := (left_run hN xs start s hx (shape_start c) (sup_start c N) hr).2.2
  omega

/-- No thread can do anything. -/
def Stuck (c : Cfg) (s : St) : Prop := ∀ x, Within c [x] → step c s x = none

theorem input_of {c : Cfg} {i : Nat} (hi : i < count c) : ∃ e ∈ c.es, src c i = e.1 ∨ src c i = e.2 := by
  have hlt : i / 2 < c.es.length := by simp only [count] at hi; omega
  refine ⟨c.es.getD (i / 2) (0, 0), by rw [List.getD_eq_getElem?_getD, List.getElem?_eq_getElem hlt]; simp, ?_⟩
  unfold src
  split
  · exact .inl rfl
  · exact .inr rfl

theorem done_of_stuck {c : Cfg} {N : Nat} (hown : ∀ v, c.own v < c.T) {s : St} (hu : Sup c N s) (hst : Stuck c s) : Done c s := by
  have hnone : ∀ x, (∀ t v, x ≠ .init t v) → step c s x = none := fun x hx => hst x fun t v hm => absurd (List.mem_singleton.1 hm).symm (hx t v)
  have hidle : ∀ t, t < c.T → s.task t = .idle := by
    intro t ht
    have := hnone (.go t) (by simp)
    simp only [step, if_pos ht] at this
    split at this
    · assumption
    all_goals cases this
  have hfree : ∀ v, free c s (c.own v) v = true := fun v => free_iff.2 ⟨hown v, rfl, hidle _ (hown v)⟩
  have hpend : ∀ v, s.pend v = [] := by
    intro v
    have := hnone (.recv (c.own v) v 0) (by simp)
    simp only [step, hfree v, if_true] at this
    split at this
    · next hn => exact List.getElem?_eq_none_iff.1 hn |> fun h => List.length_eq_zero_iff.1 (Nat.le_zero.1 h)
    · cases this
  have hseen : ∀ i, i < count c → i < s.inCur (dst c i) := by
    intro i hi
    by_contra hn
    have hex : ∃ j, s.inCur (dst c i) ≤ j ∧ dst c j = dst c i := ⟨i, by omega, rfl⟩
    classical
    have hspec := Nat.find_spec hex
    have hmin : ∀ j < Nat.find hex, s.inCur (dst c i) ≤ j → dst c j ≠ dst c i := fun j hj h1 h2 => Nat.find_min hex hj ⟨h1, h2⟩
    have hle : Nat.find hex ≤ i := Nat.find_min' hex ⟨by omega, rfl⟩
    have := hnone (.obs (c.own (dst c i)) (dst c i) (Nat.find hex)) (by simp)
    simp only [step] at this
    rw [if_pos ⟨hfree _, hspec.1, by omega, hspec.2, hmin⟩] at this
    cases this
  have hload : loaded c s = true := by
    by_contra hl
    rw [Bool.not_eq_true, loaded, List.all_eq_false] at hl
    obtain ⟨i, hi, hn⟩ := hl
    have hi := List.mem_range.1 hi
    have hn : ¬ i < s.outCur (src c i) := by simpa using hn
    have := hnone (.add (c.own (src c i)) (src c i) (count c)) (by simp)
    simp only [step] at this
    rw [if_pos ⟨hfree _, Nat.le_refl _, List.ne_nil_of_mem (mem_batch.2 ⟨hi, by omega, rfl⟩), fun j hj => hu.tab j (hseen j (mem_batch.1 hj).1)⟩] at this
    split at this <;> cases this
  refine ⟨hload, hidle, hpend, fun hd i hi => ?_⟩
  by_contra hn
  have := hst (.init (c.own (src c i)) (src c i)) fun t v hm => by
    have := List.mem_singleton.1 hm
    injection this with _ e
    rw [e]; exact input_of hi
  simp only [step] at this
  rw [if_pos ⟨hfree _, by simpa using hn, .inr hload⟩] at this
  cases this

/-- **C69.** A run that cannot go on is done: all edges have arrived, nothing is on its way, and every vertex has sent all its edges. -/
theorem C69_done (c : Cfg) (hown : ∀ v, c.own v < c.T) (xs : List Act) (s : St) (hx : Within c xs) (hr : run c start xs = some s) (hst : Stuck c s) :
    Done c s ∧ ∀ v, s.updAt v = (s.out v).length := by
  obtain ⟨N, hN⟩ := exists_bound c
  obtain ⟨-, h2, -⟩ := left_run hN xs start s hx (shape_start c) (sup_start c N) hr
  have hd := done_of_stuck hown h2 hst
  exact ⟨hd, C38_all_sent c xs s hr hd⟩

/-- C69 in full: a run that cannot go on has counted the triangles. -/
def C69Statement : Prop :=
  ∀ (c : Cfg) (N : Nat) (xs : List Act) (s : St), (∀ e ∈ c.es, e.1 < N ∧ e.2 < N) → N ≤ 2 ^ 32 → (∀ v, c.own v < c.T) → Within c xs → run c start xs = some s → Stuck c s →
    ∑ v ∈ Finset.range N, s.leader v = (triangles N c.es).card

/-- **C69** (`_partial`: ids below `2 ^ 31 - 1`; see `C69_false`). A run has boundedly many steps, and one that cannot go on has counted the triangles of the
input: whatever the schedule, dynamically or on a graph built first. -/
theorem C69_exact_partial (c : Cfg) (N : Nat) (hN : ∀ e ∈ c.es, e.1 < N ∧ e.2 < N) (hsmall : N ≤ 2 ^ 31 - 1) (hown : ∀ v, c.own v < c.T) :
    ∃ B, ∀ xs s, Within c xs → run c start xs = some s → xs.length ≤ B ∧ (Stuck c s → ∑ v ∈ Finset.range N, s.leader v = (triangles N c.es).card) := by
  obtain ⟨B, hB⟩ := C69_bound c
  refine ⟨B, fun xs s hx hr => ⟨hB xs s hx hr, fun hst => ?_⟩⟩
  exact C38_partial c N xs s hN hsmall hr (C69_done c hown xs s hx hr hst).1

/-! ## Cases -/

def within? (c : Cfg) (xs : List Act) : Bool := xs.all fun x => match x with
  | .init _ v => c.es.any fun e => v == e.1 || v == e.2
  | _ => true

theorem within_of {c : Cfg} {xs : List Act} (h : within? c xs = true) : Within c xs := by
  intro t v hm
  have := List.all_eq_true.1 h _ hm
  simpa using this

theorem stuck_of_done {c : Cfg} {s : St} (h : Shape c s) (hd : Done c s) (hin : ∀ e ∈ c.es, s.inited e.1 = true ∧ s.inited e.2 = true) : Stuck c s := by
  obtain ⟨hl, hidle, hpend, -⟩ := hd
  have hload : ∀ i, i < count c → i < s.outCur (src c i) := fun i hi => of_decide_eq_true (List.all_eq_true.1 hl i (List.mem_range.2 hi))
  intro x hx
  cases x with
  | obs t d i =>
    refine if_neg fun hg => ?_
    have := h.seen i (hload i hg.2.2.1)
    rw [hg.2.2.2.1] at this
    have := hg.2.1
    omega
  | add t v m =>
    refine if_neg fun hg => ?_
    rw [not_loaded hg.2.1 hg.2.2.1] at hl
    cases hl
  | init t v =>
    refine if_neg fun hg => ?_
    obtain ⟨e, he, rfl | rfl⟩ := hx t v (List.mem_singleton.2 rfl)
    · rw [(hin e he).1] at hg; cases hg.2.1
    · rw [(hin e he).2] at hg; cases hg.2.1
  | recv t v i =>
    simp only [step, hpend v]
    split <;> rfl
  | go t =>
    simp only [step]
    split
    · next ht => rw [hidle t ht]
    · rfl

/-- With id `2 ^ 31 - 1` the run ends, but has counted nothing. -/
theorem C69_false : ¬ C69Statement := by
  intro hall
  have h : ((run (tri 1 (2 ^ 31 - 1) 2 true) start (oneByOne (tri 1 (2 ^ 31 - 1) 2 true) [1, 2, 2 ^ 31 - 1])).map fun s =>
      (done? (tri 1 (2 ^ 31 - 1) 2 true) [1, 2, 2 ^ 31 - 1] s && (tri 1 (2 ^ 31 - 1) 2 true).es.all (fun e => s.inited e.1 && s.inited e.2), s.leader 1, s.leader 2, s.leader (2 ^ 31 - 1))) = some (true, 0, 0, 0) := by
    decide +kernel
  obtain ⟨s, hs, e⟩ := Option.map_eq_some_iff.1 h
  simp only [Prod.mk.injEq, Bool.and_eq_true] at e
  obtain ⟨hd, hz⟩ := done_of (by decide) (by decide +kernel) hs e.1.1
  have hN : ∀ e ∈ (tri 1 (2 ^ 31 - 1) 2 true).es, e.1 < 2 ^ 31 ∧ e.2 < 2 ^ 31 := by decide
  have hx : Within (tri 1 (2 ^ 31 - 1) 2 true) (oneByOne (tri 1 (2 ^ 31 - 1) 2 true) [1, 2, 2 ^ 31 - 1]) := by
    exact within_of (by decide +kernel)
  have hst := stuck_of_done (left_run hN _ start s hx (shape_start _) (sup_start _ _) hs).1 hd fun a ha => by
    have := List.all_eq_true.1 e.1.2 a ha
    rwa [Bool.and_eq_true] at this
  have := hall _ (2 ^ 31) _ s hN (by decide) (fun v => Nat.mod_lt _ (by decide)) hx hs hst
  have h0 : ∑ v ∈ Finset.range (2 ^ 31), s.leader v = 0 := by
    refine Finset.sum_eq_zero fun v _ => ?_
    by_cases hm : v ∈ [1, 2, 2 ^ 31 - 1]
    · simp only [List.mem_cons, List.not_mem_nil, or_false] at hm
      rcases hm with rfl | rfl | rfl
      · exact e.2.1
      · exact e.2.2.1
      · exact e.2.2.2
    · exact hz v hm
  rw [h0] at this
  have hmem : ({1, 2, 2 ^ 31 - 1} : Finset Nat) ∈ triangles (2 ^ 31) (tri 1 (2 ^ 31 - 1) 2 true).es := by
    simp only [triangles, Finset.mem_filter, Finset.mem_powersetCard]
    refine ⟨⟨fun v hv => ?_, by decide⟩, by decide⟩
    simp only [Finset.mem_insert, Finset.mem_singleton] at hv
    rw [Finset.mem_range]
    rcases hv with rfl | rfl | rfl <;> decide
  rw [Finset.card_eq_zero.1 this.symm] at hmem
  simp at hmem

/-- `C69_exact_partial` and `C69_done` apply to a run with repeated and reversed lines, a self loop and two triangles. -/
example : (∀ e ∈ multi.es, e.1 < 5 ∧ e.2 < 5) ∧ (∀ v, multi.own v < multi.T) ∧ Within multi (oneByOne multi [1, 2, 3, 4]) ∧
    ∃ s, run multi start (oneByOne multi [1, 2, 3, 4]) = some s ∧ Stuck multi s ∧ s.leader 1 = 1 ∧ s.leader 4 = 1 := by
  have h : ((run multi start (oneByOne multi [1, 2, 3, 4])).map fun s => (done? multi [1, 2, 3, 4] s && multi.es.all (fun e => s.inited e.1 && s.inited e.2), s.leader 1, s.leader 4)) = some (true, 1, 1) := by
    decide +kernel
  obtain ⟨s, hs, e⟩ := Option.map_eq_some_iff.1 h
  simp only [Prod.mk.injEq, Bool.and_eq_true] at e
  have hx : Within multi (oneByOne multi [1, 2, 3, 4]) := by
    exact within_of (by decide +kernel)
  have hN : ∀ e ∈ multi.es, e.1 < 5 ∧ e.2 < 5 := by decide
  refine ⟨hN, fun v => Nat.mod_lt _ (by decide), hx, s, hs, stuck_of_done (left_run hN _ start s hx (shape_start _) (sup_start _ _) hs).1 (done_of (by decide) (by decide +kernel) hs e.1.1).1 (fun a ha => ?_), e.2⟩
  have := List.all_eq_true.1 e.1.2 a ha
  rwa [Bool.and_eq_true] at this

end Verif.Triangles
