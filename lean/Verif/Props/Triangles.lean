import Verif.TrianglesFinal

/-!
# C38: triangles are counted once
-/

namespace Verif.Triangles

open scoped BigOperators

/-- What the graph promises: whatever the schedule, when everything has been processed the counters add up to the
number of sets of three vertices that are pairwise joined. -/
def C38Statement : Prop :=
  ∀ (c : Cfg) (N : Nat) (xs : List Act) (s : St), (∀ e ∈ c.es, e.1 < N ∧ e.2 < N) → N ≤ 2 ^ 32 → run c start xs = some s → Done c s →
    ∑ v ∈ Finset.range N, s.leader v = (triangles N c.es).card

structure All (c : Cfg) (N : Nat) (s : St) : Prop where
  shape : Shape c s
  live : Live c s
  notes : Notes s
  bal : Balance c N s

theorem all_run {c : Cfg} {N : Nat} (hN : ∀ e ∈ c.es, e.1 < N ∧ e.2 < N) {xs : List Act} : ∀ {s s' : St}, All c N s → run c s xs = some s' → All c N s' := by
  induction xs with
  | nil => intro s s' h hr; simp only [run, Option.some.injEq] at hr; exact hr ▸ h
  | cons x xs ih =>
    intro s s' h hr
    simp only [run] at hr
    cases hs : step c s x with
    | none => rw [hs] at hr; cases hr
    | some m =>
      rw [hs] at hr
      exact ih ⟨shape_step h.shape hs, live_step h.live hs, notes_step h.shape h.notes hs, balance_step hN h.shape h.live h.notes h.bal hs⟩ hr

theorem all_start (c : Cfg) (N : Nat) : All c N start := by
  refine ⟨shape_start c, live_start c, ⟨by simp [start], by simp [start, queued]⟩, fun d => ?_⟩
  simp [start, queued, valQ, due, owed]

theorem done_upd {c : Cfg} {s : St} (hl : Live c s) (hsh : Shape c s) (hd : Done c s) (v : Nat) : s.updAt v = (s.out v).length := by
  obtain ⟨h1, h2, h3, h4⟩ := hd
  have hact : s.act v = 0 := by
    rw [hl.act, h3 v]
    have : ∑ t ∈ Finset.range c.T, puts v (s.task t) = 0 :=
      Finset.sum_eq_zero fun t ht => by rw [h2 t (Finset.mem_range.1 ht)]; rfl
    rw [this]; rfl
  rcases hl.upd v with h | h | ⟨h, h'⟩
  · exact h
  · omega
  · have hle := hl.le v
    rcases Nat.lt_or_ge 0 (s.out v).length with hlen | hlen
    · exfalso
      have hne : s.out v ≠ [] := by intro e; rw [e] at hlen; cases hlen
      obtain ⟨o, ho⟩ := List.exists_mem_of_ne_nil _ hne
      rw [hsh.out, List.mem_map] at ho
      obtain ⟨i, hi, _⟩ := ho
      obtain ⟨a1, _, a3⟩ := mem_batch.1 hi
      have := h4 h i (by have := hsh.cur v; omega)
      rw [a3, h'] at this; cases this
    · omega

theorem done_out {c : Cfg} {s : St} (hsh : Shape c s) (hd : loaded c s = true) (v : Nat) : s.out v = (batch c v 0 (count c)).map (stat c) := by
  rw [hsh.out]
  congr 1
  rw [batch_split c v (hsh.cur v)]
  have : batch c v (s.outCur v) (count c) = [] := by
    rw [List.eq_nil_iff_forall_not_mem]
    intro i hi
    obtain ⟨a1, a2, a3⟩ := mem_batch.1 hi
    have := List.all_eq_true.1 hd i (List.mem_range.2 a1)
    simp only [decide_eq_true_eq] at this
    rw [a3] at this; omega
  rw [this, List.append_nil]

/-- **C38** (`_partial`: ids below `2 ^ 31 - 1`; see `C38_false`). Whatever the threads do, dynamically or on a graph built
first, with repeated lines and self loops in the input or not: the counters add up to the number of triangles. -/
theorem C38_partial (c : Cfg) (N : Nat) (xs : List Act) (s : St) (hN : ∀ e ∈ c.es, e.1 < N ∧ e.2 < N) (hsmall : N ≤ 2 ^ 31 - 1)
    (hr : run c start xs = some s) (hd : Done c s) : ∑ v ∈ Finset.range N, s.leader v = (triangles N c.es).card := by
  have h := all_run hN (all_start c N) hr
  have hsm : Small c := fun e he => by have := hN e he; simp only [MASK]; omega
  rw [← wedges_card hN, ← total hN hsm]
  refine Finset.sum_congr rfl fun d _ => ?_
  have hb := h.bal d
  have e1 : (s.pend d).map (leadS c d) = [] := by rw [hd.2.2.1 d]; rfl
  have e2 : ∑ t ∈ Finset.range c.T, valQ c d (queued (s.task t)) = 0 :=
    Finset.sum_eq_zero fun t ht => by rw [hd.2.1 t (Finset.mem_range.1 ht)]; rfl
  rw [e1, e2] at hb
  simp only [List.sum_nil, Nat.add_zero] at hb
  rw [hb]
  refine Finset.sum_congr rfl fun v _ => ?_
  simp only [due]
  rw [done_upd h.live h.shape hd v, done_out h.shape hd.1 v]

/-- `OnCheckCorrectness`, `tc.go`: at the end every vertex has sent all its edges. -/
theorem C38_all_sent (c : Cfg) (xs : List Act) (s : St) (hr : run c start xs = some s) (hd : Done c s) (v : Nat) : s.updAt v = (s.out v).length := by
  have hN : ∃ N, ∀ e ∈ c.es, e.1 < N ∧ e.2 < N := by
    generalize c.es = l
    induction l with
    | nil => exact ⟨0, by simp⟩
    | cons a l ih =>
      obtain ⟨N, hN⟩ := ih
      refine ⟨N + a.1 + a.2 + 1, fun e he => ?_⟩
      rcases List.mem_cons.1 he with rfl | he
      · omega
      · have := hN e he; omega
  obtain ⟨N, hN⟩ := hN
  have h := all_run hN (all_start c N) hr
  exact done_upd h.live h.shape hd v

theorem countP_take_le {α : Type} (p : α → Bool) (l : List α) {a b : Nat} (h : a ≤ b) : (l.take a).countP p ≤ (l.take b).countP p := by
  have e : l.take b = l.take a ++ (l.drop a).take (b - a) := by
    have := List.take_add (l := l) (i := a) (j := b - a)
    rw [← this]; congr 1; omega
  rw [e, List.countP_append]; omega

theorem owed_le (c : Cfg) (l : List OutEdge) (u d : Nat) : owed c l u d ≤ owed c l l.length d := by
  refine Finset.sum_le_sum fun p hp => ?_
  have hp := Finset.mem_range.1 hp
  simp only [term]
  cases l[p]? with
  | none => exact Nat.le_refl _
  | some o =>
    simp only
    split
    · exact Nat.le_refl _
    · split
      · exact countP_take_le _ _ (by omega)
      · exact Nat.le_refl _

/-- At no time is a triangle of the input counted twice, or anything counted that is not one: the counters never add up to more. -/
theorem C38_never_over (c : Cfg) (N : Nat) (xs : List Act) (s : St) (hN : ∀ e ∈ c.es, e.1 < N ∧ e.2 < N) (hsmall : N ≤ 2 ^ 31 - 1)
    (hr : run c start xs = some s) : ∑ v ∈ Finset.range N, s.leader v ≤ (triangles N c.es).card := by
  have h := all_run hN (all_start c N) hr
  have hsm : Small c := fun e he => by have := hN e he; simp only [MASK]; omega
  rw [← wedges_card hN, ← total hN hsm]
  refine Finset.sum_le_sum fun d _ => ?_
  have hb := h.bal d
  have hle : s.leader d ≤ ∑ n ∈ Finset.range N, due c s d n := by omega
  refine Nat.le_trans hle (Finset.sum_le_sum fun v _ => ?_)
  refine Nat.le_trans (owed_le c _ _ d) ?_
  rw [h.shape.out, owed_batch, owed_batch]
  exact Finset.sum_le_sum_of_subset (fun i hi => Finset.mem_range.2 (by have := Finset.mem_range.1 hi; have := h.shape.cur v; omega))

/-! ## Nothing happens elsewhere -/

/-- Vertices that are not in the input and were not given a notification. -/
structure Far (vs : List Nat) (s : St) : Prop where
  pend : ∀ v, v ∉ vs → s.pend v = [] ∧ s.leader v = 0
  task : ∀ t w n, (w, n) ∈ queued (s.task t) → w ∈ vs

theorem out_dst {c : Cfg} {s : St} (h : Shape c s) {vs : List Nat} (hv : ∀ e ∈ c.es, e.1 ∈ vs ∧ e.2 ∈ vs) {v w : Nat} (ho : ∃ o ∈ s.out v, w = o.dst) : w ∈ vs := by
  obtain ⟨o, ho, rfl⟩ := ho
  rw [h.out, List.mem_map] at ho
  obtain ⟨i, hi, rfl⟩ := ho
  obtain ⟨h1, _, _⟩ := mem_batch.1 hi
  have hlt : i / 2 < c.es.length := by have := h.cur v; simp only [count] at this; omega
  have hm : c.es.getD (i / 2) (0, 0) ∈ c.es := by
    rw [List.getD_eq_getElem?_getD, List.getElem?_eq_getElem hlt]; simp
  show dst c i ∈ vs
  simp only [dst]
  split
  · exact (hv _ hm).2
  · exact (hv _ hm).1

theorem far_step {c : Cfg} {vs : List Nat} (hv : ∀ e ∈ c.es, e.1 ∈ vs ∧ e.2 ∈ vs) {s s' : St} {x : Act} (hx : ∀ t v, x = .init t v → v ∈ vs)
    (h : Shape c s) (hf : Far vs s) (hs : step c s x = some s') : Far vs s' := by
  have h' := shape_step h hs
  cases x with
  | obs t d i =>
    simp only [step] at hs
    split at hs
    · simp only [Option.some.injEq] at hs; subst hs; exact ⟨hf.pend, hf.task⟩
    · cases hs
  | add t v m =>
    simp only [step] at hs
    split at hs
    · split at hs
      · simp only [Option.some.injEq] at hs
        subst hs
        refine ⟨hf.pend, fun u w n hm => ?_⟩
        by_cases hu : u = t
        · subst hu
          refine out_dst (v := v) h' hv ?_
          simp only [upd_same, queued, onAdd] at hm ⊢
          have key : ∃ o ∈ s.out v ++ (batch c v (s.outCur v) m).filterMap s.tab, w = o.dst ∧ n.pos = o.pos := by
            split at hm
            · simp only [List.mem_append] at hm
              rcases hm with hm | hm
              · exact mem_sendOld hm
              · exact mem_sendNew hm
            · exact mem_sendNew hm
          obtain ⟨o, h1, h2, _⟩ := key
          exact ⟨o, h1, h2⟩
        · simp only [upd_ne _ _ hu] at hm
          exact hf.task u w n hm
      · simp only [Option.some.injEq] at hs
        subst hs; exact ⟨hf.pend, hf.task⟩
    · cases hs
  | init t v =>
    simp only [step] at hs
    split at hs
    · simp only [Option.some.injEq] at hs
      subst hs
      refine ⟨hf.pend, fun u w n hm => ?_⟩
      by_cases hu : u = t
      · subst hu
        simp only [upd_same, queued, List.mem_singleton, Prod.mk.injEq] at hm
        rw [hm.1]; exact hx _ _ rfl
      · simp only [upd_ne _ _ hu] at hm
        exact hf.task u w n hm
    · cases hs
  | recv t v i =>
    simp only [step] at hs
    split at hs
    · split at hs
      · cases hs
      · rename_i n hp
        have hmem : v ∈ vs := by
          by_contra hc
          rw [(hf.pend v hc).1] at hp; simp at hp
        simp only [Option.some.injEq] at hs
        subst hs
        refine ⟨fun w hw => ?_, fun u w n hm => ?_⟩
        · have hne : w ≠ v := by rintro rfl; exact hw hmem
          simp only [upd_ne _ _ hne]
          exact hf.pend w hw
        · by_cases hu : u = t
          · subst hu
            simp only [upd_same, queued, onUpdate] at hm
            split at hm
            · obtain ⟨o, h1, h2, _⟩ := mem_sendOld hm
              exact out_dst (v := v) h hv ⟨o, h1, h2⟩
            · cases hm
          · simp only [upd_ne _ _ hu] at hm
            exact hf.task u w n hm
    · cases hs
  | go t =>
    simp only [step] at hs
    split at hs
    · split at hs
      · cases hs
      · simp only [Option.some.injEq] at hs
        subst hs
        refine ⟨hf.pend, fun u w n hm => ?_⟩
        by_cases hu : u = t
        · subst hu; simp [queued] at hm
        · simp only [upd_ne _ _ hu] at hm
          exact hf.task u w n hm
      · rename_i w' n' q hk
        simp only [Option.some.injEq] at hs
        subst hs
        refine ⟨hf.pend, fun u w n hm => ?_⟩
        by_cases hu : u = t
        · subst hu
          simp only [upd_same, queued] at hm
          exact hf.task u w n (by rw [hk]; exact hm)
        · simp only [upd_ne _ _ hu] at hm
          exact hf.task u w n hm
      · rename_i w' n' q hk
        have hmem : w' ∈ vs := hf.task t w' n' (by rw [hk]; simp [queued])
        simp only [Option.some.injEq] at hs
        subst hs
        refine ⟨fun w hw => ?_, fun u w n hm => ?_⟩
        · have hne : w ≠ w' := by rintro rfl; exact hw hmem
          simp only [upd_ne _ _ hne]
          exact hf.pend w hw
        · by_cases hu : u = t
          · subst hu
            simp only [upd_same, queued] at hm
            exact hf.task u w n (by rw [hk]; simp only [queued, List.mem_cons]; exact .inr hm)
          · simp only [upd_ne _ _ hu] at hm
            exact hf.task u w n hm
    · cases hs

theorem far_run {c : Cfg} {vs : List Nat} (hv : ∀ e ∈ c.es, e.1 ∈ vs ∧ e.2 ∈ vs) {xs : List Act} : ∀ {s s' : St}, (∀ t v, .init t v ∈ xs → v ∈ vs) →
    Shape c s → Far vs s → run c s xs = some s' → Far vs s' := by
  induction xs with
  | nil => intro s s' _ _ h hr; simp only [run, Option.some.injEq] at hr; exact hr ▸ h
  | cons x xs ih =>
    intro s s' hx hsh h hr
    simp only [run] at hr
    cases hs : step c s x with
    | none => rw [hs] at hr; cases hr
    | some m =>
      rw [hs] at hr
      exact ih (fun t v hm => hx t v (List.mem_cons_of_mem _ hm)) (shape_step hsh hs)
        (far_step hv (fun t v e => hx t v (by rw [e]; exact List.mem_cons_self ..)) hsh h hs) hr

/-- `Done`, checked on the vertices that matter. -/
def done? (c : Cfg) (vs : List Nat) (s : St) : Bool :=
  loaded c s && (List.range c.T).all (fun t => decide (s.task t = .idle)) && vs.all (fun v => decide (s.pend v = []) && (c.dynamic || s.inited v))

def initsIn (vs : List Nat) (xs : List Act) : Bool := xs.all fun x => match x with | .init _ v => decide (v ∈ vs) | _ => true

theorem done_of {c : Cfg} {vs : List Nat} {xs : List Act} {s : St} (hv : ∀ e ∈ c.es, e.1 ∈ vs ∧ e.2 ∈ vs) (hi : initsIn vs xs = true)
    (hr : run c start xs = some s) (hd : done? c vs s = true) : Done c s ∧ ∀ v, v ∉ vs → s.leader v = 0 := by
  have hf : Far vs s := far_run hv (fun t v hm => by simpa using List.all_eq_true.1 hi _ hm) (shape_start c)
    ⟨fun v _ => ⟨rfl, rfl⟩, by simp [start, queued]⟩ hr
  simp only [done?, Bool.and_eq_true, List.all_eq_true, List.mem_range, decide_eq_true_eq, Bool.or_eq_true] at hd
  refine ⟨⟨hd.1.1, hd.1.2, fun v => ?_, fun hdyn i hi => ?_⟩, fun v hv => (hf.pend v hv).2⟩
  · by_cases hm : v ∈ vs
    · exact (hd.2 v hm).1
    · exact (hf.pend v hm).1
  · have hlt : i / 2 < c.es.length := by simp only [count] at hi; omega
    have hm : c.es.getD (i / 2) (0, 0) ∈ c.es := by
      rw [List.getD_eq_getElem?_getD, List.getElem?_eq_getElem hlt]; simp
    have hs : src c i ∈ vs := by
      simp only [src]
      split
      · exact (hv _ hm).1
      · exact (hv _ hm).2
    rcases (hd.2 _ hs).2 with h | h
    · rw [hdyn] at h; cases h
    · exact h

/-! ## Examples -/

def tri (a b e : Nat) (dyn : Bool) : Cfg := { T := 2, own := fun v => v % 2, es := [(a, b), (b, e), (e, a)], dynamic := dyn }

/-- Lines repeated and reversed, a self loop, two triangles. -/
def multi : Cfg := { T := 2, own := fun v => v % 2, es := [(1, 2), (2, 1), (2, 2), (2, 3), (1, 3), (3, 4), (4, 1), (1, 2)], dynamic := true }

/-- One event after the other, everything processed before the next. -/
def oneByOne (c : Cfg) (vs : List Nat) : List Act :=
  (vs.flatMap fun v => [.init (c.own v) v, .go (c.own v), .go (c.own v), .recv (c.own v) v 0, .go (c.own v)]) ++
  (List.range (count c)).flatMap fun i =>
    [.obs (c.own (dst c i)) (dst c i) i, .add (c.own (src c i)) (src c i) (i + 1), .go (c.own (src c i))] ++
    if First c i ∧ i % 2 = 1 then
      [.go (c.own (src c i)), .go (c.own (src c i)), .recv (c.own (dst c i)) (dst c i) 0, .go (c.own (dst c i))]
    else []

/-- The graph first. -/
def graphFirst : List Act :=
  [.obs 0 2 0, .obs 1 1 1, .obs 1 3 2, .obs 0 2 3, .obs 1 1 4, .obs 1 3 5, .add 1 1 6, .add 0 2 6, .add 1 3 6,
   .init 1 1, .go 1, .go 1, .recv 1 1 0, .go 1, .go 1, .go 1, .recv 1 3 0, .go 1, .init 0 2, .go 0, .go 0, .recv 0 2 0, .go 0,
   .init 1 3, .go 1, .go 1, .recv 1 3 0, .go 1]

/-- Threads overlap: `3` is asked about the edges of `1` before it has sent its own. -/
def overlap : List Act :=
  [.obs 0 2 0, .obs 1 1 1, .obs 1 3 2, .obs 0 2 3, .obs 1 1 4, .obs 1 3 5, .init 0 2, .add 1 1 6, .go 1, .go 0, .go 1, .go 0, .add 0 2 6, .go 0, .go 1,
   .go 0, .go 0, .add 1 3 6, .go 1, .go 1, .go 1, .recv 1 3 0, .go 1, .recv 0 2 0, .go 0, .recv 1 1 0, .go 1, .recv 0 2 0, .go 0]

example : ∃ s, run (tri 1 2 3 true) start (oneByOne (tri 1 2 3 true) [1, 2, 3]) = some s ∧ Done (tri 1 2 3 true) s ∧ s.leader 3 = 1 := by
  have h : ((run (tri 1 2 3 true) start (oneByOne (tri 1 2 3 true) [1, 2, 3])).map fun s => (done? (tri 1 2 3 true) [1, 2, 3] s, s.leader 3)) = some (true, 1) := by
    decide +kernel
  obtain ⟨s, hs, e⟩ := Option.map_eq_some_iff.1 h
  simp only [Prod.mk.injEq] at e
  exact ⟨s, hs, (done_of (by decide) (by decide +kernel) hs e.1).1, e.2⟩

example : ∃ s, run (tri 1 2 3 false) start graphFirst = some s ∧ Done (tri 1 2 3 false) s ∧ s.leader 3 = 1 := by
  have h : ((run (tri 1 2 3 false) start graphFirst).map fun s => (done? (tri 1 2 3 false) [1, 2, 3] s, s.leader 3)) = some (true, 1) := by
    decide +kernel
  obtain ⟨s, hs, e⟩ := Option.map_eq_some_iff.1 h
  simp only [Prod.mk.injEq] at e
  exact ⟨s, hs, (done_of (by decide) (by decide +kernel) hs e.1).1, e.2⟩

example : ∃ s, run (tri 1 2 3 true) start overlap = some s ∧ Done (tri 1 2 3 true) s ∧ s.leader 3 = 1 := by
  have h : ((run (tri 1 2 3 true) start overlap).map fun s => (done? (tri 1 2 3 true) [1, 2, 3] s, s.leader 3)) = some (true, 1) := by
    decide +kernel
  obtain ⟨s, hs, e⟩ := Option.map_eq_some_iff.1 h
  simp only [Prod.mk.injEq] at e
  exact ⟨s, hs, (done_of (by decide) (by decide +kernel) hs e.1).1, e.2⟩

example : ∃ s, run multi start (oneByOne multi [1, 2, 3, 4]) = some s ∧ Done multi s ∧ s.leader 1 = 1 ∧ s.leader 4 = 1 := by
  have h : ((run multi start (oneByOne multi [1, 2, 3, 4])).map fun s => (done? multi [1, 2, 3, 4] s, s.leader 1, s.leader 4)) = some (true, 1, 1) := by
    decide +kernel
  obtain ⟨s, hs, e⟩ := Option.map_eq_some_iff.1 h
  simp only [Prod.mk.injEq] at e
  exact ⟨s, hs, (done_of (by decide) (by decide +kernel) hs e.1).1, e.2⟩

example : (triangles 5 multi.es).card = 2 := by decide +kernel

/-- With id `2 ^ 31 - 1`, a flagged id looks like a discarded one: of the triangle `1`, `2`, `2 ^ 31 - 1` nothing is counted. -/
theorem C38_false : ¬ C38Statement := by
  intro hall
  have h : ((run (tri 1 (2 ^ 31 - 1) 2 true) start (oneByOne (tri 1 (2 ^ 31 - 1) 2 true) [1, 2, 2 ^ 31 - 1])).map fun s =>
      (done? (tri 1 (2 ^ 31 - 1) 2 true) [1, 2, 2 ^ 31 - 1] s, s.leader 1, s.leader 2, s.leader (2 ^ 31 - 1))) = some (true, 0, 0, 0) := by
    decide +kernel
  obtain ⟨s, hs, e⟩ := Option.map_eq_some_iff.1 h
  simp only [Prod.mk.injEq] at e
  obtain ⟨hd, hz⟩ := done_of (by decide) (by decide +kernel) hs e.1
  have hN : ∀ e ∈ (tri 1 (2 ^ 31 - 1) 2 true).es, e.1 < 2 ^ 31 ∧ e.2 < 2 ^ 31 := by decide
  have := hall _ (2 ^ 31) _ s hN (by decide) hs hd
  have h0 : ∑ v ∈ Finset.range (2 ^ 31), s.leader v = 0 := by
    refine Finset.sum_eq_zero fun v _ => ?_
    by_cases hm : v ∈ [1, 2, 2 ^ 31 - 1]
    · simp only [List.mem_cons, List.not_mem_nil, or_false] at hm
      rcases hm with rfl | rfl | rfl
      · exact e.2.1
      · exact e.2.2.1
      · exact e.2.2.2
    · exact hz v hm
  rw [h0] at this
  have hmem : ({1, 2, 2 ^ 31 - 1} : Finset Nat) ∈ triangles (2 ^ 31) (tri 1 (2 ^ 31 - 1) 2 true).es := by
    simp only [triangles, Finset.mem_filter, Finset.mem_powersetCard]
    refine ⟨⟨fun v hv => ?_, by decide⟩, by decide⟩
    simp only [Finset.mem_insert, Finset.mem_singleton] at hv
    rw [Finset.mem_range]
    rcases hv with rfl | rfl | rfl <;> decide
  rw [Finset.card_eq_zero.1 this.symm] at hmem
  simp at hmem

end Verif.Triangles
