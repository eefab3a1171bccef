import Verif.Props.Pipeline

/-!
# C44 (queries at exact positions) and C53 (the pipeline cannot get stuck)
-/

namespace Verif.Props.Pipeline

open Verif.Pipeline
open Verif.Loader (Typ Ev)

variable {E : Type}

/-! ## C44 -/

/-- What the `j`-th query must see: `k * (j + 1)` events passed on, and every thread has applied
exactly its share of these. -/
def expected (T k : Nat) (stream : List (Ev E)) (j : Nat) : Nat × List Nat :=
  (k * (j + 1), (List.range T).map fun t => ((stream.take (k * (j + 1))).filter (fun e => decide (owner T e.src = t))).length)

/-- The same, counted on the events that the remitter has passed on. -/
def passed (T k : Nat) (rs : List (REv E)) (j : Nat) : Nat × List Nat :=
  (k * (j + 1), (List.range T).map fun t => ((rs.take (k * (j + 1))).filter (fun r => decide (owner T r.src = t))).length)

def isQuerying (s : St E) : Bool := match s.rem with | .querying => true | _ => false

structure QInv (p : Params E) (k : Nat) (s : St E) : Prop where
  topo : ∀ t, s.topo t = s.remitted.filter (ownR p.T t)
  q : ∃ m, s.queries = (List.range m).map (passed p.T k s.remitted) ∧
      if isQuerying s then s.nextTarget = k * (m + 2) ∧ s.remitted.length = k * (m + 1)
      else s.nextTarget = k * (m + 1) ∧ k * m ≤ s.remitted.length ∧ s.remitted.length < k * (m + 1)

theorem qinv_same {p : Params E} {k : Nat} {s s' : St E} (h : QInv p k s)
    (h1 : isQuerying s' = isQuerying s) (h2 : s'.queries = s.queries) (h3 : s'.nextTarget = s.nextTarget) (h4 : s'.remitted = s.remitted)
    (h5 : s'.topo = s.topo) : QInv p k s' := by
  constructor
  · rw [h4, h5]; exact h.topo
  · rw [h1, h2, h3, h4]; exact h.q

theorem passed_snoc (T k : Nat) (rs : List (REv E)) (r : REv E) (m : Nat) (h : k * m ≤ rs.length) :
    (List.range m).map (passed T k (rs ++ [r])) = (List.range m).map (passed T k rs) := by
  apply List.map_congr_left
  intro j hj
  have hj := List.mem_range.1 hj
  have : k * (j + 1) ≤ k * m := Nat.mul_le_mul_left k hj
  simp only [passed]
  rw [List.take_append_of_le_length (by omega)]

theorem qinv_step (p : Params E) (k : Nat) (hk : p.interval = some k) (hk1 : 1 ≤ k) (stream : List (Ev E)) {s s' : St E} (a : Act)
    (hq : QInv p k s) (h : step p stream s a = some s') : QInv p k s' := by
  cases a with
  | remPut =>
    simp only [step] at h
    split at h
    · rename_i r hr
      split at h
      · rw [hk] at h
        simp only at h
        obtain ⟨q0, m, q1, q2⟩ := hq
        have hnq : isQuerying s = false := by simp [isQuerying, hr]
        rw [hnq] at q2
        simp only [Bool.false_eq_true, if_false] at q2
        have hmul : k * (m + 2) = k * (m + 1) + k := by rw [Nat.mul_add, Nat.mul_add]; omega
        have htp : ∀ t, upd s.topo (owner p.T r.src) (s.topo (owner p.T r.src) ++ [r]) t = (s.remitted ++ [r]).filter (ownR p.T t) := by
          intro t
          rw [List.filter_append, ← q0 t]
          by_cases et : t = owner p.T r.src
          · subst et; simp [ownR]
          · rw [upd_ne _ _ et]; simp [ownR, Ne.symm et]
        split at h
        · rename_i hge
          injection h with h; subst h
          simp only [List.length_append, List.length_singleton] at hge
          refine ⟨htp, m, ?_, ?_⟩
          · simp only; rw [passed_snoc _ _ _ _ _ q2.2.1]; exact q1
          · simp only [isQuerying, if_true, List.length_append, List.length_singleton]; omega
        · rename_i hge
          injection h with h; subst h
          simp only [List.length_append, List.length_singleton] at hge
          refine ⟨htp, m, ?_, ?_⟩
          · simp only; rw [passed_snoc _ _ _ _ _ q2.2.1]; exact q1
          · simp only [isQuerying, Bool.false_eq_true, if_false, List.length_append, List.length_singleton]; omega
      · cases h
    · cases h
  | remQuery =>
    simp only [step] at h
    split at h
    · rename_i hr
      split at h
      · rename_i hall
        injection h with h; subst h
        obtain ⟨q0, m, q1, q2⟩ := hq
        have hnq : isQuerying s = true := by simp [isQuerying, hr]
        rw [hnq] at q2
        simp only [if_true] at q2
        refine ⟨q0, m + 1, ?_, ?_⟩
        · simp only
          rw [List.range_succ, List.map_append, q1]
          congr 1
          simp only [List.map_cons, List.map_nil, passed, List.cons.injEq, and_true, Prod.mk.injEq]
          refine ⟨q2.2, ?_⟩
          apply List.map_congr_left
          intro t ht
          rw [List.all_eq_true] at hall
          have := hall t ht
          simp only [decide_eq_true_eq] at this
          rw [this, q0 t, ← q2.2, List.take_length]
          rfl
        · have hmul : k * (m + 1 + 1) = k * (m + 1) + k := by rw [Nat.mul_add]; omega
          simp only [isQuerying, Bool.false_eq_true, if_false]
          refine ⟨q2.1, by omega, by omega⟩
      · cases h
    · cases h
  | emitPut =>
    simp only [step] at h
    repeat' split at h
    all_goals first | (cases h; done) | (injection h with h; subst h; exact qinv_same hq rfl rfl rfl rfl rfl)
  | emitOrder =>
    simp only [step] at h
    repeat' split at h
    all_goals first | (cases h; done) | (injection h with h; subst h; exact qinv_same hq rfl rfl rfl rfl rfl)
  | emitClose =>
    simp only [step] at h
    repeat' split at h
    all_goals first | (cases h; done) | (injection h with h; subst h; exact qinv_same hq rfl rfl rfl rfl rfl)
  | convert t =>
    simp only [step] at h
    repeat' split at h
    all_goals first | (cases h; done) | (injection h with h; subst h; exact qinv_same hq rfl rfl rfl rfl rfl)
  | threadClose t =>
    simp only [step] at h
    repeat' split at h
    all_goals first | (cases h; done) | (injection h with h; subst h; exact qinv_same hq rfl rfl rfl rfl rfl)
  | enact t =>
    simp only [step] at h
    repeat' split at h
    all_goals first | (cases h; done) | (injection h with h; subst h; exact qinv_same hq rfl rfl rfl rfl rfl)
  | remTake =>
    simp only [step] at h
    repeat' split at h
    all_goals first | (cases h; done) | (rename_i hr _; injection h with h; subst h; exact qinv_same hq (by simp [isQuerying, hr]) rfl rfl rfl rfl)
  | remStop =>
    simp only [step] at h
    repeat' split at h
    all_goals first | (cases h; done) | (rename_i hr _; injection h with h; subst h; exact qinv_same hq (by simp [isQuerying, hr]) rfl rfl rfl rfl)
  | remGet =>
    simp only [step] at h
    repeat' split at h
    all_goals first | (cases h; done) | (rename_i hr _ _ _; injection h with h; subst h; exact qinv_same hq (by simp [isQuerying, hr]) rfl rfl rfl rfl)
  | remLook =>
    simp only [step] at h
    repeat' split at h
    all_goals first | (cases h; done) | (rename_i hr _; injection h with h; subst h; exact qinv_same hq (by simp [isQuerying, hr]) rfl rfl rfl rfl)
  | remRetry =>
    simp only [step] at h
    repeat' split at h
    all_goals first | (cases h; done) | (rename_i hr _; injection h with h; subst h; exact qinv_same hq (by simp [isQuerying, hr]) rfl rfl rfl rfl)
  | remGiveUp =>
    simp only [step] at h
    repeat' split at h
    all_goals first | (cases h; done) | (rename_i hr _; injection h with h; subst h; exact qinv_same hq (by simp [isQuerying, hr]) rfl rfl rfl rfl)

theorem qinv_run (p : Params E) (k : Nat) (hk : p.interval = some k) (hk1 : 1 ≤ k) (stream : List (Ev E)) : ∀ (as : List Act) {s s' : St E},
    QInv p k s → run p stream s as = some s' → QInv p k s' := by
  intro as
  induction as with
  | nil => intro s s' hq h; injection h with h; subst h; exact hq
  | cons a as ih =>
    intro s s' hq h
    obtain ⟨s1, h1, h2⟩ := run_cons h
    exact ih (qinv_step p k hk hk1 stream a hq h1) h2

/-- **C44**, every schedule. With a query interval of `k >= 1` events, the queries happen exactly
after events `k`, `2k`, `3k`, ...: at query `j` exactly `k * (j + 1)` events had been passed on and
every thread had applied exactly its share of them. When the remitter is not inside a query, none
is missing. -/
theorem C44_positions (p : Params E) (k : Nat) (hk : p.interval = some k) (hk1 : 1 ≤ k) (stream : List (Ev E)) (as : List Act) (s : St E)
    (h : run p stream (start p) as = some s) :
    ∃ m, s.queries = (List.range m).map (passed p.T k s.remitted) ∧ k * m ≤ s.remitted.length ∧ (s.rem ≠ .querying → m = s.remitted.length / k) := by
  have hq := qinv_run p k hk hk1 stream as
    ⟨by simp [start], 0, rfl, by simp [start, isQuerying, hk]; omega⟩ h
  obtain ⟨m, q1, q2⟩ := hq.q
  refine ⟨m, q1, ?_, ?_⟩
  · cases hc : isQuerying s with
    | true =>
      rw [hc] at q2; simp only [if_true] at q2
      rw [q2.2]; exact Nat.mul_le_mul_left k (Nat.le_succ m)
    | false => rw [hc] at q2; simp only [Bool.false_eq_true, if_false] at q2; exact q2.2.1
  · intro hr
    have hc : isQuerying s = false := by
      unfold isQuerying; split
      · exact absurd (by assumption) hr
      · rfl
    rw [hc] at q2
    simp only [Bool.false_eq_true, if_false] at q2
    rw [Nat.div_eq_of_lt_le (by rw [Nat.mul_comm]; exact q2.2.1) (by rw [Nat.mul_comm]; exact q2.2.2)]

/-- **C44** against the input stream, without the race of C52: query `j` sees exactly the first
`k * (j + 1)` events of the stream. -/
theorem C44_queries (p : Params E) (k : Nat) (hk : p.interval = some k) (hk1 : 1 ≤ k) (stream : List (Ev E)) (as : List Act) (s : St E)
    (hn : Act.remGiveUp ∉ as) (h : run p stream (start p) as = some s) :
    ∃ m, s.queries = (List.range m).map (expected p.T k stream) ∧ (s.rem ≠ .querying → m = s.remitted.length / k) := by
  obtain ⟨m, q1, q2, q3⟩ := C44_positions p k hk hk1 stream as s h
  refine ⟨m, ?_, q3⟩
  rw [q1]
  have hi := inv_run p stream as hn (inv_start p stream) h
  apply List.map_congr_left
  intro j hj
  have hj := List.mem_range.1 hj
  have hle : k * (j + 1) ≤ k * m := Nat.mul_le_mul_left k hj
  simp only [passed, expected, Prod.mk.injEq, true_and]
  apply List.map_congr_left
  intro t _
  have h1 := filter_map_strip p.T t (s.remitted.take (k * (j + 1)))
  rw [List.map_take, (remitted_strip hi).2, List.take_take, Nat.min_eq_left (by omega)] at h1
  have h2 := congrArg List.length h1
  rw [List.length_map] at h2
  exact h2

/-- The hypotheses of `C44_queries` are met by the run `exAs`. -/
example : ∃ s, run twoThreads three (start twoThreads) exAs = some s ∧ Act.remGiveUp ∉ exAs := ⟨_, rfl, by decide⟩

/-! ## C53 -/

/-- `s'` can be reached from `s` without the race. -/
def Reach (p : Params E) (stream : List (Ev E)) (s s' : St E) : Prop :=
  ∃ as, Act.remGiveUp ∉ as ∧ run p stream s as = some s'

theorem run_append (p : Params E) (stream : List (Ev E)) : ∀ (as bs : List Act) (s : St E),
    run p stream s (as ++ bs) = (run p stream s as).bind (fun s' => run p stream s' bs) := by
  intro as
  induction as with
  | nil => intro bs s; rfl
  | cons a as ih =>
    intro bs s
    simp only [List.cons_append, run]
    cases step p stream s a with
    | none => rfl
    | some s1 => exact ih bs s1

theorem Reach.refl (p : Params E) (stream : List (Ev E)) (s : St E) : Reach p stream s s := ⟨[], by simp, rfl⟩

theorem Reach.trans {p : Params E} {stream : List (Ev E)} {a b c : St E} (h1 : Reach p stream a b) (h2 : Reach p stream b c) :
    Reach p stream a c := by
  obtain ⟨as, n1, r1⟩ := h1
  obtain ⟨bs, n2, r2⟩ := h2
  refine ⟨as ++ bs, by simp [n1, n2], ?_⟩
  rw [run_append, r1]; exact r2

theorem Reach.step {p : Params E} {stream : List (Ev E)} {s s' : St E} (a : Act) (ha : Act.remGiveUp ≠ a) (h : step p stream s a = some s') :
    Reach p stream s s' := ⟨[a], by simpa using ha, by simp [run, h]⟩

theorem Reach.inv {p : Params E} {stream : List (Ev E)} {s s' : St E} (h : Reach p stream s s') (hi : Inv p stream s) : Inv p stream s' := by
  obtain ⟨as, n1, r1⟩ := h
  exact inv_run p stream as n1 hi r1

/-- Only the vertex tables and the applied events differ. -/
structure Same (s s' : St E) : Prop where
  emitted : s'.emitted = s.emitted
  ordered : s'.ordered = s.ordered
  closing : s'.closing = s.closing
  rem : s'.rem = s.rem
  remitted : s'.remitted = s.remitted
  topo : s'.topo = s.topo

theorem Same.trans {a b c : St E} (h1 : Same a b) (h2 : Same b c) : Same a c :=
  ⟨h2.emitted.trans h1.emitted, h2.ordered.trans h1.ordered, h2.closing.trans h1.closing, h2.rem.trans h1.rem,
    h2.remitted.trans h1.remitted, h2.topo.trans h1.topo⟩

theorem drain_one (p : Params E) (stream : List (Ev E)) (t : Nat) (ht : t < p.T) : ∀ (m : Nat) (s : St E), Inv p stream s →
    (s.topo t).length - s.topoN t = m → ∃ s', Reach p stream s s' ∧ Same s s' ∧ s'.topoN t = (s'.topo t).length ∧
      ∀ t', t' ≠ t → s'.topoN t' = s.topoN t' := by
  intro m
  induction m with
  | zero =>
    intro s hi hm
    exact ⟨s, Reach.refl _ _ _, ⟨rfl, rfl, rfl, rfl, rfl, rfl⟩, by have := hi.topoN t; omega, fun _ _ => rfl⟩
  | succ m ih =>
    intro s hi hm
    have hlt : s.topoN t < (s.topo t).length := by omega
    let r := (s.topo t)[s.topoN t]
    have hstep : step p stream s (.enact t) = some { s with topoN := upd s.topoN t (s.topoN t + 1), th := upd s.th t (lookup (s.th t) r.src r.idx).1, enacted := upd s.enacted t (s.enacted t ++ [((lookup (s.th t) r.src r.idx).2, r)]) } := by
      simp only [step]
      rw [if_pos ht, List.getElem?_eq_getElem hlt]
    have hr := Reach.step (.enact t) (by simp) hstep
    obtain ⟨s2, r2, c2, d2, e2⟩ := ih _ (hr.inv hi) (by simp only [upd_same]; omega)
    refine ⟨s2, hr.trans r2, ?_, d2, ?_⟩
    · exact ⟨c2.emitted, c2.ordered, c2.closing, c2.rem, c2.remitted, c2.topo⟩
    · intro t' ht'
      rw [e2 t' ht']; simp only [upd_ne _ _ ht']

/-- The threads can empty their topology queues. -/
theorem drain (p : Params E) (stream : List (Ev E)) (s : St E) (hi : Inv p stream s) :
    ∃ s', Reach p stream s s' ∧ Same s s' ∧ ∀ t, t < p.T → s'.topoN t = (s'.topo t).length := by
  have key : ∀ n, n ≤ p.T → ∃ s', Reach p stream s s' ∧ Same s s' ∧ ∀ t, t < n → s'.topoN t = (s'.topo t).length := by
    intro n
    induction n with
    | zero => intro _; exact ⟨s, Reach.refl _ _ _, ⟨rfl, rfl, rfl, rfl, rfl, rfl⟩, by intro t h; omega⟩
    | succ n ih =>
      intro hn
      obtain ⟨s1, r1, c1, d1⟩ := ih (by omega)
      obtain ⟨s2, r2, c2, d2, e2⟩ := drain_one p stream n (by omega) _ s1 (r1.inv hi) rfl
      refine ⟨s2, r1.trans r2, c1.trans c2, ?_⟩
      intro t ht
      by_cases et : t = n
      · subst et; exact d2
      · rw [e2 t et, c2.topo]; exact d1 t (by omega)
  exact key p.T (Nat.le_refl _)

/-- A query can finish. -/
theorem finish_query (p : Params E) (stream : List (Ev E)) (s : St E) (hi : Inv p stream s) (hr : s.rem = .querying) :
    ∃ s', Reach p stream s s' ∧ s'.rem = .idle ∧ s'.remitted = s.remitted ∧ s'.emitted = s.emitted ∧ s'.ordered = s.ordered ∧ s'.closing = s.closing := by
  obtain ⟨s1, r1, c1, d1⟩ := drain p stream s hi
  have hstep : step p stream s1 .remQuery = some { s1 with rem := .idle, queries := s1.queries ++ [(s1.remitted.length, (List.range p.T).map s1.topoN)] } := by
    simp only [step]
    rw [c1.rem, hr]
    simp only
    rw [if_pos]
    rw [List.all_eq_true]
    intro t ht
    simp only [decide_eq_true_eq]
    exact d1 t (List.mem_range.1 ht)
  exact ⟨_, r1.trans (Reach.step .remQuery (by decide) hstep), rfl, c1.remitted, c1.emitted, c1.ordered, c1.closing⟩

/-- An event in the remitter's hands can be put, and a query that follows can finish. -/
theorem finish_put (p : Params E) (stream : List (Ev E)) (hT : 0 < p.T) (hcap : 1 ≤ p.capTop) (s : St E) (r : REv E) (hi : Inv p stream s) (hr : s.rem = .hold r) :
    ∃ s', Reach p stream s s' ∧ s'.rem = .idle ∧ s'.remitted.length = s.remitted.length + 1 ∧ s'.emitted = s.emitted ∧ s'.ordered = s.ordered ∧ s'.closing = s.closing := by
  obtain ⟨s1, r1, c1, d1⟩ := drain p stream s hi
  have hroom : (s1.topo (owner p.T r.src)).length - s1.topoN (owner p.T r.src) < p.capTop := by
    have := d1 (owner p.T r.src) (Nat.mod_lt _ hT)
    omega
  have hr1 : s1.rem = .hold r := by rw [c1.rem, hr]
  cases hint : p.interval with
  | none =>
    have hstep : step p stream s1 .remPut = some { s1 with topo := upd s1.topo (owner p.T r.src) (s1.topo (owner p.T r.src) ++ [r]), remitted := s1.remitted ++ [r], rem := .idle } := by
      simp only [step]
      rw [hr1]; simp only
      rw [if_pos hroom, hint]
    exact ⟨_, r1.trans (Reach.step .remPut (by decide) hstep), rfl, by simp [c1.remitted], c1.emitted, c1.ordered, c1.closing⟩
  | some k =>
    by_cases hq : (s1.remitted ++ [r]).length ≥ s1.nextTarget
    · have hstep : step p stream s1 .remPut = some { s1 with topo := upd s1.topo (owner p.T r.src) (s1.topo (owner p.T r.src) ++ [r]), remitted := s1.remitted ++ [r], rem := .querying, nextTarget := s1.nextTarget + k } := by
        simp only [step]
        rw [hr1]; simp only
        rw [if_pos hroom, hint]; simp only
        rw [if_pos hq]
      have r2 := r1.trans (Reach.step .remPut (by decide) hstep)
      obtain ⟨s3, r3, a1, a2, a3, a4, a5⟩ := finish_query p stream _ (r2.inv hi) rfl
      exact ⟨s3, r2.trans r3, a1, by rw [a2]; simp [c1.remitted], by rw [a3]; exact c1.emitted, by rw [a4]; exact c1.ordered, by rw [a5]; exact c1.closing⟩
    · have hstep : step p stream s1 .remPut = some { s1 with topo := upd s1.topo (owner p.T r.src) (s1.topo (owner p.T r.src) ++ [r]), remitted := s1.remitted ++ [r], rem := .idle } := by
        simp only [step]
        rw [hr1]; simp only
        rw [if_pos hroom, hint]; simp only
        rw [if_neg hq]
      exact ⟨_, r1.trans (Reach.step .remPut (by decide) hstep), rfl, by simp [c1.remitted], c1.emitted, c1.ordered, c1.closing⟩

/-- The event that the remitter waits for can be fetched. -/
theorem finish_want (p : Params E) (stream : List (Ev E)) (hcap : 1 ≤ p.capTo) (hT : 0 < p.T) (s : St E) (t : Nat) (hi : Inv p stream s) (hr : s.rem = .want t) :
    ∃ s' r, Reach p stream s s' ∧ s'.rem = .hold r ∧ s'.remitted = s.remitted ∧ s'.emitted = s.emitted ∧ s'.ordered = s.ordered ∧ s'.closing = s.closing := by
  have hrem := hi.rem
  simp only [RemOk, hr] at hrem
  obtain ⟨g1, g2⟩ := hrem
  have hf : fetched s = s.remitted.length := by simp [fetched, hr]
  rw [hi.ord, List.getElem?_map] at g2
  obtain ⟨e, ge, ho⟩ := Option.map_eq_some_iff.1 g2
  have hlt : s.remitted.length < s.ordered := by
    have := lt_of_get ge; rw [List.length_take] at this; omega
  have hge : stream[s.remitted.length]? = some e := by
    rw [List.getElem?_take, if_pos hlt] at ge; exact ge
  have hown : ownD p.T t e = true := by simp [ownD, ho]
  have hem : s.remitted.length < s.emitted := by have := hi.em1; omega
  obtain ⟨k1, -⟩ := filter_take_split (ownD p.T t) stream s.remitted.length s.emitted e hge hown hem
  have htn := hi.trN t
  rw [hf] at htn
  rw [← htn, ← hi.fe t] at k1
  have htT : t < p.T := by rw [← ho]; exact Nat.mod_lt _ hT
  have get : ∀ s1 : St E, s1.rem = .want t → s1.trN t < (s1.tr t).length → ∃ s' r, Reach p stream s1 s' ∧ s'.rem = .hold r ∧
      s'.remitted = s1.remitted ∧ s'.emitted = s1.emitted ∧ s'.ordered = s1.ordered ∧ s'.closing = s1.closing := by
    intro s1 hr1 hl1
    have hstep : step p stream s1 .remGet = some { s1 with trN := upd s1.trN t (s1.trN t + 1), rem := .hold (s1.tr t)[s1.trN t] } := by
      simp only [step]
      rw [hr1]; simp only
      rw [List.getElem?_eq_getElem hl1]
    exact ⟨_, _, Reach.step .remGet (by decide) hstep, rfl, rfl, rfl, rfl, rfl⟩
  by_cases hav : s.trN t < (s.tr t).length
  · exact get s hr hav
  · have hle := hi.trLe t
    have hlen := hi.trLen t
    have hfn : s.feN t = s.trN t := by omega
    obtain ⟨th', r, e1, -⟩ := convert_spec (hi.th t) e (by rw [← ho]) (hi.pos t) (hi.known t)
    have hstep : step p stream s (.convert t) = some { s with feN := upd s.feN t (s.feN t + 1), th := upd s.th t th', tr := upd s.tr t (s.tr t ++ [r]) } := by
      simp only [step]
      rw [if_pos ⟨htT, by omega⟩, hfn, k1]; simp only
      rw [e1]
    obtain ⟨s2, r2, q1, q2, q3, q4, q5, q6⟩ := get _ (show ({ s with feN := upd s.feN t (s.feN t + 1), th := upd s.th t th', tr := upd s.tr t (s.tr t ++ [r]) } : St E).rem = .want t from hr)
      (by simp only [upd_same, List.length_append, List.length_singleton]; omega)
    exact ⟨s2, r2, (Reach.step (.convert t) (by simp) hstep).trans q1, q2, q3, q4, q5, q6⟩

/-- **C53.** With every queue of capacity at least one, the pipeline never gets stuck: from every
state that can be reached without the race of C52, in which the remitter is not just between the
two tests of that receive, it can run on until the whole stream has been passed on and applied. -/
theorem C53_can_finish (p : Params E) (stream : List (Ev E)) (hT : 0 < p.T) (h1 : 1 ≤ p.capFrom) (h2 : 1 ≤ p.capOrder)
    (h3 : 1 ≤ p.capTo) (h4 : 1 ≤ p.capTop) (as : List Act) (s : St E) (hn : Act.remGiveUp ∉ as)
    (h : run p stream (start p) as = some s) (hse : ∀ t, s.rem ≠ .sawEmpty t) :
    ∃ bs s', run p stream s bs = some s' ∧ s'.rem = .stopped ∧ s'.remitted.map strip = stream ∧
      ∀ t, t < p.T → (s'.enacted t).map (fun x => strip x.2) = stream.filter (fun e => decide (owner p.T e.src = t)) := by
  have hi := inv_run p stream as hn (inv_start p stream) h
  have key : ∀ (m : Nat) (s : St E), Inv p stream s → (∀ t, s.rem ≠ .sawEmpty t) →
      (stream.length - s.emitted) + (stream.length - s.ordered) + (p.T + 1 - s.closing) + 2 * (stream.length - s.remitted.length) +
        (match s.rem with | .stopped => 0 | .idle => 1 | _ => 2) ≤ m →
      ∃ s', Reach p stream s s' ∧ s'.rem = .stopped := by
    intro m
    induction m with
    | zero =>
      intro s hi hse hm
      cases hr : s.rem with
      | stopped => exact ⟨s, Reach.refl _ _ _, hr⟩
      | sawEmpty t => exact absurd hr (hse t)
      | idle => rw [hr] at hm; simp at hm
      | want t => rw [hr] at hm; simp at hm
      | hold r => rw [hr] at hm; simp at hm
      | querying => rw [hr] at hm; simp at hm
    | succ m ih =>
      intro s hi hse hm
      have hrl := (remitted_strip hi).1
      have idleNe : ∀ s1 : St E, s1.rem = .idle → ∀ t, s1.rem ≠ .sawEmpty t := by
        intro s1 h t e; rw [h] at e; cases e
      have hold : ∀ s1 : St E, ∀ r, Inv p stream s1 → s1.rem = .hold r → s1.remitted = s.remitted → s1.emitted = s.emitted → s1.ordered = s.ordered → s1.closing = s.closing →
          (stream.length - s.emitted) + (stream.length - s.ordered) + (p.T + 1 - s.closing) + 2 * (stream.length - s.remitted.length) + 1 ≤ m + 1 →
          ∃ s', Reach p stream s1 s' ∧ s'.rem = .stopped := by
        intro s1 r hi1 hr1 e1 e2 e3 e4 hb
        obtain ⟨s2, r2, q1, q2, q3, q4, q5⟩ := finish_put p stream hT h4 s1 r hi1 hr1
        have hi2 := r2.inv hi1
        have := (remitted_strip hi2).1
        obtain ⟨s3, r3, q6⟩ := ih s2 hi2 (idleNe s2 q1) (by
          rw [q1]; simp only
          rw [q2, q3, q4, q5, e1, e2, e3, e4]
          rw [q2, e1] at this
          omega)
        exact ⟨s3, r2.trans r3, q6⟩
      cases hr : s.rem with
      | stopped => exact ⟨s, Reach.refl _ _ _, hr⟩
      | sawEmpty t => exact absurd hr (hse t)
      | hold r =>
        rw [hr] at hm; simp only at hm
        exact hold s r hi hr rfl rfl rfl rfl (by omega)
      | want t =>
        rw [hr] at hm; simp only at hm
        obtain ⟨s1, r, r1, q1, q2, q3, q4, q5⟩ := finish_want p stream h3 hT s t hi hr
        obtain ⟨s2, r2, q6⟩ := hold s1 r (r1.inv hi) q1 q2 q3 q4 q5 (by omega)
        exact ⟨s2, r1.trans r2, q6⟩
      | querying =>
        rw [hr] at hm; simp only at hm
        obtain ⟨s1, r1, q1, q2, q3, q4, q5⟩ := finish_query p stream s hi hr
        obtain ⟨s2, r2, q6⟩ := ih s1 (r1.inv hi) (idleNe s1 q1) (by rw [q1]; simp only; rw [q2, q3, q4, q5]; omega)
        exact ⟨s2, r1.trans r2, q6⟩
      | idle =>
        rw [hr] at hm; simp only at hm
        have hrem := hi.rem
        simp only [RemOk, hr] at hrem
        have hon := hi.ordN
        have hordlen : s.ord.length = s.ordered := by
          rw [hi.ord, List.length_map, List.length_take]
          have := hi.em1; have := hi.em3; omega
        have e1 := hi.em1; have e2 := hi.em2; have e3 := hi.em3
        by_cases hav : s.ordN < s.ord.length
        · -- take the next target
          have hstep : step p stream s .remTake = some { s with ordN := s.ordN + 1, rem := .want s.ord[s.ordN] } := by
            simp only [step]
            rw [hr, List.getElem?_eq_getElem hav]
          have r0 := Reach.step .remTake (by decide) hstep
          obtain ⟨s1, r, r1, q1, q2, q3, q4, q5⟩ := finish_want p stream h3 hT _ _ (r0.inv hi) rfl
          obtain ⟨s2, r2, q6⟩ := hold s1 r ((r0.trans r1).inv hi) q1 q2 q3 q4 q5 (by omega)
          exact ⟨s2, (r0.trans r1).trans r2, q6⟩
        · by_cases ho : s.emitted = s.ordered + 1
          · have hlt : s.ordered < stream.length := by omega
            have hstep : step p stream s .emitOrder = some { s with ordered := s.ordered + 1, ord := s.ord ++ [owner p.T stream[s.ordered].dst] } := by
              simp only [step]
              rw [List.getElem?_eq_getElem hlt]; simp only
              rw [if_pos ⟨ho, by omega⟩]
            have r0 := Reach.step .emitOrder (by decide) hstep
            obtain ⟨s2, r2, q6⟩ := ih _ (r0.inv hi) (idleNe _ hr) (by simp only [hr]; omega)
            exact ⟨s2, r0.trans r2, q6⟩
          · by_cases hl : s.emitted < stream.length
            · have hf : fetched s = s.emitted := by simp [fetched, hr]; omega
              have htn := hi.trN (owner p.T stream[s.emitted].dst)
              rw [hf, ← hi.fe] at htn
              have a1 := hi.trLe (owner p.T stream[s.emitted].dst)
              have a2 := hi.trLen (owner p.T stream[s.emitted].dst)
              have hstep : step p stream s .emitPut = some { s with emitted := s.emitted + 1, fe := upd s.fe (owner p.T stream[s.emitted].dst) (s.fe (owner p.T stream[s.emitted].dst) ++ [stream[s.emitted]]) } := by
                simp only [step]
                rw [List.getElem?_eq_getElem hl]; simp only
                rw [if_pos ⟨by omega, by omega⟩]
              have r0 := Reach.step .emitPut (by decide) hstep
              obtain ⟨s2, r2, q6⟩ := ih _ (r0.inv hi) (idleNe _ hr) (by simp only [hr]; omega)
              exact ⟨s2, r0.trans r2, q6⟩
            · by_cases hc : s.closing < p.T + 1
              · have hstep : step p stream s .emitClose = some { s with closing := s.closing + 1 } := by
                  simp only [step]
                  rw [if_pos ⟨by omega, by omega, hc⟩]
                have r0 := Reach.step .emitClose (by decide) hstep
                obtain ⟨s2, r2, q6⟩ := ih _ (r0.inv hi) (idleNe _ hr) (by simp only [hr]; omega)
                exact ⟨s2, r0.trans r2, q6⟩
              · by_cases hc2 : s.closing = p.T + 1
                · have hstep : step p stream s .remStop = some { s with rem := .stopped } := by
                    simp only [step]
                    rw [hr]; simp only
                    rw [if_pos ⟨hc2, by omega⟩]
                  exact ⟨_, Reach.step .remStop (by decide) hstep, rfl⟩
                · exact absurd hi.clo2 (by omega)
  obtain ⟨s1, r1, q1⟩ := key _ s hi hse (Nat.le_refl _)
  obtain ⟨s2, r2, c2, d2⟩ := drain p stream s1 (r1.inv hi)
  obtain ⟨bs, n1, b1⟩ := r1.trans r2
  have hfull : run p stream (start p) (as ++ bs) = some s2 := by rw [run_append, h]; exact b1
  obtain ⟨g1, g2⟩ := C52_complete_partial p stream (as ++ bs) s2 (by simp [hn, n1]) hfull (by rw [c2.rem, q1])
  exact ⟨bs, s2, b1, by rw [c2.rem, q1], g1, fun t ht => g2 t (d2 t ht)⟩

/-- The hypotheses of `C53_can_finish` are met in the middle of `exAs`: queues are partly filled and
the remitter is waiting. -/
example : ∃ s, run twoThreads three (start twoThreads) (exAs.take 6) = some s ∧ Act.remGiveUp ∉ exAs.take 6 ∧
    0 < twoThreads.T ∧ 1 ≤ twoThreads.capFrom ∧ 1 ≤ twoThreads.capOrder ∧ 1 ≤ twoThreads.capTo ∧ 1 ≤ twoThreads.capTop ∧
    (∀ t, s.rem ≠ .sawEmpty t) := by
  refine ⟨_, rfl, by decide, by decide, by decide, by decide, by decide, by decide, ?_⟩
  intro t ht; cases ht

end Verif.Props.Pipeline
