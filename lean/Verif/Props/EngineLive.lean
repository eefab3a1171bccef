import Verif.EngineLive
import Verif.Props.Engine

/-!
# A run returns (C64)

If the graph has stopped changing and the algorithm has only boundedly many steps left (C62), then under every fair
schedule all threads leave their loops, in executions in which no vote is read between the two stores of
`termination.go:44-45`. With C63 this is total correctness of a run:
`C64_sssp_partial`, `C64_cc_partial`. In the other executions it may hang (`C64_false`).
-/

namespace Verif.Props.Engine

open Verif Verif.Engine
open Verif.Async (Alg Edge Prog Task Quiet)
open Verif.Props.Converge (NoTopology)

variable {P M N E : Type} [DecidableEq N]

section
variable {a : Alg P M N E} {c : Async.Cfg M N} {max : Nat}

/-- No loop reads the vote of a thread between its two stores. -/
def Fresh (e : Exec a c max) : Prop := ∀ i x, e.act i = .loop x → Term.fresh (e.st i).term x = true

/-- A sequence with infinitely many hits has as many as one likes. -/
theorem many {p : Nat → Bool} (h : ∀ m, ∃ i, m ≤ i ∧ p i = true) (m : Nat) : ∀ B, ∃ k, B ≤ ((List.range k).countP fun i => p (m + i))
  | 0 => ⟨0, Nat.zero_le _⟩
  | B + 1 => by
    obtain ⟨k, hk⟩ := many h m B
    obtain ⟨i, hi, hp⟩ := h (m + k)
    refine ⟨i - m + 1, ?_⟩
    have hmono : ∀ k1 k2, k1 ≤ k2 → ((List.range k1).countP fun i => p (m + i)) ≤ (List.range k2).countP fun i => p (m + i) := by
      intro k1 k2 hle
      induction hle with
      | refl => exact Nat.le_refl _
      | step _ ih => rw [List.range_succ, List.countP_append]; omega
    have := hmono k (i - m) (by omega)
    rw [List.range_succ, List.countP_append, List.countP_singleton, show m + (i - m) = i by omega, hp, if_pos rfl]
    omega

theorem seg_alg (e : Exec a c max) (m : Nat) (ht : ∀ i, m ≤ i → (e.act i).isTopo = false) : ∀ k, ∃ ys, NoTopology ys ∧
    Async.run a c (e.st m).alg ys = some (e.st (m + k)).alg ∧ ys.length = (List.range k).countP fun i => (e.act (m + i)).isAlg
  | 0 => ⟨[], fun y hy => absurd hy (by simp), rfl, rfl⟩
  | k + 1 => by
    obtain ⟨ys, h1, h2, h3⟩ := seg_alg e m ht k
    have hn := e.next (m + k)
    rw [List.range_succ, List.countP_append, List.countP_singleton, ← h3]
    by_cases hx : (e.act (m + k)).isAlg = true
    · obtain ⟨y, hy, hk⟩ := alg_work hx hn
      refine ⟨ys ++ [y], fun z hz => ?_, ?_, by rw [hx]; simp⟩
      · rcases List.mem_append.1 hz with hz | hz
        · exact h1 z hz
        · rw [List.mem_singleton.1 hz]; exact hk
      · exact Converge.run_append _ _ ys [y] _ _ _ h2 (by simp only [Async.run, hy, Option.bind_some]; rfl)
    · have hx' : (e.act (m + k)).isAlg = false := by simpa using hx
      exact ⟨ys, h1, by rw [h2, ← alg_same hx' (ht _ (by omega)) hn]; rfl, by rw [hx']; simp⟩

/-- From some moment on the algorithm does nothing. -/
theorem alg_stops (e : Exec a c max) (m : Nat) (ht : ∀ i, m ≤ i → (e.act i).isTopo = false) (B : Nat)
    (hB : ∀ ys s', NoTopology ys → Async.run a c (e.st m).alg ys = some s' → ys.length ≤ B) :
    ∃ m1, m ≤ m1 ∧ ∀ i, m1 ≤ i → (e.act i).isAlg = false := by
  by_contra hc
  have hc' : ∀ m1, ∃ i, m1 ≤ i ∧ (e.act i).isAlg = true := by
    intro m1
    by_contra h
    refine hc ⟨Nat.max m m1, Nat.le_max_left _ _, fun i hi => ?_⟩
    by_contra h'
    exact h ⟨i, Nat.le_trans (Nat.le_max_right _ _) hi, by simpa using h'⟩
  obtain ⟨k, hk⟩ := many hc' m (B + 1)
  obtain ⟨ys, h1, h2, h3⟩ := seg_alg e m ht k
  have := hB ys _ h1 h2
  omega

/-- No thread is stuck for ever. -/
theorem not_stuck (e : Exec a c max) (hf : e.Fair) {t i : Nat} (ht : t < c.T) (h : ∀ j, i ≤ j → (e.act j).isBy t = false ∧ (e.st j).term.pc t ≠ .done) : False := by
  obtain ⟨j, hj, hh⟩ := hf t ht i
  obtain ⟨h1, h2⟩ := h j hj
  rcases hh with hh | hh
  · rw [h1] at hh; cases hh
  · exact h2 hh

/-- If every instruction of a thread brings it nearer, it gets there. -/
theorem arrives (e : Exec a c max) (hf : e.Fair) {t i : Nat} (ht : t < c.T) (p q : St P M N E → Prop) (μ : St P M N E → Nat)
    (hp : p (e.st i)) (hs : ∀ j, i ≤ j → p (e.st j) → ¬ q (e.st j) → p (e.st (j + 1)) ∧ (e.st j).term.pc t ≠ .done ∧
      μ (e.st (j + 1)) + (if (e.act j).isBy t then 1 else 0) ≤ μ (e.st j)) : ∃ j, i ≤ j ∧ p (e.st j) ∧ q (e.st j) := by
  by_contra hc
  have hnq : ∀ j, i ≤ j → p (e.st j) → ¬ q (e.st j) := fun j hj hp hq => hc ⟨j, hj, hp, hq⟩
  have hall : ∀ k, p (e.st (i + k)) := by
    intro k
    induction k with
    | zero => exact hp
    | succ k ih => exact (hs (i + k) (by omega) ih (hnq _ (by omega) ih)).1
  have hall' : ∀ j, i ≤ j → p (e.st j) := fun j hj => by
    have := hall (j - i); rwa [show i + (j - i) = j by omega] at this
  have hmono : ∀ k j, i ≤ j → μ (e.st (j + k)) ≤ μ (e.st j) := by
    intro k
    induction k with
    | zero => exact fun j _ => Nat.le_refl _
    | succ k ih =>
      intro j hj
      have h1 := ih j hj
      have h2 := (hs (j + k) (by omega) (hall' _ (by omega)) (hnq _ (by omega) (hall' _ (by omega)))).2.2
      rw [show j + (k + 1) = j + k + 1 by omega]
      omega
  have hdec : ∀ n j, i ≤ j → μ (e.st j) ≤ n → False := by
    intro n
    induction n with
    | zero =>
      intro j hj hn
      obtain ⟨j', hj', hb⟩ := hf t ht j
      have h1 := hs j' (by omega) (hall' _ (by omega)) (hnq _ (by omega) (hall' _ (by omega)))
      have h2 := hmono (j' - j) j hj
      rw [show j + (j' - j) = j' by omega] at h2
      have h3 := h1.2.2
      rw [if_pos (hb.resolve_right h1.2.1)] at h3
      omega
    | succ n ih =>
      intro j hj hn
      obtain ⟨j', hj', hb⟩ := hf t ht j
      have h1 := hs j' (by omega) (hall' _ (by omega)) (hnq _ (by omega) (hall' _ (by omega)))
      have h2 := hmono (j' - j) j hj
      rw [show j + (j' - j) = j' by omega] at h2
      have h3 := h1.2.2
      rw [if_pos (hb.resolve_right h1.2.1)] at h3
      exact ih (j' + 1) (by omega) (by omega)
  exact hdec _ i (Nat.le_refl _) (Nat.le_refl _)

theorem fresh_step {s s' : St P M N E} {x : Act E} (hf : ∀ y, x = .loop y → Term.fresh s.term y = true) (hs : step a c max s x = some s') :
    s'.term = s.term ∨ ∃ y, Term.fresh s.term y = true ∧ Term.step ⟨c.T, max⟩ s.term y = some s'.term := by
  cases x with
  | loop y => exact .inr ⟨y, hf y rfl, (loop_step hs).1⟩
  | take t i =>
    simp only [step] at hs
    repeat' split at hs
    all_goals first | cases hs | (obtain ⟨α, hα, rfl⟩ := Option.map_eq_some_iff.1 hs; exact .inl rfl)
  | topo x =>
    simp only [step] at hs
    repeat' split at hs
    all_goals first | cases hs | (obtain ⟨α, hα, rfl⟩ := Option.map_eq_some_iff.1 hs; exact .inl rfl)
  | work t =>
    simp only [step] at hs
    repeat' split at hs
    all_goals first | cases hs | (obtain ⟨α, hα, rfl⟩ := Option.map_eq_some_iff.1 hs; exact .inl rfl)
  | claim t =>
    simp only [step] at hs
    split at hs
    · obtain ⟨τ, hτ, rfl⟩ := Option.map_eq_some_iff.1 hs; exact .inr ⟨_, rfl, hτ⟩
    · cases hs
  | fill t =>
    simp only [step] at hs
    split at hs
    · rename_i hp _
      obtain ⟨τ, hτ, hs⟩ := Option.bind_eq_some_iff.1 hs
      obtain ⟨α, hα, rfl⟩ := Option.map_eq_some_iff.1 hs
      exact .inr ⟨_, by simp only [Term.fresh, hp], hτ⟩
    · cases hs

theorem runFresh_snoc {d : Term.Cfg} {y : Term.Act} : ∀ {as : List Term.Act} {s0 s s' : Term.St}, Term.runFresh d s0 as = some s → Term.fresh s y = true →
    Term.step d s y = some s' → Term.runFresh d s0 (as ++ [y]) = some s'
  | [], s0, s, s', h, hf, hs => by
    simp only [Term.runFresh, Option.some.injEq] at h; subst h
    simp [Term.runFresh, hf, hs]
  | x :: as, s0, s, s', h, hf, hs => by
    simp only [Term.runFresh] at h
    split at h
    · rename_i hx
      obtain ⟨s1, h1, h2⟩ := Option.bind_eq_some_iff.1 h
      simp only [List.cons_append, Term.runFresh, hx, if_true, h1, Option.bind_some]
      exact runFresh_snoc h2 hf hs
    · cases h

theorem prefix_fresh (e : Exec a c max) (hf : Fresh e) : ∀ i, ∃ as, Term.runFresh ⟨c.T, max⟩ (e.st 0).term as = some (e.st i).term
  | 0 => ⟨[], rfl⟩
  | i + 1 => by
    obtain ⟨as, h⟩ := prefix_fresh e hf i
    rcases fresh_step (hf i) (e.next i) with h1 | ⟨y, h1, h2⟩
    · exact ⟨as, by rw [h1]; exact h⟩
    · exact ⟨as ++ [y], runFresh_snoc h h1 h2⟩

theorem inv_all (e : Exec a c max) (h0 : Inv c (e.st 0)) : ∀ i, Inv c (e.st i)
  | 0 => h0
  | i + 1 => inv_step (inv_all e h0 i) (e.next i)

/-- A quiet suffix of an execution: only loops, no stream, as in the proof of `C64_partial`. -/
structure Suffix (e : Exec a c max) (m : Nat) : Prop where
  fair : e.Fair
  fresh : Fresh e
  start : Start c max (e.st 0)
  closed : ∀ i, m ≤ i → ∀ t, t < c.T → (e.st i).term.closed t = true
  alg : ∀ i, m ≤ i → (e.act i).isAlg = false
  topo : ∀ i, m ≤ i → (e.act i).isTopo = false

variable {e : Exec a c max} {m : Nat}

theorem Suffix.noPut (h : Suffix e m) {i t : Nat} (hi : m ≤ i) (ht : t < c.T) : Term.isPut ((e.st i).term.pc t) = false := by
  by_contra hc
  have hp : ∀ k, Term.isPut ((e.st (i + k)).term.pc t) = true := by
    intro k
    induction k with
    | zero => simpa using hc
    | succ k ih => exact (put_stuck ih (h.alg _ (by omega)) (e.next _)).1
  refine not_stuck e h.fair ht (i := i) fun j hj => ?_
  have := hp (j - i)
  rw [show i + (j - i) = j by omega] at this
  refine ⟨(put_stuck this (h.alg _ (by omega)) (e.next _)).2, fun hd => ?_⟩
  rw [hd] at this; cases this

theorem Suffix.loop (h : Suffix e m) {i : Nat} (hi : m ≤ i) : ∃ y, e.act i = .loop y := by
  have h1 := h.alg i hi
  have h2 := h.topo i hi
  cases hx : e.act i with
  | loop y => exact ⟨y, rfl⟩
  | claim t =>
    have hn := e.next i
    rw [hx] at hn
    obtain ⟨ht, hp⟩ := claim_put hn
    have := h.noPut (i := i + 1) (by omega) ht
    rw [hp] at this; cases this
  | take t i => rw [hx] at h1; cases h1
  | work t => rw [hx] at h1; cases h1
  | fill t => rw [hx] at h1; cases h1
  | topo y => rw [hx] at h2; cases h2

theorem by_go {y : Term.Act} {t : Nat} : (Act.loop y : Act E).isBy t = decide (y = .go t) := by
  cases y <;> simp [Act.isBy]

theorem Suffix.hand (h : Suffix e m) {i t : Nat} (hi : m ≤ i) (ht : t < c.T) : (e.st i).hand t = [] := by
  by_contra hc
  obtain ⟨j, hj, hp, hq⟩ := arrives e h.fair ht (i := i) (fun s => s.hand t ≠ []) (fun s => Term.inBatch (s.term.pc t) = true) (fun s => Term.mu s.term t) hc
    (fun j hj hp hq => by
      obtain ⟨y, hy⟩ := h.loop (i := j) (by omega)
      have hn := e.next j
      rw [hy] at hn ⊢
      obtain ⟨h1, h2, h3, h4⟩ := loop_step hn
      have hnp := h.noPut (i := j) (by omega) ht
      have hb : begun ((e.st j).term.pc t) = false := by
        revert hq hnp
        cases (e.st j).term.pc t <;> simp only [Term.inBatch, Term.isPut, begun] <;> try simp
        rename_i w _ _ _
        cases w <;> simp
      have hl := (inv_all e h.start.inv j).han t hb
      have hh : Term.hand ((e.st j).term.pc t) ≠ 0 := by
        rw [← hl]; exact fun e => hp (List.length_eq_zero_iff.1 e)
      refine ⟨h4 t hp, fun hd => hh (by rw [hd]; rfl), ?_⟩
      have := Term.mu_step (h.closed j (by omega) t ht) hnp (by simpa using hq) hh h2 h1
      rw [by_go]
      simpa using this)
  have hp' : ∀ k, (e.st (j + k)).hand t ≠ [] ∧ Term.inBatch ((e.st (j + k)).term.pc t) = true := by
    intro k
    induction k with
    | zero => exact ⟨hp, hq⟩
    | succ k ih =>
      obtain ⟨y, hy⟩ := h.loop (i := j + k) (by omega)
      have hn := e.next (j + k)
      rw [hy] at hn
      exact ⟨(loop_step hn).2.2.2 t ih.1, (batch_stuck ih.1 ih.2 hn).1⟩
  refine not_stuck e h.fair ht (i := j) fun j' hj' => ?_
  have := hp' (j' - j)
  rw [show j + (j' - j) = j' by omega] at this
  obtain ⟨y, hy⟩ := h.loop (i := j') (by omega)
  have hn := e.next j'
  rw [hy] at hn ⊢
  refine ⟨?_, fun hd => ?_⟩
  · rw [by_go]; exact decide_eq_false (batch_stuck this.1 this.2 hn).2
  · rw [hd] at this; cases this.2

theorem Suffix.hand0 (h : Suffix e m) {i t : Nat} (hi : m ≤ i) (ht : t < c.T) (hb : Term.inBatch ((e.st i).term.pc t) = false) : Term.hand ((e.st i).term.pc t) = 0 := by
  have hnp := h.noPut hi ht
  have hb' : begun ((e.st i).term.pc t) = false := by
    revert hb hnp
    cases (e.st i).term.pc t <;> simp only [Term.inBatch, Term.isPut, begun] <;> try simp
    rename_i w _ _ _
    cases w <;> simp
  rw [← (inv_all e h.start.inv i).han t hb', h.hand hi ht]; rfl

theorem Suffix.empty (h : Suffix e m) (hm : 0 < max) {i t : Nat} (hi : m ≤ i) (ht : t < c.T) : ¬ Term.Waiting (e.st i).term t := by
  intro hw
  have hkeep : ∀ j, i ≤ j → Term.Waiting (e.st j).term t → Term.Waiting (e.st (j + 1)).term t := by
    intro j hj hw
    obtain ⟨y, hy⟩ := h.loop (i := j) (by omega)
    have hn := e.next j
    rw [hy] at hn
    obtain ⟨h1, h2, -, -⟩ := loop_step hn
    exact Term.waiting_step hw (h.hand0 (i := j + 1) (by omega) ht) h2 h1
  have hnd : ∀ j, Term.Waiting (e.st j).term t → (e.st j).term.pc t ≠ .done := by
    intro j hw hd
    obtain ⟨as, has⟩ := prefix_fresh e h.fresh j
    obtain ⟨e1, e2, -, -⟩ := (Term.C35_partial (c := ⟨c.T, max⟩) (bs := []) hm h.start.term has ht hd rfl).1.1 t ht
    simp only [Term.Waiting, e1, e2, List.length_nil] at hw
    omega
  obtain ⟨j, hj, hp, hq⟩ := arrives e h.fair ht (i := i) (fun s => Term.Waiting s.term t) (fun s => Term.atPull (s.term.pc t) = true) (fun s => Term.nu c.T s.term t) hw
    (fun j hj hp hq => by
      obtain ⟨y, hy⟩ := h.loop (i := j) (by omega)
      have hn := e.next j
      rw [hy] at hn ⊢
      obtain ⟨h1, h2, -, -⟩ := loop_step hn
      refine ⟨hkeep j hj hp, hnd j hp, ?_⟩
      have := Term.nu_step (c := ⟨c.T, max⟩) (h.closed j (by omega) t ht) (h.noPut (i := j) (by omega) ht) (by simpa using hq) (h.hand0 (i := j) (by omega) ht) h2 h1
      rw [by_go]
      simpa using this)
  obtain ⟨j', -, -, hf⟩ := arrives e h.fair ht (i := j) (fun s => Term.Waiting s.term t ∧ Term.atPull (s.term.pc t) = true) (fun s => False) (fun s => Term.pulls (s.term.pc t)) ⟨hp, hq⟩
    (fun j1 hj1 hp hq => by
      obtain ⟨y, hy⟩ := h.loop (i := j1) (by omega)
      have hn := e.next j1
      rw [hy] at hn ⊢
      obtain ⟨h1, h2, -, -⟩ := loop_step hn
      have hat : ∀ p : Term.PC, Term.atPull p = true → Term.inBatch p = false := by
        intro p; cases p <;> simp [Term.atPull, Term.inBatch]
      have hfull : ∀ sl ∈ (e.st j1).term.queue t, sl.full = true := by
        intro sl hsl
        by_contra hc
        obtain ⟨as, has⟩ := prefix_fresh e h.fresh j1
        obtain ⟨l1, -, -, -, -⟩ := Term.levels (c := ⟨c.T, max⟩) hm h.start.term (Term.runFresh_run has)
        have := (l1.opn t sl hsl (by simpa using hc)).1
        have hnp := h.noPut (i := j1) (by omega) (l1.slotQ t sl hsl).1
        revert this hnp
        cases (e.st j1).term.pc sl.src <;> simp [Term.putTo, Term.isPut]
      obtain ⟨as, has⟩ := prefix_fresh e h.fresh j1
      obtain ⟨l1, -, -, -, -⟩ := Term.levels (c := ⟨c.T, max⟩) hm h.start.term (Term.runFresh_run has)
      have hw' := hkeep j1 (by omega) hp.1
      have hk' : Term.hand ((e.st (j1 + 1)).term.pc t) = 0 := by
        refine h.hand0 (i := j1 + 1) (by omega) ht ?_
        have := hp.2
        revert this
        generalize (e.st (j1 + 1)).term = τ' at h1
        generalize (e.st j1).term = τ at h1
        clear hn hp hw' hfull has l1
        intro this
        step_cases h1
        all_goals grind [upd, Term.atPull, Term.inBatch]
      have := Term.pull_step (c := ⟨c.T, max⟩) hm hp.1 hp.2 (h.hand0 (i := j1) (by omega) ht (hat _ hp.2)) (l1.pull t) hfull hk' h2 h1
      refine ⟨⟨hw', this.1⟩, hnd j1 hp.1, ?_⟩
      rw [by_go]
      simpa using this.2)
  exact hf

theorem Suffix.rests (h : Suffix e m) {t : Nat} (ht : t < c.T) : ∃ k, m ≤ k ∧ ∀ j, k ≤ j → Term.busy ((e.st j).term.pc t) = false := by
  have hstep : ∀ j, m ≤ j → Term.toRest ((e.st (j + 1)).term.pc t) + (if (e.act j).isBy t = true ∧ Term.atWork ((e.st j).term.pc t) = true then 1 else 0) ≤
      Term.toRest ((e.st j).term.pc t) := by
    intro j hj
    obtain ⟨y, hy⟩ := h.loop (i := j) (by omega)
    have hn := e.next j
    rw [hy] at hn ⊢
    obtain ⟨h1, h2, -, -⟩ := loop_step hn
    have := Term.rest_step (c := ⟨c.T, max⟩) (h.closed j (by omega) t ht) (h.noPut (i := j) (by omega) ht) (h.hand0 (i := j) (by omega) ht) h2 h1
    rw [by_go]
    simpa using this
  have hw : ∀ p, Term.toRest p = 0 ↔ Term.atWork p = false := by
    intro p
    cases p <;> simp [Term.toRest, Term.atWork]
    rename_i w _ _ _
    cases w <;> simp
  obtain ⟨k, hk, -, hq⟩ := arrives e h.fair ht (i := m) (fun _ => True) (fun s => Term.toRest (s.term.pc t) = 0) (fun s => Term.toRest (s.term.pc t)) trivial
    (fun j hj _ hq => by
      have h1 := hstep j hj
      have h2 : Term.atWork ((e.st j).term.pc t) = true := by
        have := mt (hw _).2 hq
        simpa using this
      refine ⟨trivial, fun hd => ?_, ?_⟩
      · rw [hd] at h2; cases h2
      · simpa [h2] using h1)
  refine ⟨k, hk, fun j hj => ?_⟩
  have hz : ∀ n, Term.toRest ((e.st (k + n)).term.pc t) = 0 := by
    intro n
    induction n with
    | zero => exact hq
    | succ n ih => have := hstep (k + n) (by omega); rw [show k + (n + 1) = k + n + 1 by omega]; omega
  have h1 := hz (j - k)
  rw [show k + (j - k) = j by omega] at h1
  have h2 := (hw _).1 h1
  have h3 := h.noPut (i := j) (by omega) ht
  have h4 := h.hand0 (i := j) (by omega) ht
  revert h2 h3 h4
  cases (e.st j).term.pc t <;> simp [Term.atWork, Term.isPut, Term.inBatch, Term.hand, Term.busy]

theorem Suffix.all_rest (h : Suffix e m) : ∀ n, n ≤ c.T → ∃ k, m ≤ k ∧ ∀ t, t < n → ∀ j, k ≤ j → Term.busy ((e.st j).term.pc t) = false
  | 0, _ => ⟨m, Nat.le_refl _, fun t ht => absurd ht (by omega)⟩
  | n + 1, hn => by
    obtain ⟨k1, h1, h2⟩ := h.all_rest n (by omega)
    obtain ⟨k2, h3, h4⟩ := h.rests (t := n) (by omega)
    refine ⟨k1 + k2, by omega, fun t ht j hj => ?_⟩
    rcases Nat.lt_succ_iff_lt_or_eq.1 ht with hlt | rfl
    · exact h2 t hlt j (by omega)
    · exact h4 j (by omega)

theorem Suffix.finishes (h : Suffix e m) (hm : 0 < max) : ∃ k, m ≤ k ∧ Finished c (e.st k) := by
  obtain ⟨k, hk, hb⟩ := h.all_rest c.T (Nat.le_refl _)
  obtain ⟨as, has⟩ := prefix_fresh e h.fresh k
  have hn : Term.NothingInFlight ⟨c.T, max⟩ (e.st k).term := by
    obtain ⟨-, -, -, -, hbal⟩ := Term.levels (c := ⟨c.T, max⟩) hm h.start.term (Term.runFresh_run has)
    refine Term.nothing_of_still (fun t ht => ?_) hbal
    have := h.empty hm hk ht
    simp only [Term.Waiting] at this
    exact ⟨List.length_eq_zero_iff.1 (by omega), List.length_eq_zero_iff.1 (by omega), hb t ht k (Nat.le_refl _), h.closed k hk t ht⟩
  have hex : ∀ i, ∃ y, e.act (k + i) = .loop y := fun i => h.loop (by omega)
  choose y hy using hex
  let f : Term.Exec ⟨c.T, max⟩ :=
    { st := fun i => (e.st (k + i)).term
      act := y
      next := fun i => by have := e.next (k + i); rw [hy] at this; exact (loop_step this).1 }
  obtain ⟨j, hj⟩ := Term.C56_eventually_partial f hm h.start.term has (fun i => h.fresh _ _ (hy i)) hn (fun t ht i => by
    obtain ⟨j, hj, hh⟩ := h.fair t ht (k + i)
    refine ⟨j - k, by omega, ?_⟩
    have e1 : k + (j - k) = j := by omega
    rcases hh with hh | hh
    · left
      have := hy (j - k)
      rw [e1] at this
      rw [this, by_go] at hh
      simpa using hh
    · right; change (e.st (k + (j - k))).term.pc t = _; rw [e1]; exact hh)
  exact ⟨k + j, by omega, fun t ht => hj t ht⟩

end

/-- **C64 (missing: executions that read a vote between the two stores, which can hang: `C35_hangs`).** If from step
`m` on the topology stream has ended and the algorithm has a bounded number of steps left, then under every fair
schedule the run returns. -/
theorem C64_partial (a : Alg P M N E) (c : Async.Cfg M N) (max : Nat) (hm : 0 < max) (e : Exec a c max) (h0 : Start c max (e.st 0))
    (hfair : e.Fair) (hfresh : Fresh e) (m : Nat) (hcl : ∀ t, t < c.T → (e.st m).term.closed t = true) (htopo : ∀ i y, m ≤ i → e.act i ≠ .topo y)
    (hB : ∃ B, ∀ ys s', NoTopology ys → Async.run a c (e.st m).alg ys = some s' → ys.length ≤ B) : ∃ k, m ≤ k ∧ Finished c (e.st k) := by
  obtain ⟨B, hB⟩ := hB
  have ht : ∀ i, m ≤ i → (e.act i).isTopo = false := by
    intro i hi
    cases hx : e.act i with
    | topo y => exact absurd hx (htopo i y hi)
    | _ => rfl
  obtain ⟨m1, h1, h2⟩ := alg_stops e m ht B hB
  have hc : ∀ t, t < c.T → ∀ k, (e.st (m + k)).term.closed t = true := by
    intro t ht k
    induction k with
    | zero => exact hcl t ht
    | succ k ih =>
      rcases term_step (e.next (m + k)) with h | ⟨y, h⟩
      · rw [show m + (k + 1) = m + k + 1 by omega, h]; exact ih
      · exact Term.closed_step ih h
  obtain ⟨k, hk, hd⟩ := Suffix.finishes (e := e) (m := m1) ⟨hfair, hfresh, h0, fun i hi t ht => by
    have := hc t ht (i - m); rwa [show m + (i - m) = i by omega] at this, h2, fun i hi => ht i (by omega)⟩ hm
  exact ⟨k, by omega, hd⟩

theorem exec_run (a : Alg P M N E) (c : Async.Cfg M N) (max : Nat) (e : Exec a c max) : ∀ i, run a c max (e.st 0) ((List.range i).map e.act) = some (e.st i) := by
  have happ : ∀ (xs : List (Act E)) (x : Act E) (s s1 s2 : St P M N E), run a c max s xs = some s1 → step a c max s1 x = some s2 → run a c max s (xs ++ [x]) = some s2 := by
    intro xs
    induction xs with
    | nil => intro x s s1 s2 h h2; simp only [run, Option.some.injEq] at h; subst h; simp [run, h2]
    | cons y ys ih =>
      intro x s s1 s2 h h2
      simp only [run] at h
      obtain ⟨s', h3, h4⟩ := Option.bind_eq_some_iff.1 h
      simp only [List.cons_append, run, h3, Option.bind_some]
      exact ih x s' s1 s2 h4 h2
  intro i
  induction i with
  | zero => rfl
  | succ i ih => rw [List.range_succ, List.map_append]; exact happ _ _ _ _ _ ih (e.next i)

open Verif.MinLabel Verif.Props.MinLabel Verif.Props.Converge in
/-- **C64** for shortest paths (restricted as `C64_partial`): a run on a graph without negative weights returns,
and returns the exact distances. -/
theorem C64_sssp_partial (c : Async.Cfg Dist Unit) (hn : ∀ v, c.initNote v = none) (max : Nat) (hm : 0 < max) (hown : ∀ v, c.own v < c.T)
    (src : Nat) (hc : ∀ v, c.initMail v = if v = src then some 0 else none)
    (es0 : Nat → List (Edge ℚ)) (hes : FiniteGraph es0) (xs0 : List (Async.Act ℚ)) (hx0 : NoDeletes xs0)
    (e : Exec sssp c max) (hs0 : Async.run sssp c (Async.start sssp es0) xs0 = some (e.st 0).alg) (h0 : Start c max (e.st 0))
    (hfair : e.Fair) (hfresh : Fresh e) (m : Nat) (hcl : ∀ t, t < c.T → (e.st m).term.closed t = true) (htopo : ∀ i y, m ≤ i → e.act i ≠ .topo y)
    (hdel : ∀ i t v k, e.act i ≠ .topo (.del t v k)) (hw : ∀ u x, x ∈ (e.st m).alg.edges u → 0 ≤ x.data) (hsrc : (e.st m).alg.inited src = true) :
    ∃ k, Finished c (e.st k) ∧ (e.st k).alg.edges = (e.st m).alg.edges ∧ ∀ v, ((e.st k).alg.prop v = ⊤ ↔ ¬ ∃ d, Walk (e.st m).alg.edges src v d) ∧
      ∀ d : ℚ, (e.st k).alg.prop v = (d : Dist) ↔ IsLeast {x | Walk (e.st m).alg.edges src v x} d := by
  have hpre : ∃ ys, Async.run sssp c (Async.start sssp es0) ys = some (e.st m).alg ∧ NoDeletes ys := by
    obtain ⟨-, -, ys, h1, h2⟩ := proj (exec_run sssp c max e m)
    refine ⟨xs0 ++ ys, run_append _ _ xs0 ys _ _ _ hs0 h1, fun t u k hmem => ?_⟩
    rcases List.mem_append.1 hmem with hmem | hmem
    · exact hx0 t u k hmem
    · have := mem_topos (y := .del t u k) (xs := (List.range m).map e.act) (by rw [← h2]; exact List.mem_filter.2 ⟨hmem, rfl⟩)
      obtain ⟨i, -, hi⟩ := List.mem_map.1 this
      exact hdel i t u k hi
  obtain ⟨ys, hys, hnd⟩ := hpre
  obtain ⟨B, hB⟩ := C62_sssp c hn hown src hc es0 hes ys hnd _ hys hw hsrc
  obtain ⟨k, hk, hd⟩ := C64_partial sssp c max hm e h0 hfair hfresh m hcl htopo ⟨B, fun zs s' hz hr => (hB zs s' hz hr).1⟩
  obtain ⟨zs, hz, hr, -⟩ := seg_alg e m (fun i hi => by
    cases hx : e.act i with
    | topo y => exact absurd hx (htopo i y hi)
    | _ => rfl) (k - m)
  rw [show m + (k - m) = k by omega] at hr
  obtain ⟨hq, -, -⟩ := C63_final sssp c max hm hown _ _ h0 _ (exec_run sssp c max e k) hd
  exact ⟨k, hd, (stay_run hz hr).1, (hB zs _ hz hr).2 (rests_of_quiet hq)⟩

open Verif.MinLabel Verif.Props.MinLabel Verif.Props.Converge in
/-- **C64** for components (restricted as `C64_partial`): a run returns, and returns the smallest raw ids. -/
theorem C64_cc_partial (c : Async.Cfg Label Unit) (hn : ∀ v, c.initNote v = none) (max : Nat) (hm : 0 < max) (hown : ∀ v, c.own v < c.T)
    (raw : Nat → Label) (hc : ∀ v, c.initMail v = some (raw v))
    (es0 : Nat → List (Edge Unit)) (hes : FiniteGraph es0) (xs0 : List (Async.Act Unit)) (hx0 : NoDeletes xs0)
    (e : Exec cc c max) (hs0 : Async.run cc c (Async.start cc es0) xs0 = some (e.st 0).alg) (h0 : Start c max (e.st 0))
    (hfair : e.Fair) (hfresh : Fresh e) (m : Nat) (hcl : ∀ t, t < c.T → (e.st m).term.closed t = true) (htopo : ∀ i y, m ≤ i → e.act i ≠ .topo y)
    (hdel : ∀ i t v k, e.act i ≠ .topo (.del t v k)) (hund : MinLabel.Undirected (e.st m).alg.edges)
    (hin : ∀ u x, x ∈ (e.st m).alg.edges u → (e.st m).alg.inited u = true ∧ (e.st m).alg.inited x.dst = true) :
    ∃ k, Finished c (e.st k) ∧ (e.st k).alg.edges = (e.st m).alg.edges ∧
      ∀ v, (e.st m).alg.inited v = true → IsLeast {x | ∃ u, Connected (e.st m).alg.edges u v ∧ raw u = x} ((e.st k).alg.prop v) := by
  have hpre : ∃ ys, Async.run cc c (Async.start cc es0) ys = some (e.st m).alg ∧ NoDeletes ys := by
    obtain ⟨-, -, ys, h1, h2⟩ := proj (exec_run cc c max e m)
    refine ⟨xs0 ++ ys, run_append _ _ xs0 ys _ _ _ hs0 h1, fun t u k hmem => ?_⟩
    rcases List.mem_append.1 hmem with hmem | hmem
    · exact hx0 t u k hmem
    · have := mem_topos (y := .del t u k) (xs := (List.range m).map e.act) (by rw [← h2]; exact List.mem_filter.2 ⟨hmem, rfl⟩)
      obtain ⟨i, -, hi⟩ := List.mem_map.1 this
      exact hdel i t u k hi
  obtain ⟨ys, hys, hnd⟩ := hpre
  obtain ⟨B, hB⟩ := C62_cc c hn hown raw hc es0 hes ys hnd _ hys
  obtain ⟨k, hk, hd⟩ := C64_partial cc c max hm e h0 hfair hfresh m hcl htopo ⟨B, fun zs s' hz hr => (hB zs s' hz hr).1⟩
  obtain ⟨zs, hz, hr, -⟩ := seg_alg e m (fun i hi => by
    cases hx : e.act i with
    | topo y => exact absurd hx (htopo i y hi)
    | _ => rfl) (k - m)
  rw [show m + (k - m) = k by omega] at hr
  obtain ⟨hq, -, -⟩ := C63_final cc c max hm hown _ _ h0 _ (exec_run cc c max e k) hd
  exact ⟨k, hd, (stay_run hz hr).1, (hB zs _ hz hr).2 (rests_of_quiet hq) hund hin⟩

/-! ## An execution

That of `Verif/Props/Engine.lean`, for ever: when both threads have left, only the (idle) stream goes on. -/

/-- The next instruction of `t`, or of the stream if `t` has left. -/
def turn (a : Alg P M N E) (c : Async.Cfg M N) (max : Nat) (s : St P M N E) (t : Nat) : Act E :=
  if (step a c max s (next s t)).isSome then next s t else .loop (.close 0)

def seq (a : Alg P M N E) (c : Async.Cfg M N) (max : Nat) (s0 : St P M N E) (f : Nat → Nat) : Nat → St P M N E
  | 0 => s0
  | i + 1 => (step a c max (seq a c max s0 f i) (turn a c max (seq a c max s0 f i) (f i))).getD (seq a c max s0 f i)

theorem turn_step (a : Alg P M N E) (c : Async.Cfg M N) (max : Nat) (hT : 0 < c.T) (s : St P M N E) (t : Nat) : (step a c max s (turn a c max s t)).isSome = true := by
  unfold turn
  split
  · assumption
  · simp [step, Term.step, hT]

def exec (a : Alg P M N E) (c : Async.Cfg M N) (max : Nat) (hT : 0 < c.T) (s0 : St P M N E) (f : Nat → Nat) : Exec a c max where
  st := seq a c max s0 f
  act := fun i => turn a c max (seq a c max s0 f i) (f i)
  next := fun i => by
    have := turn_step a c max hT (seq a c max s0 f i) (f i)
    obtain ⟨s', hs'⟩ := Option.isSome_iff_exists.1 this
    rw [seq, hs']; rfl

theorem next_by (s : St P M N E) (t : Nat) : (next s t).isBy t = true := by
  unfold next
  repeat' split
  all_goals simp [Act.isBy]

/-- Every schedule that gives each thread infinitely many turns is fair. -/
theorem exec_fair (a : Alg P M N E) (c : Async.Cfg M N) (max : Nat) (hown : ∀ v, c.own v < c.T) (hT : 0 < c.T) (s0 : St P M N E) (h0 : Start c max s0) (f : Nat → Nat)
    (hf : ∀ t, t < c.T → ∀ i, ∃ j, i ≤ j ∧ f j = t) : (exec a c max hT s0 f).Fair := by
  intro t ht i
  obtain ⟨j, hj, e⟩ := hf t ht i
  refine ⟨j, hj, ?_⟩
  by_cases hd : ((exec a c max hT s0 f).st j).term.pc t = .done
  · exact .inr hd
  · left
    obtain ⟨s', hs'⟩ := C63_enabled a c max hown _ _ h0 _ (exec_run a c max (exec a c max hT s0 f) j) t ht hd
    change (turn a c max (seq a c max s0 f j) (f j)).isBy t = true
    rw [e, turn, if_pos]
    · exact next_by _ _
    · exact Option.isSome_iff_exists.2 ⟨s', hs'⟩

open Verif.MinLabel

def f63 (i : Nat) : Nat := turns63.getD (i % 440) 0

def e63 : Exec sssp c63 1024 := exec sssp c63 1024 (by decide) s63 f63

theorem e63_check : ((List.range 441).all fun i =>
    (match e63.act i with
      | .loop x => Term.fresh (e63.st i).term x
      | _ => true) &&
    (decide (i < 440) || decide ((e63.st i).term.pc 0 = .done ∧ (e63.st i).term.pc 1 = .done ∧ (e63.st i).alg.prop 3 = ((6 : ℚ) : Dist)))) = true := by decide +kernel

theorem e63_done (k : Nat) : (e63.st (440 + k)).term.pc 0 = .done ∧ (e63.st (440 + k)).term.pc 1 = .done := by
  induction k with
  | zero =>
    have := List.all_eq_true.1 e63_check 440 (by simp)
    rw [Nat.add_zero]
    generalize hj : (440 : Nat) = j at this ⊢
    simp only [Bool.and_eq_true, Bool.or_eq_true, decide_eq_true_eq] at this
    exact ⟨(this.2.resolve_left (by omega)).1, (this.2.resolve_left (by omega)).2.1⟩
  | succ k ih =>
    have hn := e63.next (440 + k)
    rcases term_step hn with h | ⟨y, h⟩
    · rw [show 440 + (k + 1) = 440 + k + 1 by omega, h]; exact ih
    · exact ⟨Term.done_step 0 ih.1 h, Term.done_step 1 ih.2 h⟩

theorem e63_fresh : Fresh e63 := by
  intro i x hx
  by_cases hi : i < 441
  · have := List.all_eq_true.1 e63_check i (by simpa using hi)
    rw [hx, Bool.and_eq_true] at this
    exact this.1
  · obtain ⟨h0, h1⟩ := e63_done (i - 440)
    rw [show 440 + (i - 440) = i by omega] at h0 h1
    cases x with
    | go t =>
      have hn := e63.next i
      rw [hx] at hn
      have h2 := (loop_step hn).1
      by_cases ht : t < c63.T
      · have : t = 0 ∨ t = 1 := by have : t < 2 := ht; omega
        rcases this with rfl | rfl
        · simp only [Term.fresh, h0]
        · simp only [Term.fresh, h1]
      · rw [Term.step, if_neg ht] at h2; cases h2
    | _ => rfl

/-- The hypotheses of `C64_sssp_partial` are met. -/
example : e63.Fair ∧ Fresh e63 ∧ Start c63 1024 (e63.st 0) ∧ (∀ t, t < 2 → (e63.st 0).term.closed t = true) ∧ (∀ i y, e63.act i ≠ .topo y) ∧
    Async.run sssp c63 (Async.start sssp g63) mail63 = some (e63.st 0).alg ∧ Converge.FiniteGraph g63 ∧ (e63.st 0).alg.inited 1 = true := by
  refine ⟨exec_fair _ _ _ (fun v => Nat.mod_lt _ (by decide)) _ _ s63_start _ (fun t ht i => ?_), e63_fresh, s63_start, fun _ _ => rfl, fun i y => ?_, a63_run, ⟨4, fun v => ⟨fun hv => ?_, fun x hx => ?_⟩⟩, by decide +kernel⟩
  · refine ⟨440 * i + 5 * t, by omega, ?_⟩
    have ht' : t < 2 := ht
    have : t = 0 ∨ t = 1 := by omega
    rcases this with rfl | rfl
    · simp only [f63, Nat.mul_zero, Nat.add_zero, Nat.mul_mod_right]; decide
    · simp only [f63, Nat.mul_add_mod]; decide
  · change turn _ _ _ _ _ ≠ _
    unfold turn next
    repeat' split
    all_goals simp
  · simp only [g63]; rw [if_neg (by omega), if_neg (by omega)]
  · simp only [g63] at hx
    split at hx
    · simp at hx; rw [hx]; decide
    · split at hx
      · simp at hx; rw [hx]; decide
      · cases hx

/-! ## An execution that never returns

The schedule of `C35_false` with shortest paths on the path `1 → 3 → 2 → 5 → 4`. -/

def g64 : Nat → List (Edge ℚ) := fun v =>
  if v = 1 then [⟨3, 1⟩] else if v = 3 then [⟨2, 1⟩] else if v = 2 then [⟨5, 1⟩] else if v = 5 then [⟨4, 1⟩] else []

def a64 : Async.St Dist Dist Unit ℚ := (Async.run sssp c63 (Async.start sssp g64) mail63).getD (Async.start sssp g64)

def s64 : St Dist Dist Unit ℚ where
  term := Term.ex0
  alg := a64
  queue := fun t => if t = 1 then [(⟨1, 0, true⟩, 3, ())] else []
  buff := fun _ => []
  hand := fun _ => []

/-- Who executes how many instructions. -/
def turns64 : List Nat := ([(0, 17), (0, 17), (0, 17), (0, 5), (1, 14), (1, 11), (0, 5), (1, 18), (1, 5), (0, 1), (0, 14), (0, 11), (1, 5), (0, 18), (0, 24), (0, 5), (1, 1), (1, 14), (1, 11), (0, 5), (1, 18), (1, 25)] : List (Nat × Nat)).flatMap fun x => List.replicate x.2 x.1

def f64 (i : Nat) : Nat := if i < 261 then turns64.getD i 0 else i % 2

def e64 : Exec sssp c63 1024 := exec sssp c63 1024 (by decide) s64 f64

theorem a64_run : Async.run sssp c63 (Async.start sssp g64) mail63 = some a64 := by
  have h : (Async.run sssp c63 (Async.start sssp g64) mail63).isSome = true := by decide +kernel
  obtain ⟨s, hs⟩ := Option.isSome_iff_exists.1 h
  rw [a64, hs]; rfl

theorem g64_finite : Converge.FiniteGraph g64 := by
  refine ⟨6, fun v => ⟨fun hv => ?_, fun x hx => ?_⟩⟩
  · simp only [g64]; rw [if_neg (by omega), if_neg (by omega), if_neg (by omega), if_neg (by omega)]
  · simp only [g64] at hx
    repeat' split at hx
    all_goals first | (rw [List.mem_singleton.1 hx]; decide) | cases hx

theorem a64_pend (v : Nat) : a64.pend v = if v = 3 then [()] else [] := by
  have hsup := Async.supp_run (n := 6) (sssp_eq ▸ minAlg_local _ _ 6) (xs := mail63) (by decide)
    (Async.supp_loaded sssp 6 g64 (fun v hv => by simp only [g64]; rw [if_neg (by omega), if_neg (by omega), if_neg (by omega), if_neg (by omega)])
      (fun v e he => by
        simp only [g64] at he
        repeat' split at he
        all_goals first | (rw [List.mem_singleton.1 he]; decide) | cases he)) a64_run
  by_cases hv : v < 6
  · have : ∀ v, v < 6 → a64.pend v = if v = 3 then [()] else [] := by decide +kernel
    exact this v hv
  · rw [hsup.pend v (by omega), if_neg (by omega)]

theorem s64_start : Start c63 1024 s64 := by
  refine ⟨Term.ex0_start, fun t => ?_, fun _ => rfl, fun _ => rfl, fun t => ?_, fun t x hx => ?_, fun v => ?_⟩
  · by_cases ht : t < 2
    · have h2 : ∀ t, t < 2 → isIdle (a64.task t) = true := by decide +kernel
      have := h2 t ht
      change a64.task t = _
      revert this; cases a64.task t <;> simp [isIdle]
    · exact task_out a64_run t (by simp only [c63]; omega)
  · simp only [s64, Term.ex0]; split <;> rfl
  · simp only [s64] at hx
    split at hx
    · rename_i e; rw [List.mem_singleton] at hx; rw [hx, e]; rfl
    · cases hx
  · change (a64.pend v).Perm _
    rw [a64_pend]
    by_cases hv : v = 3
    · subst hv; decide
    · rw [if_neg hv]
      simp only [s64]
      split
      · rw [List.filterMap_cons]; simp [Ne.symm hv]
      · rfl

theorem e64_check : ((List.range 262).all fun i => decide (i < 261) ||
    decide ((e64.st i).term.pc 1 = .done ∧ (e64.st i).term.view 1 = 7 ∧ (e64.st i).term.data 1 = 5 ∧ (e64.st i).term.closed 0 = true ∧ 2 ≤ (e64.st i).term.acts 0 ∧
      Term.early ((e64.st i).term.pc 0) = true ∧ (e64.st i).term.buff 0 = [] ∧ (e64.st i).term.queue 0 = [⟨1, 3, true⟩])) = true := by decide +kernel

theorem e64_stuck (k : Nat) : Term.Stuck (e64.st (261 + k)).term := by
  induction k with
  | zero =>
    have := List.all_eq_true.1 e64_check 261 (by simp)
    rw [Nat.add_zero]
    generalize hj : (261 : Nat) = j at this ⊢
    simp only [Bool.or_eq_true, decide_eq_true_eq] at this
    obtain ⟨h1, h2, h3, h4, h5, h6, h7, h8⟩ := this.resolve_left (by omega)
    exact ⟨h1, h2, h3, h4, h5, .inl ⟨h6, h7, _, _, h8, rfl⟩⟩
  | succ k ih =>
    rcases term_step (e64.next (261 + k)) with h | ⟨y, h⟩
    · rw [show 261 + (k + 1) = 261 + k + 1 by omega, h]; exact ih
    · exact Term.stuck_step ih h

/-- C64 in full, for shortest paths on a loaded graph: under every fair schedule the run returns. -/
def C64Statement : Prop :=
  ∀ (c : Async.Cfg Dist Unit) (max src : Nat) (es0 : Nat → List (Edge ℚ)) (xs0 : List (Async.Act ℚ)) (e : Exec sssp c max),
    0 < max → (∀ v, c.own v < c.T) → (∀ v, c.initNote v = none) → (∀ v, c.initMail v = if v = src then some 0 else none) →
    Converge.FiniteGraph es0 → (∀ u x, x ∈ es0 u → 0 ≤ x.data) → Props.MinLabel.NoDeletes xs0 →
    Async.run sssp c (Async.start sssp es0) xs0 = some (e.st 0).alg → Start c max (e.st 0) → e.Fair →
    (∀ t, t < c.T → (e.st 0).term.closed t = true) → (∀ i y, e.act i ≠ .topo y) → (e.st 0).alg.inited src = true →
    ∃ k, Finished c (e.st k)

/-- **C64 is violated**: thread 1 leaves its loop before thread 0 has processed its last notification, after which
thread 0 waits for it for ever. -/
theorem C64_false : ¬ C64Statement := by
  intro h
  obtain ⟨k, hk⟩ := h c63 1024 1 g64 mail63 e64 (by decide) (fun v => Nat.mod_lt _ (by decide)) (fun _ => rfl) (fun _ => rfl) g64_finite
    (fun u x hx => by
      simp only [g64] at hx
      repeat' split at hx
      all_goals first | (rw [List.mem_singleton.1 hx]; decide) | cases hx)
    (by intro t v k hm; simp [mail63] at hm) a64_run s64_start
    (exec_fair _ _ _ (fun v => Nat.mod_lt _ (by decide)) _ _ s64_start _ fun t ht i => by
      have ht' : t < 2 := ht
      exact ⟨2 * i + 262 + t, by omega, by simp only [f64]; rw [if_neg (by omega)]; omega⟩)
    (fun _ _ => rfl)
    (fun i y => by
      change turn _ _ _ _ _ ≠ _
      unfold turn next
      repeat' split
      all_goals simp) (by decide +kernel)
  have hd : ∀ j, k ≤ j → (e64.st j).term.pc 0 = .done := by
    intro j hj
    induction hj with
    | refl => exact hk 0 (by decide)
    | step _ ih =>
      rename_i n _
      rcases term_step (e64.next n) with h | ⟨y, h⟩
      · rw [h]; exact ih
      · exact Term.done_step 0 ih h
  have h1 := hd (261 + k) (by omega)
  rcases (e64_stuck k).2.2.2.2.2 with ⟨h, -⟩ | ⟨-, h⟩
  · rw [h1] at h; cases h
  · rw [h1] at h; exact h

end Verif.Props.Engine
