import Verif.PageRankInv
import Verif.AsyncSupport
import Mathlib.Algebra.Order.BigOperators.Group.Finset
import Mathlib.Algebra.BigOperators.Field
import Mathlib.Algebra.Order.Ring.Abs
import Mathlib.Algebra.Order.Field.Basic

/-!
# PageRank accounting (C33)

For every damping factor, threshold, graph, history of additions and deletions, number of threads and
schedule; arithmetic is exact.
-/

namespace Verif.Props.PageRank

open Verif Verif.Async Verif.PageRank

variable {E : Type}

/-- The rank that the current edges of `u` pass on to `v`: an equal part of `d` times the rank of `u` for
each edge to `v`. -/
def passedOn (d : ℚ) (mass : Nat → ℚ) (edges : Nat → List (Edge E)) (u v : Nat) : ℚ :=
  ((edges u).map fun e => if e.dst = v then d * mass u / (edges u).length else 0).sum

theorem sum_ite_cnt (v : Nat) (x : ℚ) : ∀ es : List (Edge E), (es.map fun e => if e.dst = v then x else 0).sum = cnt v es * x
  | [] => by simp [cnt]
  | e :: es => by
    rw [List.map_cons, List.sum_cons, sum_ite_cnt v x es]
    unfold cnt
    rw [List.countP_cons]
    by_cases h : e.dst = v
    · simp [h]; ring
    · simp [h]

theorem passedOn_eq {d : ℚ} (hd : 1 - d ≠ 0) (mass : Nat → ℚ) (edges : Nat → List (Edge E)) (u v : Nat) :
    passedOn d mass edges u v = (1 - d) * share d (mass u) (edges u) v := by
  unfold passedOn share
  rw [sum_ite_cnt]
  field_simp

/-- **C33.** At every moment when no thread is inside a callback, whatever has been added and deleted
before: the rank of every vertex is what its current in-edges pass on, plus its own share, less what
waits in its mailbox and its withheld inflow. (`n` bounds the vertices that have edges.) -/
theorem C33_ledger (d ε : ℚ) (hd : d ≠ 1) (T : Nat) (own : Nat → Nat) {es0 : Nat → List (Edge E)} (hfin : ∃ b, ∀ u, b ≤ u → es0 u = []) (xs : List (Act E)) (s : St PR ℚ Unit E)
    (h : run (alg d ε) (cfg T own) (start (alg d ε) es0) xs = some s) (hidle : ∀ t, t < T → s.task t = .idle)
    (n : Nat) (hn : ∀ u, n ≤ u → s.edges u = []) (v : Nat) :
    (s.prop v).mass = (1 - d) * ((if s.inited v = true then 1 else 0) - s.inbox v - (s.prop v).inflow) +
      ∑ u ∈ Finset.range n, passedOn d (fun u => (s.prop u).mass) s.edges u v := by
  have hd' : 1 - d ≠ 0 := sub_ne_zero.2 (Ne.symm hd)
  obtain ⟨b, hb⟩ := exists_within xs
  obtain ⟨b', hb'⟩ := hfin
  obtain ⟨b, hb, hb'⟩ : ∃ k, (∀ x ∈ xs, Within k x) ∧ ∀ u, k ≤ u → es0 u = [] :=
    ⟨max b b', fun x hx => within_mono (Nat.le_max_left _ _) (hb x hx), fun u hu => hb' u (le_trans (Nat.le_max_right _ _) hu)⟩
  obtain ⟨G, hG⟩ := ledger_run hd' hb (ledger_start d ε (cfg T own) b es0 hb') h
  have hbal := hG.bal v
  have hz : ∑ t ∈ Finset.range (cfg T own).T, left v (s.task t) = 0 := by
    apply Finset.sum_eq_zero
    intro t ht
    rw [hidle t (Finset.mem_range.1 ht)]; rfl
  have hrest : ∀ u, G u = share d (s.prop u).mass (s.edges u) := by
    intro u
    by_cases hu : own u < T
    · apply hG.rest
      intro h' e
      have e' : s.task (own u) = _ := e
      rw [hidle _ hu] at e'; cases e'
    · apply hG.rest
      intro h' e
      have e' : s.task (own u) = _ := e
      rw [idle_outside h _ (not_lt.1 hu)] at e'; cases e'
  have hsum : ∑ u ∈ Finset.range b, G u v = ∑ u ∈ Finset.range n, share d (s.prop u).mass (s.edges u) v := by
    simp only [hrest]
    have hzero : ∀ m, (∀ u, m ≤ u → s.edges u = []) → ∑ u ∈ Finset.range (max b n), share d (s.prop u).mass (s.edges u) v = ∑ u ∈ Finset.range m, share d (s.prop u).mass (s.edges u) v ∨ max b n < m := by
      intro m hm
      by_cases hlt : max b n < m
      · exact .inr hlt
      · left
        symm
        apply Finset.sum_subset
        · intro x hx
          rw [Finset.mem_range] at *
          omega
        · intro x _ hx
          rw [Finset.mem_range] at hx
          rw [hm x (by omega), share_nil]
    have h1 := (hzero b (fun u hu => (hG.out u hu).1)).resolve_right (by omega)
    have h2 := (hzero n hn).resolve_right (by omega)
    rw [← h1, h2]
  rw [hz, hsum, add_zero] at hbal
  simp only [passedOn_eq hd', ← Finset.mul_sum]
  rw [eq_comm, ← sub_eq_iff_eq_add'] at hbal
  rw [eq_div_iff hd'] at hbal
  rw [← hbal]
  ring

/-- What is withheld never exceeds the threshold. -/
theorem C33_withheld (d ε : ℚ) (hε : 0 ≤ ε) (T : Nat) (own : Nat → Nat) {es0 : Nat → List (Edge E)} (xs : List (Act E)) (s : St PR ℚ Unit E)
    (h : run (alg d ε) (cfg T own) (start (alg d ε) es0) xs = some s) (v : Nat) : |(s.prop v).inflow| ≤ ε :=
  (run_inv (I := Small ε) (fun _ _ _ => small_step hε) (small_start hε es0) h).flow v

/-- **C33 (missing: mailboxes that hold exactly the threshold).** If no mailbox ever holds exactly the
threshold, then once nothing is outstanding no mailbox holds more than the threshold. -/
theorem C33_residual_partial (d ε : ℚ) (hε : 0 < ε) (T : Nat) (own : Nat → Nat) {es0 : Nat → List (Edge E)} (xs : List (Act E)) (s : St PR ℚ Unit E)
    (hne : Always (alg d ε) (cfg T own) (fun s => ∀ v, |s.inbox v| ≠ ε) (start (alg d ε) es0) xs)
    (h : run (alg d ε) (cfg T own) (start (alg d ε) es0) xs = some s) (hq : Quiet (cfg T own) s) (v : Nat) : |s.inbox v| ≤ ε := by
  by_contra hc
  have hb : BigUnseen ε (start (alg d ε) es0 : S E) := by
    intro u hu
    have : |(0 : ℚ)| > ε := hu
    rw [abs_zero] at this
    exact absurd this (not_lt.2 hε.le)
  have hu := bigUnseen_run hε.le hne hb h v (not_le.1 hc)
  rcases noticed_run h v hu with hp | ⟨t, ht, hcare⟩
  · exact hp (hq.2 v)
  · rw [hq.1 t ht] at hcare; exact hcare

/-- **C33 (missing: mailboxes that hold exactly the threshold).** Once nothing is outstanding the ranks
solve the PageRank equations of the final graph up to twice the threshold (times `1 - d`) per vertex. -/
theorem C33_ranks_partial (d ε : ℚ) (hd : d < 1) (hε : 0 < ε) (T : Nat) (own : Nat → Nat) {es0 : Nat → List (Edge E)} (hfin : ∃ b, ∀ u, b ≤ u → es0 u = []) (xs : List (Act E)) (s : St PR ℚ Unit E)
    (hne : Always (alg d ε) (cfg T own) (fun s => ∀ v, |s.inbox v| ≠ ε) (start (alg d ε) es0) xs)
    (h : run (alg d ε) (cfg T own) (start (alg d ε) es0) xs = some s) (hq : Quiet (cfg T own) s)
    (n : Nat) (hn : ∀ u, n ≤ u → s.edges u = []) (v : Nat) (hv : s.inited v = true) :
    |(s.prop v).mass - ((1 - d) + ∑ u ∈ Finset.range n, passedOn d (fun u => (s.prop u).mass) s.edges u v)| ≤ (1 - d) * (2 * ε) := by
  have h1 := C33_ledger d ε (ne_of_lt hd) T own hfin xs s h hq.1 n hn v
  have h2 := C33_withheld d ε hε.le T own xs s h v
  have h3 := C33_residual_partial d ε hε T own xs s hne h hq v
  rw [h1, if_pos hv]
  have : (1 - d) * (1 - s.inbox v - (s.prop v).inflow) + ∑ u ∈ Finset.range n, passedOn d (fun u => (s.prop u).mass) s.edges u v -
      ((1 - d) + ∑ u ∈ Finset.range n, passedOn d (fun u => (s.prop u).mass) s.edges u v) = (1 - d) * -(s.inbox v + (s.prop v).inflow) := by ring
  rw [this, abs_mul, abs_of_pos (by linarith : (0 : ℚ) < 1 - d), abs_neg]
  apply mul_le_mul_of_nonneg_left _ (by linarith)
  calc |s.inbox v + (s.prop v).inflow| ≤ |s.inbox v| + |(s.prop v).inflow| := abs_add_le _ _
    _ ≤ 2 * ε := by linarith

/-- The PageRank equations of a graph on the vertices below `n`. -/
def Solves (d : ℚ) (edges : Nat → List (Edge E)) (n : Nat) (x : Nat → ℚ) : Prop :=
  ∀ v, v < n → x v = (1 - d) + ∑ u ∈ Finset.range n, passedOn d x edges u v

theorem sum_passedOn_le {d : ℚ} (edges : Nat → List (Edge E)) (n : Nat) (x : Nat → ℚ) (hd : 0 ≤ d) (u : Nat) :
    ∑ v ∈ Finset.range n, |passedOn d x edges u v| ≤ d * |x u| := by
  have h1 : ∀ v, |passedOn d x edges u v| = (cnt v (edges u) : ℚ) * (d * |x u| / (edges u).length) := by
    intro v
    unfold passedOn
    rw [sum_ite_cnt, abs_mul, abs_div, abs_mul, Nat.abs_cast, Nat.abs_cast, abs_of_nonneg hd]
  simp only [h1, ← Finset.sum_mul]
  have h2 : ∀ es : List (Edge E), ∑ v ∈ Finset.range n, cnt v es ≤ es.length := by
    intro es
    induction es with
    | nil => simp [cnt]
    | cons e es ih =>
      have : ∀ v, cnt v (e :: es) = cnt v es + if e.dst = v then 1 else 0 := by
        intro v; unfold cnt; rw [List.countP_cons]; simp
      simp only [this, Finset.sum_add_distrib, Finset.sum_ite_eq]
      rw [List.length_cons]
      split <;> omega
  by_cases h0 : (edges u).length = 0
  · rw [h0]
    simp only [Nat.cast_zero, div_zero, mul_zero]
    exact mul_nonneg hd (abs_nonneg _)
  · have hl : (0 : ℚ) < (edges u).length := by exact_mod_cast Nat.pos_of_ne_zero h0
    have h3 : (∑ v ∈ Finset.range n, (cnt v (edges u) : ℚ)) ≤ (edges u).length := by exact_mod_cast h2 (edges u)
    calc (∑ v ∈ Finset.range n, (cnt v (edges u) : ℚ)) * (d * |x u| / (edges u).length) ≤ (edges u).length * (d * |x u| / (edges u).length) :=
          mul_le_mul_of_nonneg_right h3 (div_nonneg (mul_nonneg hd (abs_nonneg _)) hl.le)
      _ = d * |x u| := by field_simp

theorem passedOn_sub (d : ℚ) (edges : Nat → List (Edge E)) (x y : Nat → ℚ) (u v : Nat) :
    passedOn d x edges u v - passedOn d y edges u v = passedOn d (fun w => x w - y w) edges u v := by
  unfold passedOn
  rw [sum_ite_cnt, sum_ite_cnt, sum_ite_cnt]
  ring

/-- Approximate solutions are close to the solution, in total. -/
theorem near_solution {d δ : ℚ} (h0 : 0 ≤ d) (h1 : d < 1) (edges : Nat → List (Edge E)) (n : Nat) (x y : Nat → ℚ) (hy : Solves d edges n y)
    (hx : ∀ v, v < n → |x v - ((1 - d) + ∑ u ∈ Finset.range n, passedOn d x edges u v)| ≤ (1 - d) * δ) :
    ∑ v ∈ Finset.range n, |x v - y v| ≤ n * δ := by
  have hstep : ∀ v ∈ Finset.range n, |x v - y v| ≤ (1 - d) * δ + ∑ u ∈ Finset.range n, |passedOn d (fun w => x w - y w) edges u v| := by
    intro v hv
    rw [Finset.mem_range] at hv
    have e1 : x v - y v = (x v - ((1 - d) + ∑ u ∈ Finset.range n, passedOn d x edges u v)) + ∑ u ∈ Finset.range n, passedOn d (fun w => x w - y w) edges u v := by
      have hyv := hy v hv
      simp only [← passedOn_sub]
      rw [Finset.sum_sub_distrib]
      linarith
    rw [e1]
    calc _ ≤ _ + _ := abs_add_le _ _
      _ ≤ _ := add_le_add (hx v hv) (Finset.abs_sum_le_sum_abs _ _)
  have h2 := Finset.sum_le_sum hstep
  rw [Finset.sum_add_distrib, Finset.sum_const, Finset.card_range, nsmul_eq_mul, Finset.sum_comm] at h2
  have h3 : ∑ u ∈ Finset.range n, ∑ v ∈ Finset.range n, |passedOn d (fun w => x w - y w) edges u v| ≤ ∑ u ∈ Finset.range n, d * |x u - y u| :=
    Finset.sum_le_sum (fun u _ => sum_passedOn_le edges n (fun w => x w - y w) h0 u)
  rw [← Finset.mul_sum] at h3
  have h4 : (1 - d) * ∑ v ∈ Finset.range n, |x v - y v| ≤ (1 - d) * (n * δ) := by nlinarith
  exact le_of_mul_le_mul_left h4 (by linarith)

/-- **C33 (missing: mailboxes that hold exactly the threshold).** Once nothing is outstanding, the ranks
differ from the exact ranks of the final graph by at most `2 ε` per vertex on average, however the graph
came about. -/
theorem C33_error_partial (d ε : ℚ) (hd0 : 0 ≤ d) (hd : d < 1) (hε : 0 < ε) (T : Nat) (own : Nat → Nat) {es0 : Nat → List (Edge E)} (hfin : ∃ b, ∀ u, b ≤ u → es0 u = []) (xs : List (Act E)) (s : St PR ℚ Unit E)
    (hne : Always (alg d ε) (cfg T own) (fun s => ∀ v, |s.inbox v| ≠ ε) (start (alg d ε) es0) xs)
    (h : run (alg d ε) (cfg T own) (start (alg d ε) es0) xs = some s) (hq : Quiet (cfg T own) s)
    (n : Nat) (hn : ∀ u, n ≤ u → s.edges u = []) (hin : ∀ v, v < n → s.inited v = true) (y : Nat → ℚ) (hy : Solves d s.edges n y) :
    ∑ v ∈ Finset.range n, |(s.prop v).mass - y v| ≤ n * (2 * ε) :=
  near_solution hd0 hd s.edges n (fun u => (s.prop u).mass) y hy (fun v hv => C33_ranks_partial d ε hd hε T own hfin xs s hne h hq n hn v (hin v hv))

/-! ## A mailbox at exactly the threshold loses its notification

`MailMerge` reports news if the old magnitude is below and the new one above the threshold: neither side
covers equality. Once a mailbox holds exactly the threshold, nothing that arrives later is announced. -/

def goes (k : Nat) : List (Act Unit) := List.replicate k (.go 0)

/-- Vertex 0 gets 17 edges (one to 1, sixteen to 2); all visits done; two edges to 2 are deleted, which gives 1
exactly `17/20 (1/15 - 1/17) = 1/150`; then all other edges to 2 are deleted. -/
def s33 : List (Act Unit) :=
  [.init 0 0] ++ goes 2 ++ [.init 0 1] ++ goes 2 ++ [.init 0 2] ++ goes 2 ++
  [.add 0 0 (⟨1, ()⟩ :: List.replicate 16 ⟨2, ()⟩)] ++ goes 23 ++ [.recv 0 1 0] ++ goes 2 ++ [.recv 0 2 0] ++ goes 2 ++
  [.del 0 0 ([true, false, false] ++ List.replicate 14 true)] ++ goes 19 ++ [.del 0 0 (true :: List.replicate 14 false)] ++ goes 17

def c33 : Cfg ℚ Unit := cfg 1 (fun _ => 0)

example : (run pagerank c33 (start pagerank) s33).map (fun s => (s.inbox 1, s.inbox 2, s.edges 0)) = some (4 / 5, -4 / 5, [⟨1, ()⟩]) := by decide +kernel

theorem below_shareAll (n : Nat) : ∀ l : List (Nat × ℚ), (∀ q ∈ l, q.1 < n) → (shareAll l).Below n
  | [], _ => trivial
  | (w, x) :: l, h => ⟨h (w, x) (by simp), fun _ => below_shareAll n l (fun q hq => h q (by simp [hq]))⟩

theorem alg_local (d ε : ℚ) (n : Nat) : Local (alg d ε : Alg PR ℚ Unit E) n := by
  have hm : ∀ (es : List (Edge E)) (x : ℚ), (∀ e ∈ es, e.dst < n) → ∀ q ∈ es.map (fun e => (e.dst, x)), q.1 < n := by
    intro es x h q hq
    obtain ⟨e, he, rfl⟩ := List.mem_map.1 hq
    exact h e he
  refine ⟨?_, ?_, ?_⟩
  · intro v p es x i m hes
    simp only [alg, onUpdate]
    split
    · simp only
      split
      · exact below_shareAll _ _ (hm es _ hes)
      · trivial
    · trivial
  · intro v p es i m hes
    simp only [alg, onEdgeAdd]
    apply below_shareAll
    intro q hq
    rcases List.mem_append.1 hq with hq | hq
    · split at hq
      · exact hm _ _ (fun e he => hes e (List.mem_of_mem_take he)) q hq
      · simp at hq
    · exact hm _ _ (fun e he => hes e (List.mem_of_mem_drop he)) q hq
  · intro v p es ds m hes hds
    simp only [alg, onEdgeDel]
    apply below_shareAll
    intro q hq
    rcases List.mem_append.1 hq with hq | hq
    · split at hq
      · exact hm _ _ hes q hq
      · simp at hq
    · exact hm _ _ hds q hq

theorem s33_quiet : ∃ s, run pagerank c33 (start pagerank) s33 = some s ∧ Quiet c33 s ∧ (∀ u, 1 ≤ u → s.edges u = []) ∧
    s.inited 0 = true ∧ s.inited 1 = true ∧ s.inited 2 = true ∧ s.inbox 1 = 4 / 5 ∧ s.edges 0 = [⟨1, ()⟩] ∧ (s.prop 0).mass = 3 / 20 ∧ (s.prop 1).mass = 63 / 400 := by
  obtain ⟨s, h1, h2, h3, h4⟩ := exists_quiet (c := c33) (n := 3) (alg_local damping epsilon 3) (xs := s33) (by decide +kernel)
    (fun s => decide (s.edges 1 = [] ∧ s.edges 2 = [] ∧ s.inited 0 = true ∧ s.inited 1 = true ∧ s.inited 2 = true ∧ s.inbox 1 = 4 / 5 ∧ s.edges 0 = [⟨1, ()⟩] ∧ (s.prop 0).mass = 3 / 20 ∧ (s.prop 1).mass = 63 / 400)) (by decide +kernel)
  obtain ⟨e1, e2, h4⟩ := of_decide_eq_true h4
  refine ⟨s, h1, h2, ?_, h4⟩
  intro u hu
  match u, hu with
  | 1, _ => exact e1
  | 2, _ => exact e2
  | u + 3, _ => exact h3.edges _ (by omega)

/-- C33 without the exception: at quiescence no mailbox holds more than the threshold. -/
def C33_residualStatement : Prop :=
  ∀ (T : Nat) (own : Nat → Nat) (xs : List (Act Unit)) (s : St PR ℚ Unit Unit), run pagerank (cfg T own) (start pagerank) xs = some s → Quiet (cfg T own) s →
    ∀ v, |s.inbox v| ≤ epsilon

/-- **C33 is violated.** -/
theorem C33_residual_false : ¬ C33_residualStatement := by
  intro h
  obtain ⟨s, h1, h2, -, -, -, -, h3, -⟩ := s33_quiet
  have := h 1 (fun _ => 0) s33 s h1 h2 1
  rw [h3] at this
  revert this
  decide +kernel

/-- C33 for the result: at quiescence the ranks solve the equations up to twice the threshold. -/
def C33_ranksStatement : Prop :=
  ∀ (T : Nat) (own : Nat → Nat) (xs : List (Act Unit)) (s : St PR ℚ Unit Unit), run pagerank (cfg T own) (start pagerank) xs = some s → Quiet (cfg T own) s →
    ∀ n, (∀ u, n ≤ u → s.edges u = []) → ∀ v, s.inited v = true →
      |(s.prop v).mass - ((1 - damping) + ∑ u ∈ Finset.range n, passedOn damping (fun u => (s.prop u).mass) s.edges u v)| ≤ (1 - damping) * (2 * epsilon)

/-- **C33 is violated:** the rank of vertex 1 stays at 63/400 where the equations give 111/400. -/
theorem C33_ranks_false : ¬ C33_ranksStatement := by
  intro h
  obtain ⟨s, h1, h2, h3, -, i1, -, -, he, m0, m1⟩ := s33_quiet
  have := h 1 (fun _ => 0) s33 s h1 h2 1 h3 1 i1
  rw [Finset.sum_range_one] at this
  simp only [passedOn, he, m0, m1] at this
  revert this
  decide +kernel

/-! ## A run that meets the hypotheses -/

/-- Edge 0→1, then 0→2, then 0→1 is deleted; with every visit. -/
def s33b : List (Act Unit) :=
  [.init 0 0] ++ goes 2 ++ [.init 0 1] ++ goes 2 ++ [.init 0 2] ++ goes 2 ++ [.add 0 0 [⟨1, ()⟩]] ++ goes 5 ++ [.recv 0 1 0] ++ goes 2 ++
  [.add 0 0 [⟨2, ()⟩]] ++ goes 8 ++ [.recv 0 1 0] ++ goes 2 ++ [.recv 0 2 0] ++ goes 2 ++
  [.del 0 0 [false, true]] ++ goes 8 ++ [.recv 0 1 0] ++ goes 2 ++ [.recv 0 2 0] ++ goes 2

/-- All traces of the deleted edge are gone: 0.15, 0.15 and 0.15 + 0.85 · 0.15. -/
example : ∃ s, run pagerank c33 (start pagerank) s33b = some s ∧ Quiet c33 s ∧
    Always pagerank c33 (fun s => ∀ v, |s.inbox v| ≠ epsilon) (start pagerank) s33b ∧ (∀ u, 3 ≤ u → s.edges u = []) ∧ (∀ v, v < 3 → s.inited v = true) ∧
    (s.prop 0).mass = 3 / 20 ∧ (s.prop 1).mass = 3 / 20 ∧ (s.prop 2).mass = 111 / 400 := by
  obtain ⟨s, h1, h2, h3, h4⟩ := exists_quiet (c := c33) (n := 3) (alg_local damping epsilon 3) (xs := s33b) (by decide +kernel)
    (fun s => decide ((s.inited 0 = true ∧ s.inited 1 = true ∧ s.inited 2 = true) ∧ (s.prop 0).mass = 3 / 20 ∧ (s.prop 1).mass = 3 / 20 ∧ (s.prop 2).mass = 111 / 400)) (by decide +kernel)
  obtain ⟨h5, h6⟩ := of_decide_eq_true h4
  refine ⟨s, h1, h2, ?_, fun u hu => h3.edges u hu, ?_, h6⟩
  · intro ys zs s' he hr v
    have := okRun_inbox (c := c33) (alg_local damping epsilon 3) (fun _ => rfl) (fun x => decide (|x| ≠ epsilon)) (by decide +kernel) (xs := s33b) (by decide +kernel)
      (supp_start _ 3) (fun _ _ => rfl) (by decide +kernel) ys zs s' he hr v
    exact of_decide_eq_true this
  · intro v hv
    match v, hv with
    | 0, _ => exact h5.1
    | 1, _ => exact h5.2.1
    | 2, _ => exact h5.2.2

end Verif.Props.PageRank
