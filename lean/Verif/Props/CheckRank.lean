import Verif.Check
import Verif.Props.PageRankFinish

/-!
# The check of results (C78): PageRank
-/

namespace Verif.Props.Check

open Verif Verif.Async Verif.PageRank Verif.Props.PageRank Verif.Props.PageRankFinish Verif.Check

/-- The flows `OnFinish` leaves behind. -/
def leftover {E : Type} (s : St PR ℚ Unit E) (n : Nat) : List ℚ := ((seen s n).map PageRank.absorb).map FV.inflow

/-- What is checked, exactly: the total differs from one by what is left in mailboxes and by the flow that sinks hold back. -/
theorem C78_pagerank_total {E : Type} (T : Nat) (own : Nat → Nat) {es0 : Nat → List (Edge E)} (hfin : ∃ b, ∀ u, b ≤ u → es0 u = []) (xs : List (Act E)) (s : St PR ℚ Unit E)
    (h : run pagerank (cfg T own) (start pagerank es0) xs = some s) (hq : Quiet (cfg T own) s)
    (n : Nat) (hn : ∀ u, n ≤ u → s.edges u = []) (hdst : ∀ u, ∀ e ∈ s.edges u, e.dst < n) (hin : ∀ v, v < n → s.inited v = true)
    (rs : List ℚ) (hrs : finish (seen s n) = some rs) (hz : ∀ v, v < n → s.edges v = [] → (s.prop v).mass + (1 - damping) * (s.prop v).inflow ≠ 0) :
    (n : ℚ) * (rs.sum / 1 + (leftover s n).sum / (leftover s n).length - 1) =
      damping * (∑ v ∈ Finset.range n, if (s.edges v).isEmpty = true then (s.prop v).inflow else 0) - ∑ v ∈ Finset.range n, s.inbox v := by
  have hres := account T own hfin xs s h hq n hn hdst hin rs hrs hz
  have hn0 := finish_ne hrs
  have hlen : ((leftover s n).length : ℚ) = n := by simp [leftover, seen]
  have hsum : (leftover s n).sum = damping * ∑ v ∈ Finset.range n, (s.prop v).inflow := by
    unfold leftover seen
    rw [List.map_map, List.map_map, sum_range_list, Finset.mul_sum]
    rfl
  have hsplit : ∑ v ∈ Finset.range n, (s.prop v).inflow = ∑ v ∈ Finset.range n, (if (!(s.edges v).isEmpty) = true then (s.prop v).inflow else 0) +
      ∑ v ∈ Finset.range n, (if (s.edges v).isEmpty = true then (s.prop v).inflow else 0) := by
    rw [← Finset.sum_add_distrib]
    apply Finset.sum_congr rfl
    intro v _
    cases (s.edges v).isEmpty <;> simp
  rw [hlen, hsum, hsplit]
  have : (n : ℚ) * (damping * (∑ v ∈ Finset.range n, (if (!(s.edges v).isEmpty) = true then (s.prop v).inflow else 0) +
      ∑ v ∈ Finset.range n, (if (s.edges v).isEmpty = true then (s.prop v).inflow else 0)) / n) = damping * (∑ v ∈ Finset.range n, (if (!(s.edges v).isEmpty) = true then (s.prop v).inflow else 0) +
      ∑ v ∈ Finset.range n, (if (s.edges v).isEmpty = true then (s.prop v).inflow else 0)) := mul_div_cancel₀ _ hn0
  rw [div_one, mul_sub, mul_add, this, hres]
  ring

/-- **C78 (missing: results that are not numbers, sinks that hold exactly zero or hold back flow, mailboxes at exactly the
threshold).** A completed run passes, and the number logged is the sum of the ranks. -/
theorem C78_pagerank_partial {E : Type} (T : Nat) (own : Nat → Nat) {es0 : Nat → List (Edge E)} (hfin : ∃ b, ∀ u, b ≤ u → es0 u = []) (xs : List (Act E)) (s : St PR ℚ Unit E)
    (hne : Always pagerank (cfg T own) (fun s => ∀ v, |s.inbox v| ≠ epsilon) (start pagerank es0) xs)
    (h : run pagerank (cfg T own) (start pagerank es0) xs = some s) (hq : Quiet (cfg T own) s)
    (n : Nat) (hn : ∀ u, n ≤ u → s.edges u = []) (hdst : ∀ u, ∀ e ∈ s.edges u, e.dst < n) (hin : ∀ v, v < n → s.inited v = true)
    (rs : List ℚ) (hrs : finish (seen s n) = some rs) (hz : ∀ v, v < n → s.edges v = [] → (s.prop v).mass + (1 - damping) * (s.prop v).inflow ≠ 0)
    (hsink : ∀ v, v < n → s.edges v = [] → (s.prop v).inflow = 0) :
    rankCheck (finish (seen s n)) (leftover s n) = some (some rs.sum) := by
  have hε : (0 : ℚ) < epsilon := by decide +kernel
  have htot := C78_pagerank_total T own hfin xs s h hq n hn hdst hin rs hrs hz
  have hn0 := finish_ne hrs
  have hnp : (0 : ℚ) < n := lt_of_le_of_ne (Nat.cast_nonneg n) (Ne.symm hn0)
  have hnn : 0 < n := by exact_mod_cast hnp
  have hz0 : (∑ v ∈ Finset.range n, if (s.edges v).isEmpty = true then (s.prop v).inflow else 0) = 0 := by
    apply Finset.sum_eq_zero
    intro v hv
    split
    · next he => exact hsink v (Finset.mem_range.1 hv) (List.isEmpty_iff.1 he)
    · rfl
  have hI : |∑ v ∈ Finset.range n, s.inbox v| < n * epsilon := by
    refine (Finset.abs_sum_le_sum_abs _ _).trans_lt ?_
    have := Finset.sum_lt_sum_of_nonempty (s := Finset.range n) (f := fun v => |s.inbox v|) (g := fun _ => epsilon) ⟨0, Finset.mem_range.2 hnn⟩
      (fun v _ => lt_of_le_of_ne (C33_residual_partial damping epsilon hε T own xs s hne h hq v) (hne xs [] s (by simp) h v))
    simpa using this
  rw [hz0, mul_zero, zero_sub] at htot
  unfold rankCheck
  rw [hrs]
  dsimp only [Option.map_some]
  have : |rs.sum / 1 + (leftover s n).sum / (leftover s n).length - 1| < epsilon := by
    have e : (n : ℚ) * |rs.sum / 1 + (leftover s n).sum / (leftover s n).length - 1| = |∑ v ∈ Finset.range n, s.inbox v| := by
      rw [← abs_neg (∑ v ∈ Finset.range n, s.inbox v), ← htot, abs_mul, abs_of_pos hnp]
    rw [← e] at hI
    exact lt_of_mul_lt_mul_left hI hnp.le
  rw [if_pos (by unfold floatEquals; exact decide_eq_true this), div_one]

/-- On a run: 0→1 is replaced by 0→2, vertices 1 and 2 are sinks. -/
example : ∃ s rs, run pagerank c33 (start pagerank) s33b = some s ∧ Quiet c33 s ∧ finish (seen s 3) = some rs ∧
    (∀ v, v < 3 → s.edges v = [] → (s.prop v).mass + (1 - damping) * (s.prop v).inflow ≠ 0) ∧ (∀ v, v < 3 → s.edges v = [] → (s.prop v).inflow = 0) ∧ rankCheck (finish (seen s 3)) (leftover s 3) = some (some 1) := by
  obtain ⟨s, h1, h2, h3, h4⟩ := exists_quiet (c := c33) (n := 3) (alg_local damping epsilon 3) (xs := s33b) (by decide +kernel)
    (fun s => decide ((finish (seen s 3)).map List.sum = some 1 ∧ (s.prop 0).mass + (1 - damping) * (s.prop 0).inflow ≠ 0 ∧ (s.prop 1).mass + (1 - damping) * (s.prop 1).inflow ≠ 0 ∧
      (s.prop 2).mass + (1 - damping) * (s.prop 2).inflow ≠ 0 ∧ (s.prop 0).inflow = 0 ∧ (s.prop 1).inflow = 0 ∧ (s.prop 2).inflow = 0 ∧ rankCheck (finish (seen s 3)) (leftover s 3) = some (some 1))) (by decide +kernel)
  obtain ⟨h5, h6, h7, h8, h9, h10, h11, h12⟩ := of_decide_eq_true h4
  obtain ⟨rs, hr, hs⟩ := Option.map_eq_some_iff.1 h5
  refine ⟨s, rs, h1, h2, hr, ?_, ?_, h12⟩
  · intro v hv _
    match v, hv with
    | 0, _ => exact h6
    | 1, _ => exact h7
    | 2, _ => exact h8
  · intro v hv _
    match v, hv with
    | 0, _ => exact h9
    | 1, _ => exact h10
    | 2, _ => exact h11

/-- C78 for PageRank, one half: a completed run passes. -/
def C78RankStatement : Prop :=
  ∀ (T : Nat) (own : Nat → Nat) (xs : List (Act Unit)) (s : St PR ℚ Unit Unit), run pagerank (cfg T own) (start pagerank) xs = some s → Quiet (cfg T own) s →
    ∀ n, 0 < n → (∀ u, n ≤ u → s.edges u = []) → (∀ u, ∀ e ∈ s.edges u, e.dst < n) → (∀ v, v < n → s.inited v = true) → (rankCheck (finish (seen s n)) (leftover s n)).isSome = true

/-- **C78 is violated** for PageRank: an edge is inserted and deleted; the ranks are not numbers, and the check panics. -/
theorem C78_pagerank_false : ¬ C78RankStatement := by
  intro h
  obtain ⟨s, h1, h2, h3, i0, i1, -, -, hf, -⟩ := s55_quiet
  have := h 1 (fun _ => 0) s55 s h1 h2 2 (by decide) (fun u _ => h3 u) (fun u e he => by rw [h3 u] at he; cases he) (by
    intro v hv
    match v, hv with
    | 0, _ => exact i0
    | 1, _ => exact i1)
  rw [hf] at this
  simp [rankCheck, floatEquals] at this

/-- **C78 is violated** the other way: ranks that sum to one pass, whatever the graph is. -/
theorem C78_ranks_false (rs : List ℚ) (hs : rs.sum = 1) : rankCheck (some rs) (rs.map fun _ => 0) = some (some 1) := by
  have h0 : (rs.map fun _ => (0 : ℚ)).sum = 0 := by
    induction rs with
    | nil => rfl
    | cons _ _ _ => simp
  have hε : (0 : ℚ) < epsilon := by decide +kernel
  have hb : floatEquals (some (rs.sum / 1 + (rs.map fun _ => (0 : ℚ)).sum / (rs.map fun _ => (0 : ℚ)).length)) 1 epsilon = true := by
    unfold floatEquals
    apply decide_eq_true
    rw [h0, hs]
    simpa using hε
  unfold rankCheck
  dsimp only [Option.map_some]
  rw [if_pos hb, hs, div_one]

example : rankCheck (some [1, 0, 0]) [0, 0, 0] = some (some 1) ∧ rankCheck (some [1 / 3, 1 / 3, 1 / 3]) [0, 0, 0] = some (some 1) ∧ rankCheck (some [1 / 2, 1 / 3]) [0, 0] = none := by decide +kernel

end Verif.Props.Check
