import Verif.PageRankConv
import Verif.PageRankSync
import Verif.Props.PageRank
import Verif.Props.EngineCase
import Verif.Props.SyncLive
import Mathlib.LinearAlgebra.FiniteDimensional.Lemmas

/-!
# PageRank comes to rest (C66)

However the graph came about and threads are scheduled, once the graph stops changing only finitely many steps
are left; then the ranks are close to the exact ones, which exist and are unique.
-/

namespace Verif.Props.PageRank

open Verif Verif.Async Verif.PageRank
open Verif.Props.Converge (FiniteGraph NoTopology Rests)

variable {E : Type}

theorem exists_len (es0 : Nat → List (Edge E)) (n : Nat) (h : ∀ v, n ≤ v → es0 v = []) : ∃ B, ∀ v, (es0 v).length ≤ B := by
  refine ⟨∑ v ∈ Finset.range n, (es0 v).length, fun v => ?_⟩
  by_cases hv : v < n
  · exact Finset.single_le_sum (f := fun v => (es0 v).length) (fun _ _ => Nat.zero_le _) (Finset.mem_range.2 hv)
  · rw [h v (by omega)]; exact Nat.zero_le _

theorem plain_of_noTopology {n : Nat} {ys : List (Act E)} (h : NoTopology ys) : ∀ y ∈ ys, Sync.Plain y ∧ y.below n = true := by
  intro y hy
  rcases h y hy with ⟨t, rfl⟩ | ⟨t, v, i, rfl⟩ <;> exact ⟨trivial, rfl⟩

/-- **C66.** Whatever has been added and deleted, once the graph stays as it is the number of steps left is
bounded, whatever the schedule. -/
theorem C66_bound (d ε : ℚ) (h0 : 0 ≤ d) (h1 : d < 1) (hε : 0 < ε) (T : Nat) (own : Nat → Nat) (es0 : Nat → List (Edge E)) (hes : FiniteGraph es0)
    (xs : List (Act E)) (s : St PR ℚ Unit E) (h : run (alg d ε) (cfg T own) (start (alg d ε) es0) xs = some s) :
    ∃ B, ∀ ys s', NoTopology ys → run (alg d ε) (cfg T own) s ys = some s' → ys.length ≤ B := by
  obtain ⟨n0, hn0⟩ := hes
  obtain ⟨n, hle, hxn⟩ := Converge.exists_below n0 xs
  have hsrc : ∀ v, n ≤ v → es0 v = [] := fun v hv => (hn0 v).1 (by omega)
  have hsup := supp_loaded (alg d ε) n es0 hsrc fun v e he => Nat.lt_of_lt_of_le ((hn0 v).2 e he) hle
  obtain ⟨B0, hB0⟩ := exists_len es0 n hsrc
  obtain ⟨B, hB⟩ := calm_run h0 h1 (fun _ => rfl) (alg_local d ε n) hsup (calm_start (c := cfg T own) es0 B0 hB0) (List.all_eq_true.1 hxn) h
  obtain ⟨K, hK⟩ := converge h0 h1 hε (fun _ => rfl) (fun _ => rfl) (alg_local d ε n) (supp_run (alg_local d ε n) hxn hsup h) hB
  exact ⟨K, fun ys s' hy hr => hK ys s' (plain_of_noTopology hy) hr⟩

/-- **C66.** Every history can be brought to rest. -/
theorem C66_rest (d ε : ℚ) (h0 : 0 ≤ d) (h1 : d < 1) (hε : 0 < ε) (T : Nat) (own : Nat → Nat) (hown : ∀ v, own v < T) (es0 : Nat → List (Edge E)) (hes : FiniteGraph es0)
    (xs : List (Act E)) (s : St PR ℚ Unit E) (h : run (alg d ε) (cfg T own) (start (alg d ε) es0) xs = some s) :
    ∃ ys s', NoTopology ys ∧ run (alg d ε) (cfg T own) s ys = some s' ∧ Quiet (cfg T own) s' := by
  obtain ⟨B, hB⟩ := C66_bound d ε h0 h1 hε T own es0 hes xs s h
  exact Converge.rest_of_bound hown B s hB

/-! ## The exact ranks -/

theorem passedOn_add (d : ℚ) (edges : Nat → List (Edge E)) (x y : Nat → ℚ) (u v : Nat) :
    passedOn d (fun w => x w + y w) edges u v = passedOn d x edges u v + passedOn d y edges u v := by
  unfold passedOn
  rw [sum_ite_cnt, sum_ite_cnt, sum_ite_cnt]
  ring

theorem passedOn_smul (d k : ℚ) (edges : Nat → List (Edge E)) (x : Nat → ℚ) (u v : Nat) :
    passedOn d (fun w => k * x w) edges u v = k * passedOn d x edges u v := by
  unfold passedOn
  rw [sum_ite_cnt, sum_ite_cnt]
  ring

theorem passedOn_congr (d : ℚ) (edges : Nat → List (Edge E)) (x y : Nat → ℚ) (u v : Nat) (h : x u = y u) :
    passedOn d x edges u v = passedOn d y edges u v := by
  unfold passedOn
  rw [h]

/-- A vector as a function on all vertices. -/
def extend (n : Nat) (x : Fin n → ℚ) (v : Nat) : ℚ := if h : v < n then x ⟨v, h⟩ else 0

/-- What is left of a vector when each vertex subtracts what it is passed. -/
def defect (d : ℚ) (edges : Nat → List (Edge E)) (n : Nat) : (Fin n → ℚ) →ₗ[ℚ] (Fin n → ℚ) where
  toFun x := fun v => x v - ∑ u ∈ Finset.range n, passedOn d (extend n x) edges u v
  map_add' x y := by
    funext v
    have : extend n (x + y) = fun w => extend n x w + extend n y w := by
      funext w; unfold extend; split <;> simp
    rw [this]
    simp only [passedOn_add, Finset.sum_add_distrib, Pi.add_apply]
    ring
  map_smul' k x := by
    funext v
    have : extend n (k • x) = fun w => k * extend n x w := by
      funext w; unfold extend; split <;> simp
    rw [this]
    simp only [passedOn_smul, ← Finset.mul_sum, Pi.smul_apply, RingHom.id_apply, smul_eq_mul]
    ring

/-- **C66.** The PageRank equations have exactly one solution. -/
theorem C66_exact (d : ℚ) (h0 : 0 ≤ d) (h1 : d < 1) (edges : Nat → List (Edge E)) (n : Nat) :
    ∃ y, Solves d edges n y ∧ ∀ z, Solves d edges n z → ∀ v, v < n → z v = y v := by
  have huniq : ∀ y z, Solves d edges n y → Solves d edges n z → ∀ v, v < n → z v = y v := by
    intro y z hy hz v hv
    have := near_solution (δ := 0) h0 h1 edges n z y hy fun v hv => by rw [← hz v hv]; simp
    rw [mul_zero] at this
    have h2 := (Finset.sum_eq_zero_iff_of_nonneg (fun _ _ => abs_nonneg _)).1 (le_antisymm this (Finset.sum_nonneg fun _ _ => abs_nonneg _)) v (Finset.mem_range.2 hv)
    exact sub_eq_zero.1 (abs_eq_zero.1 h2)
  have hex : ∃ y, Solves d edges n y := by
    have hext : ∀ (x : Fin n → ℚ) (v : Fin n), extend n x v = x v := fun x v => by simp [extend]
    have hinj : Function.Injective (defect d edges n) := by
      rw [← LinearMap.ker_eq_bot, LinearMap.ker_eq_bot']
      intro x hx
      have h3 : ∀ v, v < n → extend n x v = ∑ u ∈ Finset.range n, passedOn d (extend n x) edges u v := by
        intro v hv
        have := congrFun hx ⟨v, hv⟩
        rw [← sub_eq_zero]
        simpa [defect, extend, hv] using this
      -- any solution and that solution plus `x` agree
      have h4 : ∑ v ∈ Finset.range n, |extend n x v - 0| ≤ 0 := by
        have hsum : ∀ v ∈ Finset.range n, |extend n x v| ≤ ∑ u ∈ Finset.range n, |passedOn d (extend n x) edges u v| := by
          intro v hv
          calc |extend n x v| = |∑ u ∈ Finset.range n, passedOn d (extend n x) edges u v| := by rw [← h3 v (Finset.mem_range.1 hv)]
            _ ≤ _ := Finset.abs_sum_le_sum_abs _ _
        have h5 := Finset.sum_le_sum hsum
        rw [Finset.sum_comm] at h5
        have h6 : ∑ u ∈ Finset.range n, ∑ v ∈ Finset.range n, |passedOn d (extend n x) edges u v| ≤ ∑ u ∈ Finset.range n, d * |extend n x u| :=
          Finset.sum_le_sum fun u _ => sum_passedOn_le edges n (extend n x) h0 u
        rw [← Finset.mul_sum] at h6
        simp only [sub_zero]
        have h7 : (1 - d) * ∑ v ∈ Finset.range n, |extend n x v| ≤ (1 - d) * 0 := by rw [mul_zero]; linarith
        exact le_of_mul_le_mul_left h7 (by linarith)
      funext v
      have h2 := (Finset.sum_eq_zero_iff_of_nonneg (fun _ _ => abs_nonneg _)).1 (le_antisymm h4 (Finset.sum_nonneg fun _ _ => abs_nonneg _)) v (Finset.mem_range.2 v.2)
      rw [sub_zero, abs_eq_zero, hext] at h2
      exact h2
    obtain ⟨x, hx⟩ := LinearMap.injective_iff_surjective.1 hinj fun _ => 1 - d
    refine ⟨extend n x, fun v hv => ?_⟩
    have := congrFun hx ⟨v, hv⟩
    simp only [defect, LinearMap.coe_mk, AddHom.coe_mk] at this
    have e : extend n x v = x ⟨v, hv⟩ := by simp [extend, hv]
    rw [e]
    linarith
  obtain ⟨y, hy⟩ := hex
  exact ⟨y, hy, fun z hz => huniq y z hy hz⟩

/-! ## The result -/

/-- **C66 (missing: mailboxes that hold exactly the threshold, as C33).** Once the graph stays as it is, the number
of steps left is bounded, and where no step is left the ranks are within `2 ε` of the exact ranks, on average. -/
theorem C66_ranks_partial (d ε : ℚ) (h0 : 0 ≤ d) (h1 : d < 1) (hε : 0 < ε) (T : Nat) (own : Nat → Nat) (hown : ∀ v, own v < T)
    (es0 : Nat → List (Edge E)) (hes : FiniteGraph es0) (xs : List (Act E)) (s : St PR ℚ Unit E)
    (h : run (alg d ε) (cfg T own) (start (alg d ε) es0) xs = some s)
    (n : Nat) (hn : ∀ u, n ≤ u → s.edges u = []) (hin : ∀ v, v < n → s.inited v = true) :
    ∃ y, Solves d s.edges n y ∧ ∃ B, ∀ ys s', NoTopology ys → run (alg d ε) (cfg T own) s ys = some s' →
      ys.length ≤ B ∧ (Rests (alg d ε) (cfg T own) s' → Always (alg d ε) (cfg T own) (fun s => ∀ v, |s.inbox v| ≠ ε) (start (alg d ε) es0) (xs ++ ys) →
        ∑ v ∈ Finset.range n, |(s'.prop v).mass - y v| ≤ n * (2 * ε)) := by
  obtain ⟨y, hy, -⟩ := C66_exact d h0 h1 s.edges n
  obtain ⟨B, hB⟩ := C66_bound d ε h0 h1 hε T own es0 hes xs s h
  refine ⟨y, hy, B, fun ys s' hys hr => ⟨hB ys s' hys hr, fun hrest hne => ?_⟩⟩
  obtain ⟨e1, e2⟩ := Converge.stay_run hys hr
  obtain ⟨b, hb⟩ := hes
  exact C33_error_partial d ε h0 h1 hε T own ⟨b, fun u hu => (hb u).1 hu⟩ (xs ++ ys) s' hne (Converge.run_append _ _ xs ys _ _ _ h hr)
    (Converge.quiet_of_rests hown hrest) n (by rw [e1]; exact hn) (by rw [e2]; exact hin) y (by rw [e1]; exact hy)

open Verif.Engine Verif.Props.Engine in
/-- **C66 (missing: executions that read a vote between the two stores, as C64).** Under every fair schedule a run of
PageRank returns once the stream of changes has ended, and all of its bookkeeping is done. -/
theorem C66_returns_partial (d ε : ℚ) (h0 : 0 ≤ d) (h1 : d < 1) (hε : 0 < ε) (T : Nat) (own : Nat → Nat) (hown : ∀ v, own v < T) (max : Nat) (hm : 0 < max)
    (es0 : Nat → List (Edge E)) (hes : FiniteGraph es0) (xs0 : List (Async.Act E))
    (e : Exec (alg d ε) (cfg T own) max) (hs0 : Async.run (alg d ε) (cfg T own) (Async.start (alg d ε) es0) xs0 = some (e.st 0).alg) (hst : Start (cfg T own) max (e.st 0))
    (hfair : e.Fair) (hfresh : Fresh e) (m : Nat) (hcl : ∀ t, t < T → (e.st m).term.closed t = true) (htopo : ∀ i y, m ≤ i → e.act i ≠ .topo y) :
    ∃ k, Finished (cfg T own) (e.st k) ∧ (e.st k).alg.edges = (e.st m).alg.edges ∧ Async.Quiet (cfg T own) (e.st k).alg ∧
      ∀ n, (∀ u, n ≤ u → (e.st m).alg.edges u = []) → ∀ v,
        ((e.st k).alg.prop v).mass = (1 - d) * ((if (e.st m).alg.inited v = true then 1 else 0) - (e.st k).alg.inbox v - ((e.st k).alg.prop v).inflow) +
          ∑ u ∈ Finset.range n, passedOn d (fun u => ((e.st k).alg.prop u).mass) (e.st m).alg.edges u v := by
  obtain ⟨-, -, ys, hys, -⟩ := proj (exec_run _ _ max e m)
  have hrun := Converge.run_append _ _ xs0 ys _ _ _ hs0 hys
  obtain ⟨k, hk, hd⟩ := C64_partial _ _ max hm e hst hfair hfresh m hcl htopo (C66_bound d ε h0 h1 hε T own es0 hes _ _ hrun)
  obtain ⟨zs, hz, hr, -⟩ := seg_alg e m (fun i hi => by
    cases hx : e.act i with
    | topo y => exact absurd hx (htopo i y hi)
    | _ => rfl) (k - m)
  rw [show m + (k - m) = k by omega] at hr
  obtain ⟨hq, -, -⟩ := C63_final _ _ max hm hown _ _ hst _ (exec_run _ _ max e k) hd
  obtain ⟨e1, e2⟩ := Converge.stay_run hz hr
  obtain ⟨b, hb⟩ := hes
  refine ⟨k, hd, e1, hq, fun n hn v => ?_⟩
  rw [← e1, ← e2]
  exact C33_ledger d ε (ne_of_lt h1) T own ⟨b, fun u hu => (hb u).1 hu⟩ _ _ (Converge.run_append _ _ _ zs _ _ _ hrun hr) hq.1 n (by rw [e1]; exact hn) v

/-! ## Synchronous runs -/

open Verif.Sync Verif.Props.Sync in
/-- **C66** for synchronous runs: the number of steps is bounded whatever the schedule, and unless queues fill up a
run ends by stopping. -/
theorem C66_sync (d ε : ℚ) (h0 : 0 ≤ d) (h1 : d < 1) (hε : 0 < ε) (c : Sync.Cfg ℚ) (hc : c.Ok) (hi : ∀ v, c.initMail v = some 1)
    (es0 : Nat → List (Edge E)) (hes : Sync.Within c.n es0) :
    ∃ B, ∀ cap xs s, Sync.run (alg d ε) (sized c cap) (Sync.start (alg d ε) es0) xs = some s →
      xs.length ≤ B ∧ (Ample c cap B → (∀ x, Sync.step (alg d ε) (sized c cap) s x = none) → s.phase = .stopped) := by
  obtain ⟨B, hB⟩ := exists_len es0 c.n hes.src
  obtain ⟨K, hK⟩ := converge h0 h1 hε (c := absCfg c) (fun _ => rfl) hi (alg_local d ε c.n) (supp_loaded (alg d ε) c.n es0 hes.src hes.dst) (calm_start es0 B hB)
  exact sync_of_bound (alg d ε) (alg_unique d ε) c hc (alg_local d ε c.n) es0 hes K fun ys r hy hr => hK ys r hy hr

open Verif.Sync Verif.Props.Sync in
/-- When a synchronous run stops, the ranks solve the equations up to twice the threshold. -/
theorem sync_solves (d ε : ℚ) (h1 : d < 1) (hε : 0 < ε) (c : Sync.Cfg ℚ) (hc : c.Ok) (hi : ∀ v, c.initMail v = some 1)
    (es0 : Nat → List (Edge E)) (hes : Sync.Within c.n es0) (xs : List Sync.Act) (s : Sync.St PR ℚ Unit E)
    (h : Sync.run (alg d ε) c (Sync.start (alg d ε) es0) xs = some s) (hst : s.phase = .stopped)
    (hne : AlwaysSync (alg d ε) c (fun s => ∀ v, |s.inbox v| ≠ ε) (Sync.start (alg d ε) es0) xs) (v : Nat) (hv : v < c.n) :
    |(s.prop v).mass - ((1 - d) + ∑ u ∈ Finset.range c.n, passedOn d (fun u => (s.prop u).mass) es0 u v)| ≤ (1 - d) * (2 * ε) := by
  have hcfg : (absCfg c : Async.Cfg ℚ Unit) = cfg c.n id := by
    simp only [absCfg, PageRank.cfg, Async.Cfg.mk.injEq, true_and, and_true]
    exact funext hi
  obtain ⟨hact, hidle, he, ys, r, hr, hq, -, -, hin, e1, e2, e3⟩ := C36_stop (alg d ε) (alg_unique d ε) c hc (alg_local d ε c.n) es0 hes xs s h hst
  rw [hcfg] at hr hq
  have hc0 : Cared ε c (Sync.start (alg d ε) es0) := by
    intro v hv
    have : ε < |(0 : ℚ)| := hv
    rw [abs_zero] at this
    exact absurd this (not_lt.2 hε.le)
  obtain ⟨-, hcared⟩ := cared_run (alg_unique d ε) hc hε.le xs _ hne (inv_start es0) hc0 h
  have hsmall : ∀ v, |s.inbox v| ≤ ε := by
    intro v
    by_contra hb
    rcases hcared v (not_le.1 hb) with h2 | ⟨t, ht, h2⟩
    · rw [hact v] at h2; cases h2
    · rw [hidle t ht] at h2; cases h2
  have hl := C33_ledger d ε (ne_of_lt h1) c.n id ⟨c.n, hes.src⟩ ys r hr hq.1 c.n (by rw [e3, he]; exact hes.src) v
  have hw := C33_withheld d ε hε.le c.n id ys r hr v
  rw [hin v, e1, e2, e3, he] at hl
  rw [e1] at hw
  simp only [decide_eq_true hv, if_true] at hl
  rw [hl]
  have h3 := hsmall v
  have : (1 - d) * (1 - s.inbox v - (s.prop v).inflow) + ∑ u ∈ Finset.range c.n, passedOn d (fun u => (s.prop u).mass) es0 u v -
      ((1 - d) + ∑ u ∈ Finset.range c.n, passedOn d (fun u => (s.prop u).mass) es0 u v) = (1 - d) * -(s.inbox v + (s.prop v).inflow) := by ring
  rw [this, abs_mul, abs_of_pos (by linarith : (0 : ℚ) < 1 - d), abs_neg]
  apply mul_le_mul_of_nonneg_left _ (by linarith)
  calc |s.inbox v + (s.prop v).inflow| ≤ |s.inbox v| + |(s.prop v).inflow| := abs_add_le _ _
    _ ≤ 2 * ε := by linarith

open Verif.Sync Verif.Props.Sync in
/-- **C66 (missing: mailboxes that hold exactly the threshold, as C33)** for synchronous runs: when the run stops, the
ranks are within `2 ε` of the exact ranks, on average. -/
theorem C66_sync_ranks_partial (d ε : ℚ) (h0 : 0 ≤ d) (h1 : d < 1) (hε : 0 < ε) (c : Sync.Cfg ℚ) (hc : c.Ok) (hi : ∀ v, c.initMail v = some 1)
    (es0 : Nat → List (Edge E)) (hes : Sync.Within c.n es0) (xs : List Sync.Act) (s : Sync.St PR ℚ Unit E)
    (h : Sync.run (alg d ε) c (Sync.start (alg d ε) es0) xs = some s) (hst : s.phase = .stopped)
    (hne : AlwaysSync (alg d ε) c (fun s => ∀ v, |s.inbox v| ≠ ε) (Sync.start (alg d ε) es0) xs) :
    ∃ y, Solves d es0 c.n y ∧ ∑ v ∈ Finset.range c.n, |(s.prop v).mass - y v| ≤ c.n * (2 * ε) := by
  obtain ⟨y, hy, -⟩ := C66_exact d h0 h1 es0 c.n
  refine ⟨y, hy, ?_⟩
  exact near_solution h0 h1 es0 c.n (fun u => (s.prop u).mass) y hy fun v hv => sync_solves d ε h1 hε c hc hi es0 hes xs s h hst hne v hv

/-! ## Cases -/

/-- The history `s33b` up to the deletion of edge 0→1, and what remains to be done. -/
theorem s33b_split : s33b = s33b.take 34 ++ s33b.drop 34 := (List.take_append_drop 34 s33b).symm

/-- `C66_ranks_partial` applies after the deletion in `s33b`: 14 steps are left on this schedule. -/
example : ∃ s s', run pagerank c33 (start pagerank) (s33b.take 34) = some s ∧ (∀ u, 3 ≤ u → s.edges u = []) ∧ (∀ v, v < 3 → s.inited v = true) ∧
    NoTopology (s33b.drop 34) ∧ (s33b.drop 34).length = 14 ∧ run pagerank c33 s (s33b.drop 34) = some s' ∧ Rests pagerank c33 s' ∧
    Always pagerank c33 (fun s => ∀ v, |s.inbox v| ≠ epsilon) (start pagerank) (s33b.take 34 ++ s33b.drop 34) ∧ (s'.prop 2).mass = 111 / 400 := by
  obtain ⟨s', h1, h2, h3, h4⟩ := exists_quiet (c := c33) (n := 3) (alg_local damping epsilon 3) (xs := s33b) (by decide +kernel)
    (fun s => decide ((s.prop 2).mass = 111 / 400)) (by decide +kernel)
  have h5 : run pagerank c33 (start pagerank) s33b = some s' := h1
  rw [s33b_split] at h5
  obtain ⟨s, h6, h7⟩ := Converge.run_split pagerank c33 _ _ _ _ h5
  have hsup := supp_run (alg_local damping epsilon 3) (by decide +kernel : (s33b.take 34).all (Act.below 3) = true) (supp_start pagerank 3) h6
  have hin := congrArg (Option.map fun s => (s.inited 0, s.inited 1, s.inited 2)) h6
  rw [show (run pagerank c33 (start pagerank) (s33b.take 34)).map (fun s => (s.inited 0, s.inited 1, s.inited 2)) = some (true, true, true) by decide +kernel] at hin
  simp only [Option.map_some, Option.some.injEq, Prod.mk.injEq] at hin
  have hnt : (s33b.drop 34).all (fun y => match y with | .go _ => true | .recv _ _ _ => true | _ => false) = true := by decide +kernel
  refine ⟨s, s', h6, hsup.edges, ?_, ?_, by decide +kernel, h7, Converge.rests_of_quiet h2, ?_, of_decide_eq_true h4⟩
  · intro v hv
    match v, hv with
    | 0, _ => exact hin.1.symm
    | 1, _ => exact hin.2.1.symm
    | 2, _ => exact hin.2.2.symm
  · intro y hy
    have := List.all_eq_true.1 hnt y hy
    match y, this with
    | .go t, _ => exact .inl ⟨t, rfl⟩
    | .recv t v i, _ => exact .inr ⟨t, v, i, rfl⟩
  · rw [← s33b_split]
    intro ys zs s' he hr v
    have := okRun_inbox (c := c33) (alg_local damping epsilon 3) (fun _ => rfl) (fun x => decide (|x| ≠ epsilon)) (by decide +kernel) (xs := s33b) (by decide +kernel)
      (supp_start _ 3) (fun _ _ => rfl) (by decide +kernel) ys zs s' he hr v
    exact of_decide_eq_true this

/-- Three vertices, two threads. -/
def cfgS (prev : Bool) : Sync.Cfg ℚ :=
  { n := 3, T := 2, own := fun v => v % 2, verts := fun t => if t = 0 then [0, 2] else if t = 1 then [1] else [],
    initMail := fun _ => some 1, prev := prev, cap := 3 }

theorem cfgS_ok (prev : Bool) : (cfgS prev).Ok := by
  refine ⟨fun t v => ?_, fun v _ => ?_⟩
  · simp only [cfgS]
    split
    · simp; omega
    · split
      · simp; omega
      · simp; omega
  · simp only [cfgS]; omega

/-- 0 → 1, 0 → 2, 1 → 2. -/
def fork : Nat → List (Edge Unit)
  | 0 => [⟨1, ()⟩, ⟨2, ()⟩]
  | 1 => [⟨2, ()⟩]
  | _ => []

theorem fork_within : Sync.Within 3 fork := by
  refine ⟨fun v hv => ?_, fun v e he => ?_⟩
  · match v, hv with
    | v + 3, _ => rfl
  · match v, he with
    | 0, he => simp [fork] at he; rcases he with rfl | rfl <;> decide
    | 1, he => simp [fork] at he; subst he; decide
    | v + 2, he => simp [fork] at he

def syncInit : List Sync.Act := [.init 0 0] ++ List.replicate 8 (.go 0) ++ [.init 1 1, .init 0 2, .barrier]

def syncRun : List Sync.Act :=
  syncInit ++ [.scan 1, .scan 0, .scan 0, .barrier, .scan 1, .go 1, .go 1, .go 1, .go 1, .scan 0, .scan 0, .go 0, .barrier,
    .scan 1, .scan 0, .scan 0, .barrier, .scan 1, .scan 0, .scan 0, .go 0, .barrier]

theorem inbox_above {n : Nat} {a : Alg PR ℚ Unit E} (ha : Local a n) {c : Cfg ℚ Unit} (hr : ∀ p, (a.retrieve a.newM p).1 = a.newM) : ∀ (ys : List (Act E)) (s s' : St PR ℚ Unit E),
    (∀ y ∈ ys, y.below n = true) → Supp n s → (∀ v, n ≤ v → s.inbox v = a.newM) → run a c s ys = some s' → ∀ v, n ≤ v → s'.inbox v = a.newM
  | [], s, s', _, _, hi, h => by simp only [run, Option.some.injEq] at h; subst h; exact hi
  | y :: ys, s, s', hy, hs, hi, h => by
    simp only [run] at h
    obtain ⟨s1, h1, h2⟩ := Option.bind_eq_some_iff.1 h
    exact inbox_above ha hr ys s1 s' (fun z hz => hy z (by simp [hz])) (supp_step ha (hy y (by simp)) hs h1) (inbox_above_step hr (hy y (by simp)) hs hi h1) h2

/-- Both iterations of the variant that uses mail of the previous iteration: all hypotheses of
`C66_sync_ranks_partial` are met. -/
example : ∃ s, Sync.run pagerank (cfgS true) (Sync.start pagerank fork) syncRun = some s ∧ s.phase = .stopped ∧
    AlwaysSync pagerank (cfgS true) (fun s => ∀ v, |s.inbox v| ≠ epsilon) (Sync.start pagerank fork) syncRun ∧
    (s.prop 0).mass = 3 / 20 ∧ (s.prop 1).mass = 171 / 800 ∧ (s.prop 2).mass = 6327 / 16000 := by
  have hall : ((List.range 35).all fun i => (Sync.run pagerank (cfgS true) (Sync.start pagerank fork) (syncRun.take i)).all fun s =>
      (List.range 3).all fun v => decide (|s.inbox v| ≠ epsilon)) = true := by decide +kernel
  have hl : syncRun.length = 34 := by decide
  cases e : Sync.run pagerank (cfgS true) (Sync.start pagerank fork) syncRun with
  | none => exact absurd (congrArg Option.isSome e) (by decide +kernel)
  | some s =>
    have hp := congrArg (Option.map fun s => (decide (s.phase = .stopped), (s.prop 0).mass, (s.prop 1).mass, (s.prop 2).mass)) e
    rw [show (Sync.run pagerank (cfgS true) (Sync.start pagerank fork) syncRun).map (fun s => (decide (s.phase = .stopped), (s.prop 0).mass, (s.prop 1).mass, (s.prop 2).mass)) =
      some (true, 3 / 20, 171 / 800, 6327 / 16000) by decide +kernel] at hp
    simp only [Option.map_some, Option.some.injEq, Prod.mk.injEq] at hp
    refine ⟨s, rfl, of_decide_eq_true hp.1.symm, ?_, hp.2.1.symm, hp.2.2.1.symm, hp.2.2.2.symm⟩
    intro ys zs s' he hr v
    by_cases hv : v < 3
    · have hy : ys = syncRun.take ys.length := by rw [he, List.take_left]
      have hlen : ys.length < 35 := by
        have := congrArg List.length he
        rw [List.length_append, hl] at this
        omega
      have h1 := List.all_eq_true.1 hall ys.length (List.mem_range.2 hlen)
      rw [← hy, hr] at h1
      exact of_decide_eq_true (List.all_eq_true.1 h1 v (List.mem_range.2 hv))
    · obtain ⟨-, xs, log, hx, hr'⟩ := Sync.sim_run (alg_unique damping epsilon) (cfgS_ok true) ys _ (Sync.inv_start fork) hr []
      rw [show (Sync.start pagerank fork) = Sync.start (alg damping epsilon) fork from rfl, Sync.abs_start] at hr'
      have := inbox_above (alg_local damping epsilon 3) (fun _ => rfl) xs _ _ (fun y hy => (hx y hy).2)
        (supp_loaded _ 3 fork fork_within.src fork_within.dst) (fun _ _ => rfl) hr' v (by omega)
      have h0 : s'.inbox v = 0 := this
      rw [h0]
      decide +kernel

/-- Two threads give the vertices of the fork their initial mass; 1 and 2 have been notified. -/
def mail66 : List (Act Unit) := [.init 0 0] ++ List.replicate 8 (.go 0) ++ [.init 1 1, .init 0 2]

open Verif.Engine Verif.Props.Engine in
/-- The hypotheses of `C66_returns_partial` are met: the threads take five and six instructions in turns until both
leave. -/
example : ∃ e : Exec pagerank (cfg 2 (· % 2)) 1024, Async.run pagerank (cfg 2 (· % 2)) (Async.start pagerank fork) mail66 = some (e.st 0).alg ∧ Start (cfg 2 (· % 2)) 1024 (e.st 0) ∧ e.Fair ∧ Fresh e ∧
    (∀ t, (e.st 0).term.closed t = true) ∧ (∀ i y, e.act i ≠ .topo y) := by
  have hd : (Async.run pagerank (cfg 2 (· % 2)) (Async.start pagerank fork) mail66).map (fun s =>
      (List.range 2).all (fun t => isIdle (s.task t)) && (List.range 3).all (fun v => decide (s.pend v = [(1, ()), (2, ())].filterMap fun x => if x.1 = v then some x.2 else none)) &&
      smooth pagerank (cfg 2 (· % 2)) 1024 (begin0 (cfg 2 (· % 2)) s [(1, ()), (2, ())]) ((List.range 500).map fun i => [0, 0, 0, 0, 0, 1, 1, 1, 1, 1, 1].getD (i % [0, 0, 0, 0, 0, 1, 1, 1, 1, 1, 1].length) 0)) = some true := by
    decide +kernel
  obtain ⟨s, hs, h⟩ := Option.map_eq_some_iff.1 hd
  simp only [Bool.and_eq_true] at h
  obtain ⟨⟨h1, h2⟩, h4⟩ := h
  have hsup := supp_run (alg_local damping epsilon 3) (xs := mail66) (by decide) (supp_loaded _ 3 fork
    (by
      intro v hv
      match v, hv with
      | k + 3, _ => rfl)
    (by
      intro v e he
      match v, he with
      | 0, he => simp only [fork, List.mem_cons, List.not_mem_nil, or_false] at he; rcases he with rfl | rfl <;> decide
      | 1, he => simp only [fork, List.mem_cons, List.not_mem_nil, or_false] at he; subst he; decide
      | k + 2, he => cases he)) hs
  obtain ⟨e, e1, e2, e3, e4, e5, e6⟩ := exists_exec pagerank (cfg 2 (· % 2)) 1024 (fun v => Nat.mod_lt _ (by decide)) (by decide) fork mail66 s hs hsup [(1, ()), (2, ())] [0, 0, 0, 0, 0, 1, 1, 1, 1, 1, 1]
    (fun t ht => by have : t < 2 := ht; have : t = 0 ∨ t = 1 := by omega
                    rcases this with rfl | rfl <;> simp) 500
    (fun t ht => List.all_eq_true.1 h1 t (List.mem_range.2 ht)) (fun v hv => of_decide_eq_true (List.all_eq_true.1 h2 v (List.mem_range.2 hv))) (by decide) h4
  exact ⟨e, by rw [e1]; exact hs, e2, e3, e4, e5, e6⟩

end Verif.Props.PageRank
