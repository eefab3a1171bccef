import Verif.Props.TempPathsConv
import Verif.Props.EngineCase

/-!
# Temporal paths in the engine (C63, C64)

What `Run` returns: the composition of the algorithm with the loops of the threads and the termination protocol
(`Verif/Engine.lean`). Events in the run add vertices and edges; edges may have been ended before it.
-/

namespace Verif.Props.TempPathsEngine

open Verif Verif.Async Verif.TempPaths Verif.Engine Verif.Props.TempPaths Verif.Props.TempPathsConv Verif.Props.Converge Verif.Props.Engine

/-- No edges are deleted. -/
def Grows (ys : List (Async.Act Link)) : Prop := ∀ t v k, Async.Act.del t v k ∉ ys

theorem trun_grows {c : Cfg Mail Unit} : ∀ {ys : List (Async.Act Link)} {s : S}, Grows ys → trun c s (ys.map TAct.of) = Async.run tp c s ys
  | [], _, _ => rfl
  | y :: ys, s, h => by
    have hy : tstep c s (TAct.of y) = Async.step tp c s y := by
      cases y with
      | del t v k => exact absurd (by simp) (h t v k)
      | _ => rfl
    simp only [List.map_cons, trun, Async.run, hy]
    congr 1
    funext s'
    exact trun_grows fun t v k hm => h t v k (by simp [hm])

theorem added_changes (ys : List (Async.Act Link)) : added ((changes ys).map TAct.of) = added (ys.map TAct.of) := by
  induction ys with
  | nil => rfl
  | cons y ys ih =>
    rw [changes_cons]
    simp only [added, List.map_append, List.flatMap_append, List.map_cons, List.flatMap_cons] at ih ⊢
    rw [ih]
    cases y <;> simp [changes, topoThread, TAct.of]

/-- A run of the engine as a run of the algorithm. -/
theorem paths_proj {T : Nat} {own : Nat → Nat} {src : Nat} {L : List (Nat × Edge Link)} {slots : Nat → Nat} {xs0 : List TAct} {max : Nat} {s0 s : Engine.St VP Mail Unit Link}
    (hs0 : trun (cfg T own src) (begin L slots) xs0 = some s0.alg) {xs : List (Engine.Act Link)} (hx : ∀ t v k, Engine.Act.topo (.del t v k) ∉ xs)
    (h : Engine.run tp (cfg T own src) max s0 xs = some s) :
    ∃ ys, trun (cfg T own src) (begin L slots) (xs0 ++ ys) = some s.alg ∧ added (xs0 ++ ys) = added (xs0 ++ (topos xs).map TAct.of) := by
  obtain ⟨-, -, ys, h1, h2⟩ := proj h
  have hg : Grows ys := by
    intro t v k hm
    exact hx t v k (mem_topos (by rw [← h2]; exact List.mem_filter.2 ⟨hm, rfl⟩))
  refine ⟨ys.map TAct.of, trun_append _ _ _ _ _ hs0 ((trun_grows hg).trans h1), ?_⟩
  have := added_changes ys
  rw [h2] at this
  simp only [added, List.flatMap_append] at this ⊢
  rw [this]

variable {T : Nat} {own : Nat → Nat} {src : Nat} {L : List (Nat × Edge Link)} {slots : Nat → Nat}

/-- **C63** for temporal paths: `xs0` is what happened before the loops start. The windows returned are the times of
reachability. -/
theorem C63_paths (max : Nat) (hm : 0 < max) (hown : ∀ v, own v < T) (xs0 : List TAct) (s0 s : Engine.St VP Mail Unit Link)
    (hs0 : trun (cfg T own src) (begin L slots) xs0 = some s0.alg) (h0 : Start (cfg T own src) max s0)
    (xs : List (Engine.Act Link)) (hx : ∀ t v k, Engine.Act.topo (.del t v k) ∉ xs) (hp : TimeOrdered (L ++ added (xs0 ++ (topos xs).map TAct.of)))
    (h : Engine.run tp (cfg T own src) max s0 xs = some s) (hd : Finished (cfg T own src) s) (hsrc : s.alg.inited src = true) (v t : Nat) (ht : t < 2 ^ 64 - 1) :
    (∃ w ∈ (s.alg.prop v).windows, w.start < t ∧ t < w.stop) ↔ Reach s.alg.edges src v t := by
  obtain ⟨hq, -, -⟩ := C63_final tp (cfg T own src) max hm hown s0 s h0 xs h hd
  obtain ⟨ys, h1, h2⟩ := paths_proj hs0 hx h
  exact C61_windows (h2 ▸ hp) h1 hq hsrc v t ht

/-- **C64** for temporal paths (restricted as `C64_partial`): a run returns, and returns the times of reachability. -/
theorem C64_paths_partial (max : Nat) (hm : 0 < max) (hown : ∀ v, own v < T) (xs0 : List TAct) (e : Exec tp (cfg T own src) max)
    (hs0 : trun (cfg T own src) (begin L slots) xs0 = some (e.st 0).alg) (h0 : Start (cfg T own src) max (e.st 0))
    (hfair : e.Fair) (hfresh : Fresh e) (m : Nat) (hcl : ∀ t, t < T → (e.st m).term.closed t = true) (htopo : ∀ i y, m ≤ i → e.act i ≠ .topo y)
    (hdel : ∀ i t v k, e.act i ≠ .topo (.del t v k)) (hp : TimeOrdered (L ++ added (xs0 ++ (topos ((List.range m).map e.act)).map TAct.of)))
    (hsrc : (e.st m).alg.inited src = true) :
    ∃ k, Finished (cfg T own src) (e.st k) ∧ (e.st k).alg.edges = (e.st m).alg.edges ∧
      ∀ v t, t < 2 ^ 64 - 1 → ((∃ w ∈ ((e.st k).alg.prop v).windows, w.start < t ∧ t < w.stop) ↔ Reach (e.st m).alg.edges src v t) := by
  obtain ⟨ys, h1, h2⟩ := paths_proj hs0 (xs := (List.range m).map e.act) (by
    intro t v k hmem
    obtain ⟨i, -, hi⟩ := List.mem_map.1 hmem
    exact hdel i t v k hi) (exec_run tp (cfg T own src) max e m)
  obtain ⟨B, hB⟩ := C79_bound hown (h2 ▸ hp) h1
  obtain ⟨k, hk, hd⟩ := C64_partial tp (cfg T own src) max hm e h0 hfair hfresh m hcl htopo ⟨B, fun zs s' hz hr => (hB zs s' hz hr).1⟩
  obtain ⟨zs, hz, hr, -⟩ := seg_alg e m (fun i hi => by
    cases hx : e.act i with
    | topo y => exact absurd hx (htopo i y hi)
    | _ => rfl) (k - m)
  rw [show m + (k - m) = k by omega] at hr
  obtain ⟨hq, -, -⟩ := C63_final tp (cfg T own src) max hm hown _ _ h0 _ (exec_run tp (cfg T own src) max e k) hd
  exact ⟨k, hd, (stay_run hz hr).1, (hB zs _ hz hr).2 (rests_of_quiet hq) hsrc⟩

/-! ## Example -/

/-- Edges 0 → 1 from time 2, 1 → 2 from 4 and 2 → 1 from 6, loaded before the run. -/
def g79 : List (Nat × Edge Link) := [(0, edge 1 0 2), (1, edge 2 0 4), (2, edge 1 1 6)]

/-- `SendInitialMail`: vertex 0 offers itself to vertex 1. -/
def mail79 : List (Async.Act Link) := [.init 0 0] ++ List.replicate 5 (.go 0) ++ [.init 1 1, .init 0 2]

/-- The hypotheses of `C64_paths_partial` (and for the end of this execution those of `C63_paths`) are met: the threads
take five and six instructions in turns until both leave. -/
example : ∃ e : Exec tp (cfg 2 (· % 2) 0) 1024, trun (cfg 2 (· % 2) 0) (begin g79 fun _ => 0) (mail79.map TAct.of) = some (e.st 0).alg ∧ Start (cfg 2 (· % 2) 0) 1024 (e.st 0) ∧ e.Fair ∧ Fresh e ∧
    (∀ t, (e.st 0).term.closed t = true) ∧ (∀ i y, e.act i ≠ .topo y) ∧ TimeOrdered (g79 ++ added (mail79.map TAct.of ++ (topos ((List.range 0).map e.act)).map TAct.of)) ∧ (e.st 0).alg.inited 0 = true := by
  have hd : (Async.run tp (cfg 2 (· % 2) 0) (Async.start tp (loaded g79)) mail79).map (fun s =>
      (List.range 2).all (fun t => Engine.isIdle (s.task t)) && (List.range 3).all (fun v => decide (s.pend v = [(1, ())].filterMap fun x => if x.1 = v then some x.2 else none)) && s.inited 0 &&
      smooth tp (cfg 2 (· % 2) 0) 1024 (begin0 (cfg 2 (· % 2) 0) s [(1, ())]) ((List.range 500).map fun i => [0, 0, 0, 0, 0, 1, 1, 1, 1, 1, 1].getD (i % [0, 0, 0, 0, 0, 1, 1, 1, 1, 1, 1].length) 0)) = some true := by
    decide +kernel
  obtain ⟨s, hs, h⟩ := Option.map_eq_some_iff.1 hd
  simp only [Bool.and_eq_true] at h
  obtain ⟨⟨⟨h1, h2⟩, h3⟩, h4⟩ := h
  have hsup : Supp 3 s := supp_run (local_tp 3) (xs := mail79) (by decide) (supp_begin (n := 3) (L := g79) (by decide) fun _ => 0) hs
  obtain ⟨e, e1, e2, e3, e4, e5, e6⟩ := exists_exec tp (cfg 2 (· % 2) 0) 1024 (fun v => Nat.mod_lt _ (by decide)) (by decide) (loaded g79) _ s hs hsup [(1, ())] [0, 0, 0, 0, 0, 1, 1, 1, 1, 1, 1]
    (fun t ht => by have : t < 2 := ht; have : t = 0 ∨ t = 1 := by omega
                    rcases this with rfl | rfl <;> simp) 500
    (fun t ht => List.all_eq_true.1 h1 t (List.mem_range.2 ht)) (fun v hv => of_decide_eq_true (List.all_eq_true.1 h2 v (List.mem_range.2 hv))) (by decide) h4
  refine ⟨e, ?_, e2, e3, e4, e5, e6, ?_, by rw [e1]; exact h3⟩
  · rw [e1, trun_grows (by intro t v k hm; simp [mail79] at hm)]
    exact hs
  · have : TimeOrdered (g79 ++ added (mail79.map TAct.of)) := by
      have : g79 ++ added (mail79.map TAct.of) = g79 := by decide +kernel
      rw [this]
      exact ⟨by decide, by decide, by decide, by decide, by decide⟩
    rw [List.range_zero, List.map_nil, show topos ([] : List (Engine.Act Link)) = [] from rfl, List.map_nil, List.append_nil]
    exact this

end Verif.Props.TempPathsEngine
