import Verif.TempPathsConv
import Verif.Props.TempPaths
import Verif.Props.Converge

/-!
# Temporal paths come to rest (C79)

However threads are scheduled, once the graph stops changing only finitely many steps are left, and when no step is
left the windows are the times of reachability; edges may have been added and ended before, so that reachability has
both grown and shrunk.
-/

namespace Verif.Props.TempPathsConv

open Verif Verif.Async Verif.TempPaths Verif.Props.TempPaths Verif.Props.Converge

theorem trun_append {c : Cfg Mail Unit} : ∀ (xs ys : List TAct) (s s1 s2 : S), trun c s xs = some s1 → trun c s1 ys = some s2 → trun c s (xs ++ ys) = some s2
  | [], _, s, s1, s2, h1, h2 => by simp only [trun, Option.some.injEq] at h1; subst h1; exact h2
  | x :: xs, ys, s, s1, s2, h1, h2 => by
    simp only [List.cons_append, trun] at h1 ⊢
    obtain ⟨s0, a1, a2⟩ := Option.bind_eq_some_iff.1 h1
    rw [a1]
    exact trun_append xs ys s0 s1 s2 a2 h2

theorem below_mono {n m : Nat} (h : n ≤ m) {x : TAct} (hx : x.below n = true) : x.below m = true := by
  cases x with
  | init t v => exact decide_eq_true (Nat.lt_of_lt_of_le (of_decide_eq_true hx) h)
  | recv t v i => rfl
  | add t v es =>
    simp only [TAct.below, Bool.and_eq_true, decide_eq_true_eq, List.all_eq_true] at *
    exact ⟨by omega, fun e he => Nat.lt_of_lt_of_le (hx.2 e he) h⟩
  | stop t v k => exact decide_eq_true (Nat.lt_of_lt_of_le (of_decide_eq_true hx) h)
  | go t => rfl

theorem exists_below (n0 : Nat) : ∀ xs : List TAct, ∃ n, n0 ≤ n ∧ xs.all (TAct.below n) = true
  | [] => ⟨n0, Nat.le_refl _, rfl⟩
  | x :: xs => by
    obtain ⟨n, h0, hn⟩ := exists_below n0 xs
    have hx : ∃ m, x.below m = true := by
      cases x with
      | init t v => exact ⟨v + 1, by simp [TAct.below]⟩
      | recv t v i => exact ⟨0, rfl⟩
      | add t v es =>
        obtain ⟨m, hm⟩ := exists_bound es
        refine ⟨max m (v + 1), ?_⟩
        simp only [TAct.below, Bool.and_eq_true, decide_eq_true_eq, List.all_eq_true]
        exact ⟨by omega, fun e he => by have := hm e he; omega⟩
      | stop t v k => exact ⟨v + 1, by simp [TAct.below]⟩
      | go t => exact ⟨0, rfl⟩
    obtain ⟨m, hm⟩ := hx
    refine ⟨max n m, by omega, ?_⟩
    simp only [List.all_cons, Bool.and_eq_true, List.all_eq_true] at hn ⊢
    exact ⟨below_mono (by omega) hm, fun y hy => below_mono (by omega) (hn y hy)⟩

theorem loaded_below : ∀ L : List (Nat × Edge Link), ∃ n, ∀ a ∈ L, a.1 < n ∧ a.2.dst < n
  | [] => ⟨0, fun a ha => nomatch ha⟩
  | a :: L => by
    obtain ⟨n, hn⟩ := loaded_below L
    refine ⟨max n (max (a.1 + 1) (a.2.dst + 1)), fun b hb => ?_⟩
    rcases List.mem_cons.1 hb with rfl | hb
    · constructor <;> omega
    · have := hn b hb; constructor <;> omega

theorem supp_begin {n : Nat} {L : List (Nat × Edge Link)} (hL : ∀ a ∈ L, a.1 < n ∧ a.2.dst < n) (slots : Nat → Nat) : Supp n (begin L slots) := by
  have hmem : ∀ u, ∀ e ∈ loaded L u, (u, e) ∈ L := by
    intro u e h
    obtain ⟨a, ha, rfl⟩ := List.mem_map.1 h
    obtain ⟨h1, h2⟩ := List.mem_filter.1 ha
    rw [← of_decide_eq_true h2]
    exact h1
  refine ⟨fun _ _ => rfl, ?_, fun _ _ => rfl, fun v e he => (hL _ (hmem v e he)).2, fun _ => trivial⟩
  intro v hv
  refine List.eq_nil_iff_forall_not_mem.2 fun e he => ?_
  have := (hL _ (hmem v e he)).1
  dsimp only at this
  omega

variable {T : Nat} {own : Nat → Nat} {src : Nat} {L : List (Nat × Edge Link)} {slots : Nat → Nat} {xs : List TAct} {s : S}

theorem added_of {ys : List (Act Link)} (hy : NoTopology ys) : added (ys.map TAct.of) = [] := by
  unfold added
  rw [List.flatMap_eq_nil_iff]
  intro x hx
  obtain ⟨y, hm, rfl⟩ := List.mem_map.1 hx
  rcases hy y hm with ⟨t, rfl⟩ | ⟨t, v, i, rfl⟩ <;> rfl

theorem edges_run {c : Cfg Mail Unit} : ∀ {ys : List (Act Link)} {s s' : S}, (∀ y ∈ ys, y.work = true) → run tp c s ys = some s' → s'.edges = s.edges ∧ s'.inited = s.inited
  | [], s, s', _, h => by simp only [run, Option.some.injEq] at h; subst h; exact ⟨rfl, rfl⟩
  | y :: ys, s, s', hy, h => by
    simp only [run] at h
    obtain ⟨s1, h1, h2⟩ := Option.bind_eq_some_iff.1 h
    obtain ⟨a1, a2⟩ := edges_run (fun z hz => hy z (by simp [hz])) h2
    exact ⟨a1.trans (edges_work (hy y (by simp)) h1), a2.trans (inited_stays (hy y (by simp)) h1)⟩

/-- **C79**: after any run, in which edges were added and ended, there is a bound on the number of further steps while
the graph stays as it is; when there is no step left, the windows of every vertex are the times at which it can be
reached. -/
theorem C79_bound (hown : ∀ v, own v < T) (hp : TimeOrdered (L ++ added xs)) (h : trun (cfg T own src) (begin L slots) xs = some s) :
    ∃ B, ∀ ys s', NoTopology ys → run tp (cfg T own src) s ys = some s' →
      ys.length ≤ B ∧ (Rests tp (cfg T own src) s' → s.inited src = true →
        ∀ v t, t < 2 ^ 64 - 1 → ((∃ w ∈ (s'.prop v).windows, w.start < t ∧ t < w.stop) ↔ Reach s.edges src v t)) := by
  obtain ⟨n0, hn0⟩ := loaded_below L
  obtain ⟨n, hle, hxn⟩ := exists_below n0 xs
  have hk := keyed_of hp
  rw [List.map_append, adds_eq] at hk
  have hs := supp_trun hxn (supp_begin (fun a ha => ⟨Nat.lt_of_lt_of_le (hn0 a ha).1 hle, Nat.lt_of_lt_of_le (hn0 a ha).2 hle⟩) slots) h
  have hsh : Short s := short_trun ⟨0, fun t v f e => by cases e⟩ h
  obtain ⟨B, hB⟩ := tp_bound hk (inv_of hp h) hs hsh
  refine ⟨B, fun ys s' hy hr => ⟨hB ys s' hy.work hr, fun hrest hsrc v t ht => ?_⟩⟩
  have hr' : trun (cfg T own src) (begin L slots) (xs ++ ys.map TAct.of) = some s' := trun_append _ _ _ _ _ h ((trun_of hy.work).trans hr)
  have hadd : added (xs ++ ys.map TAct.of) = added xs := by
    unfold added
    rw [List.flatMap_append]
    have := added_of hy
    unfold added at this
    rw [this, List.append_nil]
  obtain ⟨e1, e2⟩ := edges_run hy.work hr
  rw [← e1]
  exact C61_windows (hadd ▸ hp) hr' (quiet_of_rests hown hrest) (e2 ▸ hsrc) v t ht

/-- There is such a state, and it can be reached by going on. -/
theorem C79_rest (hown : ∀ v, own v < T) (hp : TimeOrdered (L ++ added xs)) (h : trun (cfg T own src) (begin L slots) xs = some s) :
    ∃ ys s', NoTopology ys ∧ run tp (cfg T own src) s ys = some s' ∧ Quiet (cfg T own src) s' := by
  obtain ⟨B, hB⟩ := C79_bound hown hp h
  exact rest_of_bound hown B s fun ys s' hy hr => (hB ys s' hy hr).1

/-! ## Examples -/

/-- Two threads. Edges 0 → 1 from time 2, 1 → 2 from 4 and 2 → 1 from 6: a cycle through which 1 offers itself later
times. Then the first edge ends at 3, so that 2 cannot be reached any more, nor 1 after 3. -/
def cycle : List TAct :=
  [.init 0 0] ++ gos 0 2 ++ [.init 1 1, .init 0 2, .add 0 0 [edge 1 0 2]] ++ gos 0 5 ++ [.recv 1 1 0] ++ gos 1 2 ++ [.add 1 1 [edge 2 0 4]] ++ gos 1 5 ++ [.recv 0 2 0] ++ gos 0 2 ++
  [.add 0 2 [edge 1 1 6]] ++ gos 0 5 ++ [.recv 1 1 0] ++ gos 1 2 ++ [.stop 0 0 [(0, 3)]]

/-- What is left to do then, in one schedule. -/
def settle : List (Act Link) :=
  List.replicate 5 (.go 0) ++ [.recv 1 1 0] ++ List.replicate 5 (.go 1) ++ [.recv 0 2 0] ++ List.replicate 5 (.go 0) ++ [.recv 1 1 0] ++ List.replicate 3 (.go 1)

/-- The run exists; when the edge ends, 1 and 2 still seem reachable for ever. -/
example : (trun twoThreads (begin [] fun _ => 0) cycle).map (fun s => (s.inited 0, (s.prop 1).windows, (s.prop 2).windows)) =
    some (true, [⟨2, 18446744073709551615, 1⟩], [⟨4, 18446744073709551615, 2⟩]) := by decide +kernel

theorem cycle_ordered : TimeOrdered ([] ++ added cycle) := by
  have : [] ++ added cycle = [(0, edge 1 0 2), (1, edge 2 0 4), (2, edge 1 1 6)] := by decide +kernel
  rw [this]
  refine ⟨by decide, by decide, by decide, by decide, by decide⟩

example : NoTopology settle := by
  intro y hy
  simp only [settle, List.mem_append, List.mem_replicate, List.mem_singleton] at hy
  rcases hy with (((((⟨-, rfl⟩ | rfl) | ⟨-, rfl⟩) | rfl) | ⟨-, rfl⟩) | rfl) | ⟨-, rfl⟩
  all_goals first | exact .inl ⟨_, rfl⟩ | exact .inr ⟨_, _, _, rfl⟩

/-- The steps end at rest with the right windows. -/
example : ((trun twoThreads (begin [] fun _ => 0) cycle).bind fun s => run tp twoThreads s settle).map
    (fun s => (isIdle (s.task 0) && isIdle (s.task 1), (s.pend 0).isEmpty && (s.pend 1).isEmpty && (s.pend 2).isEmpty, (s.prop 1).windows, (s.prop 2).windows)) =
    some (true, true, [⟨2, 3, 1⟩], []) := by decide +kernel

example : ∀ v, v % 2 < 2 := fun v => Nat.mod_lt v (by decide)

end Verif.Props.TempPathsConv
