import Verif.Props.AnswerSyncRanks
import Verif.Props.AnswerSyncCase

/-!
# C93: ranks and colours for a file in synchronous runs, cases
-/

namespace Verif.Props.AnswerSync

open Verif Verif.Built
open Verif.Async (Edge)
open Verif.Loader (Ev)
open Verif.Pipeline (fromRaw)
open Verif.Props.Loader (unitOps plain line12)
open Verif.Props.EndToEnd (oneThread noTime)
open Verif.Props.Answer Verif.Props.Sync
open Verif.PageRank (PR pagerank damping epsilon AlwaysSync)

/-- The file "1 2", "2 3"; one thread. -/
def kR (prev : Bool) : Sync.Cfg ℚ :=
  { n := 3, T := 1, own := fun _ => 0, verts := fun t => if t = 0 then List.range 3 else [], initMail := fun _ => some 1, prev := prev, cap := 9 }

theorem kR_ok (prev : Bool) : (kR prev).Ok := by
  refine ⟨fun t v => ?_, fun v _ => Nat.zero_lt_one⟩
  simp only [kR]
  split
  · simp; omega
  · simp; omega

def actsR : Bool → List Sync.Act
  | false => [.init 0 0] ++ List.replicate 5 (.go 0) ++ [.init 0 1] ++ List.replicate 5 (.go 0) ++ [.init 0 2, .barrier, .scan 0, .go 0, .go 0, .go 0, .scan 0, .scan 0, .go 0, .go 0, .barrier]
  | true => [.init 0 0] ++ List.replicate 5 (.go 0) ++ [.init 0 1] ++ List.replicate 5 (.go 0) ++ [.init 0 2, .barrier, .scan 0, .scan 0, .scan 0, .barrier,
      .scan 0, .go 0, .go 0, .go 0, .go 0, .scan 0, .scan 0, .go 0, .barrier, .scan 0, .scan 0, .scan 0, .barrier, .scan 0, .scan 0, .scan 0, .go 0, .barrier]

theorem graph2_within : Sync.Within 3 (graph2 2) := by
  refine ⟨fun v hv => ?_, fun v e he => ?_⟩
  · unfold graph2
    rw [if_neg (by omega), if_neg (by omega)]
  · unfold graph2 at he
    split at he
    · simp at he; subst he; decide
    · split at he
      · simp at he; subst he; decide
      · cases he

theorem endsR (prev : Bool) : ∃ r, Sync.run pagerank (kR prev) (Sync.start pagerank (graph2 2)) (actsR prev) = some r ∧ r.phase = .stopped ∧
    AlwaysSync pagerank (kR prev) (fun s => ∀ v, |s.inbox v| ≠ epsilon) (Sync.start pagerank (graph2 2)) (actsR prev) ∧
    (r.prop 1).mass = 3 / 20 ∧ (r.prop 0).mass = 111 / 400 ∧ (r.prop 2).mass = 3087 / 8000 := by
  have hall : ((List.range 38).all fun i => (Sync.run pagerank (kR prev) (Sync.start pagerank (graph2 2)) ((actsR prev).take i)).all fun s =>
      (List.range 3).all fun v => decide (|s.inbox v| ≠ epsilon)) = true := by cases prev <;> decide +kernel
  have hl : (actsR prev).length ≤ 37 := by cases prev <;> decide
  have hrun : (Sync.run pagerank (kR prev) (Sync.start pagerank (graph2 2)) (actsR prev)).any (fun r => decide (r.phase = .stopped) && decide ((r.prop 1).mass = 3 / 20) &&
      decide ((r.prop 0).mass = 111 / 400) && decide ((r.prop 2).mass = 3087 / 8000)) = true := by
    cases prev <;> decide +kernel
  obtain ⟨r, hr, hp⟩ := Option.any_eq_true _ _ |>.1 hrun
  simp only [Bool.and_eq_true, decide_eq_true_eq] at hp
  refine ⟨r, hr, hp.1.1.1, ?_, hp.1.1.2, hp.1.2, hp.2⟩
  intro ys zs s' he hr v
  by_cases hv : v < 3
  · have hy : ys = (actsR prev).take ys.length := by rw [he, List.take_left]
    have hlen : ys.length < 38 := by
      have := congrArg List.length he
      rw [List.length_append] at this
      omega
    have h1 := List.all_eq_true.1 hall ys.length (List.mem_range.2 hlen)
    rw [← hy, hr] at h1
    exact of_decide_eq_true (List.all_eq_true.1 h1 v (List.mem_range.2 hv))
  · obtain ⟨-, xs, log, hx, hr'⟩ := Sync.sim_run (PageRank.alg_unique damping epsilon) (kR_ok prev) ys _ (Sync.inv_start (graph2 2)) hr []
    rw [show (Sync.start pagerank (graph2 2)) = Sync.start (PageRank.alg damping epsilon) (graph2 2) from rfl, Sync.abs_start] at hr'
    have := PageRank.inbox_above (PageRank.alg_local damping epsilon 3) (fun _ => rfl) xs _ _ (fun y hy => (hx y hy).2)
      (Async.supp_loaded _ 3 (graph2 2) graph2_within.src graph2_within.dst) (fun _ _ => rfl) hr' v (by omega)
    have h0 : s'.inbox v = 0 := this
    rw [h0]
    decide +kernel

/-- The hypotheses of `C93_ranks_partial`, `C93_ranks_error_partial` and `C93_ranks_return_partial` are met by both synchronous variants;
the rank of 3 is the exact one, 0.15·(1 + 0.85 + 0.85²). -/
example (prev : Bool) : ∃ (s : Pipeline.St Unit) (S : Nat → Enact.Th Unit) (xs : List Sync.Act) (r : Sync.St PR ℚ Unit ℚ) (i : Nat × Nat),
    Loaded False unitOps plain oneThread noTime Enact.exOpts lines evs2 two s S ∧ fromRaw oneThread s 3 = some i ∧
    Numbered (kR prev).n oneThread s (graphOf (fun _ _ => (1 : ℚ)) oneThread s S) (fun v => v) (graph2 2) ∧
    Sync.run pagerank (kR prev) (Sync.start pagerank (graph2 2)) xs = some r ∧ r.phase = .stopped ∧
    AlwaysSync pagerank (kR prev) (fun s => ∀ v, |s.inbox v| ≠ epsilon) (Sync.start pagerank (graph2 2)) xs ∧
    (r.prop (pack i)).mass = 15 / 100 * (1 + 85 / 100 + (85 / 100) ^ 2) := by
  have hrun : ∃ l, Loader.run unitOps plain 1 (fun _ => evs2) Loader.start [.put 0, .put 0, .close 0, .emit, .emit, .look, .check] = some l ∧
      (l.done = true ∧ l.taken l.turn = l.sent l.turn) ∧ l.out = two.take 2 := ⟨_, rfl, by decide, by decide⟩
  obtain ⟨l, h1, ⟨h2, h3⟩, h4⟩ := hrun
  obtain ⟨s, S, L, a1, a2, a3, a4, a5⟩ := built False 2 shows2 _ l h1 h2 (fun _ => h3) h4
  obtain ⟨r, hr, e1, e2, -, -, e3⟩ := endsR prev
  exact ⟨s, S, _, r, (0, 2), L, by rw [a3]; rfl, numbered2 2 (.inr rfl) a1 a2 a3 a4 a5, hr, e1, e2, by rw [pack2, e3]; decide +kernel⟩

/-! ## Colours -/

open Verif.Colouring (Mail colouring)

/-- The file "1 2", undirected; one thread. -/
def kC (prev : Bool) : Sync.Cfg Mail :=
  { n := 2, T := 1, own := fun _ => 0, verts := fun t => if t = 0 then [0, 1] else [],
    initMail := fun v => some { scratch := [], pos := 0, colour := 0, box := v }, prev := prev, cap := 9 }

theorem kC_ok (prev : Bool) : (kC prev).Ok := by
  refine ⟨fun t v => ?_, fun v _ => Nat.zero_lt_one⟩
  simp only [kC]
  split
  · simp; omega
  · simp; omega

def edgesC : List (Nat × Nat × Nat) := [(0, 1, 0), (1, 0, 0)]

def actsC : Bool → List Sync.Act
  | false => [.init 0 0, .go 0, .go 0, .go 0, .go 0, .go 0, .init 0 1, .go 0, .go 0, .go 0, .barrier, .scan 0, .scan 0, .go 0, .go 0, .barrier]
  | true => [.init 0 0, .go 0, .go 0, .go 0, .go 0, .go 0, .init 0 1, .go 0, .go 0, .go 0, .barrier, .scan 0, .scan 0, .barrier, .scan 0, .scan 0, .go 0, .barrier]

theorem graphC : Colouring.graph edgesC = graph1 Nat 0 := by
  funext v
  unfold Colouring.graph edgesC graph1
  by_cases h1 : v = 1
  · subst h1; rfl
  · by_cases h0 : v = 0
    · subst h0; rfl
    · rw [if_neg h1, if_neg h0]
      simp [Ne.symm h1, Ne.symm h0]

theorem endsC (prev : Bool) : ∃ xs r, Sync.run colouring (kC prev) (Sync.start colouring (Colouring.graph edgesC)) xs = some r ∧ r.phase = .stopped := by
  have h : (Sync.run colouring (kC prev) (Sync.start colouring (Colouring.graph edgesC)) (actsC prev)).any (fun r => decide (r.phase = .stopped)) = true := by
    cases prev <;> decide +kernel
  obtain ⟨r, hr, h⟩ := Option.any_eq_true _ _ |>.1 h
  exact ⟨_, r, hr, of_decide_eq_true h⟩

/-- The hypotheses of `C93_colours_partial` and `C93_colours_return_partial` are met, and 1 and 2 get different colours. -/
example (prev : Bool) : ∃ (s : Pipeline.St Unit) (S : Nat → Enact.Th Unit) (xs : List Sync.Act) (r : Sync.St Nat Mail Unit Nat),
    Loaded False unitOps und oneThread noTime Enact.exOpts [line12] evs1 both s S ∧ (∀ e ∈ evs1, e.src ≠ e.dst) ∧ both.length ≤ 2147483646 ∧
    Numbered (kC prev).n oneThread s (graphOf (fun pos _ => pos) oneThread s S) (fun v => v) (Colouring.graph edgesC) ∧
    Sync.run colouring (kC prev) (Sync.start colouring (Colouring.graph edgesC)) xs = some r ∧ r.phase = .stopped ∧ r.prop 1 ≠ r.prop 0 := by
  obtain ⟨s, S, L, a1, a2, -, a4, a5⟩ := builtU
  have hN : Numbered (kC prev).n oneThread s (graphOf (fun pos _ => pos) oneThread s S) (fun v => v) (Colouring.graph edgesC) := by
    rw [graphC]
    exact numbered1 a1 a2 a4 a5
  obtain ⟨xs, r, hr, e1⟩ := endsC prev
  have hl : ∀ e ∈ evs1, e.src ≠ e.dst := by decide
  refine ⟨s, S, xs, r, L, hl, by decide, hN, hr, e1, ?_⟩
  obtain ⟨i, j, h1, h2, h3⟩ := C93_colours_partial L rfl (by decide) (kC prev) (kC_ok prev) (fun _ => rfl) hN xs r hr e1 _ (List.mem_singleton.2 rfl : _ ∈ evs1) (hl _ (List.mem_singleton.2 rfl))
  rw [a1] at h1
  rw [a2] at h2
  cases h1
  cases h2
  rw [pack0, pack1] at h3
  exact h3

end Verif.Props.AnswerSync
