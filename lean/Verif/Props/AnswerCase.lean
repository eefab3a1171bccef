import Verif.Props.Answer
import Verif.Props.EngineCase

/-!
# C81: a file of two lines, and the full statement

The file "1 2", "2 3" with one loader and one thread, shortest paths (here: numbers of edges) from 1. Without the races
the hypotheses of `C81_paths_partial` and `C81_paths_return_partial` are met; in a schedule with the race at the loader's
queue the second line is lost, and the full statement fails.
-/

namespace Verif.Props.Answer

open Verif Verif.Built Verif.Props.Io
open Verif.Engine hiding plain
open Verif.Async (Edge)
open Verif.Loader (Ev emptyFields)
open Verif.Pipeline (fromRaw)
open Verif.Props.Loader (Reads IsStream unitOps plain line12 tokens12 IsComment isStream_emitAll loader_eq)
open Verif.Props.EndToEnd (oneThread noTime taken)
open Verif.Props.Engine Verif.Props.MinLabel Verif.Props.Converge
open Verif.MinLabel (Dist sssp)

/-- "2 3" -/
def line23 : List UInt8 := [50, 32, 51]

theorem tokens23 : Tokens line23 [[50], [51]] :=
  Tokens.cons [] [50] [32, 51] [[51]] (by simp) (by simp) (by simp [IsSpace]) (by simp [IsSpace])
    (Tokens.cons [32] [51] [] [] (by simp [IsSpace]) (by simp) (by simp [IsSpace]) (by simp) (Tokens.none [] (by simp)))

def lines : List (List UInt8) := [line12, line23]

/-- The edges in the file; the emitter numbers them. -/
def evs2 : List (Ev Unit) := [⟨.add, 0, 1, 2, ()⟩, ⟨.add, 0, 2, 3, ()⟩]
def two : List (Ev Unit) := [⟨.add, 0, 1, 2, ()⟩, ⟨.add, 1, 2, 3, ()⟩]

theorem reads2 : Reads unitOps plain 0 lines evs2 :=
  Reads.edge 0 line12 [line23] _ [_] (by simp [IsComment, line12])
    ⟨[49], [50], [], tokens12, by simp, ⟨by simp [plain], by simp [plain]⟩, rfl, by decide, (), by simp [plain, unitOps], rfl, rfl⟩
    (Reads.edge 1 line23 [] _ [] (by simp [IsComment, line23])
      ⟨[50], [51], [], tokens23, by simp, ⟨by simp [plain], by simp [plain]⟩, rfl, by decide, (), by simp [plain, unitOps], rfl, rfl⟩ (Reads.nil 2))

theorem stream2 : IsStream unitOps plain evs2 two := isStream_emitAll unitOps plain evs2

theorem fromFile2 : Props.Loader.FromFile unitOps plain 1 lines fun _ => evs2 := fun i hi => by
  obtain rfl : i = 0 := by omega
  exact loader_eq unitOps plain 1 0 reads2 emptyFields (by simp [emptyFields])

/-- The stages after the emitter on `n` events. -/
def acts (n : Nat) : List Pipeline.Act :=
  (List.replicate n [Pipeline.Act.emitPut, .emitOrder, .convert 0, .remTake, .remGet, .remPut, .enact 0]).flatten ++ [.emitClose, .emitClose, .remStop]

/-- The graph of the first `n` lines; vertex 2 has number 0, vertex 1 number 1, vertex 3 number 2. -/
def graph2 (n v : Nat) : List (Edge ℚ) := if v = 1 then [⟨0, 1⟩] else if v = 0 ∧ n = 2 then [⟨2, 1⟩] else []

def shows (n : Nat) : Option Bool := (Pipeline.run oneThread (two.take n) (Pipeline.start oneThread) (acts n)).bind fun s =>
  (Enact.enactAll Enact.exOpts (fun _ => false) (Enact.start 1 4 (Enact.exAdd 0 0 0)) [taken noTime s 0]).map fun S =>
    (match s.rem with | .stopped => true | _ => false) && decide (s.topoN 0 = (s.topo 0).length) && decide ((taken noTime s 0).length ≤ 4) && decide ((s.th 0).verts.length = n + 1 ∧ n ≤ 2) &&
    decide (fromRaw oneThread s 1 = some (0, 1)) && decide (fromRaw oneThread s 2 = some (0, 0)) && decide (fromRaw oneThread s 3 = if n = 2 then some (0, 2) else none) &&
    (List.range 3).all fun v => decide ((graphOf (fun _ _ => (1 : ℚ)) oneThread s (fun _ => S) v).map (fun e => (e.dst, e.data)) = (graph2 n v).map fun e => (e.dst, e.data))

theorem shows1 : shows 1 = some true := by decide +kernel
theorem shows2 : shows 2 = some true := by decide +kernel

theorem built (races : Prop) (n : Nat) (hn : shows n = some true) (as : List Loader.Act) (l : Loader.St Unit)
    (h1 : Loader.run unitOps plain 1 (fun _ => evs2) Loader.start as = some l) (h2 : l.done = true) (h3 : ¬ races → l.taken l.turn = l.sent l.turn) (h4 : l.out = two.take n) :
    ∃ s S, Loaded races unitOps plain oneThread noTime Enact.exOpts lines evs2 two s S ∧ fromRaw oneThread s 1 = some (0, 1) ∧ fromRaw oneThread s 2 = some (0, 0) ∧
      (fromRaw oneThread s 3 = if n = 2 then some (0, 2) else none) ∧ graphOf (fun _ _ => (1 : ℚ)) oneThread s S = graph2 n ∧ ∀ u i, fromRaw oneThread s u = some i → pack i < n + 1 := by
  obtain ⟨s, hs, hn⟩ := Option.bind_eq_some_iff.1 hn
  obtain ⟨S, hS, hn⟩ := Option.map_eq_some_iff.1 hn
  simp only [Bool.and_eq_true, decide_eq_true_eq] at hn
  obtain ⟨⟨⟨⟨⟨⟨⟨a1, a2⟩, a3⟩, a4⟩, a5⟩, a6⟩, a7⟩, a8⟩ := hn
  have a1 : s.rem = .stopped := by
    revert a1
    cases s.rem <;> simp
  have hg : graphOf (fun _ _ => (1 : ℚ)) oneThread s (fun _ => S) = graph2 n := by
    funext v
    by_cases hv : v < 3
    · have := of_decide_eq_true (List.all_eq_true.1 a8 v (List.mem_range.2 hv))
      refine (List.map_injective_iff (f := fun e : Edge ℚ => (e.dst, e.data))).2 ?_ this
      rintro ⟨a, b⟩ ⟨c, d⟩ h
      simp only [Prod.mk.injEq] at h
      rw [h.1, h.2]
    · have h5 : graph2 n v = [] := by
        unfold graph2
        rw [if_neg (by omega), if_neg (by omega)]
      rw [h5]
      unfold graphOf
      rw [if_neg]
      rintro ⟨b1, b2⟩
      have b1 : v / 2 ^ 27 < 1 := b1
      have : v / 2 ^ 27 = 0 := by omega
      rw [this] at b2
      omega
  refine ⟨s, fun _ => S, ⟨by decide, reads2, stream2, rfl, by decide, fun t ht => ?_, ?_⟩, a5, a6, a7, hg, fun u i hu => ?_⟩
  · obtain rfl : t = 0 := by have : t < 1 := ht; omega
    omega
  · refine ⟨⟨1, fun _ => evs2, as, l, acts n, by decide, fromFile2, h1, h2, fun h => ⟨h3 h, ?_⟩, by rw [h4]; exact hs⟩, a1, fun t ht => ?_, fun t ht => ?_⟩
    · unfold acts
      simp [List.mem_append, List.mem_flatten, List.mem_replicate]
    · obtain rfl : t = 0 := by have : t < 1 := ht; omega
      exact a2
    · obtain rfl : t = 0 := by have : t < 1 := ht; omega
      exact ⟨fun _ => false, 1, 4, Enact.exAdd 0 0 0, [taken noTime s 0], by simp, by simpa using a3, hS⟩
  · obtain ⟨b1, b2⟩ := (Props.Pipeline.C45_one_id oneThread _ _ s hs u i).1 hu
    have : i.1 = 0 := by rw [b2]; exact Nat.mod_one _
    obtain ⟨v, h5, -⟩ := Option.map_eq_some_iff.1 b1
    have := (List.getElem?_eq_some_iff.1 h5).1
    rw [‹i.1 = 0›] at this
    unfold pack
    omega

def k1 : Async.Cfg Dist Unit := { T := 1, own := fun _ => 0, initMail := fun v => if v = 1 then some 0 else none, initNote := fun _ => none }

/-- `SendInitialMail`. -/
def mail2 : List (Async.Act ℚ) := [.init 0 1] ++ List.replicate 5 (.go 0) ++ [.init 0 0, .init 0 2]

theorem smooth2 (n : Nat) (hn : n = 1 ∨ n = 2) : (Async.run sssp k1 (Async.start sssp (graph2 n)) mail2).map (fun s =>
    isIdle (s.task 0) && (List.range 3).all (fun v => decide (s.pend v = [(0, ())].filterMap fun x => if x.1 = v then some x.2 else none) && s.inited v) &&
    smooth sssp k1 1024 (begin0 k1 s [(0, ())]) ((List.range 100).map fun i => [0].getD (i % [0].length) 0)) = some true := by
  rcases hn with rfl | rfl <;> decide +kernel

theorem exec2 (n : Nat) (hn : n = 1 ∨ n = 2) (s : Pipeline.St Unit) (hs : ∀ u i, fromRaw oneThread s u = some i → pack i < n + 1) :
    ∃ e : Exec sssp k1 1024, Runs oneThread s (graph2 n) (graph2 n) mail2 e 0 := by
  obtain ⟨r, hr, h⟩ := Option.map_eq_some_iff.1 (smooth2 n hn)
  simp only [Bool.and_eq_true] at h
  obtain ⟨⟨h1, h2⟩, h4⟩ := h
  have h3 : ∀ v, v < 3 → r.pend v = ([(0, ())].filterMap fun x => if x.1 = v then some x.2 else none) ∧ r.inited v = true := by
    intro v hv
    have := List.all_eq_true.1 h2 v (List.mem_range.2 hv)
    simp only [Bool.and_eq_true] at this
    exact ⟨of_decide_eq_true this.1, this.2⟩
  have hl : Async.Local sssp 3 := by rw [MinLabel.sssp_eq]; exact MinLabel.minAlg_local _ _ _
  have hsup : Async.Supp 3 r := by
    refine Async.supp_run hl (xs := mail2) (by decide) (Async.supp_loaded sssp 3 (graph2 n) ?_ ?_) hr
    · intro v hv
      unfold graph2
      rw [if_neg (by omega), if_neg (by omega)]
    · intro v e he
      unfold graph2 at he
      split at he
      · rcases List.mem_singleton.1 he with rfl; decide
      · split at he
        · rcases List.mem_singleton.1 he with rfl; decide
        · cases he
  obtain ⟨e, e1, e2, e3, e4, e5, e6⟩ := exists_exec sssp k1 1024 (fun v => Nat.zero_lt_one) (by decide) (graph2 n) mail2 r hr hsup [(0, ())] [0]
    (fun t ht => by have : t < 1 := ht; obtain rfl : t = 0 := by omega
                    simp) 100
    (fun t ht => by have : t < 1 := ht; obtain rfl : t = 0 := by omega
                    exact h1) (fun v hv => (h3 v hv).1) (by decide) h4
  refine ⟨e, by decide, fun v => Nat.zero_lt_one, by rw [e1]; exact hr, e2, e3, e4, fun t _ => e5 t, fun i y _ => e6 i y, ?_, fun i t v b => e6 i _, ?_, ?_⟩
  · intro t v b hm
    simp [mail2] at hm
  · intro v
    have : appended (mail2 ++ topos ((List.range 0).map e.act)) v = [] := by simp [appended, mail2, topos]
    rw [this, List.append_nil]
  · intro u i hu
    rw [e1]
    exact (h3 _ (by have := hs u i hu; omega)).2

/-- The hypotheses of `C81_paths_return_partial` (and at the end of this run, those of `C81_paths_partial`) are met, and
the run finds that 3 is two edges away from 1. -/
example : ∃ (s : Pipeline.St Unit) (S : Nat → Enact.Th Unit) (e : Exec sssp k1 1024), Loaded False unitOps plain oneThread noTime Enact.exOpts lines evs2 two s S ∧
    Runs oneThread s (graphOf (fun _ _ => (1 : ℚ)) oneThread s S) (graphOf (fun _ _ => (1 : ℚ)) oneThread s S) mail2 e 0 ∧
    ∃ n i, Finished k1 (e.st n) ∧ fromRaw oneThread s 3 = some i ∧ (e.st n).alg.prop (pack i) = ((2 : ℚ) : Dist) := by
  have hrun : ∃ l, Loader.run unitOps plain 1 (fun _ => evs2) Loader.start [.put 0, .put 0, .close 0, .emit, .emit, .look, .check] = some l ∧
      (l.done = true ∧ l.taken l.turn = l.sent l.turn) ∧ l.out = two.take 2 := ⟨_, rfl, by decide, by decide⟩
  obtain ⟨l, h1, ⟨h2, h3⟩, h4⟩ := hrun
  obtain ⟨s, S, L, a1, a2, a3, a4, a5⟩ := built False 2 shows2 _ l h1 h2 (fun _ => h3) h4
  obtain ⟨e, R⟩ := exec2 2 (.inr rfl) s a5
  rw [← a4] at R
  have hw : Blind unitOps fun _ : Unit => (1 : ℚ) := fun _ => ⟨fun _ => rfl, fun _ => rfl⟩
  obtain ⟨n, hn, hv⟩ := C81_paths_return_partial L (fun _ => (1 : ℚ)) hw (fun _ _ => by norm_num) 1 (0, 1) a1 k1 (fun _ => rfl) (fun v => rfl) R
  obtain ⟨i, hi, -, hd⟩ := hv 3 ⟨_, by simp [evs2]; exact .inr rfl, .inr rfl⟩
  refine ⟨s, S, e, L, R, n, i, hn, hi, (hd 2).2 ⟨?_, ?_⟩⟩
  · have e1 : FileEdge plain (fun _ : Unit => (1 : ℚ)) evs2 1 2 1 := ⟨⟨.add, 0, 1, 2, ()⟩, by simp [evs2], rfl, .inl ⟨rfl, rfl⟩⟩
    have e2 : FileEdge plain (fun _ : Unit => (1 : ℚ)) evs2 2 3 1 := ⟨⟨.add, 0, 2, 3, ()⟩, by simp [evs2], rfl, .inl ⟨rfl, rfl⟩⟩
    have := FileWalk.step 1 2 3 _ _ (.step 1 1 2 _ _ (.here 1) e1) e2
    norm_num at this
    exact this
  · rintro x hx
    have t1 : ((1 : UInt32).toNat : ℚ) = 1 := by decide +kernel
    have t2 : ((2 : UInt32).toNat : ℚ) = 2 := by decide +kernel
    have t3 : ((3 : UInt32).toNat : ℚ) = 3 := by decide +kernel
    have : ∀ u v d, FileWalk plain (fun _ : Unit => (1 : ℚ)) evs2 u v d → u = 1 → d = (v.toNat : ℚ) - 1 := by
      intro u v d h
      induction h with
      | here => rintro rfl; rw [t1]; norm_num
      | step v v' d x _ he ih =>
        intro hu
        rw [ih hu]
        obtain ⟨y, hy, rfl, ⟨b1, b2⟩ | ⟨b0, -⟩⟩ := he
        · simp only [evs2, List.mem_cons, List.not_mem_nil, or_false] at hy
          rcases hy with rfl | rfl
          · subst b1 b2; rw [t1, t2]; norm_num
          · subst b1 b2; rw [t2, t3]; norm_num
        · cases b0
    rw [this _ _ _ hx rfl, t3]
    norm_num

/-- **C81** fails for the file "1 2", "2 3": the emitter finds the queue empty, then the loader puts the second edge and
closes, then the emitter sees "closed" and stops (C02). The run ends without vertex 3. -/
theorem C81_statement_false : ¬ C81Statement := by
  intro h
  have hrun : ∃ l, Loader.run unitOps plain 1 (fun _ => evs2) Loader.start [.put 0, .emit, .look, .put 0, .close 0, .check] = some l ∧
      l.done = true ∧ l.out = two.take 1 := ⟨_, rfl, by decide, by decide⟩
  obtain ⟨l, h1, h2, h4⟩ := hrun
  obtain ⟨s, S, L, a1, a2, a3, a4, a5⟩ := built True 1 shows1 _ l h1 h2 (fun h => absurd trivial h) h4
  obtain ⟨e, R⟩ := exec2 1 (.inl rfl) s a5
  have hE := R.ran.edges
  obtain ⟨n, hn, -⟩ := C64_sssp_partial k1 (fun _ => rfl) 1024 R.batch R.own 1 (fun v => rfl) (graph2 1) ⟨3, fun v => ⟨fun hv => by
      unfold graph2; rw [if_neg (by omega), if_neg (by omega)], fun x hx => by
      unfold graph2 at hx
      split at hx
      · rcases List.mem_singleton.1 hx with rfl; decide
      · split at hx
        · rcases List.mem_singleton.1 hx with rfl; decide
        · cases hx⟩⟩ mail2 R.keeps0 e R.first R.start R.fair R.fresh 0 R.closed R.noTopo R.keeps (by
      rw [hE]
      intro v x hx
      unfold graph2 at hx
      split at hx
      · rcases List.mem_singleton.1 hx with rfl; decide
      · split at hx
        · rcases List.mem_singleton.1 hx with rfl; decide
        · cases hx) (R.inited 1 (0, 1) a1)
  have hin : ∀ j, (∀ u i, fromRaw oneThread s u = some i → (e.st j).alg.inited (pack i) = true) := by
    intro j u i hu
    obtain ⟨zs, hz, hr, -⟩ := seg_alg e 0 (fun i hi => by
      cases hx : e.act i with
      | topo y => exact absurd hx (R.noTopo i y hi)
      | _ => rfl) j
    rw [Nat.zero_add] at hr
    rw [(stay_run hz hr).2]
    exact R.inited u i hu
  have R' : Ran sssp k1 1024 oneThread s (graphOf (fun _ _ => (1 : ℚ)) oneThread s S) (graph2 1) mail2 (e.st 0) (e.st n) ((List.range n).map e.act) := by
    refine ⟨R.batch, R.own, R.first, R.start, exec_run sssp k1 1024 e n, R.keeps0, fun t v b hm => ?_, fun v => ?_, hin n⟩
    · obtain ⟨i, -, hi⟩ := List.mem_map.1 hm
      exact R.keeps i t v b hi
    · have : topos ((List.range n).map e.act) = [] := by
        rw [topos, List.filterMap_eq_nil_iff]
        intro x hx
        obtain ⟨i, -, hi⟩ := List.mem_map.1 hx
        cases x with
        | topo y => exact absurd hi (R.noTopo i y (Nat.zero_le _))
        | _ => rfl
      rw [this, a4]
      have := R.graph v
      rwa [List.range_zero, List.map_nil, show topos ([] : List (Engine.Act ℚ)) = [] from rfl] at this
  obtain ⟨i, hi, -⟩ := h Unit unitOps plain oneThread noTime Enact.exOpts lines evs2 two s S L (fun _ => 1) (fun _ => ⟨fun _ => rfl, fun _ => rfl⟩) 1 (0, 1) a1 k1 (fun v => rfl)
    1024 (graph2 1) mail2 (e.st 0) (e.st n) _ R' hn 3 ⟨_, by simp [evs2]; exact .inr rfl, .inr rfl⟩
  rw [a3] at hi
  cases hi

/-! ## An undirected file

The file "1 2" in undirected mode, for components and colouring. -/

def und : Loader.Cfg := { plain with undirected := true }

def evs1 : List (Ev Unit) := [⟨.add, 0, 1, 2, ()⟩]
def both : List (Ev Unit) := [⟨.add, 0, 1, 2, ()⟩, ⟨.add, 1, 2, 1, ()⟩]

theorem reads1 : Reads unitOps und 0 [line12] evs1 :=
  Reads.edge 0 line12 [] _ [] (by simp [IsComment, line12])
    ⟨[49], [50], [], tokens12, by simp, ⟨by simp [und, plain], by simp [und, plain]⟩, rfl, by decide, (), by simp [und, plain, unitOps], rfl, rfl⟩ (Reads.nil 1)

theorem stream1 : IsStream unitOps und evs1 both := isStream_emitAll unitOps und evs1

/-- The graph of the file; vertex 2 has number 0, vertex 1 number 1. -/
def graph1 (D : Type) (x : D) (v : Nat) : List (Edge D) := if v = 1 then [⟨0, x⟩] else if v = 0 then [⟨1, x⟩] else []

def showsU : Option Bool := (Pipeline.run oneThread both (Pipeline.start oneThread) (acts 2)).bind fun s =>
  (Enact.enactAll Enact.exOpts (fun _ => false) (Enact.start 1 4 (Enact.exAdd 0 0 0)) [taken noTime s 0]).map fun S =>
    (match s.rem with | .stopped => true | _ => false) && decide (s.topoN 0 = (s.topo 0).length) && decide ((taken noTime s 0).length ≤ 4) && decide ((s.th 0).verts.length = 2) &&
    decide (fromRaw oneThread s 1 = some (0, 1)) && decide (fromRaw oneThread s 2 = some (0, 0)) &&
    (List.range 2).all fun v => decide ((S.verts v).map (fun e => (pack e.didx, e.pos.toNat)) = (graph1 Nat 0 v).map fun e => (e.dst, e.data))

theorem showsU_true : showsU = some true := by decide +kernel

theorem builtU : ∃ s S, Loaded False unitOps und oneThread noTime Enact.exOpts [line12] evs1 both s S ∧ fromRaw oneThread s 1 = some (0, 1) ∧ fromRaw oneThread s 2 = some (0, 0) ∧
    graphOf (fun _ _ => ()) oneThread s S = graph1 Unit () ∧ graphOf (fun pos _ => pos) oneThread s S = graph1 Nat 0 ∧
    ∀ u i, fromRaw oneThread s u = some i → u = 1 ∧ i = (0, 1) ∨ u = 2 ∧ i = (0, 0) := by
  have hrun : ∃ l, Loader.run unitOps und 1 (fun _ => evs1) Loader.start [.put 0, .close 0, .emit, .look, .check] = some l ∧
      (l.done = true ∧ l.taken l.turn = l.sent l.turn) ∧ l.out = both := ⟨_, rfl, by decide, by decide⟩
  obtain ⟨l, h1, ⟨h2, h3⟩, h4⟩ := hrun
  obtain ⟨s, hs, hn⟩ := Option.bind_eq_some_iff.1 showsU_true
  obtain ⟨S, hS, hn⟩ := Option.map_eq_some_iff.1 hn
  simp only [Bool.and_eq_true, decide_eq_true_eq] at hn
  obtain ⟨⟨⟨⟨⟨⟨a1, a2⟩, a3⟩, a4⟩, a5⟩, a6⟩, a8⟩ := hn
  have a1 : s.rem = .stopped := by
    revert a1
    cases s.rem <;> simp
  have hg : ∀ (D : Type) (f : Nat → Unit → D) (x : D), f 0 () = x → graphOf f oneThread s (fun _ => S) = graph1 D x := by
    intro D f x hx
    funext v
    by_cases hv : v < 2
    · have := of_decide_eq_true (List.all_eq_true.1 a8 v (List.mem_range.2 hv))
      have e1 : graphOf f oneThread s (fun _ => S) v = ((S.verts v).map (fun e => (pack e.didx, e.pos.toNat))).map fun a => ⟨a.1, f a.2 ()⟩ := by
        unfold graphOf
        rw [show v / 2 ^ 27 = 0 by omega, show v % 2 ^ 27 = v by omega, if_pos ⟨by decide, by omega⟩, List.map_map]
        rfl
      rw [e1, this, List.map_map]
      obtain rfl | rfl : v = 0 ∨ v = 1 := by omega
      · simp [graph1, hx]
      · simp [graph1, hx]
    · have h5 : graph1 D x v = [] := by
        unfold graph1
        rw [if_neg (by omega), if_neg (by omega)]
      rw [h5]
      unfold graphOf
      rw [if_neg]
      rintro ⟨b1, b2⟩
      have b1 : v / 2 ^ 27 < 1 := b1
      have : v / 2 ^ 27 = 0 := by omega
      rw [this] at b2
      omega
  refine ⟨s, fun _ => S, ⟨by decide, reads1, stream1, rfl, by decide, fun t ht => ?_, ?_⟩, a5, a6, hg _ _ _ rfl, hg _ _ _ rfl, fun u i hu => ?_⟩
  · obtain rfl : t = 0 := by have : t < 1 := ht; omega
    omega
  · refine ⟨⟨1, fun _ => evs1, _, l, acts 2, by decide, ?_, h1, h2, fun _ => ⟨h3, ?_⟩, by rw [h4]; exact hs⟩, a1, fun t ht => ?_, fun t ht => ?_⟩
    · intro i hi
      obtain rfl : i = 0 := by omega
      exact loader_eq unitOps und 1 0 reads1 emptyFields (by simp [emptyFields])
    · unfold acts
      simp
    · obtain rfl : t = 0 := by have : t < 1 := ht; omega
      exact a2
    · obtain rfl : t = 0 := by have : t < 1 := ht; omega
      exact ⟨fun _ => false, 1, 4, Enact.exAdd 0 0 0, [taken noTime s 0], by simp, by simpa using a3, hS⟩
  · obtain ⟨b1, b2⟩ := (Props.Pipeline.C45_one_id oneThread _ _ s hs u i).1 hu
    have b3 : i.1 = 0 := by rw [b2]; exact Nat.mod_one _
    obtain ⟨v, h5, -⟩ := Option.map_eq_some_iff.1 b1
    have := (List.getElem?_eq_some_iff.1 h5).1
    rw [b3, a4] at this
    have c1 := ((Props.Pipeline.C45_one_id oneThread _ _ s hs 1 _).1 a5).1
    have c2 := ((Props.Pipeline.C45_one_id oneThread _ _ s hs 2 _).1 a6).1
    obtain ⟨i1, i2⟩ := i
    dsimp only at b3 this
    subst b3
    obtain rfl | rfl : i2 = 0 ∨ i2 = 1 := by omega
    · rw [c2] at b1; injection b1 with b1
      exact .inr ⟨b1.symm, rfl⟩
    · rw [c1] at b1; injection b1 with b1
      exact .inl ⟨b1.symm, rfl⟩

/-- Labels: the numbers in the file. -/
def raw1 (v : Nat) : MinLabel.Label := if v = 0 then 2 else 1

def kU : Async.Cfg MinLabel.Label Unit := { T := 1, own := fun _ => 0, initMail := fun v => some (raw1 v), initNote := fun _ => none }

def mailU (D : Type) (n m : Nat) : List (Async.Act D) := [.init 0 0] ++ List.replicate n (.go 0) ++ [.init 0 1] ++ List.replicate m (.go 0)

theorem execU {P M D : Type} (a : Async.Alg P M Unit D) (ha : Async.Local a 2) (k : Async.Cfg M Unit) (hT : k.T = 1) (hown : ∀ v, k.own v = 0) (x : D) (n m : Nat) (notes : List (Nat × Unit))
    (hnotes : ∀ y ∈ notes, y.1 < 2)
    (h : (Async.run a k (Async.start a (graph1 D x)) (mailU D n m)).map (fun s =>
      isIdle (s.task 0) && (List.range 2).all (fun v => decide (s.pend v = notes.filterMap fun x => if x.1 = v then some x.2 else none) && s.inited v) &&
      smooth a k 1024 (begin0 k s notes) ((List.range 100).map fun i => [0].getD (i % [0].length) 0)) = some true)
    (s : Pipeline.St Unit) (hs : ∀ u i, fromRaw oneThread s u = some i → u = 1 ∧ i = (0, 1) ∨ u = 2 ∧ i = (0, 0)) :
    ∃ e : Exec a k 1024, Runs oneThread s (graph1 D x) (graph1 D x) (mailU D n m) e 0 := by
  obtain ⟨r, hr, h⟩ := Option.map_eq_some_iff.1 h
  simp only [Bool.and_eq_true] at h
  obtain ⟨⟨h1, h2⟩, h4⟩ := h
  have h3 : ∀ v, v < 2 → r.pend v = (notes.filterMap fun x => if x.1 = v then some x.2 else none) ∧ r.inited v = true := by
    intro v hv
    have := List.all_eq_true.1 h2 v (List.mem_range.2 hv)
    simp only [Bool.and_eq_true] at this
    exact ⟨of_decide_eq_true this.1, this.2⟩
  have hsup : Async.Supp 2 r := by
    refine Async.supp_run ha (xs := mailU D n m) ?_ (Async.supp_loaded a 2 (graph1 D x) ?_ ?_) hr
    · simp [mailU, Async.Act.below]
    · intro v hv
      unfold graph1
      rw [if_neg (by omega), if_neg (by omega)]
    · intro v e he
      unfold graph1 at he
      split at he
      · rcases List.mem_singleton.1 he with rfl; exact Nat.zero_lt_two
      · split at he
        · rcases List.mem_singleton.1 he with rfl; exact Nat.one_lt_two
        · cases he
  have hown' : ∀ v, k.own v < k.T := fun v => by rw [hown, hT]; decide
  obtain ⟨e, e1, e2, e3, e4, e5, e6⟩ := exists_exec a k 1024 hown' (by omega) (graph1 D x) (mailU D n m) r hr hsup notes [0]
    (fun t ht => by obtain rfl : t = 0 := by omega
                    simp) 100
    (fun t ht => by obtain rfl : t = 0 := by omega
                    exact h1) (fun v hv => (h3 v hv).1) hnotes h4
  refine ⟨e, by decide, hown', by rw [e1]; exact hr, e2, e3, e4, fun t _ => e5 t, fun i y _ => e6 i y, ?_, fun i t v b => e6 i _, ?_, ?_⟩
  · intro t v b hm
    simp [mailU] at hm
  · intro v
    have : appended (mailU D n m ++ topos ((List.range 0).map e.act)) v = [] := by simp [appended, mailU, topos]
    rw [this, List.append_nil]
  · intro u i hu
    rw [e1]
    rcases hs u i hu with ⟨-, rfl⟩ | ⟨-, rfl⟩
    · exact (h3 1 (by decide)).2
    · exact (h3 0 (by decide)).2

open Verif.MinLabel (cc) in
/-- The hypotheses of `C81_components_return_partial` are met (and at the end of this run those of
`C81_components_partial`), and vertex 2 gets label 1. -/
example : ∃ (s : Pipeline.St Unit) (S : Nat → Enact.Th Unit) (e : Exec cc kU 1024), Loaded False unitOps und oneThread noTime Enact.exOpts [line12] evs1 both s S ∧
    Runs oneThread s (graphOf (fun _ _ => ()) oneThread s S) (graphOf (fun _ _ => ()) oneThread s S) (mailU Unit 5 5) e 0 ∧
    ∃ n i, Finished kU (e.st n) ∧ fromRaw oneThread s 2 = some i ∧ ((e.st n).alg.prop (pack i)).val = 1 := by
  obtain ⟨s, S, L, a1, a2, a3, -, a5⟩ := builtU
  obtain ⟨e, R⟩ := execU cc (by rw [MinLabel.cc_eq]; exact MinLabel.minAlg_local _ _ _) kU rfl (fun _ => rfl) () 5 5 [(0, ()), (1, ())] (by decide) (by decide +kernel) s a5
  rw [← a3] at R
  obtain ⟨n, hn, h⟩ := C81_components_return_partial L rfl raw1 (fun u i hu => by
    rcases a5 u i hu with ⟨rfl, rfl⟩ | ⟨rfl, rfl⟩ <;> decide +kernel) kU (fun _ => rfl) (fun _ => rfl) R
  obtain ⟨i, hi, hl⟩ := h 2 ⟨_, List.mem_singleton.2 rfl, .inr rfl⟩
  refine ⟨s, S, e, L, R, n, i, hn, hi, ?_⟩
  have h1 : IsLeast {x : Nat | ∃ u', FileConnected evs1 u' 2 ∧ u'.toNat = x} 1 := by
    refine ⟨⟨1, .rel _ _ ⟨_, List.mem_singleton.2 rfl, rfl, rfl⟩, by decide⟩, ?_⟩
    rintro x ⟨u, hu, rfl⟩
    obtain ⟨e, he, h⟩ := (connected_in hu).2 ⟨_, List.mem_singleton.2 rfl, .inr rfl⟩
    rcases List.mem_singleton.1 he with rfl
    rcases h with rfl | rfl <;> decide
  exact hl.unique h1

open Verif.Colouring (colouring) in
/-- The hypotheses of `C81_colours_return_partial` are met (and at the end of this run those of `C81_colours_partial`). -/
example : ∃ (s : Pipeline.St Unit) (S : Nat → Enact.Th Unit) (e : Exec colouring (Colouring.cfg 1 fun _ => 0) 1024), Loaded False unitOps und oneThread noTime Enact.exOpts [line12] evs1 both s S ∧
    Runs oneThread s (graphOf (fun pos _ => pos) oneThread s S) (Colouring.graph [(1, 0, 0), (0, 1, 0)]) (mailU Nat 5 3) e 0 ∧
    ∃ n i j, Finished (Colouring.cfg 1 fun _ => 0) (e.st n) ∧ fromRaw oneThread s 1 = some i ∧ fromRaw oneThread s 2 = some j ∧ (e.st n).alg.prop (pack i) ≠ (e.st n).alg.prop (pack j) := by
  obtain ⟨s, S, L, a1, a2, -, a4, a5⟩ := builtU
  obtain ⟨e, R⟩ := execU colouring (Colouring.colouring_local 2) (Colouring.cfg 1 fun _ => 0) rfl (fun _ => rfl) 0 5 3 [(1, ())] (by decide) (by decide +kernel) s a5
  have hg : graph1 Nat 0 = Colouring.graph [(1, 0, 0), (0, 1, 0)] := by
    funext v
    unfold graph1 Colouring.graph
    by_cases h1 : v = 1
    · subst h1; rfl
    · by_cases h0 : v = 0
      · subst h0; rfl
      · rw [if_neg h1, if_neg h0]
        simp [Ne.symm h1, Ne.symm h0]
  have R' : Runs oneThread s (graphOf (fun pos _ => pos) oneThread s S) (Colouring.graph [(1, 0, 0), (0, 1, 0)]) (mailU Nat 5 3) e 0 := by
    rw [a4, ← hg]; exact R
  obtain ⟨n, hn, h⟩ := C81_colours_return_partial L rfl (by decide) (by decide) 1 (fun _ => 0) R'
  obtain ⟨i, j, hi, hj, hne⟩ := h _ (List.mem_singleton.2 rfl)
  exact ⟨s, S, e, L, R', n, i, j, hn, hi, hj, hne⟩

end Verif.Props.Answer
