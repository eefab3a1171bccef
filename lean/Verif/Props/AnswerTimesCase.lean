import Verif.Props.AnswerTimes
import Verif.Props.AnswerCase

/-!
# C89: a file of two lines with timestamps, and the full statement

The file "1 2 3", "2 3 5" with one loader and one thread, paths from 1. Without the races the hypotheses are met; in a
schedule with the race at the loader's queue the second line is lost, and the full statement fails.
-/

namespace Verif.Props.AnswerTimes

open Verif Verif.Built Verif.Props.Io Verif.Props.Answer
open Verif.Engine hiding plain
open Verif.Async (Edge)
open Verif.Loader (Ev emptyFields)
open Verif.Pipeline (fromRaw Params)
open Verif.Props.Loader (Reads IsStream IsComment isStream_emitAll loader_eq)
open Verif.Props.EndToEnd (taken)
open Verif.Props.Engine Verif.Props.Converge
open Verif.TempPaths (Link tp VP Mail TAct trun cfg begin loaded)
open Verif.Props.TempPaths (TimeOrdered Reach added)
open Verif.Props.TempPathsEngine (trun_grows C64_paths_partial)
open Verif.Props.TempPathsConv
open Verif.TempPaths (local_tp)
open Verif.EdgeProps (TimeRange rangeOps rangeTimes)
open Verif.Props.EdgeProps (withTime)

/-- "1 2 3" and "2 3 5". -/
def line1 : List UInt8 := [49, 32, 50, 32, 51]
def line2 : List UInt8 := [50, 32, 51, 32, 53]

theorem tokens1 : Tokens line1 [[49], [50], [51]] :=
  Tokens.cons [] [49] [32, 50, 32, 51] _ (by simp) (by simp) (by simp [IsSpace]) (by simp [IsSpace])
    (Tokens.cons [32] [50] [32, 51] _ (by simp [IsSpace]) (by simp) (by simp [IsSpace]) (by simp [IsSpace])
      (Tokens.cons [32] [51] [] [] (by simp [IsSpace]) (by simp) (by simp [IsSpace]) (by simp) (Tokens.none [] (by simp))))

theorem tokens2 : Tokens line2 [[50], [51], [53]] :=
  Tokens.cons [] [50] [32, 51, 32, 53] _ (by simp) (by simp) (by simp [IsSpace]) (by simp [IsSpace])
    (Tokens.cons [32] [51] [32, 53] _ (by simp [IsSpace]) (by simp) (by simp [IsSpace]) (by simp [IsSpace])
      (Tokens.cons [32] [53] [] [] (by simp [IsSpace]) (by simp) (by simp [IsSpace]) (by simp) (Tokens.none [] (by simp))))

def timed : List (List UInt8) := [line1, line2]
def evsT : List (Ev TimeRange) := [⟨.add, 0, 1, 2, ⟨3, 0⟩⟩, ⟨.add, 0, 2, 3, ⟨5, 0⟩⟩]
def streamT : List (Ev TimeRange) := [⟨.add, 0, 1, 2, ⟨3, 0⟩⟩, ⟨.add, 1, 2, 3, ⟨5, 0⟩⟩]

theorem readsT : Reads rangeOps withTime 0 timed evsT :=
  Reads.edge 0 line1 [line2] _ [_] (by simp [IsComment, line1])
    ⟨[49], [50], [[51]], tokens1, by simp, ⟨by simp [withTime], by simp [withTime]⟩, rfl, by decide, _, rfl, by decide +kernel, rfl⟩
    (Reads.edge 1 line2 [] _ [] (by simp [IsComment, line2])
      ⟨[50], [51], [[53]], tokens2, by simp, ⟨by simp [withTime], by simp [withTime]⟩, rfl, by decide, _, rfl, by decide +kernel, rfl⟩ (Reads.nil 2))

theorem isStreamT : IsStream rangeOps withTime evsT streamT := isStream_emitAll rangeOps withTime evsT

theorem fromFileT : Props.Loader.FromFile rangeOps withTime 1 timed fun _ => evsT := fun i hi => by
  obtain rfl : i = 0 := by omega
  exact loader_eq rangeOps withTime 1 0 readsT emptyFields (by simp [emptyFields])

theorem inOrderT : InOrder withTime rangeTimes evsT := ⟨fun _ => by decide, fun _ => by decide, by decide⟩

def oneT : Params TimeRange := ⟨1, 4, 4, 4, 4, none, ⟨0, 0⟩⟩

/-- The options of lp-temporal-paths. -/
def rangeOpts : Enact.Opts := { timeRange := true, canTs := true, window := 0 }

def blank : Enact.Change TimeRange := { typ := .add, edge := { didx := (0, 0), pos := 0, ts := 0, endT := 0, data := ⟨0, 0⟩ } }

/-- The edges of the first `n` lines; vertex 2 has number 0, vertex 1 number 1, vertex 3 number 2. -/
def listT (n : Nat) : List (Nat × Edge Link) := [(1, ⟨0, ⟨0, 3, 0⟩⟩)] ++ if n = 2 then [(0, ⟨2, ⟨0, 5, 0⟩⟩)] else []

def showsT (n : Nat) : Option Bool := (Pipeline.run oneT (streamT.take n) (Pipeline.start oneT) (acts n)).bind fun s =>
  (Enact.enactAll rangeOpts (fun _ => false) (Enact.start 1 4 blank) [taken rangeTimes s 0]).map fun S =>
    (match s.rem with | .stopped => true | _ => false) && decide (s.topoN 0 = (s.topo 0).length) && decide ((taken rangeTimes s 0).length ≤ 4) && decide ((s.th 0).verts.length ≤ 3) &&
    decide (fromRaw oneT s 1 = some (0, 1)) && decide (fromRaw oneT s 2 = some (0, 0)) && decide (fromRaw oneT s 3 = if n = 2 then some (0, 2) else none) &&
    (List.range 3).all fun v => decide ((graphOf (link rangeTimes) oneT s (fun _ => S) v).map (fun e => (e.dst, e.data)) = (loaded (listT n) v).map fun e => (e.dst, e.data))

theorem showsT1 : showsT 1 = some true := by decide +kernel
theorem showsT2 : showsT 2 = some true := by decide +kernel

theorem loaded_out (n : Nat) (v : Nat) (hv : 3 ≤ v) : loaded (listT n) v = [] := by
  unfold loaded listT
  rw [List.map_eq_nil_iff, List.filter_eq_nil_iff]
  intro a ha
  have : a.1 = 1 ∨ a.1 = 0 := by
    rcases List.mem_append.1 ha with h | h
    · rcases List.mem_singleton.1 h with rfl; exact .inl rfl
    · split at h
      · rcases List.mem_singleton.1 h with rfl; exact .inr rfl
      · cases h
  simp only [decide_eq_true_eq]
  omega

theorem builtT (races : Prop) (n : Nat) (hn : showsT n = some true) (as : List Loader.Act) (l : Loader.St TimeRange)
    (h1 : Loader.run rangeOps withTime 1 (fun _ => evsT) Loader.start as = some l) (h2 : l.done = true) (h3 : ¬ races → l.taken l.turn = l.sent l.turn) (h4 : l.out = streamT.take n) :
    ∃ s S, Loaded races rangeOps withTime oneT rangeTimes rangeOpts timed evsT streamT s S ∧ fromRaw oneT s 1 = some (0, 1) ∧ fromRaw oneT s 2 = some (0, 0) ∧
      (fromRaw oneT s 3 = if n = 2 then some (0, 2) else none) ∧ graphOf (link rangeTimes) oneT s S = loaded (listT n) ∧ ∀ u i, fromRaw oneT s u = some i → pack i < 3 := by
  obtain ⟨s, hs, hn⟩ := Option.bind_eq_some_iff.1 hn
  obtain ⟨S, hS, hn⟩ := Option.map_eq_some_iff.1 hn
  simp only [Bool.and_eq_true, decide_eq_true_eq] at hn
  obtain ⟨⟨⟨⟨⟨⟨⟨a1, a2⟩, a3⟩, a4⟩, a5⟩, a6⟩, a7⟩, a8⟩ := hn
  have a1 : s.rem = .stopped := by
    revert a1
    cases s.rem <;> simp
  have hg : graphOf (link rangeTimes) oneT s (fun _ => S) = loaded (listT n) := by
    funext v
    by_cases hv : v < 3
    · have := of_decide_eq_true (List.all_eq_true.1 a8 v (List.mem_range.2 hv))
      refine (List.map_injective_iff (f := fun e : Edge Link => (e.dst, e.data))).2 ?_ this
      rintro ⟨a, b⟩ ⟨c, d⟩ h
      simp only [Prod.mk.injEq] at h
      rw [h.1, h.2]
    · rw [loaded_out n v (by omega)]
      unfold graphOf
      rw [if_neg]
      rintro ⟨b1, b2⟩
      have b1 : v / 2 ^ 27 < 1 := b1
      have : v / 2 ^ 27 = 0 := by omega
      rw [this] at b2
      omega
  refine ⟨s, fun _ => S, ⟨by decide, readsT, isStreamT, rfl, by decide, fun t ht => ?_, ?_⟩, a5, a6, a7, hg, fun u i hu => ?_⟩
  · obtain rfl : t = 0 := by have : t < 1 := ht; omega
    omega
  · refine ⟨⟨1, fun _ => evsT, as, l, acts n, by decide, fromFileT, h1, h2, fun h => ⟨h3 h, ?_⟩, by rw [h4]; exact hs⟩, a1, fun t ht => ?_, fun t ht => ?_⟩
    · unfold acts
      simp [List.mem_append, List.mem_flatten, List.mem_replicate]
    · obtain rfl : t = 0 := by have : t < 1 := ht; omega
      exact a2
    · obtain rfl : t = 0 := by have : t < 1 := ht; omega
      exact ⟨fun _ => false, 1, 4, blank, [taken rangeTimes s 0], by simp, by simpa using a3, hS⟩
  · obtain ⟨b1, b2⟩ := (Props.Pipeline.C45_one_id oneT _ _ s hs u i).1 hu
    have : i.1 = 0 := by rw [b2]; exact Nat.mod_one _
    obtain ⟨v, h5, -⟩ := Option.map_eq_some_iff.1 b1
    have := (List.getElem?_eq_some_iff.1 h5).1
    rw [‹i.1 = 0›] at this
    unfold pack
    omega

/-- Vertex 1 of the file has number 1. -/
abbrev cfgT := cfg 1 (fun _ => 0) 1

/-- `SendInitialMail`. -/
def mailT : List (Async.Act Link) := [.init 0 1] ++ List.replicate 5 (.go 0) ++ [.init 0 0, .init 0 2]

theorem smoothT (n : Nat) (hn : n = 1 ∨ n = 2) : (Async.run tp cfgT (Async.start tp (loaded (listT n))) mailT).map (fun s =>
    isIdle (s.task 0) && (List.range 3).all (fun v => decide (s.pend v = [(0, ())].filterMap fun x => if x.1 = v then some x.2 else none) && s.inited v) &&
    smooth tp cfgT 1024 (begin0 cfgT s [(0, ())]) ((List.range 100).map fun i => [0].getD (i % [0].length) 0)) = some true := by
  rcases hn with rfl | rfl <;> decide +kernel

theorem execT (n : Nat) (hn : n = 1 ∨ n = 2) (s : Pipeline.St TimeRange) (hs : ∀ u i, fromRaw oneT s u = some i → pack i < 3) :
    ∃ e : Exec tp cfgT 1024, RunsPaths oneT s (loaded (listT n)) (listT n) (fun _ => 0) mailT e 0 := by
  obtain ⟨r, hr, h⟩ := Option.map_eq_some_iff.1 (smoothT n hn)
  simp only [Bool.and_eq_true] at h
  obtain ⟨⟨h1, h2⟩, h4⟩ := h
  have h3 : ∀ v, v < 3 → r.pend v = ([(0, ())].filterMap fun x => if x.1 = v then some x.2 else none) ∧ r.inited v = true := by
    intro v hv
    have := List.all_eq_true.1 h2 v (List.mem_range.2 hv)
    simp only [Bool.and_eq_true] at this
    exact ⟨of_decide_eq_true this.1, this.2⟩
  have hsup : Async.Supp 3 r := Async.supp_run (local_tp 3) (xs := mailT) (by decide) (supp_begin (n := 3) (L := listT n) (by rcases hn with rfl | rfl <;> decide) fun _ => 0) hr
  obtain ⟨e, e1, e2, e3, e4, e5, e6⟩ := exists_exec tp cfgT 1024 (fun v => Nat.zero_lt_one) (by decide) (loaded (listT n)) mailT r hr hsup [(0, ())] [0]
    (fun t ht => by have : t < 1 := ht; obtain rfl : t = 0 := by omega
                    simp) 100
    (fun t ht => by have : t < 1 := ht; obtain rfl : t = 0 := by omega
                    exact h1) (fun v hv => (h3 v hv).1) (by decide) h4
  refine ⟨e, by decide, fun v => Nat.zero_lt_one, by rw [e1]; exact hr, e2, e3, e4, fun t _ => e5 t, fun i y _ => e6 i y, ?_, fun i t v b => e6 i _, ?_, ?_⟩
  · intro t v b hm
    simp [mailT] at hm
  · intro v
    have : appended (mailT ++ topos ((List.range 0).map e.act)) v = [] := by simp [appended, mailT, topos]
    rw [this, List.append_nil]
  · intro u i hu
    rw [e1]
    exact (h3 _ (hs u i hu)).2

/-- The hypotheses of `C89_return_partial` (and at the end of this run, those of `C89_windows_partial`) are met, and the
run finds that one can be at 3 at time 6, but not at time 5. -/
example : ∃ (s : Pipeline.St TimeRange) (S : Nat → Enact.Th TimeRange) (e : Exec tp cfgT 1024), Loaded False rangeOps withTime oneT rangeTimes rangeOpts timed evsT streamT s S ∧
    RunsPaths oneT s (graphOf (link rangeTimes) oneT s S) (listT 2) (fun _ => 0) mailT e 0 ∧
    ∃ n i, Finished cfgT (e.st n) ∧ fromRaw oneT s 3 = some i ∧ (∃ w ∈ ((e.st n).alg.prop (pack i)).windows, w.start < 6 ∧ 6 < w.stop) ∧
      ¬ ∃ w ∈ ((e.st n).alg.prop (pack i)).windows, w.start < 5 ∧ 5 < w.stop := by
  have hrun : ∃ l, Loader.run rangeOps withTime 1 (fun _ => evsT) Loader.start [.put 0, .put 0, .close 0, .emit, .emit, .look, .check] = some l ∧
      (l.done = true ∧ l.taken l.turn = l.sent l.turn) ∧ l.out = streamT.take 2 := ⟨_, rfl, by decide, by decide⟩
  obtain ⟨l, h1, ⟨h2, h3⟩, h4⟩ := hrun
  obtain ⟨s, S, L, a1, a2, a3, a4, a5⟩ := builtT False 2 showsT2 _ l h1 h2 (fun _ => h3) h4
  obtain ⟨e, R⟩ := execT 2 (.inr rfl) s a5
  rw [← a4] at R
  obtain ⟨n, hn, hv⟩ := C89_return_partial L range_clock inOrderT (by decide) 1 (0, 1) a1 R
  obtain ⟨i, hi, hd⟩ := hv 3 ⟨_, by simp [evsT]; exact .inr rfl, .inr rfl⟩
  refine ⟨s, S, e, L, R, n, i, hn, hi, (hd 6 (by decide)).2 ?_, fun h => ?_⟩
  · have e1 : FileLink withTime rangeTimes evsT 1 2 3 := ⟨0, _, rfl, .inl ⟨rfl, rfl, by decide⟩⟩
    have e2 : FileLink withTime rangeTimes evsT 2 3 5 := ⟨1, _, rfl, .inl ⟨rfl, rfl, by decide⟩⟩
    exact .along (.along (.source (t := 3) (by decide) (by decide)) e1 (t := 5) (by decide) (by decide)) e2 (by decide) (by decide)
  · have h5 := (hd 5 (by decide)).1 h
    have hlink : ∀ a b t, FileLink withTime rangeTimes evsT a b t → b = 3 → t = 5 := by
      rintro a b t ⟨k, e, he, ⟨h1, h2, h3⟩ | ⟨h0, -⟩⟩ hb
      · have he := List.mem_of_getElem? he
        simp only [evsT, List.mem_cons, List.not_mem_nil, or_false] at he
        rcases he with rfl | rfl
        · subst h2; exact absurd hb (by decide)
        · rw [h3]; decide
      · cases h0
    generalize hu : (3 : UInt32) = u at h5
    generalize ht : 5 = t at h5
    cases h5 with
    | source => exact absurd hu (by decide)
    | along _ hl hlt _ =>
      have := hlink _ _ _ hl hu.symm
      omega

/-- **C89** fails for the file "1 2 3", "2 3 5": the emitter finds the queue empty, then the loader puts the second edge
and closes, then the emitter sees "closed" and stops (C02). The run ends without vertex 3. -/
theorem C89_statement_false : ¬ C89Statement := by
  intro h
  have hrun : ∃ l, Loader.run rangeOps withTime 1 (fun _ => evsT) Loader.start [.put 0, .emit, .look, .put 0, .close 0, .check] = some l ∧
      l.done = true ∧ l.out = streamT.take 1 := ⟨_, rfl, by decide, by decide⟩
  obtain ⟨l, h1, h2, h4⟩ := hrun
  obtain ⟨s, S, L, a1, a2, a3, a4, a5⟩ := builtT True 1 showsT1 _ l h1 h2 (fun h => absurd trivial h) h4
  obtain ⟨e, R⟩ := execT 1 (.inl rfl) s a5
  have hf : trun cfgT (begin (listT 1) fun _ => 0) (mailT.map TAct.of) = some (e.st 0).alg := by
    rw [trun_grows (fun t v k hm => R.keeps0 t v k hm)]
    exact R.first
  have hlist : TimeOrdered (listT 1 ++ added (mailT.map TAct.of ++ (topos ((List.range 0).map e.act)).map TAct.of)) := by
    refine ordered_of (l' := listT 1) R.ran.list ⟨by decide, by decide, by decide, by decide, by decide⟩
  obtain ⟨n, hn, -, -⟩ := C64_paths_partial 1024 R.batch R.own (mailT.map TAct.of) e hf R.start R.fair R.fresh 0 R.closed R.noTopo R.keeps hlist (R.inited 1 (0, 1) a1)
  have hin : ∀ j, (∀ u i, fromRaw oneT s u = some i → (e.st j).alg.inited (pack i) = true) := by
    intro j u i hu
    obtain ⟨zs, hz, hr, -⟩ := seg_alg e 0 (fun i hi => by
      cases hx : e.act i with
      | topo y => exact absurd hx (R.noTopo i y hi)
      | _ => rfl) j
    rw [Nat.zero_add] at hr
    rw [(stay_run hz hr).2]
    exact R.inited u i hu
  have R' : RanPaths 1 (fun _ => 0) 1 1024 oneT s (graphOf (link rangeTimes) oneT s S) (listT 1) (fun _ => 0) mailT (e.st 0) (e.st n) ((List.range n).map e.act) := by
    refine ⟨R.batch, R.own, R.first, R.start, exec_run tp cfgT 1024 e n, R.keeps0, fun t v b hm => ?_, fun v => ?_, hin n⟩
    · obtain ⟨i, -, hi⟩ := List.mem_map.1 hm
      exact R.keeps i t v b hi
    · have : topos ((List.range n).map e.act) = [] := by
        rw [topos, List.filterMap_eq_nil_iff]
        intro x hx
        obtain ⟨i, -, hi⟩ := List.mem_map.1 hx
        cases x with
        | topo y => exact absurd hi (R.noTopo i y (Nat.zero_le _))
        | _ => rfl
      rw [this, a4]
      have := R.graph v
      rwa [List.range_zero, List.map_nil, show topos ([] : List (Engine.Act Link)) = [] from rfl] at this
  obtain ⟨i, hi, -⟩ := h TimeRange rangeOps withTime oneT rangeTimes rangeOpts timed evsT streamT s S L range_clock inOrderT (by decide) 1 (0, 1) a1
    1 (fun _ => 0) 1024 (listT 1) (fun _ => 0) mailT (e.st 0) (e.st n) _ R' hn 3 ⟨_, by simp [evsT]; exact .inr rfl, .inr rfl⟩
  rw [a3] at hi
  cases hi

end Verif.Props.AnswerTimes
