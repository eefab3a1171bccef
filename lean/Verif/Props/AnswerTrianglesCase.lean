import Verif.Props.AnswerCase
import Verif.Props.AnswerTriangles

/-!
# C101: the file "1 2", "2 3", "1 3"
-/

namespace Verif.Props.AnswerTriangles

open Verif Verif.Built Verif.Props.Io Verif.Props.Answer Verif.Props.AnswerGreedy
open Verif.Loader (Ev emptyFields)
open Verif.Pipeline (fromRaw Params)
open Verif.Props.Loader (Reads IsStream unitOps plain line12 tokens12 IsComment isStream_emitAll loader_eq)
open Verif.Props.EndToEnd (oneThread noTime taken)
open Verif.Triangles
open Verif.Check (tcCheck)

/-- "1 3" -/
def line13 : List UInt8 := [49, 32, 51]

theorem tokens13 : Tokens line13 [[49], [51]] :=
  Tokens.cons [] [49] [32, 51] [[51]] (by simp) (by simp) (by simp [IsSpace]) (by simp [IsSpace])
    (Tokens.cons [32] [51] [] [] (by simp [IsSpace]) (by simp) (by simp [IsSpace]) (by simp) (Tokens.none [] (by simp)))

def fileT : List (List UInt8) := [line12, line23, line13]
def evsT : List (Ev Unit) := [⟨.add, 0, 1, 2, ()⟩, ⟨.add, 0, 2, 3, ()⟩, ⟨.add, 0, 1, 3, ()⟩]
def streamT : List (Ev Unit) := [⟨.add, 0, 1, 2, ()⟩, ⟨.add, 1, 2, 1, ()⟩, ⟨.add, 2, 2, 3, ()⟩, ⟨.add, 3, 3, 2, ()⟩, ⟨.add, 4, 1, 3, ()⟩, ⟨.add, 5, 3, 1, ()⟩]

theorem readsT : Reads unitOps und 0 fileT evsT :=
  Reads.edge 0 line12 _ _ _ (by simp [IsComment, line12])
    ⟨[49], [50], [], tokens12, by simp, ⟨by simp [und, plain], by simp [und, plain]⟩, rfl, by decide, (), by simp [und, plain, unitOps], rfl, rfl⟩
    (Reads.edge 1 line23 _ _ _ (by simp [IsComment, line23])
      ⟨[50], [51], [], tokens23, by simp, ⟨by simp [und, plain], by simp [und, plain]⟩, rfl, by decide, (), by simp [und, plain, unitOps], rfl, rfl⟩
      (Reads.edge 2 line13 _ _ _ (by simp [IsComment, line13])
        ⟨[49], [51], [], tokens13, by simp, ⟨by simp [und, plain], by simp [und, plain]⟩, rfl, by decide, (), by simp [und, plain, unitOps], rfl, rfl⟩ (Reads.nil 3)))

theorem isStreamT : IsStream unitOps und evsT streamT := isStream_emitAll unitOps und evsT

theorem showsT : ((Pipeline.run oneThread streamT (Pipeline.start oneThread) (acts 6)).bind fun s =>
    (Enact.enactAll Enact.exOpts (fun _ => false) (Enact.start 1 8 (Enact.exAdd 0 0 0)) [taken noTime s 0]).map fun _ =>
      (match s.rem with | .stopped => true | _ => false) && decide (s.topoN 0 = (s.topo 0).length) && decide ((taken noTime s 0).length ≤ 8) && decide ((s.th 0).verts.length = 3)) = some true := by
  decide +kernel

theorem builtT : ∃ s S, Loaded False unitOps und oneThread noTime Enact.exOpts fileT evsT streamT s S := by
  have hrun : ∃ l, Loader.run unitOps und 1 (fun _ => evsT) Loader.start [.put 0, .put 0, .put 0, .close 0, .emit, .emit, .emit, .look, .check] = some l ∧
      (l.done = true ∧ l.taken l.turn = l.sent l.turn) ∧ l.out = streamT := ⟨_, rfl, by decide, by decide⟩
  obtain ⟨l, h1, ⟨h2, h3⟩, h4⟩ := hrun
  obtain ⟨s, hs, hn⟩ := Option.bind_eq_some_iff.1 showsT
  obtain ⟨S, hS, hn⟩ := Option.map_eq_some_iff.1 hn
  simp only [Bool.and_eq_true, decide_eq_true_eq] at hn
  obtain ⟨⟨⟨a1, a2⟩, a3⟩, a4⟩ := hn
  have a1 : s.rem = .stopped := by
    revert a1
    cases s.rem <;> simp
  refine ⟨s, fun _ => S, ⟨by decide, readsT, isStreamT, rfl, by decide, fun t ht => ?_, ?_⟩⟩
  · obtain rfl : t = 0 := by have : t < 1 := ht; omega
    omega
  · refine ⟨⟨1, fun _ => evsT, _, l, acts 6, by decide, ?_, h1, h2, fun _ => ⟨h3, ?_⟩, by rw [h4]; exact hs⟩, a1, fun t ht => ?_, fun t ht => ?_⟩
    · intro i hi
      obtain rfl : i = 0 := by omega
      exact loader_eq unitOps und 1 0 readsT emptyFields (by simp [emptyFields])
    · unfold acts
      simp
    · obtain rfl : t = 0 := by have : t < 1 := ht; omega
      exact a2
    · obtain rfl : t = 0 := by have : t < 1 := ht; omega
      exact ⟨fun _ => false, 1, 8, Enact.exAdd 0 0 0, [taken noTime s 0], by simp, by simpa using a3, hS⟩

theorem one : (fileTriangles evsT).ncard = 1 := by
  rw [← triangles_file 4 (by decide)]
  decide +kernel

/-- The hypotheses of `C101_count_partial` are met, there is a run to the end, and it logs one triangle. -/
example : ∃ (s : Pipeline.St Unit) (S : Nat → Enact.Th Unit), Loaded False unitOps und oneThread noTime Enact.exOpts fileT evsT streamT s S ∧
    ∃ xs r, Within ⟨1, fun _ => 0, lines evsT, true⟩ xs ∧ run ⟨1, fun _ => 0, lines evsT, true⟩ start xs = some r ∧ Stuck ⟨1, fun _ => 0, lines evsT, true⟩ r ∧ tcCheck (seen oneThread s r) = some 1 := by
  obtain ⟨s, S, L⟩ := builtT
  obtain ⟨xs, r, h1, h2, h3⟩ := exists_stuck ⟨1, fun _ => 0, lines evsT, true⟩
  obtain ⟨B, h⟩ := C101_count_partial L (by decide) (by rw [one]; decide) ⟨1, fun _ => 0, lines evsT, true⟩ rfl fun _ => Nat.zero_lt_one
  rw [one] at h
  exact ⟨s, S, L, xs, r, h1, h2, h3, (h xs r h1 h2).2 h3⟩

/-- The hypotheses of `C101_graph_partial` are met: vertex 3 has two out-edges. -/
example : ∃ (s : Pipeline.St Unit) (S : Nat → Enact.Th Unit) (i : Nat × Nat), Loaded False unitOps und oneThread noTime Enact.exOpts fileT evsT streamT s S ∧
    fromRaw oneThread s 3 = some i ∧ (graphOf (fun pos _ => pos) oneThread s S (pack i)).map (fun e => e.data) = [1, 1] := by
  obtain ⟨s, S, L⟩ := builtT
  obtain ⟨xs, r, h1, h2, h3⟩ := exists_stuck ⟨1, fun _ => 0, lines evsT, true⟩
  obtain ⟨hd, -⟩ := C69_done _ (fun _ => Nat.zero_lt_one) xs r h1 h2 h3
  obtain ⟨i, hi, hf⟩ := C101_graph_partial L rfl ⟨1, fun _ => 0, lines evsT, true⟩ rfl xs r h2 hd.1 3 ⟨⟨.add, 0, 2, 3, ()⟩, by simp [evsT], .inr rfl⟩
  refine ⟨s, S, i, L, hi, ?_⟩
  have ho : (r.out 3).map (fun o => (o.dst, o.pos)) = [(2, 1), (1, 1)] := by
    rw [out_counted (shape_run _ xs r h2) hd.1]
    decide +kernel
  have : (graphOf (fun pos _ => pos) oneThread s S (pack i)).map (fun e => e.data) = (r.out 3).map fun o => o.pos := by
    rw [← List.forall₂_eq_eq_eq, List.forall₂_map_left_iff, List.forall₂_map_right_iff]
    exact hf.imp fun _ _ h => h.1
  rw [this]
  have := congrArg (List.map Prod.snd) ho
  rwa [List.map_map] at this

end Verif.Props.AnswerTriangles
