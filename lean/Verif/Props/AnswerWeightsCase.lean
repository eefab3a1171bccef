import Verif.Props.AnswerWeights
import Verif.Props.AnswerCase

/-!
# C91: a file of two lines with weights

The file "1 2 0.1", "2 3 3" with one loader and one thread, shortest paths from 1.
-/

namespace Verif.Props.AnswerWeights

open Verif Verif.Built Verif.Props.Io Verif.Props.Answer Verif.Weights
open Verif.Engine hiding plain
open Verif.Async (Edge)
open Verif.Loader (Ev emptyFields)
open Verif.Pipeline (fromRaw Params)
open Verif.Props.Loader (Reads IsStream IsComment isStream_emitAll loader_eq)
open Verif.Props.EndToEnd (taken)
open Verif.Props.Engine Verif.Props.Converge Verif.Props.Weights
open Verif.Props.EdgeProps (Columns)
open Verif.MinLabel (Dist sssp)

/-- "2 3 3". -/
def line3 : List UInt8 := [50, 32, 51, 32, 51]

theorem tokens3 : Tokens line3 [[50], [51], [51]] :=
  Tokens.cons [] [50] [32, 51, 32, 51] _ (by simp) (by simp) (by simp [IsSpace]) (by simp [IsSpace])
    (Tokens.cons [32] [51] [32, 51] _ (by simp [IsSpace]) (by simp) (by simp [IsSpace]) (by simp [IsSpace])
      (Tokens.cons [32] [51] [] [] (by simp [IsSpace]) (by simp) (by simp [IsSpace]) (by simp) (Tokens.none [] (by simp))))

def weighed : List (List UInt8) := [tenth, line3]

/-- What "0.1" is read as. -/
def x1 : ℚ := 13421773 / 134217728

def evsW : List (Ev Flt) := [⟨.add, 0, 1, 2, .fin x1⟩, ⟨.add, 0, 2, 3, .fin 3⟩]
def streamW : List (Ev Flt) := [⟨.add, 0, 1, 2, .fin x1⟩, ⟨.add, 1, 2, 3, .fin 3⟩]
def colsW : List (List (List UInt8)) := [[[48, 46, 49]], [[51]]]

theorem readsW : Reads (weightOps noOther) withWeight 0 weighed evsW :=
  Reads.edge 0 tenth [line3] _ [_] (by simp [IsComment, tenth])
    ⟨[49], [50], [[48, 46, 49]], tokens_of 49 (by simp [IsSpace]), by simp, ⟨by simp [withWeight], by simp [withWeight]⟩, rfl, by rfl, _, rfl, by decide +kernel, rfl⟩
    (Reads.edge 1 line3 [] _ [] (by simp [IsComment, line3])
      ⟨[50], [51], [[51]], tokens3, by simp, ⟨by simp [withWeight], by simp [withWeight]⟩, rfl, by rfl, _, rfl, by decide +kernel, rfl⟩ (Reads.nil 2))

theorem columnsW : Columns weighed colsW :=
  .edge _ _ _ _ _ _ (by simp [IsComment, tenth]) (tokens_of 49 (by simp [IsSpace])) (.edge _ _ _ _ _ _ (by simp [IsComment, line3]) tokens3 .nil)

theorem numeral_three : Numeral [51] 3 :=
  ⟨1, _, 0, ⟨[], [51], [], .none, .whole [3] (by simp) (by decide), .none, by simp⟩, by decide, by norm_num [num]⟩

theorem inRangeW : InRange 0 colsW := by
  intro rest hr tok ht
  simp only [colsW, List.mem_cons, List.not_mem_nil, or_false] at hr
  rcases hr with rfl | rfl
  · cases ht
    exact ⟨1 / 10, numeral_tenth, .inr (by norm_num), by norm_num⟩
  · cases ht
    exact ⟨3, numeral_three, .inr (by norm_num), by norm_num⟩

theorem isStreamW : IsStream (weightOps noOther) withWeight evsW streamW := isStream_emitAll (weightOps noOther) withWeight evsW

theorem fromFileW : Props.Loader.FromFile (weightOps noOther) withWeight 1 weighed fun _ => evsW := fun i hi => by
  obtain rfl : i = 0 := by omega
  exact loader_eq (weightOps noOther) withWeight 1 0 readsW emptyFields (by simp [emptyFields])

def oneW : Params Flt := ⟨1, 4, 4, 4, 4, none, .fin 0⟩

/-- Edges without a time. -/
def timeless (_ : Flt) : UInt64 × UInt64 := (0, 0)

def blank : Enact.Change Flt := { typ := .add, edge := { didx := (0, 0), pos := 0, ts := 0, endT := 0, data := .fin 0 } }

/-- The graph of the file; vertex 2 has number 0, vertex 1 number 1, vertex 3 number 2. -/
def graphW (v : Nat) : List (Edge ℚ) := if v = 1 then [⟨0, x1⟩] else if v = 0 then [⟨2, 3⟩] else []

def showsW : Option Bool := (Pipeline.run oneW streamW (Pipeline.start oneW) (acts 2)).bind fun s =>
  (Enact.enactAll Enact.exOpts (fun _ => false) (Enact.start 1 4 blank) [taken timeless s 0]).map fun S =>
    (match s.rem with | .stopped => true | _ => false) && decide (s.topoN 0 = (s.topo 0).length) && decide ((taken timeless s 0).length ≤ 4) && decide ((s.th 0).verts.length ≤ 3) &&
    decide (fromRaw oneW s 1 = some (0, 1)) && decide (fromRaw oneW s 2 = some (0, 0)) && decide (fromRaw oneW s 3 = some (0, 2)) &&
    (List.range 3).all fun v => decide ((graphOf (fun _ => Flt.val) oneW s (fun _ => S) v).map (fun e => (e.dst, e.data)) = (graphW v).map fun e => (e.dst, e.data))

theorem showsW_true : showsW = some true := by decide +kernel

theorem builtW : ∃ s S, Loaded False (weightOps noOther) withWeight oneW timeless Enact.exOpts weighed evsW streamW s S ∧ fromRaw oneW s 1 = some (0, 1) ∧ fromRaw oneW s 2 = some (0, 0) ∧
    fromRaw oneW s 3 = some (0, 2) ∧ graphOf (fun _ => Flt.val) oneW s S = graphW ∧ ∀ u i, fromRaw oneW s u = some i → pack i < 3 := by
  have hrun : ∃ l, Loader.run (weightOps noOther) withWeight 1 (fun _ => evsW) Loader.start [.put 0, .put 0, .close 0, .emit, .emit, .look, .check] = some l ∧
      (l.done = true ∧ l.taken l.turn = l.sent l.turn) ∧ l.out = streamW := ⟨_, rfl, by decide, rfl⟩
  obtain ⟨l, h1, ⟨h2, h3⟩, h4⟩ := hrun
  obtain ⟨s, hs, hn⟩ := Option.bind_eq_some_iff.1 showsW_true
  obtain ⟨S, hS, hn⟩ := Option.map_eq_some_iff.1 hn
  simp only [Bool.and_eq_true, decide_eq_true_eq] at hn
  obtain ⟨⟨⟨⟨⟨⟨⟨a1, a2⟩, a3⟩, a4⟩, a5⟩, a6⟩, a7⟩, a8⟩ := hn
  have a1 : s.rem = .stopped := by
    revert a1
    cases s.rem <;> simp
  have hg : graphOf (fun _ => Flt.val) oneW s (fun _ => S) = graphW := by
    funext v
    by_cases hv : v < 3
    · have := of_decide_eq_true (List.all_eq_true.1 a8 v (List.mem_range.2 hv))
      refine (List.map_injective_iff (f := fun e : Edge ℚ => (e.dst, e.data))).2 ?_ this
      rintro ⟨a, b⟩ ⟨c, d⟩ h
      simp only [Prod.mk.injEq] at h
      rw [h.1, h.2]
    · have h5 : graphW v = [] := by
        unfold graphW
        rw [if_neg (by omega), if_neg (by omega)]
      rw [h5]
      unfold graphOf
      rw [if_neg]
      rintro ⟨b1, b2⟩
      have b1 : v / 2 ^ 27 < 1 := b1
      have : v / 2 ^ 27 = 0 := by omega
      rw [this] at b2
      omega
  refine ⟨s, fun _ => S, ⟨by decide, readsW, isStreamW, rfl, by decide, fun t ht => ?_, ?_⟩, a5, a6, a7, hg, fun u i hu => ?_⟩
  · obtain rfl : t = 0 := by have : t < 1 := ht; omega
    omega
  · refine ⟨⟨1, fun _ => evsW, _, l, acts 2, by decide, fromFileW, h1, h2, fun _ => ⟨h3, ?_⟩, by rw [h4]; exact hs⟩, a1, fun t ht => ?_, fun t ht => ?_⟩
    · unfold acts
      simp
    · obtain rfl : t = 0 := by have : t < 1 := ht; omega
      exact a2
    · obtain rfl : t = 0 := by have : t < 1 := ht; omega
      exact ⟨fun _ => false, 1, 4, blank, [taken timeless s 0], by simp, by simpa using a3, hS⟩
  · obtain ⟨b1, b2⟩ := (Props.Pipeline.C45_one_id oneW _ _ s hs u i).1 hu
    have : i.1 = 0 := by rw [b2]; exact Nat.mod_one _
    obtain ⟨v, h5, -⟩ := Option.map_eq_some_iff.1 b1
    have := (List.getElem?_eq_some_iff.1 h5).1
    rw [‹i.1 = 0›] at this
    unfold pack
    omega

theorem smoothW : (Async.run sssp k1 (Async.start sssp graphW) mail2).map (fun s =>
    isIdle (s.task 0) && (List.range 3).all (fun v => decide (s.pend v = [(0, ())].filterMap fun x => if x.1 = v then some x.2 else none) && s.inited v) &&
    smooth sssp k1 1024 (begin0 k1 s [(0, ())]) ((List.range 100).map fun i => [0].getD (i % [0].length) 0)) = some true := by
  decide +kernel

theorem execW (s : Pipeline.St Flt) (hs : ∀ u i, fromRaw oneW s u = some i → pack i < 3) :
    ∃ e : Exec sssp k1 1024, Runs oneW s graphW graphW mail2 e 0 := by
  obtain ⟨r, hr, h⟩ := Option.map_eq_some_iff.1 smoothW
  simp only [Bool.and_eq_true] at h
  obtain ⟨⟨h1, h2⟩, h4⟩ := h
  have h3 : ∀ v, v < 3 → r.pend v = ([(0, ())].filterMap fun x => if x.1 = v then some x.2 else none) ∧ r.inited v = true := by
    intro v hv
    have := List.all_eq_true.1 h2 v (List.mem_range.2 hv)
    simp only [Bool.and_eq_true] at this
    exact ⟨of_decide_eq_true this.1, this.2⟩
  have hl : Async.Local sssp 3 := by rw [MinLabel.sssp_eq]; exact MinLabel.minAlg_local _ _ _
  have hsup : Async.Supp 3 r := by
    refine Async.supp_run hl (xs := mail2) (by decide) (Async.supp_loaded sssp 3 graphW ?_ ?_) hr
    · intro v hv
      unfold graphW
      rw [if_neg (by omega), if_neg (by omega)]
    · intro v e he
      unfold graphW at he
      split at he
      · rcases List.mem_singleton.1 he with rfl; decide
      · split at he
        · rcases List.mem_singleton.1 he with rfl; decide
        · cases he
  obtain ⟨e, e1, e2, e3, e4, e5, e6⟩ := exists_exec sssp k1 1024 (fun v => Nat.zero_lt_one) (by decide) graphW mail2 r hr hsup [(0, ())] [0]
    (fun t ht => by have : t < 1 := ht; obtain rfl : t = 0 := by omega
                    simp) 100
    (fun t ht => by have : t < 1 := ht; obtain rfl : t = 0 := by omega
                    exact h1) (fun v hv => (h3 v hv).1) (by decide) h4
  refine ⟨e, by decide, fun v => Nat.zero_lt_one, by rw [e1]; exact hr, e2, e3, e4, fun t _ => e5 t, fun i y _ => e6 i y, ?_, fun i t v b => e6 i _, ?_, ?_⟩
  · intro t v b hm
    simp [mail2] at hm
  · intro v
    have : appended (mail2 ++ topos ((List.range 0).map e.act)) v = [] := by simp [appended, mail2, topos]
    rw [this, List.append_nil]
  · intro u i hu
    rw [e1]
    exact (h3 _ (hs u i hu)).2

/-- Walks from 1 in the file. -/
theorem walkW (u v : UInt32) (d : ℚ) (h : WrittenWalk withWeight 0 evsW colsW u v d) (hu : u = 1) : v = 1 ∧ d = 0 ∨ v = 2 ∧ d = 1 / 10 ∨ v = 3 ∧ d = 31 / 10 := by
  induction h with
  | here => exact .inl ⟨hu, rfl⟩
  | step v v' d x _ he ih =>
    obtain ⟨k, e, rest, tok, g1, g2, g3, g4, ⟨b1, b2⟩ | ⟨b0, -⟩⟩ := he
    · match k, g1, g2 with
      | 0, g1, g2 =>
        cases g1; cases g2; cases g3
        obtain rfl := g4.unique numeral_tenth
        subst b1 b2
        rcases ih with ⟨-, rfl⟩ | ⟨h, -⟩ | ⟨h, -⟩
        · exact .inr (.inl ⟨rfl, by norm_num⟩)
        · exact absurd h (by decide)
        · exact absurd h (by decide)
      | 1, g1, g2 =>
        cases g1; cases g2; cases g3
        obtain rfl := g4.unique numeral_three
        subst b1 b2
        rcases ih with ⟨h, -⟩ | ⟨-, rfl⟩ | ⟨h, -⟩
        · exact absurd h (by decide)
        · exact .inr (.inr ⟨rfl, by norm_num⟩)
        · exact absurd h (by decide)
      | k + 2, g1, g2 => simp [evsW] at g1
    · cases b0

/-- The hypotheses of `C91_paths_return_partial` (and at the end of this run, those of `C91_paths_partial`) are met, and the
value found at 3 is 3.1 up to one part in 2^24. -/
example : ∃ (s : Pipeline.St Flt) (S : Nat → Enact.Th Flt) (e : Exec sssp k1 1024), Loaded False (weightOps noOther) withWeight oneW timeless Enact.exOpts weighed evsW streamW s S ∧
    Runs oneW s (graphOf (fun _ => Flt.val) oneW s S) (graphOf (fun _ => Flt.val) oneW s S) mail2 e 0 ∧
    ∃ n i, Finished k1 (e.st n) ∧ fromRaw oneW s 3 = some i ∧ ∃ d' : ℚ, (e.st n).alg.prop (pack i) = (d' : Dist) ∧ |d' - 31 / 10| ≤ 31 / 10 / 2 ^ 24 := by
  obtain ⟨s, S, L, a1, a2, a3, a4, a5⟩ := builtW
  obtain ⟨e, R⟩ := execW s a5
  rw [← a4] at R
  obtain ⟨n, hn, hv⟩ := C91_paths_return_partial noOther (j := 0) rfl L columnsW inRangeW 1 (0, 1) a1 k1 (fun _ => rfl) (fun v => rfl) R
  obtain ⟨i, hi, -, hd⟩ := hv 3 ⟨_, by simp [evsW]; exact .inr rfl, .inr rfl⟩
  refine ⟨s, S, e, L, R, n, i, hn, hi, hd _ ⟨?_, ?_⟩⟩
  · have e1 : Written withWeight 0 evsW colsW 1 2 (1 / 10) := ⟨0, _, _, _, rfl, rfl, rfl, numeral_tenth, .inl ⟨rfl, rfl⟩⟩
    have e2 : Written withWeight 0 evsW colsW 2 3 3 := ⟨1, _, _, _, rfl, rfl, rfl, numeral_three, .inl ⟨rfl, rfl⟩⟩
    have := WrittenWalk.step 1 2 3 _ _ (.step 1 1 2 _ _ (.here 1) e1) e2
    norm_num at this
    exact this
  · intro x hx
    rcases walkW _ _ _ hx rfl with ⟨h, -⟩ | ⟨h, -⟩ | ⟨-, rfl⟩
    · exact absurd h (by decide)
    · exact absurd h (by decide)
    · exact le_rfl

end Verif.Props.AnswerWeights
