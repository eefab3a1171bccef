import Verif.Props.Weights
import Verif.Props.Answer

/-!
# C91: shortest paths with the weights written in a file
-/

namespace Verif.Props.AnswerWeights

open Verif Verif.Engine Verif.Built Verif.Weights
open Verif.Async (Alg Edge)
open Verif.Loader (Ops Ev)
open Verif.Pipeline (Params fromRaw)
open Verif.Props.Loader (Reads IsStream)
open Verif.Props.Engine Verif.Props.MinLabel Verif.Props.Converge Verif.Props.Answer Verif.Props.Weights
open Verif.Props.EdgeProps (Columns)
open Verif.MinLabel (Dist sssp)

/-- An edge line of the file leads from `u` to `v` and has the number `q` in column `j`; in undirected mode it can be
used in both directions. -/
def Written (c : Loader.Cfg) (j : Nat) (evs : List (Ev Flt)) (cs : List (List (List UInt8))) (u v : UInt32) (q : ℚ) : Prop :=
  ∃ (k : Nat) (e : Ev Flt) (rest : List (List UInt8)) (tok : List UInt8), evs[k]? = some e ∧ cs[k]? = some rest ∧ rest[j]? = some tok ∧ Numeral tok q ∧
    (e.src = u ∧ e.dst = v ∨ c.undirected = true ∧ e.src = v ∧ e.dst = u)

/-- Walks along the lines, with the sum of the numbers written there. -/
inductive WrittenWalk (c : Loader.Cfg) (j : Nat) (evs : List (Ev Flt)) (cs : List (List (List UInt8))) : UInt32 → UInt32 → ℚ → Prop where
  | here (u : UInt32) : WrittenWalk c j evs cs u u 0
  | step (u v v' : UInt32) (d x : ℚ) : WrittenWalk c j evs cs u v d → Written c j evs cs v v' x → WrittenWalk c j evs cs u v' (d + x)

/-- The numbers in column `j` are 0 or between 2^-126 and 2^127. -/
def InRange (j : Nat) (cs : List (List (List UInt8))) : Prop :=
  ∀ rest ∈ cs, ∀ tok, rest[j]? = some tok → ∃ q, Numeral tok q ∧ (q = 0 ∨ 1 / 2 ^ 126 ≤ q) ∧ q ≤ 2 ^ 127

/-- The `k`-th event and its line. -/
theorem pair {other : List UInt8 → Flt} {c : Loader.Cfg} {j : Nat} (hj : c.wPos = some j) {file : List (List UInt8)} {evs : List (Ev Flt)} {cs : List (List (List UInt8))}
    (h : Reads (weightOps other) c 0 file evs) (hc : Columns file cs) (hr : InRange j cs) (k : Nat) (e : Ev Flt) (he : evs[k]? = some e) :
    ∃ rest tok q, cs[k]? = some rest ∧ rest[j]? = some tok ∧ Numeral tok q ∧ 0 ≤ q ∧ |e.prop.val - q| ≤ q / 2 ^ 24 ∧ 0 ≤ e.prop.val := by
  obtain ⟨h1, h2⟩ := event_prop hj h hc
  have hk : k < cs.length := by rw [← h1]; exact (List.getElem?_eq_some_iff.1 he).1
  obtain ⟨tok, h3, h4⟩ := h2 k e cs[k] he (List.getElem?_eq_getElem hk)
  obtain ⟨q, h5, h6, h7⟩ := hr _ (List.getElem_mem hk) tok h3
  have h8 : 0 ≤ q := by
    rcases h6 with rfl | h6
    · exact le_rfl
    · exact le_trans (by positivity) h6
  have h9 : e.prop = .fin (near q) := by
    rw [h4, C91_token other tok q h5, round32_eq, if_neg (not_le.2 (near_lt q (by rwa [abs_of_nonneg h8])))]
  have h10 := near_close q (by rw [abs_of_nonneg h8]; exact h6)
  rw [abs_of_nonneg h8] at h10
  exact ⟨_, tok, q, List.getElem?_eq_getElem hk, h3, h5, h8, by rw [h9]; exact h10, by rw [h9]; exact near_nonneg h8⟩

/-- Walks along the edges that were read and walks along the lines. -/
theorem walk_read {other : List UInt8 → Flt} {c : Loader.Cfg} {j : Nat} (hj : c.wPos = some j) {file : List (List UInt8)} {evs : List (Ev Flt)} {cs : List (List (List UInt8))}
    (h : Reads (weightOps other) c 0 file evs) (hc : Columns file cs) (hr : InRange j cs) {u v : UInt32} {d : ℚ} (hw : WrittenWalk c j evs cs u v d) :
    ∃ d', FileWalk c Flt.val evs u v d' ∧ |d' - d| ≤ d / 2 ^ 24 := by
  induction hw with
  | here => exact ⟨0, .here _, by simp⟩
  | step v v' d x _ hx ih =>
    obtain ⟨d', h1, h2⟩ := ih
    obtain ⟨k, e, rest, tok, g1, g2, g3, g4, g5⟩ := hx
    obtain ⟨rest', tok', q, a1, a2, a3, a4, a5, -⟩ := pair hj h hc hr k e g1
    rw [g2] at a1
    cases a1
    rw [g3] at a2
    cases a2
    obtain rfl := g4.unique a3
    refine ⟨d' + e.prop.val, .step _ v v' d' _ h1 ⟨e, List.mem_of_getElem? g1, rfl, g5⟩, ?_⟩
    rw [abs_le] at *
    constructor <;> linarith

theorem walk_written {other : List UInt8 → Flt} {c : Loader.Cfg} {j : Nat} (hj : c.wPos = some j) {file : List (List UInt8)} {evs : List (Ev Flt)} {cs : List (List (List UInt8))}
    (h : Reads (weightOps other) c 0 file evs) (hc : Columns file cs) (hr : InRange j cs) {u v : UInt32} {d' : ℚ} (hw : FileWalk c Flt.val evs u v d') :
    ∃ d, WrittenWalk c j evs cs u v d ∧ |d' - d| ≤ d / 2 ^ 24 := by
  induction hw with
  | here => exact ⟨0, .here _, by simp⟩
  | step v v' d' x _ hx ih =>
    obtain ⟨d, h1, h2⟩ := ih
    obtain ⟨e, he, rfl, g5⟩ := hx
    obtain ⟨k, g1⟩ := List.mem_iff_getElem?.1 he
    obtain ⟨rest, tok, q, a1, a2, a3, a4, a5, -⟩ := pair hj h hc hr k e g1
    refine ⟨d + q, .step _ v v' d q h1 ⟨k, e, rest, tok, g1, a1, a2, a3, g5⟩, ?_⟩
    rw [abs_le] at *
    constructor <;> linarith

/-- The smallest sums. -/
theorem least {other : List UInt8 → Flt} {c : Loader.Cfg} {j : Nat} (hj : c.wPos = some j) {file : List (List UInt8)} {evs : List (Ev Flt)} {cs : List (List (List UInt8))}
    (h : Reads (weightOps other) c 0 file evs) (hc : Columns file cs) (hr : InRange j cs) {u v : UInt32} {d' d : ℚ}
    (h' : IsLeast {x | FileWalk c Flt.val evs u v x} d') (hd : IsLeast {x | WrittenWalk c j evs cs u v x} d) : |d' - d| ≤ d / 2 ^ 24 := by
  obtain ⟨x, h1, h2⟩ := walk_read hj h hc hr hd.1
  obtain ⟨y, h3, h4⟩ := walk_written hj h hc hr h'.1
  have h5 := h'.2 h1
  have h6 := hd.2 h3
  rw [abs_le] at *
  constructor <;> linarith

theorem blind (other : List UInt8 → Flt) : Blind (weightOps other) Flt.val := fun _ => ⟨fun _ => rfl, fun _ => rfl⟩

/-- **C91** for shortest paths: of a file with numbers in range in its weight column, the value at a vertex is infinity
if no lines lead there from the source, and otherwise the smallest sum of the numbers along a walk, up to one part
in 2^24. -/
theorem C91_paths_partial (other : List UInt8 → Flt) {c : Loader.Cfg} {j : Nat} (hj : c.wPos = some j) {p : Params Flt} {tm : Flt → UInt64 × UInt64} {o : Enact.Opts} {file : List (List UInt8)}
    {evs stream : List (Ev Flt)} {s : Pipeline.St Flt} {S : Nat → Enact.Th Flt} (L : Loaded False (weightOps other) c p tm o file evs stream s S)
    {cs : List (List (List UInt8))} (hc : Columns file cs) (hr : InRange j cs)
    (src : UInt32) (i0 : Nat × Nat) (h0 : fromRaw p s src = some i0) (k : Async.Cfg Dist Unit) (hk : ∀ v, k.initMail v = if v = pack i0 then some 0 else none)
    {max : Nat} {es0 : Nat → List (Edge ℚ)} {xs0 : List (Async.Act ℚ)} {r0 r : Engine.St Dist Dist Unit ℚ} {xs : List (Act ℚ)}
    (R : Ran sssp k max p s (graphOf (fun _ => Flt.val) p s S) es0 xs0 r0 r xs) (hd : Finished k r) (u : UInt32) (hu : InFile evs u) :
    ∃ i, fromRaw p s u = some i ∧ (r.alg.prop (pack i) = ⊤ ↔ ¬ ∃ d, WrittenWalk c j evs cs src u d) ∧
      ∀ d : ℚ, IsLeast {x | WrittenWalk c j evs cs src u x} d → ∃ d' : ℚ, r.alg.prop (pack i) = (d' : Dist) ∧ |d' - d| ≤ d / 2 ^ 24 := by
  obtain ⟨i, h1, h2, h3⟩ := C81_paths_partial Flt (weightOps other) c p tm o file evs stream s S L Flt.val (blind other) src i0 h0 k hk max es0 xs0 r0 r xs R hd u hu
  have hiff : (∃ d, FileWalk c Flt.val evs src u d) ↔ ∃ d, WrittenWalk c j evs cs src u d :=
    ⟨fun ⟨d, h⟩ => (walk_written hj L.reads hc hr h).imp fun _ h => h.1, fun ⟨d, h⟩ => (walk_read hj L.reads hc hr h).imp fun _ h => h.1⟩
  refine ⟨i, h1, by rw [h2, hiff], ?_⟩
  intro d hd
  cases hp : r.alg.prop (pack i) with
  | none => exact absurd (⟨d, hd.1⟩ : ∃ d, WrittenWalk c j evs cs src u d) (by rw [← hiff, ← h2]; exact hp)
  | some d' => exact ⟨d', rfl, least hj L.reads hc hr ((h3 d').1 hp) hd⟩

/-- The same for a run that is still to end: it does. -/
theorem C91_paths_return_partial (other : List UInt8 → Flt) {c : Loader.Cfg} {j : Nat} (hj : c.wPos = some j) {p : Params Flt} {tm : Flt → UInt64 × UInt64} {o : Enact.Opts} {file : List (List UInt8)}
    {evs stream : List (Ev Flt)} {s : Pipeline.St Flt} {S : Nat → Enact.Th Flt} (L : Loaded False (weightOps other) c p tm o file evs stream s S)
    {cs : List (List (List UInt8))} (hc : Columns file cs) (hr : InRange j cs)
    (src : UInt32) (i0 : Nat × Nat) (h0 : fromRaw p s src = some i0) (k : Async.Cfg Dist Unit) (hn : ∀ v, k.initNote v = none)
    (hk : ∀ v, k.initMail v = if v = pack i0 then some 0 else none) {max : Nat} {es0 : Nat → List (Edge ℚ)} {xs0 : List (Async.Act ℚ)} {e : Exec sssp k max} {m : Nat}
    (R : Runs p s (graphOf (fun _ => Flt.val) p s S) es0 xs0 e m) :
    ∃ n, Finished k (e.st n) ∧ ∀ u, InFile evs u → ∃ i, fromRaw p s u = some i ∧ ((e.st n).alg.prop (pack i) = ⊤ ↔ ¬ ∃ d, WrittenWalk c j evs cs src u d) ∧
      ∀ d : ℚ, IsLeast {x | WrittenWalk c j evs cs src u x} d → ∃ d' : ℚ, (e.st n).alg.prop (pack i) = (d' : Dist) ∧ |d' - d| ≤ d / 2 ^ 24 := by
  obtain ⟨n, hf, h⟩ := C81_paths_return_partial L Flt.val (blind other) (by
    intro x hx
    obtain ⟨i, hi⟩ := List.mem_iff_getElem?.1 hx
    obtain ⟨-, -, -, -, -, -, -, -, h⟩ := pair hj L.reads hc hr i x hi
    exact h) src i0 h0 k hn hk R
  refine ⟨n, hf, ?_⟩
  intro u hu
  obtain ⟨i, h1, h2, h3⟩ := h u hu
  have hiff : (∃ d, FileWalk c Flt.val evs src u d) ↔ ∃ d, WrittenWalk c j evs cs src u d :=
    ⟨fun ⟨d, h⟩ => (walk_written hj L.reads hc hr h).imp fun _ h => h.1, fun ⟨d, h⟩ => (walk_read hj L.reads hc hr h).imp fun _ h => h.1⟩
  refine ⟨i, h1, by rw [h2, hiff], ?_⟩
  intro d hd
  cases hp : (e.st n).alg.prop (pack i) with
  | none => exact absurd (⟨d, hd.1⟩ : ∃ d, WrittenWalk c j evs cs src u d) (by rw [← hiff, ← h2]; exact hp)
  | some d' => exact ⟨d', rfl, least hj L.reads hc hr ((h3 d').1 hp) hd⟩

end Verif.Props.AnswerWeights
