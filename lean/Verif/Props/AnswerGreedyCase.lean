import Verif.Props.AnswerCase
import Verif.Props.AnswerGreedy

/-!
# C100: the file "1 2", and the full statement

One loader and one thread, undirected mode. Without the races the hypotheses of the theorems are met; in a schedule with
the race at the loader's queue the line is lost, the graph is empty, and the full statement fails.
-/

namespace Verif.Props.AnswerGreedy

open Verif Verif.Built Verif.Props.Io Verif.Props.Answer
open Verif.Engine hiding plain
open Verif.Async (Edge)
open Verif.Loader (Ev emptyFields)
open Verif.Pipeline (fromRaw Params)
open Verif.Props.Loader (unitOps line12 loader_eq)
open Verif.Props.EndToEnd (oneThread noTime taken)
open Verif.Props.Engine Verif.Props.MinLabel Verif.Props.Converge
open Verif.ColouringWait (waiting)
open Verif.Props.ColouringWait (Static waiting_local)

/-- The colouring by mail is the greedy colouring of the file; `races`: may a stage miss the last element of a queue? -/
def GreedyRight (races : Prop) : Prop :=
  ∀ (E : Type) (ops : Loader.Ops E) (c : Loader.Cfg) (p : Params E) (tm : E → UInt64 × UInt64) (o : Enact.Opts) (file : List (List UInt8)) (evs stream : List (Ev E)) (s : Pipeline.St E) (S : Nat → Enact.Th E),
    Loaded races ops c p tm o file evs stream s S → c.undirected = true → stream.length ≤ 2147483646 →
    ∀ (T : Nat) (own : Nat → Nat) (max : Nat) (es : List (Nat × Nat × Nat)) (xs0 : List (Async.Act Nat)) (e : Exec (waiting es) (ColouringWait.cfg T own) max) (m : Nat),
      Runs p s (graphOf (fun pos _ => pos) p s S) (Colouring.graph es) xs0 e m → Static (xs0 ++ topos ((List.range m).map e.act)) →
      ∃ k, Finished (ColouringWait.cfg T own) (e.st k) ∧ Greedy p s evs (e.st k).alg.prop

theorem C100_right_partial : GreedyRight False :=
  fun _ _ _ _ _ _ _ _ _ _ _ L hund hlen T own _ _ _ _ _ R hstat => C100_returns_partial L hund hlen T own R hstat

/-- The full statement. -/
def C100Statement : Prop := GreedyRight True

theorem graph1_eq : graph1 Nat 0 = Colouring.graph [(1, 0, 0), (0, 1, 0)] := by
  funext v
  unfold graph1 Colouring.graph
  by_cases h1 : v = 1
  · subst h1; rfl
  · by_cases h0 : v = 0
    · subst h0; rfl
    · rw [if_neg h1, if_neg h0]
      simp [Ne.symm h1, Ne.symm h0]

theorem static_mailU (n m : Nat) : Static (mailU Nat n m) := by
  constructor <;> · intro t v es; simp [mailU]

theorem colours_of_greedy {s : Pipeline.St Unit} (a1 : fromRaw oneThread s 1 = some (0, 1)) (a2 : fromRaw oneThread s 2 = some (0, 0))
    (a5 : ∀ u i, fromRaw oneThread s u = some i → u = 1 ∧ i = (0, 1) ∨ u = 2 ∧ i = (0, 0)) {colour : Nat → Nat} (h : Greedy oneThread s evs1 colour) : colour 0 = 0 ∧ colour 1 = 1 := by
  obtain ⟨i, hi, h2⟩ := h 2 ⟨_, List.mem_singleton.2 rfl, .inr rfl⟩
  obtain ⟨j, hj, h1⟩ := h 1 ⟨_, List.mem_singleton.2 rfl, .inl rfl⟩
  rw [a2] at hi; rw [a1] at hj
  injection hi with hi; injection hj with hj
  subst hi; subst hj
  have e0 : pack (0, 0) = 0 := by decide
  have e1 : pack (0, 1) = 1 := by decide
  rw [e0] at h2; rw [e1] at h1
  have c0 : colour 0 = 0 := Nat.le_zero.1 (h2.2 fun w j _ _ hlt => by dsimp only at hlt; omega)
  have c1 : colour 1 ≠ 0 := fun hc => h1.1 2 (0, 0) ⟨_, List.mem_singleton.2 rfl, .inr ⟨rfl, rfl⟩⟩ a2 (.inl Nat.zero_lt_one) (by rw [e0, c0, hc])
  have c2 : colour 1 ≤ 1 := h1.2 fun w j _ hw hlt => by
    rcases a5 w j hw with ⟨-, rfl⟩ | ⟨-, rfl⟩
    · dsimp only at hlt; omega
    · rw [e0, c0]; decide
  exact ⟨c0, by omega⟩

/-- The hypotheses of `C100_returns_partial` are met; vertex 2, which comes first, gets colour 0 and vertex 1 gets colour 1. -/
example : ∃ (s : Pipeline.St Unit) (S : Nat → Enact.Th Unit) (e : Exec (waiting [(1, 0, 0), (0, 1, 0)]) (ColouringWait.cfg 1 fun _ => 0) 1024),
    Loaded False unitOps und oneThread noTime Enact.exOpts [line12] evs1 both s S ∧
    Runs oneThread s (graphOf (fun pos _ => pos) oneThread s S) (Colouring.graph [(1, 0, 0), (0, 1, 0)]) (mailU Nat 8 0) e 0 ∧
    ∃ k, Finished (ColouringWait.cfg 1 fun _ => 0) (e.st k) ∧ (e.st k).alg.prop 0 = 0 ∧ (e.st k).alg.prop 1 = 1 := by
  obtain ⟨s, S, L, a1, a2, -, a4, a5⟩ := builtU
  obtain ⟨e, R⟩ := execU (waiting [(1, 0, 0), (0, 1, 0)]) (waiting_local _ 2) (ColouringWait.cfg 1 fun _ => 0) rfl (fun _ => rfl) 0 8 0 [(1, ())] (by decide) (by decide +kernel) s a5
  have R' : Runs oneThread s (graphOf (fun pos _ => pos) oneThread s S) (Colouring.graph [(1, 0, 0), (0, 1, 0)]) (mailU Nat 8 0) e 0 := by
    rw [a4, ← graph1_eq]; exact R
  obtain ⟨k, hk, h⟩ := C100_returns_partial L rfl (by decide) 1 (fun _ => 0) R' (by simpa [topos] using static_mailU 8 0)
  obtain ⟨h0, h1⟩ := colours_of_greedy a1 a2 a5 h
  exact ⟨s, S, e, L, R', k, hk, h0, h1⟩

/-- The same file for the colouring by messages: the graph as loaded, one thread. -/
def kM (wait : Bool) : ColouringMsg.Cfg := { es := [(1, 0, 0), (0, 1, 0)], n := 2 ^ 27, T := 1, own := fun _ => 0, wait := wait }

/-- The hypotheses of `C100_messages_partial` are met: every run that comes to rest gives colour 0 to vertex 2 and colour 1 to vertex 1. -/
example : ∃ (s : Pipeline.St Unit) (S : Nat → Enact.Th Unit), Loaded False unitOps und oneThread noTime Enact.exOpts [line12] evs1 both s S ∧ OnFile oneThread s S (kM true) ∧
    ∀ xs r, ColouringMsg.run (kM true) (ColouringMsg.start (kM true)) xs = some r → ColouringMsg.Stuck (kM true) r → (r.vp 0).colour = 0 ∧ (r.vp 1).colour = 1 := by
  obtain ⟨s, S, L, a1, a2, -, a4, a5⟩ := builtU
  have ho : OnFile oneThread s S (kM true) := ⟨by rw [a4]; exact graph1_eq.symm, rfl, fun _ _ => Nat.zero_lt_one⟩
  obtain ⟨B, col, -, h⟩ := C100_messages_partial L rfl (by decide) (by decide) (kM true) ho rfl
  exact ⟨s, S, L, ho, fun xs r hr hst => colours_of_greedy a1 a2 a5 ((h xs r hr).2.2.2 hst)⟩

/-- The hypotheses of `C100_proper_partial` are met. -/
example : ∃ (s : Pipeline.St Unit) (S : Nat → Enact.Th Unit), Loaded False unitOps und oneThread noTime Enact.exOpts [line12] evs1 both s S ∧ OnFile oneThread s S (kM false) ∧
    ∀ xs r, ColouringMsg.run (kM false) (ColouringMsg.start (kM false)) xs = some r → ColouringMsg.Stuck (kM false) r → (r.vp 0).colour ≠ (r.vp 1).colour := by
  obtain ⟨s, S, L, a1, a2, -, a4, a5⟩ := builtU
  have ho : OnFile oneThread s S (kM false) := ⟨by rw [a4]; exact graph1_eq.symm, rfl, fun _ _ => Nat.zero_lt_one⟩
  obtain ⟨B, h⟩ := C100_proper_partial L rfl (by decide) (by decide) (kM false) ho rfl
  refine ⟨s, S, L, ho, fun xs r hr hst => ?_⟩
  obtain ⟨i, j, hi, hj, -, hne⟩ := (h xs r hr).2.2 hst _ (List.mem_singleton.2 rfl)
  dsimp only at hi hj
  rw [a1] at hi; rw [a2] at hj
  injection hi with hi; injection hj with hj
  subst hi; subst hj
  exact fun h => hne h.symm

/-! ## The full statement fails -/

theorem shows0 : ((Pipeline.run oneThread ([] : List (Ev Unit)) (Pipeline.start oneThread) (acts 0)).bind fun s =>
    (Enact.enactAll Enact.exOpts (fun _ => false) (Enact.start 1 4 (Enact.exAdd 0 0 0)) [taken noTime s 0]).map fun _ =>
      (match s.rem with | .stopped => true | _ => false) && decide (s.topoN 0 = (s.topo 0).length) && decide ((taken noTime s 0).length ≤ 4) && decide ((s.th 0).verts.length = 0)) = some true := by
  decide +kernel

/-- The loader puts its line and closes after the emitter looked, before it checks for the end: the line is lost. -/
theorem lost : ∃ s S, Loaded True unitOps und oneThread noTime Enact.exOpts [line12] evs1 both s S ∧ graphOf (fun pos _ => pos) oneThread s S = Colouring.graph [] ∧
    ∀ u i, fromRaw oneThread s u ≠ some i := by
  have hrun : ∃ l, Loader.run unitOps und 1 (fun _ => evs1) Loader.start [.look, .put 0, .close 0, .check] = some l ∧ l.done = true ∧ l.out = [] := ⟨_, rfl, by decide, by decide⟩
  obtain ⟨l, h1, h2, h4⟩ := hrun
  obtain ⟨s, hs, hn⟩ := Option.bind_eq_some_iff.1 shows0
  obtain ⟨S, hS, hn⟩ := Option.map_eq_some_iff.1 hn
  simp only [Bool.and_eq_true, decide_eq_true_eq] at hn
  obtain ⟨⟨⟨a1, a2⟩, a3⟩, a4⟩ := hn
  have a1 : s.rem = .stopped := by
    revert a1
    cases s.rem <;> simp
  refine ⟨s, fun _ => S, ⟨by decide, reads1, stream1, rfl, by decide, fun t ht => ?_, ?_⟩, ?_, fun u i hu => ?_⟩
  · obtain rfl : t = 0 := by have : t < 1 := ht; omega
    omega
  · refine ⟨⟨1, fun _ => evs1, _, l, acts 0, by decide, ?_, h1, h2, fun h => absurd trivial h, by rw [h4]; exact hs⟩, a1, fun t ht => ?_, fun t ht => ?_⟩
    · intro i hi
      obtain rfl : i = 0 := by omega
      exact loader_eq unitOps und 1 0 reads1 emptyFields (by simp [emptyFields])
    · obtain rfl : t = 0 := by have : t < 1 := ht; omega
      exact a2
    · obtain rfl : t = 0 := by have : t < 1 := ht; omega
      exact ⟨fun _ => false, 1, 4, Enact.exAdd 0 0 0, [taken noTime s 0], by simp, by simpa using a3, hS⟩
  · funext v
    unfold graphOf
    rw [if_neg]
    · rfl
    · rintro ⟨b1, b2⟩
      have b1 : v / 2 ^ 27 < 1 := b1
      have : v / 2 ^ 27 = 0 := by omega
      rw [this] at b2
      omega
  · obtain ⟨b1, b2⟩ := (Props.Pipeline.C45_one_id oneThread _ _ s hs u i).1 hu
    have b3 : i.1 = 0 := by rw [b2]; exact Nat.mod_one _
    obtain ⟨v, h5, -⟩ := Option.map_eq_some_iff.1 b1
    have := (List.getElem?_eq_some_iff.1 h5).1
    rw [b3, a4] at this
    omega

theorem exec0 (s : Pipeline.St Unit) (hs : ∀ u i, fromRaw oneThread s u ≠ some i) :
    ∃ e : Exec (waiting []) (ColouringWait.cfg 1 fun _ => 0) 1024, Runs oneThread s (Colouring.graph []) (Colouring.graph []) [] e 0 := by
  have hsup : Async.Supp 0 (Async.start (waiting []) (Colouring.graph [])) := Async.supp_loaded (waiting []) 0 _ (fun v _ => rfl) (fun v e he => by cases he)
  obtain ⟨e, e1, e2, e3, e4, e5, e6⟩ := exists_exec (waiting []) (ColouringWait.cfg 1 fun _ => 0) 1024 (fun _ => Nat.zero_lt_one) Nat.zero_lt_one (Colouring.graph []) [] _ rfl hsup [] [0]
    (fun t ht => by obtain rfl : t = 0 := by have : t < 1 := ht; omega
                    simp) 100
    (fun t _ => rfl) (fun v hv => absurd hv (Nat.not_lt_zero v)) (by simp) (by decide +kernel)
  refine ⟨e, by decide, fun _ => Nat.zero_lt_one, by rw [e1]; rfl, e2, e3, e4, fun t _ => e5 t, fun i y _ => e6 i y, ?_, fun i t v b => e6 i _, ?_, ?_⟩
  · intro t v b hm
    cases hm
  · intro v
    have : appended ([] ++ topos ((List.range 0).map e.act)) v = [] := by simp [appended, topos]
    rw [this, List.append_nil]
  · intro u i hu
    exact absurd hu (hs u i)

/-- **C100** in full is violated: a loader that closes its queue in the wrong moment loses its last line, and with it here every vertex. -/
theorem C100_statement_false : ¬ C100Statement := by
  intro h
  obtain ⟨s, S, L, hg, hs⟩ := lost
  obtain ⟨e, R⟩ := exec0 s hs
  rw [← hg] at R
  obtain ⟨k, -, hk⟩ := h Unit unitOps und oneThread noTime Enact.exOpts [line12] evs1 both s S L rfl (by decide) 1 (fun _ => 0) 1024 [] [] e 0 (by rw [← hg]; exact R) (by constructor <;> simp [topos])
  obtain ⟨i, hi, -⟩ := hk 1 ⟨_, List.mem_singleton.2 rfl, .inl rfl⟩
  exact hs 1 i hi

end Verif.Props.AnswerGreedy
