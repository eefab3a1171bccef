import Verif.Props.SameGraph
import Verif.Props.AnswerCase

/-!
# C88: the race, and a case
-/

namespace Verif.Props.SameGraph

open Verif Verif.SameGraph
open Verif.Pipeline (Params REv owner Act)
open Verif.Loader (Typ Ev)
open Verif.Props.EndToEnd (taken)

def noTimes (_ : Unit) : UInt64 × UInt64 := (0, 0)
def plainOpts : Enact.Opts := ⟨false, false, 0⟩
def zeroChange : Enact.Change Unit := ⟨.add, ⟨(0, 0), 0, 0, 0, ()⟩⟩

/-- One batch with all that a thread was sent. -/
def batch (s : Pipeline.St Unit) (t : Nat) : Option (Enact.Th Unit) :=
  Enact.enactAll plainOpts (fun _ => false) (Enact.start 8 8 zeroChange) [taken noTimes s t]

def threads (s : Pipeline.St Unit) (t : Nat) : Enact.Th Unit := (batch s t).getD (Enact.start 8 8 zeroChange)

/-- Is a run complete? -/
def complete (p : Params Unit) (s : Pipeline.St Unit) : Bool :=
  (match s.rem with | .stopped => true | _ => false) &&
  (List.range p.T).all fun t => decide (s.topoN t = (s.topo t).length) && decide ((taken noTimes s t).length ≤ 8) && (batch s t).isSome

theorem done_of {races : Prop} {p : Params Unit} (hT : 0 < p.T) {stream : List (Ev Unit)} {as : List Act} {s : Pipeline.St Unit}
    (hg : ¬ races → Act.remGiveUp ∉ as) (hr : Pipeline.run p stream (Pipeline.start p) as = some s) (hc : complete p s = true) :
    Done races p noTimes plainOpts stream s (threads s) := by
  unfold complete at hc
  rw [Bool.and_eq_true, List.all_eq_true] at hc
  have ht : ∀ t, t < p.T → s.topoN t = (s.topo t).length ∧ (taken noTimes s t).length ≤ 8 ∧ (batch s t).isSome := by
    intro t h
    have := hc.2 t (List.mem_range.2 h)
    simp only [Bool.and_eq_true, decide_eq_true_eq] at this
    exact ⟨this.1.1, this.1.2, this.2⟩
  refine ⟨hT, ⟨as, hg, hr⟩, ?_, fun t h => (ht t h).1, fun t h => ?_⟩
  · have := hc.1
    split at this
    · assumption
    · cases this
  · obtain ⟨-, h2, h3⟩ := ht t h
    refine ⟨fun _ => false, 8, 8, zeroChange, [taken noTimes s t], by simp, by simpa using h2, ?_⟩
    obtain ⟨S, hS⟩ := Option.isSome_iff_exists.1 h3
    unfold threads
    rw [hS]
    exact hS

/-! ## The race -/

def one : List (Ev Unit) := [⟨.add, 0, 5, 7, ()⟩]

/-- The same without the race. -/
def calm : List Act := [.emitPut, .emitOrder, .remTake, .emitClose, .emitClose, .convert 0, .threadClose 0, .remGet, .remPut, .remStop, .enact 0]

theorem race_runs : ((Pipeline.run Props.Pipeline.oneThread one (Pipeline.start Props.Pipeline.oneThread) Props.Pipeline.race).any fun s =>
    complete Props.Pipeline.oneThread s &&
    (Pipeline.run Props.Pipeline.oneThread one (Pipeline.start Props.Pipeline.oneThread) calm).any fun s' => complete Props.Pipeline.oneThread s' &&
      decide (check (built Props.Pipeline.oneThread s (threads s)) (built Props.Pipeline.oneThread s' (threads s')) = .missing 0)) = true := by decide +kernel

/-- **C88** fails in the race of C52: for the stream 5 -> 7, the thread makes vertex 7, the remitter goes on with an
all-zero event, and the graph has the vertices 7 and 0. The check finds the same number of vertices as in another run
and dereferences the pointer to a vertex 0 that is not there. -/
theorem C88_statement_false : ¬ C88Statement := by
  intro h
  obtain ⟨s, h1, h2⟩ := (Option.any_eq_true _ _).1 race_runs
  rw [Bool.and_eq_true] at h2
  obtain ⟨s', h3, h4⟩ := (Option.any_eq_true _ _).1 h2.2
  rw [Bool.and_eq_true, decide_eq_true_eq] at h4
  have := h Unit Unit Props.Pipeline.oneThread Props.Pipeline.oneThread noTimes noTimes plainOpts plainOpts one one s s' (threads s) (threads s')
    (done_of (by decide) (fun h => absurd trivial h) h1 h2.1) (done_of (by decide) (fun h => absurd trivial h) h3 h4.1) rfl rfl (.inl rfl) (List.Perm.refl _)
  rw [h4.2] at this
  cases this

/-! ## A case -/

/-- 1 -> 2, 3 -> 2, 1 -> 3 and the deletion of 1 -> 2. -/
def streamA : List (Ev Unit) := [⟨.add, 0, 1, 2, ()⟩, ⟨.add, 1, 3, 2, ()⟩, ⟨.add, 2, 1, 3, ()⟩, ⟨.del, 3, 1, 2, ()⟩]

/-- The same events in another order, as test events. -/
def testB : List (TestEv Unit) := [⟨0, 1, 3, ()⟩, ⟨0, 1, 2, ()⟩, ⟨1, 1, 2, ()⟩, ⟨2, 9, 9, ()⟩, ⟨0, 3, 2, ()⟩]

def twoThreads : Params Unit := ⟨2, 4, 4, 4, 4, none, ()⟩
def fourSlots : Params Unit := ⟨1, 4, 4, 4, 4, none, ()⟩

/-- Two threads, one event after the other. -/
def actsA : List Act :=
  [.emitPut, .emitOrder, .convert 0, .remTake, .remGet, .remPut, .enact 1, .emitPut, .emitOrder, .convert 0, .remTake, .remGet, .remPut, .enact 1,
   .emitPut, .emitOrder, .convert 1, .remTake, .remGet, .remPut, .emitPut, .emitOrder, .convert 0, .remTake, .remGet, .remPut, .enact 1, .enact 1,
   .emitClose, .emitClose, .emitClose, .remStop]

/-- One thread, the events together. -/
def actsB : List Act :=
  [.emitPut, .emitOrder, .emitPut, .emitOrder, .emitPut, .emitOrder, .emitPut, .emitOrder, .emitClose, .emitClose, .convert 0, .convert 0, .convert 0, .convert 0,
   .remTake, .remGet, .remPut, .remTake, .remGet, .remPut, .remTake, .remGet, .remPut, .remTake, .remGet, .remPut, .remStop, .enact 0, .enact 0, .enact 0, .enact 0]

theorem runs_AB : ((Pipeline.run twoThreads streamA (Pipeline.start twoThreads) actsA).any fun s => complete twoThreads s &&
    decide (((List.range 5).map fun u => degree (built twoThreads s (threads s)) (UInt32.ofNat u)) = [none, some 1, some 0, some 1, none])) = true ∧
    ((Pipeline.run fourSlots (sent false testB) (Pipeline.start fourSlots) actsB).any fun s => complete fourSlots s) = true := by
  constructor <;> decide +kernel

/-- Both runs meet the hypotheses of `C88_same_partial`; vertex 1 ends with one edge, vertex 2 with none, vertex 3 with
one. -/
example : ∃ s s', Done False twoThreads noTimes plainOpts streamA s (threads s) ∧ Done False fourSlots noTimes plainOpts (sent false testB) s' (threads s') ∧
    check (built twoThreads s (threads s)) (built fourSlots s' (threads s')) = .same ∧
    (List.range 5).map (fun u => degree (built fourSlots s' (threads s')) (UInt32.ofNat u)) = [none, some 1, some 0, some 1, none] := by
  obtain ⟨s, h1, h2⟩ := (Option.any_eq_true _ _).1 runs_AB.1
  obtain ⟨s', h3, h4⟩ := (Option.any_eq_true _ _).1 runs_AB.2
  rw [Bool.and_eq_true, decide_eq_true_eq] at h2
  have d1 : Done False twoThreads noTimes plainOpts streamA s (threads s) := done_of (by decide) (fun _ => by decide) h1 h2.1
  have d2 : Done False fourSlots noTimes plainOpts (sent false testB) s' (threads s') := done_of (by decide) (fun _ => by decide) h3 h4
  have hs := C88_same_partial Unit Unit _ _ _ _ _ _ _ _ s s' _ _ d1 d2 rfl rfl (.inl rfl) (by decide)
  refine ⟨s, s', d1, d2, hs, ?_⟩
  rw [← h2.2]
  exact List.map_congr_left fun u _ => ((C88_check _ _ (tidy_built d1) (tidy_built d2)).1 hs _).symm

/-- `C88_tests_partial` applies: the file "1 2", "2 3" in one run, the test events 2 -> 3, 1 -> 2 in another. -/
example : ∃ s S s', Answer.Loaded False Props.Loader.unitOps Props.Loader.plain Props.EndToEnd.oneThread Props.EndToEnd.noTime Enact.exOpts Answer.lines Answer.evs2 Answer.two s S ∧
    Done False fourSlots noTimes plainOpts (sent Props.Loader.plain.undirected [⟨0, 2, 3, ()⟩, ⟨0, 1, 2, ()⟩]) s' (threads s') ∧
    check (Verif.SameGraph.built fourSlots s' (threads s')) (Verif.SameGraph.built Props.EndToEnd.oneThread s S) = .same := by
  have hrun : ∃ l, Loader.run Props.Loader.unitOps Props.Loader.plain 1 (fun _ => Answer.evs2) Loader.start [.put 0, .emit, .put 0, .emit, .close 0, .look, .check] = some l ∧
      l.done = true ∧ l.taken l.turn = l.sent l.turn ∧ l.out = Answer.two.take 2 := ⟨_, rfl, by decide, by decide, by decide⟩
  obtain ⟨l, h1, h2, h3, h4⟩ := hrun
  obtain ⟨s, S, L, -⟩ := Answer.built False 2 Answer.shows2 _ l h1 h2 (fun _ => h3) h4
  have h : ((Pipeline.run fourSlots (sent false [⟨0, 2, 3, ()⟩, ⟨0, 1, 2, ()⟩]) (Pipeline.start fourSlots)
      [.emitPut, .emitOrder, .emitPut, .emitOrder, .emitClose, .emitClose, .convert 0, .convert 0, .remTake, .remGet, .remPut, .remTake, .remGet, .remPut, .remStop, .enact 0, .enact 0]).any
      fun s => complete fourSlots s) = true := by decide +kernel
  obtain ⟨s', a1, a2⟩ := (Option.any_eq_true _ _).1 h
  have d : Done False fourSlots noTimes plainOpts (sent Props.Loader.plain.undirected [⟨0, 2, 3, ()⟩, ⟨0, 1, 2, ()⟩]) s' (threads s') :=
    done_of (by decide) (fun _ => by decide) a1 a2
  exact ⟨s, S, s', L, d, (C88_tests_partial L fourSlots noTimes plainOpts rfl _ (by decide) (by decide) s' _ d).1⟩

/-- The graphs of 1 -> 2, 2 -> 1 and of 1 -> 1, 2 -> 2 pass as well: which vertices the edges lead to is not looked
at. -/
theorem C88_edges_not_compared : ∃ s s', Done False fourSlots noTimes plainOpts [⟨.add, 0, 1, 2, ()⟩, ⟨.add, 1, 2, 1, ()⟩] s (threads s) ∧
    Done False fourSlots noTimes plainOpts [⟨.add, 0, 1, 1, ()⟩, ⟨.add, 1, 2, 2, ()⟩] s' (threads s') ∧
    check (built fourSlots s (threads s)) (built fourSlots s' (threads s')) = .same := by
  have h : ((Pipeline.run fourSlots [⟨.add, 0, 1, 2, ()⟩, ⟨.add, 1, 2, 1, ()⟩] (Pipeline.start fourSlots)
      [.emitPut, .emitOrder, .emitPut, .emitOrder, .emitClose, .emitClose, .convert 0, .convert 0, .remTake, .remGet, .remPut, .remTake, .remGet, .remPut, .remStop, .enact 0, .enact 0]).any
      fun s => complete fourSlots s && (Pipeline.run fourSlots [⟨.add, 0, 1, 1, ()⟩, ⟨.add, 1, 2, 2, ()⟩] (Pipeline.start fourSlots)
      [.emitPut, .emitOrder, .emitPut, .emitOrder, .emitClose, .emitClose, .convert 0, .convert 0, .remTake, .remGet, .remPut, .remTake, .remGet, .remPut, .remStop, .enact 0, .enact 0]).any
      fun s' => complete fourSlots s' && decide (check (built fourSlots s (threads s)) (built fourSlots s' (threads s')) = .same)) = true := by decide +kernel
  obtain ⟨s, h1, h2⟩ := (Option.any_eq_true _ _).1 h
  rw [Bool.and_eq_true] at h2
  obtain ⟨s', h3, h4⟩ := (Option.any_eq_true _ _).1 h2.2
  rw [Bool.and_eq_true, decide_eq_true_eq] at h4
  exact ⟨s, s', done_of (by decide) (fun _ => by decide) h1 h2.1, done_of (by decide) (fun _ => by decide) h3 h4.1, h4.2⟩

end Verif.Props.SameGraph
