import Verif.Props.AnswerSync
import Verif.Props.AnswerRanksCase

/-!
# C93: the files of C81, synchronously and by messages, and the full statement
-/

namespace Verif.Props.AnswerSync

open Verif Verif.Built
open Verif.Async (Edge)
open Verif.Loader (Ev)
open Verif.Pipeline (fromRaw)
open Verif.Props.Loader (unitOps plain line12)
open Verif.Props.EndToEnd (oneThread noTime)
open Verif.Props.Answer Verif.Props.Sync
open Verif.MinLabel (Dist Label sssp cc)

/-- One thread; the vertices of the graph of the first `n` lines of the file "1 2", "2 3", in the order in which they were added. -/
def k2 (n : Nat) (prev : Bool) : Sync.Cfg Dist :=
  { n := n + 1, T := 1, own := fun _ => 0, verts := fun t => if t = 0 then List.range (n + 1) else [],
    initMail := fun v => if v = 1 then some 0 else none, prev := prev, cap := 9 }

theorem k2_ok (n : Nat) (prev : Bool) : (k2 n prev).Ok := by
  refine ⟨fun t v => ?_, fun v _ => Nat.zero_lt_one⟩
  simp only [k2]
  split
  · simp; omega
  · simp; omega

theorem pack0 : pack (0, 0) = 0 := by decide
theorem pack1 : pack (0, 1) = 1 := by decide
theorem pack2 : pack (0, 2) = 2 := by decide

section
attribute [local irreducible] pack

theorem numbered2 (n : Nat) (hn : n = 1 ∨ n = 2) {s : Pipeline.St Unit} {g : Nat → List (Edge ℚ)} (a1 : fromRaw oneThread s 1 = some (0, 1)) (a2 : fromRaw oneThread s 2 = some (0, 0))
    (a3 : fromRaw oneThread s 3 = if n = 2 then some (0, 2) else none) (a4 : g = graph2 n) (a5 : ∀ u i, fromRaw oneThread s u = some i → pack i < n + 1) :
    Numbered (n + 1) oneThread s g (fun v => v) (graph2 n) where
  onto v := by
    constructor
    · intro hv
      by_cases h0 : v = 0
      · exact ⟨2, _, a2, by rw [pack0, h0]⟩
      · by_cases h1 : v = 1
        · exact ⟨1, _, a1, by rw [pack1, h1]⟩
        · have h2 : n = 2 := by omega
          rw [if_pos h2] at a3
          exact ⟨3, _, a3, by rw [pack2]; omega⟩
    · rintro ⟨u, i, h, h'⟩
      rw [h']
      exact a5 u i h
  inj _ _ _ _ _ _ h := h
  edges u i _ := by rw [a4]; exact (List.map_id' _).symm
  empty v hv := by
    unfold graph2
    rw [if_neg (by omega), if_neg (by omega)]

end

def acts2 : Bool → List Sync.Act
  | false => [.init 0 0, .init 0 1, .go 0, .go 0, .go 0, .go 0, .go 0, .init 0 2, .barrier, .scan 0, .go 0, .go 0, .go 0, .go 0, .go 0, .scan 0, .scan 0, .go 0, .go 0, .barrier, .scan 0, .scan 0, .scan 0, .barrier]
  | true => [.init 0 0, .init 0 1, .go 0, .go 0, .go 0, .go 0, .go 0, .init 0 2, .barrier, .scan 0, .scan 0, .scan 0, .barrier, .scan 0, .go 0, .go 0, .go 0, .go 0, .scan 0, .scan 0, .barrier, .scan 0, .scan 0, .scan 0, .barrier, .scan 0, .scan 0, .scan 0, .go 0, .barrier]

def actsLost : List Sync.Act := [.init 0 0, .init 0 1, .go 0, .go 0, .go 0, .go 0, .go 0, .barrier, .scan 0, .go 0, .go 0, .scan 0, .barrier]

theorem ends2 (prev : Bool) : ∃ xs r, Sync.run sssp (k2 2 prev) (Sync.start sssp (graph2 2)) xs = some r ∧ r.phase = .stopped ∧ r.prop 2 = ((2 : ℚ) : Dist) := by
  have h : (Sync.run sssp (k2 2 prev) (Sync.start sssp (graph2 2)) (acts2 prev)).any (fun r => decide (r.phase = .stopped) && decide (r.prop 2 = ((2 : ℚ) : Dist))) = true := by
    cases prev <;> decide +kernel
  obtain ⟨r, hr, h⟩ := Option.any_eq_true _ _ |>.1 h
  simp only [Bool.and_eq_true, decide_eq_true_eq] at h
  exact ⟨_, r, hr, h.1, h.2⟩

theorem ends1 : ∃ xs r, Sync.run sssp (k2 1 false) (Sync.start sssp (graph2 1)) xs = some r ∧ r.phase = .stopped := by
  have h : (Sync.run sssp (k2 1 false) (Sync.start sssp (graph2 1)) actsLost).any (fun r => decide (r.phase = .stopped)) = true := by decide +kernel
  obtain ⟨r, hr, h⟩ := Option.any_eq_true _ _ |>.1 h
  exact ⟨_, r, hr, of_decide_eq_true h⟩

/-- The hypotheses of `C93_paths_partial` and `C93_paths_return_partial` are met by both synchronous variants, and the run finds that 3
is two edges away from 1. -/
example (prev : Bool) : ∃ (s : Pipeline.St Unit) (S : Nat → Enact.Th Unit) (xs : List Sync.Act) (r : Sync.St Dist Dist Unit ℚ),
    Loaded False unitOps plain oneThread noTime Enact.exOpts lines evs2 two s S ∧ fromRaw oneThread s 1 = some (0, 1) ∧
    Numbered (k2 2 prev).n oneThread s (graphOf (fun _ _ => (1 : ℚ)) oneThread s S) (fun v => v) (graph2 2) ∧
    Sync.run sssp (k2 2 prev) (Sync.start sssp (graph2 2)) xs = some r ∧ r.phase = .stopped ∧ IsLeast {x | FileWalk plain (fun _ : Unit => (1 : ℚ)) evs2 1 3 x} 2 := by
  have hrun : ∃ l, Loader.run unitOps plain 1 (fun _ => evs2) Loader.start [.put 0, .put 0, .close 0, .emit, .emit, .look, .check] = some l ∧
      (l.done = true ∧ l.taken l.turn = l.sent l.turn) ∧ l.out = two.take 2 := ⟨_, rfl, by decide, by decide⟩
  obtain ⟨l, h1, ⟨h2, h3⟩, h4⟩ := hrun
  obtain ⟨s, S, L, a1, a2, a3, a4, a5⟩ := built False 2 shows2 _ l h1 h2 (fun _ => h3) h4
  have hN := numbered2 2 (.inr rfl) a1 a2 a3 a4 a5
  obtain ⟨xs, r, hr, e1, e2⟩ := ends2 prev
  refine ⟨s, S, xs, r, L, a1, hN, hr, e1, ?_⟩
  obtain ⟨i, hi, -, hd⟩ := C93_paths_partial _ _ _ _ _ _ _ _ _ s S L (fun _ => 1) (fun _ => ⟨fun _ => rfl, fun _ => rfl⟩) 1 (0, 1) a1 (k2 2 prev) (k2_ok 2 prev) (fun v => v) (graph2 2) hN
    (fun _ => rfl) xs r hr e1 3 ⟨_, by simp [evs2]; exact .inr rfl, .inr rfl⟩
  rw [a3] at hi
  cases hi
  exact (hd 2).1 e2

/-- **C93** fails for the file "1 2", "2 3": the second line is lost at the loader's queue (C02), and the run ends without vertex 3. -/
theorem C93_statement_false : ¬ C93Statement := by
  intro h
  have hrun : ∃ l, Loader.run unitOps plain 1 (fun _ => evs2) Loader.start [.put 0, .emit, .look, .put 0, .close 0, .check] = some l ∧
      l.done = true ∧ l.out = two.take 1 := ⟨_, rfl, by decide, by decide⟩
  obtain ⟨l, h1, h2, h4⟩ := hrun
  obtain ⟨s, S, L, a1, a2, a3, a4, a5⟩ := built True 1 shows1 _ l h1 h2 (fun h => absurd trivial h) h4
  obtain ⟨xs, r, hr, e1⟩ := ends1
  obtain ⟨i, hi, -⟩ := h _ _ _ _ _ _ _ _ _ s S L (fun _ => 1) (fun _ => ⟨fun _ => rfl, fun _ => rfl⟩) 1 (0, 1) a1 (k2 1 false) (k2_ok 1 false) (fun v => v) (graph2 1)
    (numbered2 1 (.inl rfl) a1 a2 a3 a4 a5) (fun _ => rfl) xs r hr e1 3 ⟨_, by simp [evs2]; exact .inr rfl, .inr rfl⟩
  rw [a3] at hi
  cases hi

/-! ## Components -/

/-- The file "1 2", undirected; one thread. -/
def kS (prev : Bool) : Sync.Cfg Label :=
  { n := 2, T := 1, own := fun _ => 0, verts := fun t => if t = 0 then [0, 1] else [], initMail := fun v => some (raw1 v), prev := prev, cap := 9 }

theorem kS_ok (prev : Bool) : (kS prev).Ok := by
  refine ⟨fun t v => ?_, fun v _ => Nat.zero_lt_one⟩
  simp only [kS]
  split
  · simp; omega
  · simp; omega

def actsU : Bool → List Sync.Act
  | false => [.init 0 0, .go 0, .go 0, .go 0, .go 0, .go 0, .init 0 1, .go 0, .go 0, .go 0, .go 0, .go 0, .barrier, .scan 0, .go 0, .go 0, .go 0, .scan 0, .go 0, .go 0, .barrier]
  | true => [.init 0 0, .go 0, .go 0, .go 0, .go 0, .go 0, .init 0 1, .go 0, .go 0, .go 0, .go 0, .go 0, .barrier, .scan 0, .scan 0, .barrier, .scan 0, .go 0, .go 0, .scan 0, .go 0, .barrier]

theorem endsU (prev : Bool) : ∃ xs r, Sync.run cc (kS prev) (Sync.start cc (graph1 Unit ())) xs = some r ∧ r.phase = .stopped ∧ (r.prop 0).val = 1 := by
  have h : (Sync.run cc (kS prev) (Sync.start cc (graph1 Unit ())) (actsU prev)).any (fun r => decide (r.phase = .stopped) && decide ((r.prop 0).val = 1)) = true := by
    cases prev <;> decide +kernel
  obtain ⟨r, hr, h⟩ := Option.any_eq_true _ _ |>.1 h
  simp only [Bool.and_eq_true, decide_eq_true_eq] at h
  exact ⟨_, r, hr, h.1, h.2⟩

theorem numbered1 {D : Type} {x : D} {s : Pipeline.St Unit} {g : Nat → List (Edge D)} (a1 : fromRaw oneThread s 1 = some (0, 1)) (a2 : fromRaw oneThread s 2 = some (0, 0))
    (a3 : g = graph1 D x) (a5 : ∀ u i, fromRaw oneThread s u = some i → u = 1 ∧ i = (0, 1) ∨ u = 2 ∧ i = (0, 0)) : Numbered 2 oneThread s g (fun v => v) (graph1 D x) := by
  refine ⟨fun v => ⟨fun hv => ?_, ?_⟩, fun _ _ _ _ _ _ h => h, fun u i _ => by rw [a3]; exact (List.map_id' _).symm, fun v hv => ?_⟩
  · obtain rfl | rfl : v = 0 ∨ v = 1 := by have : v < 2 := hv; omega
    · exact ⟨2, _, a2, rfl⟩
    · exact ⟨1, _, a1, rfl⟩
  · rintro ⟨u, i, h, rfl⟩
    rcases a5 u i h with ⟨-, rfl⟩ | ⟨-, rfl⟩
    · show pack (0, 1) < 2; rw [pack1]; decide
    · show pack (0, 0) < 2; rw [pack0]; decide
  · have : 2 ≤ v := hv
    unfold graph1
    rw [if_neg (by omega), if_neg (by omega)]

/-- The hypotheses of `C93_components_partial` and `C93_components_return_partial` are met, and vertex 2 gets label 1. -/
example (prev : Bool) : ∃ (s : Pipeline.St Unit) (S : Nat → Enact.Th Unit) (xs : List Sync.Act) (r : Sync.St Label Label Unit Unit),
    Loaded False unitOps und oneThread noTime Enact.exOpts [line12] evs1 both s S ∧
    Numbered (kS prev).n oneThread s (graphOf (fun _ _ => ()) oneThread s S) (fun v => v) (graph1 Unit ()) ∧
    (∀ u i, fromRaw oneThread s u = some i → (raw1 (pack i)).val = u.toNat) ∧
    Sync.run cc (kS prev) (Sync.start cc (graph1 Unit ())) xs = some r ∧ r.phase = .stopped ∧ IsLeast {x : Nat | ∃ u', FileConnected evs1 u' 2 ∧ u'.toNat = x} 1 := by
  obtain ⟨s, S, L, a1, a2, a3, -, a5⟩ := builtU
  have hN := numbered1 a1 a2 a3 a5
  have hraw : ∀ u i, fromRaw oneThread s u = some i → (raw1 (pack i)).val = u.toNat := fun u i hu => by
    rcases a5 u i hu with ⟨rfl, rfl⟩ | ⟨rfl, rfl⟩ <;> decide +kernel
  obtain ⟨xs, r, hr, e1, e2⟩ := endsU prev
  refine ⟨s, S, xs, r, L, hN, hraw, hr, e1, ?_⟩
  obtain ⟨i, hi, hl⟩ := C93_components_partial L rfl (kS prev) (kS_ok prev) hN raw1 hraw (fun _ => rfl) xs r hr e1 2 ⟨_, List.mem_singleton.2 rfl, .inr rfl⟩
  rw [a2] at hi
  cases hi
  rw [← e2]
  exact hl

/-! ## Messages -/

open Verif.Engine hiding plain
open Verif.Props.Engine Verif.Props.Converge

def kM : Async.Cfg Unit Dist := { T := 1, own := fun _ => 0, initMail := fun _ => none, initNote := fun v => if v = 1 then some 0 else none }

/-- A dynamic run begins. -/
def dynM : Engine.St (MsgPath.VP Dist) Unit Dist ℚ :=
  { begin0 kM (Async.start MsgPath.ssspm fun _ => []) [] with term := { (begin0 kM (Async.start MsgPath.ssspm fun _ => []) []).term with closed := fun _ => false } }

theorem dynM_start : Start kM 1024 dynM := by
  have h := begin_start kM 1024 (fun _ => Nat.zero_lt_one) (by decide) (Async.start MsgPath.ssspm fun _ => []) [] (fun _ => rfl) fun v => List.Perm.refl _
  exact ⟨⟨h.term.pc, h.term.buff, h.term.full, h.term.data, h.term.view, h.term.votes, h.term.cand, h.term.rd, h.term.mark, h.term.inst, h.term.ptime, h.term.balance⟩,
    h.task, h.hand, h.buff, h.queue, h.own, h.pend⟩

/-- Both lines in one batch, the edges in the opposite order. -/
def scriptM : List (Option (Act ℚ)) :=
  [batch 2, born 0, born 1] ++ go 3 ++ [born 2, more 0 [⟨2, 1⟩]] ++ go 2 ++ [more 1 [⟨0, 1⟩]] ++ go 20 ++ [some (.loop (.close 0))] ++ go 64

theorem toposM : topos (scriptM.filterMap id) = [.init 0 0, .init 0 1, .init 0 2, .add 0 0 [⟨2, 1⟩], .add 0 1 [⟨0, 1⟩]] := rfl

theorem playM : ((play MsgPath.ssspm kM 1024 dynM scriptM).any fun r => decide (r.2.term.pc 0 = .done) && (List.range 3).all (fun v => r.2.alg.inited v) &&
    decide ((r.2.alg.prop 2).value = ((2 : ℚ) : Dist))) = true := by decide +kernel

/-- The hypotheses of `C93_messages_partial` are met in a dynamic run, and 3 is two edges away from 1. -/
example : ∃ (s : Pipeline.St Unit) (S : Nat → Enact.Th Unit) (r : Engine.St (MsgPath.VP Dist) Unit Dist ℚ) (xs : List (Act ℚ)),
    Loaded False unitOps plain oneThread noTime Enact.exOpts lines evs2 two s S ∧ fromRaw oneThread s 1 = some (0, 1) ∧
    Ran MsgPath.ssspm kM 1024 oneThread s (graphOf (fun _ _ => (1 : ℚ)) oneThread s S) (fun _ => []) [] dynM r xs ∧ Finished kM r ∧
    ∃ i, fromRaw oneThread s 3 = some i ∧ (r.alg.prop (pack i)).value = ((2 : ℚ) : Dist) := by
  have hrun : ∃ l, Loader.run unitOps plain 1 (fun _ => evs2) Loader.start [.put 0, .put 0, .close 0, .emit, .emit, .look, .check] = some l ∧
      (l.done = true ∧ l.taken l.turn = l.sent l.turn) ∧ l.out = two.take 2 := ⟨_, rfl, by decide, by decide⟩
  obtain ⟨l, h1, ⟨h2, h3⟩, h4⟩ := hrun
  obtain ⟨s, S, L, a1, a2, a3, a4, a5⟩ := built False 2 shows2 _ l h1 h2 (fun _ => h3) h4
  obtain ⟨⟨xs, r⟩, hr, hc⟩ := Option.any_eq_true _ _ |>.1 playM
  simp only [Bool.and_eq_true, decide_eq_true_eq] at hc
  obtain ⟨⟨c1, c2⟩, c4⟩ := hc
  refine ⟨s, S, r, xs, L, a1, ⟨by decide, fun _ => Nat.zero_lt_one, rfl, dynM_start, play_run hr, fun t v b hm => (List.not_mem_nil hm).elim, fun t v b hm => ?_, fun v => ?_, fun u i hu => ?_⟩,
    fun t ht => ?_, (0, 2), by rw [a3]; rfl, by rw [pack2]; exact c4⟩
  · have h2 : Async.Act.del t v b ∈ topos xs := List.mem_filterMap.2 ⟨_, hm, rfl⟩
    rw [play_topos hr, toposM] at h2
    simp at h2
  · rw [List.nil_append, List.nil_append, play_topos hr, a4, toposM]
    unfold graph2
    by_cases hv : v = 1
    · subst hv; rfl
    · by_cases hv' : v = 0
      · subst hv'; rfl
      · rw [if_neg hv, if_neg (by omega)]
        simp [appended, Ne.symm hv, Ne.symm hv']
  · exact List.all_eq_true.1 c2 _ (List.mem_range.2 (a5 u i hu))
  · obtain rfl : t = 0 := by have : t < 1 := ht; omega
    exact c1

/-- `SendInitialMail` for shortest paths by messages. -/
def mailM : List (Async.Act ℚ) := [.init 0 1, .go 0, .go 0, .init 0 0, .init 0 2]

theorem smoothM : (Async.run MsgPath.ssspm kM (Async.start MsgPath.ssspm (graph2 2)) mailM).map (fun s =>
    isIdle (s.task 0) && (List.range 3).all (fun v => decide (s.pend v = [(1, (0 : Dist))].filterMap fun x => if x.1 = v then some x.2 else none) && s.inited v) &&
    smooth MsgPath.ssspm kM 1024 (begin0 kM s [(1, (0 : Dist))]) ((List.range 100).map fun i => [0].getD (i % [0].length) 0)) = some true := by
  decide +kernel

theorem execM (s : Pipeline.St Unit) (hs : ∀ u i, fromRaw oneThread s u = some i → pack i < 3) :
    ∃ e : Exec MsgPath.ssspm kM 1024, Runs oneThread s (graph2 2) (graph2 2) mailM e 0 := by
  obtain ⟨r, hr, h⟩ := Option.map_eq_some_iff.1 smoothM
  simp only [Bool.and_eq_true] at h
  obtain ⟨⟨h1, h2⟩, h4⟩ := h
  have h3 : ∀ v, v < 3 → r.pend v = ([(1, (0 : Dist))].filterMap fun x => if x.1 = v then some x.2 else none) ∧ r.inited v = true := by
    intro v hv
    have := List.all_eq_true.1 h2 v (List.mem_range.2 hv)
    simp only [Bool.and_eq_true] at this
    exact ⟨of_decide_eq_true this.1, this.2⟩
  have hsup : Async.Supp 3 r := by
    refine Async.supp_run (MsgPath.ssspm_local 3) (xs := mailM) (by decide) (Async.supp_loaded MsgPath.ssspm 3 (graph2 2) ?_ ?_) hr
    · intro v hv
      unfold graph2
      rw [if_neg (by omega), if_neg (by omega)]
    · intro v e he
      unfold graph2 at he
      split at he
      · rcases List.mem_singleton.1 he with rfl; decide
      · split at he
        · rcases List.mem_singleton.1 he with rfl; decide
        · cases he
  obtain ⟨e, e1, e2, e3, e4, e5, e6⟩ := exists_exec MsgPath.ssspm kM 1024 (fun v => Nat.zero_lt_one) (by decide) (graph2 2) mailM r hr hsup [(1, (0 : Dist))] [0]
    (fun t ht => by have : t < 1 := ht; obtain rfl : t = 0 := by omega
                    simp) 100
    (fun t ht => by have : t < 1 := ht; obtain rfl : t = 0 := by omega
                    exact h1) (fun v hv => (h3 v hv).1) (by decide) h4
  refine ⟨e, by decide, fun v => Nat.zero_lt_one, by rw [e1]; exact hr, e2, e3, e4, fun t _ => e5 t, fun i y _ => e6 i y, ?_, fun i t v b => e6 i _, ?_, ?_⟩
  · intro t v b hm
    simp [mailM] at hm
  · intro v
    have : appended (mailM ++ topos ((List.range 0).map e.act)) v = [] := by simp [appended, mailM, topos]
    rw [this, List.append_nil]
  · intro u i hu
    rw [e1]
    exact (h3 _ (hs u i hu)).2

/-- The hypotheses of `C93_messages_return_partial` are met by a static run. -/
example : ∃ (s : Pipeline.St Unit) (S : Nat → Enact.Th Unit) (e : Exec MsgPath.ssspm kM 1024),
    Loaded False unitOps plain oneThread noTime Enact.exOpts lines evs2 two s S ∧ fromRaw oneThread s 1 = some (0, 1) ∧
    (∀ v, kM.initNote v = if v = pack (0, 1) then some 0 else none) ∧
    Runs oneThread s (graphOf (fun _ _ => (1 : ℚ)) oneThread s S) (graphOf (fun _ _ => (1 : ℚ)) oneThread s S) mailM e 0 := by
  have hrun : ∃ l, Loader.run unitOps plain 1 (fun _ => evs2) Loader.start [.put 0, .put 0, .close 0, .emit, .emit, .look, .check] = some l ∧
      (l.done = true ∧ l.taken l.turn = l.sent l.turn) ∧ l.out = two.take 2 := ⟨_, rfl, by decide, by decide⟩
  obtain ⟨l, h1, ⟨h2, h3⟩, h4⟩ := hrun
  obtain ⟨s, S, L, a1, a2, a3, a4, a5⟩ := built False 2 shows2 _ l h1 h2 (fun _ => h3) h4
  obtain ⟨e, R⟩ := execM s a5
  rw [← a4] at R
  exact ⟨s, S, e, L, a1, fun v => by rw [pack1]; rfl, R⟩

end Verif.Props.AnswerSync
