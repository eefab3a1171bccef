import Verif.MsgPathConv
import Verif.Props.MsgPath
import Verif.Props.Converge
import Verif.Props.EngineLive

/-!
# Message-passing shortest paths come to rest (C95)

As C62 for `sssp-msg.go`: without negative weights, only boundedly many steps are left once the graph stops changing,
although a notification is sent for every improvement and every edge, whether or not the target already has one.
-/

namespace Verif.Props.MsgPath

open Verif Verif.Async Verif.MinLabel Verif.MsgPath Verif.Props.MinLabel Verif.Props.Converge

/-- **C95** for any edge function that does not lower labels, in any arithmetic. -/
theorem C95_bound {L E : Type} [LinearOrder L] [OrderTop L] (f : E → L → L) (htop : ∀ e, f e ⊤ = ⊤)
    (c : Cfg Unit L) (hm : ∀ v, c.initMail v = none)
    (es0 : Nat → List (Edge E)) (hes : FiniteGraph es0) (xs : List (Act E)) (hx : NoDeletes xs) (s : St (VP L) Unit L E)
    (h : run (msgAlg f) c (start (msgAlg f) es0) xs = some s) (hinf : ∀ u e, e ∈ s.edges u → ∀ x, x ≤ f e.data x) :
    ∃ B, ∀ ys s', NoTopology ys → run (msgAlg f) c s ys = some s' → ys.length ≤ B := by
  obtain ⟨n0, hn0⟩ := hes
  obtain ⟨n, hle, hxn⟩ := exists_below n0 xs
  obtain ⟨B, hB⟩ := converge f htop c hm n (es0 := es0) (fun v hv => (hn0 v).1 (by omega))
    (fun v e he => Nat.lt_of_lt_of_le ((hn0 v).2 e he) hle) hx.addOnly hxn h hinf
  exact ⟨B, fun ys s' hy hr => hB ys s' hy.work hr⟩

/-- **C95.** Without negative weights the number of steps left is bounded whatever the schedule and the order in which
notifications are taken, and a run that cannot go on holds the least weights of walks. -/
theorem C95_rest (c : Cfg Unit Dist) (hm : ∀ v, c.initMail v = none) (hown : ∀ v, c.own v < c.T)
    (src : Nat) (hc : ∀ v, c.initNote v = if v = src then some 0 else none)
    (es0 : Nat → List (Edge ℚ)) (hes : FiniteGraph es0) (xs : List (Act ℚ)) (hx : NoDeletes xs) (s : St (VP Dist) Unit Dist ℚ)
    (h : run ssspm c (start ssspm es0) xs = some s) (hw : ∀ u e, e ∈ s.edges u → 0 ≤ e.data) (hsrc : s.inited src = true) :
    ∃ B, ∀ ys s', NoTopology ys → run ssspm c s ys = some s' →
      ys.length ≤ B ∧ (Rests ssspm c s' → ∀ v, ((s'.prop v).value = ⊤ ↔ ¬ ∃ d, Walk s.edges src v d) ∧
        ∀ d : ℚ, (s'.prop v).value = (d : Dist) ↔ IsLeast {x | Walk s.edges src v x} d) := by
  have hb := ssspm_eq ▸ C95_bound (fun (w : ℚ) (x : Dist) => x + (w : Dist)) (fun e => WithTop.top_add _) c hm es0 hes xs hx s
  obtain ⟨B, hB⟩ := hb h fun u e he x => by
    have : (0 : Dist) ≤ ((e.data : ℚ) : Dist) := by exact_mod_cast hw u e he
    simpa using add_le_add_right this x
  refine ⟨B, fun ys s' hy hr => ⟨hB ys s' hy hr, fun hrest v => ?_⟩⟩
  have hstay := stay_run hy hr
  have := C43_exact c src hc hm (fun v _ => hown v) (xs ++ ys) (hx.append hy) s' (run_append _ _ xs ys _ _ _ h hr) (quiet_of_rests hown hrest)
    (by rw [hstay.2]; exact hsrc) v
  rw [hstay.1] at this
  exact this

/-- **C95.** Every history can be brought to rest: the final distances are always reached. -/
theorem C95_reached (c : Cfg Unit Dist) (hm : ∀ v, c.initMail v = none) (hown : ∀ v, c.own v < c.T)
    (es0 : Nat → List (Edge ℚ)) (hes : FiniteGraph es0) (xs : List (Act ℚ)) (hx : NoDeletes xs) (s : St (VP Dist) Unit Dist ℚ)
    (h : run ssspm c (start ssspm es0) xs = some s) (hw : ∀ u e, e ∈ s.edges u → 0 ≤ e.data) :
    ∃ ys s', NoTopology ys ∧ run ssspm c s ys = some s' ∧ Quiet c s' := by
  have hb := ssspm_eq ▸ C95_bound (fun (w : ℚ) (x : Dist) => x + (w : Dist)) (fun e => WithTop.top_add _) c hm es0 hes xs hx s
  obtain ⟨B, hB⟩ := hb h fun u e he x => by
    have : (0 : Dist) ≤ ((e.data : ℚ) : Dist) := by exact_mod_cast hw u e he
    simpa using add_le_add_right this x
  exact rest_of_bound hown B s hB

open Verif.Engine Verif.Props.Engine in
/-- **C64** for shortest paths by messages (restricted as `C64_partial`): a run on a graph without negative weights returns,
and returns the exact distances. -/
theorem C64_messages_partial (c : Async.Cfg Unit Dist) (hm : ∀ v, c.initMail v = none) (max : Nat) (hmax : 0 < max) (hown : ∀ v, c.own v < c.T)
    (src : Nat) (hc : ∀ v, c.initNote v = if v = src then some 0 else none)
    (es0 : Nat → List (Edge ℚ)) (hes : FiniteGraph es0) (xs0 : List (Async.Act ℚ)) (hx0 : NoDeletes xs0)
    (e : Exec ssspm c max) (hs0 : Async.run ssspm c (Async.start ssspm es0) xs0 = some (e.st 0).alg) (h0 : Start c max (e.st 0))
    (hfair : e.Fair) (hfresh : Fresh e) (m : Nat) (hcl : ∀ t, t < c.T → (e.st m).term.closed t = true) (htopo : ∀ i y, m ≤ i → e.act i ≠ .topo y)
    (hdel : ∀ i t v k, e.act i ≠ .topo (.del t v k)) (hw : ∀ u x, x ∈ (e.st m).alg.edges u → 0 ≤ x.data) (hsrc : (e.st m).alg.inited src = true) :
    ∃ k, Finished c (e.st k) ∧ (e.st k).alg.edges = (e.st m).alg.edges ∧ ∀ v, (((e.st k).alg.prop v).value = ⊤ ↔ ¬ ∃ d, Walk (e.st m).alg.edges src v d) ∧
      ∀ d : ℚ, ((e.st k).alg.prop v).value = (d : Dist) ↔ IsLeast {x | Walk (e.st m).alg.edges src v x} d := by
  have hpre : ∃ ys, Async.run ssspm c (Async.start ssspm es0) ys = some (e.st m).alg ∧ NoDeletes ys := by
    obtain ⟨-, -, ys, h1, h2⟩ := proj (exec_run ssspm c max e m)
    refine ⟨xs0 ++ ys, run_append _ _ xs0 ys _ _ _ hs0 h1, fun t u k hmem => ?_⟩
    rcases List.mem_append.1 hmem with hmem | hmem
    · exact hx0 t u k hmem
    · have := mem_topos (y := .del t u k) (xs := (List.range m).map e.act) (by rw [← h2]; exact List.mem_filter.2 ⟨hmem, rfl⟩)
      obtain ⟨i, -, hi⟩ := List.mem_map.1 this
      exact hdel i t u k hi
  obtain ⟨ys, hys, hnd⟩ := hpre
  obtain ⟨B, hB⟩ := C95_rest c hm hown src hc es0 hes ys hnd _ hys hw hsrc
  obtain ⟨k, hk, hd⟩ := C64_partial ssspm c max hmax e h0 hfair hfresh m hcl htopo ⟨B, fun zs s' hz hr => (hB zs s' hz hr).1⟩
  obtain ⟨zs, hz, hr, -⟩ := seg_alg e m (fun i hi => by
    cases hx : e.act i with
    | topo y => exact absurd hx (htopo i y hi)
    | _ => rfl) (k - m)
  rw [show m + (k - m) = k by omega] at hr
  obtain ⟨hq, -, -⟩ := C63_final ssspm c max hmax hown _ _ h0 _ (exec_run ssspm c max e k) hd
  exact ⟨k, hd, (stay_run hz hr).1, (hB zs _ hz hr).2 (rests_of_quiet hq)⟩

/-! ## Negative weights -/

/-- One thread, one vertex. -/
def cSpin : Cfg Unit Dist := { T := 1, own := fun _ => 0, initMail := fun _ => none, initNote := fun v => if v = 0 then some 0 else none }

/-- About to visit vertex 0 with a note that improves it. -/
structure Whirl (s : St (VP Dist) Unit Dist ℚ) (x : ℚ) : Prop where
  task : s.task 0 = .load 0 fun p es m => ssspm.onUpdate 0 p es (x : Dist) 0 m
  prop : ((x : ℚ) : Dist) < (s.prop 0).value
  edges : s.edges 0 = [⟨0, -1⟩]
  act : s.act 0 = 0
  pend : s.pend 0 = []

def turn95 : List (Act ℚ) := [.go 0, .go 0, .go 0, .go 0, .recv 0 0 0]

theorem whirl_turn {s : St (VP Dist) Unit Dist ℚ} {x : ℚ} (h : Whirl s x) : ∃ s', run ssspm cSpin s turn95 = some s' ∧ Whirl s' (x - 1) := by
  have hlt : ((x : ℚ) : Dist) + ((-1 : ℚ) : Dist) = ((x - 1 : ℚ) : Dist) := by rw [← WithTop.coe_add, sub_eq_add_neg]
  have hdec : ((x - 1 : ℚ) : Dist) < (x : Dist) := WithTop.coe_lt_coe.2 (by linarith)
  obtain ⟨prop, edges, inbox, act, pend, inited, task, log⟩ := s
  obtain ⟨h1, h2, h3, h4, h5⟩ := h
  dsimp only at h1 h2 h3 h4 h5
  have hT : (0 : Nat) < cSpin.T := Nat.zero_lt_one
  have e0 : ssspm.onUpdate 0 (prop 0) [⟨0, -1⟩] (x : Dist) 0 () = (⟨(x : Dist), false⟩, .send 0 ((x - 1 : ℚ) : Dist) .done) := by
    simp only [ssspm, updateM, gt_iff_lt, h2, if_true, lt_irrefl, if_false, Bool.true_eq_false, List.map_cons, List.map_nil, sendAll, hlt]
  refine ⟨⟨upd prop 0 ⟨(x : Dist), false⟩, edges, upd inbox 0 (), upd (upd act 0 1) 0 0, upd (upd pend 0 [((x - 1 : ℚ) : Dist)]) 0 [], inited,
      upd (upd (upd (upd (upd task 0 (.run 0 (.send 0 ((x - 1 : ℚ) : Dist) .done))) 0 (.put 0 0 ((x - 1 : ℚ) : Dist) .done)) 0 (.run 0 .done)) 0 .idle) 0
        (.load 0 fun p es m => ssspm.onUpdate 0 p es ((x - 1 : ℚ) : Dist) 0 m), log ++ [.obs 0]⟩, ?_, ?_⟩
  · simp only [turn95, run, step, hT, if_true, h1, goStep, h3, Option.bind_some]
    have er : ssspm.retrieve (inbox 0) (prop 0) = ((), ()) := rfl
    simp only [er, e0, upd_same, h4, h5, List.nil_append, Option.bind_some, free, decide_true, cSpin, List.getElem?_cons_zero, List.eraseIdx_cons_zero]
    rfl
  · exact ⟨by simp only [upd_same], by simpa only [upd_same] using hdec, h3, by simp only [upd_same], by simp only [upd_same]⟩

theorem whirl_turns (k : Nat) {s : St (VP Dist) Unit Dist ℚ} {x : ℚ} (h : Whirl s x) : ∃ ys s', NoTopology ys ∧ ys.length = 5 * k ∧ run ssspm cSpin s ys = some s' := by
  induction k generalizing s x with
  | zero => exact ⟨[], s, (fun _ hy => absurd hy (by simp)), rfl, rfl⟩
  | succ k ih =>
    obtain ⟨s1, h1, h2⟩ := whirl_turn h
    obtain ⟨ys, s', hy, hl, hr⟩ := ih h2
    refine ⟨turn95 ++ ys, s', ?_, ?_, run_append _ _ _ _ _ _ _ h1 hr⟩
    · intro y hm
      rcases List.mem_append.1 hm with hm | hm
      · simp only [turn95, List.mem_cons, List.not_mem_nil, or_false] at hm
        rcases hm with rfl | rfl | rfl | rfl | rfl
        all_goals first | exact .inl ⟨_, rfl⟩ | exact .inr ⟨_, _, _, rfl⟩
      · exact hy y hm
    · simp [turn95, hl]; omega

/-- With a negative cycle there is no bound: the run can go on for ever. -/
theorem C95_negative : ∃ s, run ssspm cSpin (start ssspm loop) [.init 0 0, .go 0, .go 0, .recv 0 0 0] = some s ∧
    ∀ B, ∃ ys s', NoTopology ys ∧ run ssspm cSpin s ys = some s' ∧ B < ys.length := by
  have hw : ∃ s, run ssspm cSpin (start ssspm loop) [.init 0 0, .go 0, .go 0, .recv 0 0 0] = some s ∧ Whirl s 0 := by
    refine ⟨_, rfl, ?_, WithTop.coe_lt_top 0, rfl, rfl, rfl⟩
    rfl
  obtain ⟨s, h1, h2⟩ := hw
  refine ⟨s, h1, fun B => ?_⟩
  obtain ⟨ys, s', hy, hl, hr⟩ := whirl_turns (B + 1) h2
  exact ⟨ys, s', hy, hr, by omega⟩

/-! ## A case -/

/-- The run `s43` up to the last new edge, and the steps after it. -/
example : ∃ s s', run ssspm c43 (start ssspm) (s43.take 17) = some s ∧ run ssspm c43 s (s43.drop 17) = some s' ∧ NoTopology (s43.drop 17) ∧
    (s43.drop 17).length = 10 ∧ Rests ssspm c43 s' ∧ NoDeletes (s43.take 17) ∧ (∀ u e, e ∈ s.edges u → 0 ≤ e.data) ∧ s.inited 1 = true ∧
    (∀ v, c43.own v < c43.T) ∧ (∀ v, c43.initMail v = none) ∧ FiniteGraph (fun _ => ([] : List (Edge ℚ))) ∧ s.edges 1 = [⟨2, 5⟩, ⟨2, 2⟩] := by
  obtain ⟨s', h1, h2, h3, h4⟩ := exists_quiet (c := c43) (n := 4) (ssspm_local 4) (xs := s43) (by decide)
    (fun s => decide (s.edges 0 = [] ∧ s.edges 1 = [⟨2, 5⟩, ⟨2, 2⟩] ∧ s.edges 2 = [⟨0, 1⟩] ∧ s.edges 3 = [] ∧ s.inited 1 = true)) (by decide +kernel)
  obtain ⟨s, h5, h6⟩ := run_split _ _ (s43.take 17) (s43.drop 17) _ _ (by rw [List.take_append_drop]; exact h1)
  have hn : NoTopology (s43.drop 17) := by
    intro y hy
    simp only [s43, List.drop_succ_cons, List.drop_zero, List.mem_cons, List.not_mem_nil, or_false] at hy
    rcases hy with rfl | rfl | rfl | rfl | rfl | rfl | rfl | rfl | rfl | rfl
    all_goals first | exact .inl ⟨_, rfl⟩ | exact .inr ⟨_, _, _, rfl⟩
  obtain ⟨e1, e2⟩ := stay_run hn h6
  obtain ⟨g0, g1, g2, g3, g4⟩ := of_decide_eq_true h4
  refine ⟨s, s', h5, h6, hn, rfl, rests_of_quiet h2, by simp [NoDeletes, s43], ?_, e2 ▸ g4, fun v => Nat.mod_lt _ (by decide), fun _ => rfl, ⟨0, fun v => ⟨fun _ => rfl, fun e he => nomatch he⟩⟩, e1 ▸ g1⟩
  intro u e he
  rw [← e1] at he
  match u, he with
  | 0, he => rw [g0] at he; cases he
  | 1, he => rw [g1] at he; simp at he; rcases he with rfl | rfl <;> decide
  | 2, he => rw [g2] at he; simp at he; subst he; decide
  | 3, he => rw [g3] at he; cases he
  | u + 4, he => rw [h3.edges _ (by omega)] at he; cases he

end Verif.Props.MsgPath
