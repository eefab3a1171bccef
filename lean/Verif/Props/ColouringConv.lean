import Verif.ColouringConv
import Verif.Pump
import Verif.Props.Colouring
import Verif.Props.EngineCase
import Verif.Props.SyncLive

/-!
# Colouring comes to rest, unless vertices are their own neighbours (C67)

However the graph came about and threads are scheduled, once the graph stops changing and has no self loops only
finitely many steps are left; then neighbours have different colours. A self loop can keep a run going for ever.
-/

namespace Verif.Props.Colouring

open Verif Verif.Async Verif.Colouring Verif.MinLabel
open Verif.Props.Converge (FiniteGraph NoTopology Rests)

/-- No vertex is its own neighbour. -/
def NoLoops (edges : Nat → List (Edge Nat)) : Prop := ∀ v, ∀ e ∈ edges v, e.dst ≠ v

theorem graph_finite (es : List (Nat × Nat × Nat)) : FiniteGraph (graph es) := by
  have hb : ∃ n, ∀ a ∈ es, a.1 < n ∧ a.2.1 < n := by
    induction es with
    | nil => exact ⟨0, fun _ h => by simp at h⟩
    | cons b es ih =>
      obtain ⟨n, hn⟩ := ih
      refine ⟨n + b.1 + b.2.1 + 1, fun a ha => ?_⟩
      rcases List.mem_cons.1 ha with rfl | ha
      · omega
      · have := hn a ha; omega
  obtain ⟨n, hn⟩ := hb
  refine ⟨n, fun v => ⟨fun hv => ?_, fun e he => ?_⟩⟩
  · unfold graph
    rw [List.map_eq_nil_iff, List.filter_eq_nil_iff]
    intro a ha hd
    have := of_decide_eq_true hd
    have := hn a ha
    omega
  · obtain ⟨a, ha, rfl⟩ := List.mem_map.1 he
    exact (hn a (List.mem_filter.1 ha).1).2

theorem graph_len (es : List (Nat × Nat × Nat)) (v : Nat) : (graph es v).length ≤ es.length := by
  unfold graph
  rw [List.length_map]
  exact List.length_filter_le _ _

theorem plain_of_noTopology {n : Nat} {ys : List (Act Nat)} (h : NoTopology ys) : ∀ y ∈ ys, Sync.Plain y ∧ y.below n = true := by
  intro y hy
  rcases h y hy with ⟨t, rfl⟩ | ⟨t, v, i, rfl⟩ <;> exact ⟨trivial, rfl⟩

/-- **C67.** Whatever has been added and deleted, once the graph stays as it is and has no self loops, the number
of steps left is bounded, whatever the schedule. -/
theorem C67_bound (T : Nat) (own : Nat → Nat) (es : List (Nat × Nat × Nat)) (xs : List (Act Nat)) (s : St Nat Mail Unit Nat)
    (h : run colouring (cfg T own) (start colouring (graph es)) xs = some s) (hl : NoLoops s.edges) :
    ∃ B, ∀ ys s', NoTopology ys → run colouring (cfg T own) s ys = some s' → ys.length ≤ B := by
  obtain ⟨n0, hn0⟩ := graph_finite es
  obtain ⟨n, hle, hxn⟩ := Converge.exists_below n0 xs
  have hsup := supp_loaded colouring n (graph es) (fun v hv => (hn0 v).1 (by omega)) fun v e he => Nat.lt_of_lt_of_le ((hn0 v).2 e he) hle
  obtain ⟨B, hB⟩ := even_run (c := cfg T own) (fun _ => rfl) (even_start (graph es) es.length (graph_len es)) h
  obtain ⟨K, hK⟩ := downhill_bound (colouring_local n) (fun v w m x hw hm hn => news_down (n := n) hw hm hn) (cfg T own) (hB.slope hl) (supp_run (colouring_local n) hxn hsup h)
  exact ⟨K, fun ys s' hy hr => hK ys s' (plain_of_noTopology hy) hr⟩

/-- **C67.** On an undirected graph without self loops the number of steps left is bounded, and where no step is
left neighbours have different colours. -/
theorem C67_rest (T : Nat) (own : Nat → Nat) (hown : ∀ v, own v < T) (es : List (Nat × Nat × Nat)) (xs : List (Act Nat)) (hpos : Positions (es ++ added xs)) (s : St Nat Mail Unit Nat)
    (h : run colouring (cfg T own) (start colouring (graph es)) xs = some s) (hl : NoLoops s.edges) (hu : Undirected s) :
    ∃ B, ∀ ys s', NoTopology ys → run colouring (cfg T own) s ys = some s' →
      ys.length ≤ B ∧ (Rests colouring (cfg T own) s' → ∀ u v, s.inited u = true → s.inited v = true → Adj s u v → s'.prop u ≠ s'.prop v) := by
  obtain ⟨B, hB⟩ := C67_bound T own es xs s h hl
  refine ⟨B, fun ys s' hy hr => ⟨hB ys s' hy hr, fun hrest u v h1 h2 ha => ?_⟩⟩
  obtain ⟨e1, e2⟩ := Converge.stay_run hy hr
  have hadd : added (xs ++ ys) = added xs := by
    have : added ys = [] := by
      unfold added
      rw [List.flatMap_eq_nil_iff]
      intro y hm
      rcases hy y hm with ⟨t, rfl⟩ | ⟨t, w, i, rfl⟩ <;> rfl
    unfold added at this ⊢
    rw [List.flatMap_append, this, List.append_nil]
  have hadj : ∀ a b, Adj s' a b ↔ Adj s a b := fun a b => by unfold Adj; rw [e1]
  refine C34_proper T own hown es (xs ++ ys) (by rw [hadd]; exact hpos) s' (Converge.run_append _ _ xs ys _ _ _ h hr) (Converge.quiet_of_rests hown hrest) ?_ u v
    (by rw [e2]; exact ⟨h1, h2⟩) ((hadj u v).2 ha) ?_
  · intro a b hab
    exact (hadj b a).2 (hu a b ((hadj a b).1 hab))
  · rintro rfl
    obtain ⟨e, he, h3⟩ := ha
    exact hl u e he h3

theorem added_changes (ys : List (Act Nat)) : added ys = added (Engine.changes ys) := by
  induction ys with
  | nil => rfl
  | cons y ys ih =>
    unfold added Engine.changes at *
    rw [List.flatMap_cons, ih]
    cases y <;> rfl

open Verif.Engine Verif.Props.Engine in
/-- **C67 (missing: executions that read a vote between the two stores, as C64).** Under every fair schedule a run of
the colouring algorithm returns once the stream of changes has ended, if it leaves an undirected graph without self
loops, and then neighbours have different colours. -/
theorem C67_returns_partial (T : Nat) (own : Nat → Nat) (hown : ∀ v, own v < T) (max : Nat) (hm : 0 < max) (es : List (Nat × Nat × Nat)) (xs0 : List (Async.Act Nat))
    (e : Exec colouring (cfg T own) max) (hs0 : Async.run colouring (cfg T own) (Async.start colouring (graph es)) xs0 = some (e.st 0).alg) (hst : Start (cfg T own) max (e.st 0))
    (hfair : e.Fair) (hfresh : Fresh e) (m : Nat) (hcl : ∀ t, t < T → (e.st m).term.closed t = true) (htopo : ∀ i y, m ≤ i → e.act i ≠ .topo y)
    (hpos : Positions (es ++ added (xs0 ++ topos ((List.range m).map e.act))))
    (hl : NoLoops (e.st m).alg.edges) (hu : Undirected (e.st m).alg) :
    ∃ k, Finished (cfg T own) (e.st k) ∧ (e.st k).alg.edges = (e.st m).alg.edges ∧
      ∀ u v, (e.st m).alg.inited u = true → (e.st m).alg.inited v = true → Adj (e.st m).alg u v → (e.st k).alg.prop u ≠ (e.st k).alg.prop v := by
  obtain ⟨-, -, ys, hys, hch⟩ := proj (exec_run _ _ max e m)
  have hadd : added (xs0 ++ ys) = added (xs0 ++ topos ((List.range m).map e.act)) := by
    rw [← hch]
    unfold added
    rw [List.flatMap_append, List.flatMap_append]
    congr 1
    exact added_changes ys
  have hrun := Converge.run_append _ _ xs0 ys _ _ _ hs0 hys
  obtain ⟨B, hB⟩ := C67_rest T own hown es _ (by rw [hadd]; exact hpos) _ hrun hl hu
  obtain ⟨k, hk, hd⟩ := C64_partial _ _ max hm e hst hfair hfresh m hcl htopo (C67_bound T own es _ _ hrun hl)
  obtain ⟨zs, hz, hr, -⟩ := seg_alg e m (fun i hi => by
    cases hx : e.act i with
    | topo y => exact absurd hx (htopo i y hi)
    | _ => rfl) (k - m)
  rw [show m + (k - m) = k by omega] at hr
  obtain ⟨hq, -, -⟩ := C63_final _ _ max hm hown _ _ hst _ (exec_run _ _ max e k) hd
  exact ⟨k, hd, (Converge.stay_run hz hr).1, (hB zs _ hz hr).2 (Converge.rests_of_quiet hq)⟩

/-! ## Synchronous runs -/

open Verif.Sync Verif.Props.Sync in
theorem update_unique (v p : Nat) (es : List (Edge Nat)) (n : Unit) (i : Int) (m : Mail) : (colouring.onUpdate v p es n i m).2.Unique := by
  have : ∀ (ws : List (Nat × Mail)) (b : Bool), (postAll ws b fun _ => (.done : Prog Mail Unit)).Unique := by
    intro ws
    induction ws with
    | nil => exact fun _ => trivial
    | cons w ws ih => exact fun b => fun b' => ih _
  simp only [colouring, update]
  split
  · trivial
  · exact this _ _

open Verif.Sync Verif.Props.Sync in
/-- **C67** for synchronous runs on graphs without self loops: the number of steps is bounded whatever the schedule,
and unless queues fill up a run ends by stopping. -/
theorem C67_sync (c : Sync.Cfg Mail) (hc : c.Ok) (es : List (Nat × Nat × Nat)) (hes : Sync.Within c.n (graph es)) (hl : NoLoops (graph es)) :
    ∃ B, ∀ cap xs s, Sync.run colouring (sized c cap) (Sync.start colouring (graph es)) xs = some s →
      xs.length ≤ B ∧ (Ample c cap B → (∀ x, Sync.step colouring (sized c cap) s x = none) → s.phase = .stopped) := by
  obtain ⟨K, hK⟩ := downhill_bound (colouring_local c.n) (fun v w m x hw hm hn => news_down (n := c.n) hw hm hn) (absCfg c)
    ((even_start (c := absCfg c) (graph es) es.length (graph_len es)).slope hl) (supp_loaded colouring c.n (graph es) hes.src hes.dst)
  exact sync_of_bound colouring update_unique c hc (colouring_local c.n) (graph es) hes K hK

open Verif.Sync Verif.Props.Sync in
/-- **C67** for synchronous runs: when the run stops, neighbours have different colours. -/
theorem C67_sync_proper (c : Sync.Cfg Mail) (hc : c.Ok) (hi : ∀ v, c.initMail v = some { scratch := [], pos := 0, colour := 0, box := v })
    (es : List (Nat × Nat × Nat)) (hpos : Positions es) (hes : Sync.Within c.n (graph es)) (hund : ∀ a ∈ es, ∃ b ∈ es, b.1 = a.2.1 ∧ b.2.1 = a.1)
    (xs : List Sync.Act) (s : Sync.St Nat Mail Unit Nat) (h : Sync.run colouring c (Sync.start colouring (graph es)) xs = some s) (hst : s.phase = .stopped) :
    ∀ a ∈ es, a.1 ≠ a.2.1 → s.prop a.1 ≠ s.prop a.2.1 := by
  intro a ha hne
  have hcfg : (absCfg c : Async.Cfg Mail Unit) = cfg c.n id := by
    simp only [absCfg, Colouring.cfg, Async.Cfg.mk.injEq, true_and, and_true]
    exact funext hi
  obtain ⟨-, -, he, ys, r, hr, hq, hadd, -, hin, e1, -, e3⟩ := C36_stop colouring update_unique c hc (colouring_local c.n) (graph es) hes xs s h hst
  rw [hcfg] at hr hq
  have hnone : added ys = [] := by
    unfold added
    rw [List.flatMap_eq_nil_iff]
    intro y hm
    cases y with
    | add t v es => exact absurd hm (hadd t v es)
    | _ => rfl
  have hedge : ∀ a ∈ es, (⟨a.2.1, a.2.2⟩ : Edge Nat) ∈ graph es a.1 := fun a ha => List.mem_map.2 ⟨a, List.mem_filter.2 ⟨ha, decide_eq_true rfl⟩, rfl⟩
  have hlt : ∀ a ∈ es, a.1 < c.n := by
    intro a ha
    by_contra hn
    have := hedge a ha
    rw [hes.src a.1 (by omega)] at this
    cases this
  have hlt2 : ∀ a ∈ es, a.2.1 < c.n := fun a ha => hes.dst _ _ (hedge a ha)
  have := proper_of c.n id es ys (by rw [hnone, List.append_nil]; exact hpos) r hr hq ?_ a.1 a.2.1 ⟨hlt a ha, hlt2 a ha⟩
    (by rw [hin, hin]; exact ⟨decide_eq_true (hlt a ha), decide_eq_true (hlt2 a ha)⟩) ⟨_, by rw [e3, he]; exact hedge a ha, rfl⟩ hne
  · rw [e1] at this
    exact this
  · rintro u v ⟨e, hm, rfl⟩
    rw [e3, he] at hm
    obtain ⟨b, hb, rfl⟩ := List.mem_map.1 hm
    have hb' := List.mem_filter.1 hb
    obtain ⟨b', hb1, hb2, hb3⟩ := hund b hb'.1
    refine ⟨⟨b'.2.1, b'.2.2⟩, ?_, ?_⟩
    · rw [e3, he, ← hb2]; exact hedge b' hb1
    · show b'.2.1 = u
      rw [hb3]; exact of_decide_eq_true hb'.2

/-! ## Self loops -/

/-- Vertex 0 is its own neighbour, and a neighbour of vertex 1. -/
def g67 : List (Nat × Nat × Nat) := [(0, 0, 0), (0, 1, 0), (1, 0, 1)]

/-- Both vertices look before either has told the other. -/
def pre67 : List (Act Nat) := [.init 0 0, .init 1 1] ++ gos 0 1 ++ gos 1 1 ++ gos 0 7 ++ gos 1 2

/-- Both move out of the way of the other, to the same colour; twice. -/
def round67 : List (Act Nat) := [.recv 0 0 0, .recv 1 1 0, .go 0, .go 1] ++ gos 0 7 ++ gos 1 2

/-- **C67 is violated by graphs with self loops**: a vertex tells itself of its new colour and looks again, at the
same time as its neighbour does. -/
theorem C67_selfloop_false : ¬ ∀ (T : Nat) (own : Nat → Nat) (_ : ∀ v, own v < T) (es : List (Nat × Nat × Nat)) (_ : Positions es) (xs : List (Act Nat)) (s : St Nat Mail Unit Nat)
    (_ : run colouring (cfg T own) (start colouring (graph es)) xs = some s), ∃ B, ∀ ys s', NoTopology ys → run colouring (cfg T own) s ys = some s' → ys.length ≤ B := by
  intro hall
  have hsup : Supp 2 (start colouring (graph g67)) := by
    refine supp_loaded colouring 2 (graph g67) (fun v hv => ?_) fun v e he => ?_
    · unfold graph
      rw [List.map_eq_nil_iff, List.filter_eq_nil_iff]
      intro a ha hd
      have hd : a.1 = v := of_decide_eq_true hd
      have : ∀ a ∈ g67, a.1 < 2 := by decide
      have := this a ha
      omega
    · obtain ⟨a, ha, rfl⟩ := List.mem_map.1 he
      have : ∀ a ∈ g67, a.2.1 < 2 := by decide
      exact this a (List.mem_filter.1 ha).1
  have hstill : Still 2 (cfg 2 own34) (start colouring (graph g67)) := ⟨fun _ _ _ e => (by cases e), fun _ _ => rfl⟩
  have idle : ∀ (s : St Nat Mail Unit Nat), (s.task 0).isIdle = true → (s.task 1).isIdle = true → ∀ t, t < 2 → s.task t = .idle := by
    intro s h0 h1 t ht
    have conv : ∀ k : Task Nat Mail Unit Nat, k.isIdle = true → k = .idle := by intro k hk; cases k <;> first | rfl | cases hk
    match t, ht with
    | 0, _ => exact conv _ h0
    | 1, _ => exact conv _ h1
  cases hs : run colouring (cfg 2 own34) (start colouring (graph g67)) pre67 with
  | none => exact absurd (congrArg Option.isSome hs) (by decide +kernel)
  | some s =>
    cases hs' : run colouring (cfg 2 own34) (start colouring (graph g67)) (pre67 ++ (round67 ++ round67)) with
    | none => exact absurd (congrArg Option.isSome hs') (by decide +kernel)
    | some s' =>
      have hr : run colouring (cfg 2 own34) s (round67 ++ round67) = some s' := by
        have := run_app colouring (cfg 2 own34) pre67 (round67 ++ round67) (start colouring (graph g67))
        rw [hs', hs, Option.bind_some] at this
        exact this.symm
      obtain ⟨hsup1, hst1, -⟩ := still_run (colouring_local 2) pre67 (List.all_eq_true.1 (by decide)) hsup hstill hs
      obtain ⟨hsup2, hst2, hag⟩ := still_run (colouring_local 2) (round67 ++ round67) (List.all_eq_true.1 (by decide)) hsup1 hst1 hr
      have hseen : (run colouring (cfg 2 own34) (start colouring (graph g67)) (pre67 ++ (round67 ++ round67))).map (seen 2) =
          (run colouring (cfg 2 own34) (start colouring (graph g67)) pre67).map (seen 2) := by decide +kernel
      have hwaits : (run colouring (cfg 2 own34) (start colouring (graph g67)) (pre67 ++ (round67 ++ round67))).map (waits 2) =
          (run colouring (cfg 2 own34) (start colouring (graph g67)) pre67).map (waits 2) := by decide +kernel
      rw [hs, hs'] at hseen hwaits
      have hk : (run colouring (cfg 2 own34) (start colouring (graph g67)) pre67).map (fun s => ((s.task 0).isIdle, (s.task 1).isIdle)) = some (true, true) := by decide +kernel
      have hk' : (run colouring (cfg 2 own34) (start colouring (graph g67)) (pre67 ++ (round67 ++ round67))).map (fun s => ((s.task 0).isIdle, (s.task 1).isIdle)) = some (true, true) := by decide +kernel
      rw [hs] at hk
      rw [hs'] at hk'
      simp only [Option.map_some, Option.some.injEq, Prod.mk.injEq] at hseen hwaits hk hk'
      have heq := eq_of_seen hsup1 hsup2 hst1 hst2 hag (idle s hk.1 hk.2) (idle s' hk'.1 hk'.2) hseen hwaits
      obtain ⟨B, hB⟩ := hall 2 own34 (fun v => Nat.mod_lt _ (by decide)) g67 ⟨by decide, by intro a ha; revert a; decide⟩ pre67 s hs
      obtain ⟨l, hl⟩ := pump colouring (cfg 2 own34) (s := s) ⟨s'.log, hr.trans (congrArg some heq)⟩ (B + 1)
      have hnt : NoTopology (List.replicate (B + 1) (round67 ++ round67)).flatten := by
        intro y hy
        obtain ⟨l, hl, hm⟩ := List.mem_flatten.1 hy
        rw [(List.mem_replicate.1 hl).2] at hm
        have : (round67 ++ round67).all (fun y => match y with | .go _ => true | .recv _ _ _ => true | _ => false) = true := by decide
        have := List.all_eq_true.1 this y hm
        match y, this with
        | .go t, _ => exact .inl ⟨t, rfl⟩
        | .recv t v i, _ => exact .inr ⟨t, v, i, rfl⟩
      have := hB _ _ hnt hl
      rw [List.length_flatten, List.map_replicate, List.sum_replicate] at this
      have h26 : (round67 ++ round67).length = 26 := by decide
      rw [h26] at this
      have h2 : (B + 1) * 26 ≤ B := this
      omega

/-! ## Cases -/

theorem g34_noLoops : NoLoops (graph g34) := by
  intro v e he
  obtain ⟨a, ha, rfl⟩ := List.mem_map.1 he
  have h1 := List.mem_filter.1 ha
  have h2 : a.1 = v := of_decide_eq_true h1.2
  have : ∀ a ∈ g34, a.2.1 ≠ a.1 := by decide
  rw [← h2]
  exact this a h1.1

/-- `C67_rest` applies to the triangle when two of three vertices have looked: ten steps are left on this schedule. -/
example : ∃ s s', run colouring (cfg 2 own34) (start colouring (graph g34)) (s34s.take 16) = some s ∧ NoLoops s.edges ∧ Undirected s ∧ Positions (g34 ++ added (s34s.take 16)) ∧
    NoTopology (s34s.drop 16) ∧ (s34s.drop 16).length = 10 ∧ run colouring (cfg 2 own34) s (s34s.drop 16) = some s' ∧ Rests colouring (cfg 2 own34) s' ∧
    s.inited 1 = true ∧ s.inited 2 = true ∧ Adj s 1 2 ∧ s'.prop 1 = 1 ∧ s'.prop 2 = 2 := by
  obtain ⟨s', h1, h2, -, h4⟩ := exists_quiet_loaded (c := cfg 2 own34) (n := 3) (colouring_local 3) (graph g34)
    (by
      intro v hv
      unfold graph
      rw [List.map_eq_nil_iff, List.filter_eq_nil_iff]
      intro a ha hd
      have hd : a.1 = v := of_decide_eq_true hd
      have : ∀ a ∈ g34, a.1 < 3 := by decide
      have := this a ha
      omega)
    (by
      intro v e he
      obtain ⟨a, ha, rfl⟩ := List.mem_map.1 he
      have : ∀ a ∈ g34, a.2.1 < 3 := by decide
      exact this a (List.mem_filter.1 ha).1)
    (xs := s34s) (by decide)
    (fun s => decide (s.prop 1 = 1 ∧ s.prop 2 = 2)) (by decide +kernel)
  obtain ⟨p1, p2⟩ := of_decide_eq_true h4
  rw [← List.take_append_drop 16 s34s] at h1
  obtain ⟨s, h6, h7⟩ := Converge.run_split colouring (cfg 2 own34) _ _ _ _ h1
  have hin := congrArg (Option.map fun s => (s.inited 1, s.inited 2)) h6
  rw [show (run colouring (cfg 2 own34) (start colouring (graph g34)) (s34s.take 16)).map (fun s => (s.inited 1, s.inited 2)) = some (true, true) by decide +kernel] at hin
  simp only [Option.map_some, Option.some.injEq, Prod.mk.injEq] at hin
  have hedge : s.edges = graph g34 := by
    have : ∀ (xs : List (Act Nat)) (s s' : St Nat Mail Unit Nat), (∀ x ∈ xs, Sync.Plain x) → run colouring (cfg 2 own34) s xs = some s' → s'.edges = s.edges := by
      intro xs
      induction xs with
      | nil => intro s s' _ h; simp only [run, Option.some.injEq] at h; rw [h]
      | cons x xs ih =>
        intro s s' hx h
        simp only [run] at h
        obtain ⟨s1, h1, h2⟩ := Option.bind_eq_some_iff.1 h
        rw [ih s1 s' (fun y hy => hx y (by simp [hy])) h2]
        have hp := hx x (by simp)
        cases x with
        | add => exact hp.elim
        | del => exact hp.elim
        | recv t v i => exact edges_work rfl h1
        | go t => exact edges_work rfl h1
        | init t v =>
          simp only [step] at h1
          repeat' split at h1
          all_goals cases h1
          all_goals rfl
    refine this (s34s.take 16) _ s ?_ h6
    intro x hx
    have h8 : (s34s.take 16).all (fun y => match y with | .add _ _ _ => false | .del _ _ _ => false | _ => true) = true := by decide
    have h9 := List.all_eq_true.1 h8 x hx
    match x, h9 with
    | .go _, _ => trivial
    | .recv _ _ _, _ => trivial
    | .init _ _, _ => trivial
  have hnt : (s34s.drop 16).all (fun y => match y with | .go _ => true | .recv _ _ _ => true | _ => false) = true := by decide
  refine ⟨s, s', h6, by rw [hedge]; exact g34_noLoops, ?_, ⟨by decide, by intro a ha; revert a; decide⟩, ?_, by decide, h7, Converge.rests_of_quiet h2, hin.1.symm, hin.2.symm, ?_, p1, p2⟩
  · rintro u v ⟨e, he, rfl⟩
    unfold Adj
    rw [hedge] at he ⊢
    obtain ⟨a, ha, rfl⟩ := List.mem_map.1 he
    have h8 := List.mem_filter.1 ha
    have h9 : a.1 = u := of_decide_eq_true h8.2
    have : ∀ a ∈ g34, ∃ b ∈ g34, b.1 = a.2.1 ∧ b.2.1 = a.1 := by decide
    obtain ⟨b, hb, hb1, hb2⟩ := this a h8.1
    exact ⟨⟨b.2.1, b.2.2⟩, List.mem_map.2 ⟨b, List.mem_filter.2 ⟨hb, decide_eq_true hb1⟩, rfl⟩, hb2.trans h9⟩
  · intro y hy
    have := List.all_eq_true.1 hnt y hy
    match y, this with
    | .go t, _ => exact .inl ⟨t, rfl⟩
    | .recv t v i, _ => exact .inr ⟨t, v, i, rfl⟩
  · exact ⟨⟨2, 1⟩, by rw [hedge]; decide, rfl⟩

/-- Three vertices, two threads. -/
def cfgS67 (prev : Bool) : Sync.Cfg Mail :=
  { n := 3, T := 2, own := fun v => v % 2, verts := fun t => if t = 0 then [0, 2] else if t = 1 then [1] else [],
    initMail := fun v => some { scratch := [], pos := 0, colour := 0, box := v }, prev := prev, cap := 3 }

theorem cfgS67_ok (prev : Bool) : (cfgS67 prev).Ok := by
  refine ⟨fun t v => ?_, fun v _ => ?_⟩
  · simp only [cfgS67]
    split
    · simp; omega
    · split
      · simp; omega
      · simp; omega
  · simp only [cfgS67]; omega

/-- 0 and 1 look at the same time. -/
def sync67 : List Sync.Act :=
  [.init 0 0, .init 1 1, .go 0, .go 1] ++ List.replicate 7 (.go 0) ++ List.replicate 4 (.go 1) ++ [.init 0 2] ++ List.replicate 4 (.go 0) ++ [.barrier] ++
  [.scan 0, .scan 1] ++ List.replicate 5 (.go 1) ++ [.scan 0, .go 0, .go 0, .barrier]

/-- The hypotheses of `C67_sync` and `C67_sync_proper` are met by the triangle. -/
example : (Sync.run colouring (cfgS67 false) (Sync.start colouring (graph g34)) sync67).map (fun s => (s.phase, s.prop 0, s.prop 1, s.prop 2)) = some (.stopped, 0, 2, 1) ∧
    (cfgS67 false).Ok ∧ Positions g34 ∧ Sync.Within 3 (graph g34) ∧ NoLoops (graph g34) ∧ ∀ a ∈ g34, ∃ b ∈ g34, b.1 = a.2.1 ∧ b.2.1 = a.1 := by
  refine ⟨by decide +kernel, cfgS67_ok false, ⟨by decide, by intro a ha; revert a; decide⟩, ⟨fun v hv => ?_, fun v e he => ?_⟩, g34_noLoops, by decide⟩
  · unfold graph
    rw [List.map_eq_nil_iff, List.filter_eq_nil_iff]
    intro a ha hd
    have hd : a.1 = v := of_decide_eq_true hd
    have : ∀ a ∈ g34, a.1 < 3 := by decide
    have := this a ha
    omega
  · obtain ⟨a, ha, rfl⟩ := List.mem_map.1 he
    have : ∀ a ∈ g34, a.2.1 < 3 := by decide
    exact this a (List.mem_filter.1 ha).1

open Verif.Engine Verif.Props.Engine in
/-- The hypotheses of `C67_returns_partial` are met by the triangle when all vertices have looked: the threads take
five and six instructions in turns until both leave. -/
example : ∃ e : Exec colouring (cfg 2 own34) 1024, Async.run colouring (cfg 2 own34) (Async.start colouring (graph g34)) (s34s.take 20) = some (e.st 0).alg ∧ Start (cfg 2 own34) 1024 (e.st 0) ∧ e.Fair ∧ Fresh e ∧
    (∀ t, (e.st 0).term.closed t = true) ∧ (∀ i y, e.act i ≠ .topo y) ∧ Positions (g34 ++ added (s34s.take 20 ++ topos ((List.range 0).map e.act))) ∧ NoLoops (e.st 0).alg.edges ∧ Undirected (e.st 0).alg := by
  have hd : (Async.run colouring (cfg 2 own34) (Async.start colouring (graph g34)) (s34s.take 20)).map (fun s =>
      (List.range 2).all (fun t => isIdle (s.task t)) && (List.range 3).all (fun v => decide (s.pend v = [(1, ()), (2, ())].filterMap fun x => if x.1 = v then some x.2 else none)) &&
      (List.range 3).all (fun v => decide ((s.edges v).map (·.dst) = (graph g34 v).map (·.dst))) &&
      smooth colouring (cfg 2 own34) 1024 (begin0 (cfg 2 own34) s [(1, ()), (2, ())]) ((List.range 300).map fun i => [0, 0, 0, 0, 0, 1, 1, 1, 1, 1, 1].getD (i % [0, 0, 0, 0, 0, 1, 1, 1, 1, 1, 1].length) 0)) = some true := by
    decide +kernel
  obtain ⟨s, hs, h⟩ := Option.map_eq_some_iff.1 hd
  simp only [Bool.and_eq_true] at h
  obtain ⟨⟨⟨h1, h2⟩, h3⟩, h4⟩ := h
  have hsup := supp_run (colouring_local 3) (xs := s34s.take 20) (by decide) (supp_loaded _ 3 (graph g34)
    (by
      intro v hv
      unfold graph
      rw [List.map_eq_nil_iff, List.filter_eq_nil_iff]
      intro a ha hd
      have hd : a.1 = v := of_decide_eq_true hd
      have : ∀ a ∈ g34, a.1 < 3 := by decide
      have := this a ha
      omega)
    (by
      intro v e he
      obtain ⟨a, ha, rfl⟩ := List.mem_map.1 he
      have : ∀ a ∈ g34, a.2.1 < 3 := by decide
      exact this a (List.mem_filter.1 ha).1)) hs
  obtain ⟨e, e1, e2, e3, e4, e5, e6⟩ := exists_exec colouring (cfg 2 own34) 1024 (fun v => Nat.mod_lt _ (by decide)) (by decide) (graph g34) _ s hs hsup [(1, ()), (2, ())] [0, 0, 0, 0, 0, 1, 1, 1, 1, 1, 1]
    (fun t ht => by have : t < 2 := ht; have : t = 0 ∨ t = 1 := by omega
                    rcases this with rfl | rfl <;> simp) 300
    (fun t ht => List.all_eq_true.1 h1 t (List.mem_range.2 ht)) (fun v hv => of_decide_eq_true (List.all_eq_true.1 h2 v (List.mem_range.2 hv))) (by decide) h4
  have hdst : ∀ u v, Adj s u v ↔ u < 3 ∧ v ∈ (graph g34 u).map (·.dst) := by
    intro u v
    constructor
    · rintro ⟨x, hx, rfl⟩
      have hu : u < 3 := by
        by_contra hu
        rw [hsup.edges u (by omega)] at hx; cases hx
      refine ⟨hu, ?_⟩
      rw [← of_decide_eq_true (List.all_eq_true.1 h3 u (List.mem_range.2 hu))]
      exact List.mem_map_of_mem hx
    · rintro ⟨hu, hv⟩
      rw [← of_decide_eq_true (List.all_eq_true.1 h3 u (List.mem_range.2 hu))] at hv
      obtain ⟨x, hx, rfl⟩ := List.mem_map.1 hv
      exact ⟨x, hx, rfl⟩
  have hsym : ∀ u, u < 3 → ∀ v ∈ (graph g34 u).map (·.dst), v < 3 ∧ v ≠ u ∧ u ∈ (graph g34 v).map (·.dst) := by decide
  refine ⟨e, by rw [e1]; exact hs, e2, e3, e4, e5, e6, ?_, ?_, ?_⟩
  · have : Positions (g34 ++ added (s34s.take 20)) := ⟨by decide, by intro a ha; revert a; decide⟩
    rw [List.range_zero, List.map_nil, show topos ([] : List (Engine.Act Nat)) = [] from rfl, List.append_nil]
    exact this
  · intro v x hx
    rw [e1] at hx
    obtain ⟨hv, hm⟩ := (hdst v x.dst).1 ⟨x, hx, rfl⟩
    exact (hsym v hv x.dst hm).2.1
  · rw [e1]
    intro u v huv
    obtain ⟨hu, hm⟩ := (hdst u v).1 huv
    obtain ⟨hv, -, hm'⟩ := hsym u hu v hm
    exact (hdst v u).2 ⟨hv, hm'⟩

end Verif.Props.Colouring
