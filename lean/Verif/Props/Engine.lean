import Verif.EngineInv
import Verif.Props.Terminate
import Verif.Props.Converge
import Verif.Props.Colouring

/-!
# Results are final when all threads have left their loops (C63)

C35 is false: a thread can leave its loop while a notification is waiting. But the results are used only after all
threads have left (`wg.Wait`, `graph/run-async.go:266`, `graph/run-dynamic.go:401`), and then nothing is
waiting, in every execution (`C63_all`): the failure of C35 makes the run hang, never return early.
With the algorithm attached (`Verif/Engine.lean`), the state then returned is the final state of a run of the
algorithm in which nothing is outstanding (`C63_final`), so what was shown for such states holds for what the user
gets: `C63_sssp`, `C63_cc`, `C63_colouring`. Until then no thread is ever stuck (`C63_enabled`).
-/

namespace Verif.Props.Engine

open Verif Verif.Engine
open Verif.Async (Alg Edge Prog Task Quiet)

/-- **C63**, the protocol alone: in every execution, when all threads have left their loops, every notification has
been processed, no thread has anything in hand, and the counts agree. -/
theorem C63_all {c : Term.Cfg} (hm : 0 < c.max) {s0 s : Term.St} (h0 : Term.Start c s0) {xs : List Term.Act} (h : Term.run c s0 xs = some s)
    (hd : ∀ t, t < c.n → s.pc t = .done) : Term.NothingInFlight c s := by
  obtain ⟨h1, h2, h3, ⟨_, _, _, h5⟩, hb⟩ := Term.levels hm h0 h
  refine Term.nothing_of_still (fun t ht => ?_) hb
  obtain ⟨e1, e2⟩ := Term.empty_of_done h1 h2 h3 h5 hd t ht
  exact ⟨e1, e2, by rw [hd t ht]; rfl, h1.clo t (.inl (by rw [hd t ht]; rfl))⟩

/-! ## With the algorithm -/

variable {P M N E : Type} [DecidableEq N]

/-- The start of a phase: the loops as in `Term.Start`, no callback running, and the queues hold the notifications
outstanding after `SendInitialMail` (`run-async.go:14-104`; none in a dynamic run). -/
structure Start (c : Async.Cfg M N) (max : Nat) (s : St P M N E) : Prop where
  term : Term.Start ⟨c.T, max⟩ s.term
  task : ∀ t, s.alg.task t = .idle
  hand : ∀ t, s.hand t = []
  buff : ∀ t, s.buff t = []
  queue : ∀ t, s.term.queue t = (s.queue t).map Prod.fst
  own : ∀ t, ∀ x ∈ s.queue t, c.own x.2.1 = t
  pend : ∀ v, (s.alg.pend v).Perm ((s.queue (c.own v)).filterMap fun x => if x.2.1 = v then some x.2.2 else none)

omit [DecidableEq N] in
theorem Start.inv {c : Async.Cfg M N} {max : Nat} {s : St P M N E} (h : Start c max s) : Inv c s := by
  have hfull : ∀ q, ∀ x ∈ s.queue q, x.1.full = true := fun q x hx =>
    (h.term.full q x.1 (by rw [h.queue]; exact List.mem_map_of_mem hx)).1
  refine ⟨h.queue, fun t => by rw [h.buff, h.term.buff]; rfl, fun t _ => by rw [h.hand, h.term.pc]; rfl, fun t ht => absurd (h.task t) ht,
    fun t w k e n q hp => ?_, fun v => ?_, fun q x hx hf => ?_, h.own, fun q x hx => ?_, fun q x hx => ?_⟩
  · rw [h.term.pc] at hp; cases hp
  · rw [h.hand, h.buff, notes_nil, zero_add, zero_add, notes, Multiset.coe_eq_coe]
    have : filled (s.queue (c.own v)) = (s.queue (c.own v)).map Prod.snd := by
      rw [filled, List.filter_eq_self.2 fun x hx => hfull _ x hx]
    rw [this, List.filterMap_map]
    exact h.pend v
  · rw [hfull q x hx] at hf; cases hf
  · rw [h.buff] at hx; cases hx
  · rw [h.hand] at hx; cases hx

/-- All threads have left their loops. -/
def Finished (c : Async.Cfg M N) (s : St P M N E) : Prop := ∀ t, t < c.T → s.term.pc t = .done

/-- **C63.** When all threads have left their loops, the algorithm is in a state reached by its own steps and the
topology events in which nothing is outstanding, and as many notifications were received as sent. -/
theorem C63_final (a : Alg P M N E) (c : Async.Cfg M N) (max : Nat) (hm : 0 < max) (hown : ∀ v, c.own v < c.T) (s0 s : St P M N E) (h0 : Start c max s0)
    (xs : List (Act E)) (h : run a c max s0 xs = some s) (hd : Finished c s) :
    Quiet c s.alg ∧ ((Finset.range c.T).sum fun t => s.term.msgSend t) = ((Finset.range c.T).sum fun t => s.term.msgRecv t) ∧
    ∃ ys, Async.run a c s0.alg ys = some s.alg ∧ changes ys = topos xs := by
  obtain ⟨hinv, ⟨zs, hz⟩, hys⟩ := proj h
  have hi := hinv h0.inv
  obtain ⟨hn, hcnt⟩ := C63_all (c := ⟨c.T, max⟩) hm h0.term hz hd
  refine ⟨⟨fun t ht => ?_, fun v => ?_⟩, hcnt, hys⟩
  · by_contra hc
    have := hi.idle t hc
    rw [hd t ht] at this; cases this
  · obtain ⟨e1, e2, -, -⟩ := hn (c.own v) (hown v)
    have hq : s.queue (c.own v) = [] := by
      rw [hi.que] at e1; exact List.map_eq_nil_iff.1 e1
    have hb : s.buff (c.own v) = [] := by
      have := hi.buf (c.own v)
      rw [e2] at this; exact List.length_eq_zero_iff.1 this
    have hh : s.hand (c.own v) = [] := by
      have := hi.han (c.own v) (by rw [hd _ (hown v)]; rfl)
      rw [hd _ (hown v)] at this; exact List.length_eq_zero_iff.1 this
    have := hi.cont v
    rw [hq, hb, hh] at this
    simpa [notes, filled] using this

/-- The next instruction of thread `t`. -/
def next (s : St P M N E) (t : Nat) : Act E :=
  match s.term.pc t with
  | .put .. => .fill t
  | .work kd _ _ _ =>
    match s.alg.task t with
    | .put .. => .claim t
    | .idle =>
      match kd, s.hand t with
      | .msgs, (v, n) :: _ => .take t ((s.alg.pend v).idxOf n)
      | _, _ => .loop (.go t)
    | _ => .work t
  | _ => .loop (.go t)

/-- A thread that has not left its loop can always go on, whatever the others do. -/
theorem C63_enabled (a : Alg P M N E) (c : Async.Cfg M N) (max : Nat) (hown : ∀ v, c.own v < c.T) (s0 s : St P M N E) (h0 : Start c max s0)
    (xs : List (Act E)) (h : run a c max s0 xs = some s) (t : Nat) (ht : t < c.T) (hd : s.term.pc t ≠ .done) :
    ∃ s', step a c max s (next s t) = some s' := by
  have hi := (proj h).1 h0.inv
  have hgo : ∀ τ : Term.St, τ.pc t ≠ .done → ∃ τ', Term.step ⟨c.T, max⟩ τ (.go t) = some τ' := by
    intro τ hτ
    simp only [Term.step, if_pos ht]
    unfold Term.goStep
    repeat' split
    all_goals first | exact ⟨_, rfl⟩ | contradiction
  have hlp : batchDone s t (s.term.pc t) = true → ∃ s', step a c max s (.loop (.go t)) = some s' := by
    intro hb
    obtain ⟨τ, hτ⟩ := hgo s.term hd
    simp only [step, if_pos hb, hτ, Option.map_some]
    exact ⟨_, rfl⟩
  have hal : s.alg.task t ≠ .idle → ∃ α, Async.step a c s.alg (.go t) = some α := by
    intro hn
    simp only [Async.step, if_pos ht]
    unfold Async.goStep
    repeat' (first | split | (dsimp only; split))
    all_goals first | exact ⟨_, rfl⟩ | contradiction
  unfold next
  split
  · rename_i hp
    obtain ⟨v, u, m, p, l, r, sl, htask, -⟩ := hi.put t _ _ _ _ _ hp
    obtain ⟨τ, hτ⟩ := hgo s.term hd
    obtain ⟨α, hα⟩ := hal (by rw [htask]; simp)
    simp only [step, hp, htask, hτ, hα, Option.bind_some, Option.map_some]
    exact ⟨_, rfl⟩
  · rename_i kd k e n hp
    split
    · rename_i htask
      simp only [step, htask, Term.step, hp, if_pos (And.intro ht (hown _)), Option.map_some]
      exact ⟨_, rfl⟩
    · rename_i htask
      split
      · rename_i v m rest hh
        have hv : c.own v = t := hi.ownH t (v, m) (by rw [hh]; exact List.mem_cons_self)
        have hmem : m ∈ s.alg.pend v := by
          have := hi.cont v
          rw [hv, hh, notes_cons, if_pos rfl] at this
          have hm : m ∈ (s.alg.pend v : Multiset N) := by
            rw [this]; simp
          exact Multiset.mem_coe.1 hm
        have hget : (s.alg.pend v)[(s.alg.pend v).idxOf m]? = some m := by
          rw [List.getElem?_eq_getElem (List.idxOf_lt_length_of_mem hmem), List.getElem_idxOf]
        simp only [step, hp, hh, Async.step, Async.free, ht, hv, htask, hget, decide_true, Bool.and_self, if_true, Option.map_some]
        exact ⟨_, rfl⟩
      · rename_i hno
        refine hlp ?_
        rw [hp]
        rename_i kd _ _
        revert hp hno
        cases kd with
        | msgs =>
          intro hp hno
          cases hh : s.hand t with
          | nil => simp [batchDone, htask, isIdle, hh]
          | cons x rest => exact absurd hh (hno x.1 x.2 rest rfl)
        | events => intro hp hno; simp [batchDone, htask, isIdle]
        | eventsOnly => intro hp hno; simp [batchDone, htask, isIdle]
    · rename_i hnp hni
      obtain ⟨α, hα⟩ := hal hni
      simp only [step, hp, hα, Option.map_some]
      exact ⟨_, rfl⟩
  · rename_i hnput hnwork
    refine hlp ?_
    revert hnput hnwork
    cases s.term.pc t <;> simp [batchDone]

/-! ## What the user gets -/

omit [DecidableEq N] in
theorem mem_topos {xs : List (Act E)} {y : Async.Act E} (h : y ∈ topos xs) : Act.topo y ∈ xs := by
  obtain ⟨x, hx, e⟩ := List.mem_filterMap.1 h
  cases x <;> simp only [Option.some.injEq, reduceCtorEq] at e
  subst e; exact hx

open Verif.MinLabel Verif.Props.MinLabel Verif.Props.Converge in
/-- **C63** for shortest paths: `xs0` is `SendInitialMail` in a static run on the graph `es0` (empty in a dynamic
run). The distances returned are exact. -/
theorem C63_sssp (c : Async.Cfg Dist Unit) (max : Nat) (hm : 0 < max) (hown : ∀ v, c.own v < c.T)
    (src : Nat) (hc : ∀ v, c.initMail v = if v = src then some 0 else none)
    (es0 : Nat → List (Edge ℚ)) (xs0 : List (Async.Act ℚ)) (hx0 : NoDeletes xs0) (s0 s : St Dist Dist Unit ℚ)
    (hs0 : Async.run sssp c (Async.start sssp es0) xs0 = some s0.alg) (h0 : Start c max s0)
    (xs : List (Act ℚ)) (hx : ∀ t v k, Act.topo (.del t v k) ∉ xs) (h : run sssp c max s0 xs = some s) (hd : Finished c s) (hsrc : s.alg.inited src = true) (v : Nat) :
    (s.alg.prop v = ⊤ ↔ ¬ ∃ d, Walk s.alg.edges src v d) ∧ ∀ d : ℚ, s.alg.prop v = (d : Dist) ↔ IsLeast {x | Walk s.alg.edges src v x} d := by
  obtain ⟨hq, -, ys, hys, hk⟩ := C63_final sssp c max hm hown s0 s h0 xs h hd
  refine C31_exact c src hc (fun v _ => hown v) (xs0 ++ ys) ?_ s.alg (run_append _ _ xs0 ys _ _ _ hs0 hys) hq hsrc v
  intro t u k hmem
  rcases List.mem_append.1 hmem with hmem | hmem
  · exact hx0 t u k hmem
  · exact hx t u k (mem_topos (hk ▸ List.mem_filter.2 ⟨hmem, rfl⟩))

open Verif.MinLabel Verif.Props.MinLabel Verif.Props.Converge in
/-- **C63** for components on an undirected graph: the labels returned are the smallest raw ids. -/
theorem C63_cc (c : Async.Cfg Label Unit) (max : Nat) (hm : 0 < max) (hown : ∀ v, c.own v < c.T)
    (raw : Nat → Label) (hc : ∀ v, c.initMail v = some (raw v))
    (es0 : Nat → List (Edge Unit)) (xs0 : List (Async.Act Unit)) (hx0 : NoDeletes xs0) (s0 s : St Label Label Unit Unit)
    (hs0 : Async.run cc c (Async.start cc es0) xs0 = some s0.alg) (h0 : Start c max s0)
    (xs : List (Act Unit)) (hx : ∀ t v k, Act.topo (.del t v k) ∉ xs) (h : run cc c max s0 xs = some s) (hd : Finished c s)
    (hund : MinLabel.Undirected s.alg.edges) (hin : ∀ u e, e ∈ s.alg.edges u → s.alg.inited u = true ∧ s.alg.inited e.dst = true)
    (v : Nat) (hv : s.alg.inited v = true) : IsLeast {x | ∃ u, Connected s.alg.edges u v ∧ raw u = x} (s.alg.prop v) := by
  obtain ⟨hq, -, ys, hys, hk⟩ := C63_final cc c max hm hown s0 s h0 xs h hd
  refine C32_exact c raw hc (fun v _ => hown v) (xs0 ++ ys) ?_ s.alg (run_append _ _ xs0 ys _ _ _ hs0 hys) hq hin hund v hv
  intro t u k hmem
  rcases List.mem_append.1 hmem with hmem | hmem
  · exact hx0 t u k hmem
  · exact hx t u k (mem_topos (hk ▸ List.mem_filter.2 ⟨hmem, rfl⟩))

theorem added_changes (ys : List (Async.Act Nat)) : Colouring.added (changes ys) = Colouring.added ys := by
  induction ys with
  | nil => rfl
  | cons y ys ih =>
    rw [changes_cons]
    simp only [Colouring.added, List.flatMap_append, List.flatMap_cons] at ih ⊢
    rw [ih]
    cases y <;> simp [changes, topoThread]

open Verif.Colouring Verif.Props.Colouring Verif.Props.Converge in
/-- **C63** for colouring on a graph that is undirected in the end: neighbours have different colours in the
result, after any history of additions and deletions. -/
theorem C63_colouring (T : Nat) (own : Nat → Nat) (max : Nat) (hm : 0 < max) (hown : ∀ v, own v < T)
    (es : List (Nat × Nat × Nat)) (xs0 : List (Async.Act Nat)) (s0 s : St Nat Mail Unit Nat)
    (hs0 : Async.run colouring (cfg T own) (Async.start colouring (graph es)) xs0 = some s0.alg) (h0 : Start (cfg T own) max s0)
    (xs : List (Act Nat)) (hpos : Positions (es ++ added (xs0 ++ topos xs))) (h : run colouring (cfg T own) max s0 xs = some s) (hd : Finished (cfg T own) s)
    (hu : Undirected s.alg) (u v : Nat) (hin : s.alg.inited u = true ∧ s.alg.inited v = true) (ha : Adj s.alg u v) (hne : u ≠ v) : s.alg.prop u ≠ s.alg.prop v := by
  obtain ⟨hq, -, ys, hys, hk⟩ := C63_final colouring (cfg T own) max hm hown s0 s h0 xs h hd
  refine C34_proper T own hown es (xs0 ++ ys) ?_ s.alg (run_append _ _ xs0 ys _ _ _ hs0 hys) hq hu u v hin ha hne
  rw [← hk] at hpos
  have := added_changes ys
  simp only [added, List.flatMap_append] at this hpos ⊢
  rwa [this] at hpos

/-! ## A run

Two threads, the path `1 → 2 → 3` with lengths 5 and 1, source 1. Before the threads start, thread 1 has initialized
vertex 1 and put its own notification into its queue. Thread 1 processes it and so on: the threads take
turns until both have left. -/

/-- Runs the next instruction of each thread in turn as given by `sched`. -/
def drive (a : Alg P M N E) (c : Async.Cfg M N) (max : Nat) : St P M N E → List Nat → List (Act E) × St P M N E
  | s, [] => ([], s)
  | s, t :: ts =>
    match step a c max s (next s t) with
    | some s' => let r := drive a c max s' ts; (next s t :: r.1, r.2)
    | none => drive a c max s ts

theorem drive_run (a : Alg P M N E) (c : Async.Cfg M N) (max : Nat) : ∀ (s : St P M N E) (ts : List Nat),
    run a c max s (drive a c max s ts).1 = some (drive a c max s ts).2
  | s, [] => rfl
  | s, t :: ts => by
    rw [drive]
    split
    · rename_i s' h
      simp only [run, h, Option.bind_some]
      exact drive_run a c max s' ts
    · exact drive_run a c max s ts

theorem drive_topo (a : Alg P M N E) (c : Async.Cfg M N) (max : Nat) : ∀ (s : St P M N E) (ts : List Nat) (y : Async.Act E),
    Act.topo y ∉ (drive a c max s ts).1
  | s, [], y => by simp [drive]
  | s, t :: ts, y => by
    rw [drive]
    split
    · rename_i s' h
      simp only [List.mem_cons, not_or]
      refine ⟨?_, drive_topo a c max s' ts y⟩
      unfold next
      repeat' split
      all_goals simp
    · exact drive_topo a c max s ts y

open Verif.MinLabel

def c63 : Async.Cfg Dist Unit := ⟨2, fun v => v % 2, fun v => if v = 1 then some 0 else none, fun _ => none⟩
def g63 : Nat → List (Edge ℚ) := fun v => if v = 1 then [⟨2, 5⟩] else if v = 2 then [⟨3, 1⟩] else []


/-- `SendInitialMail`: vertex 1 passes 5 on to vertex 2. -/
def mail63 : List (Async.Act ℚ) := [.init 1 1, .go 1, .go 1, .go 1, .go 1, .go 1]

def a63 : Async.St Dist Dist Unit ℚ := (Async.run sssp c63 (Async.start sssp g63) mail63).getD (Async.start sssp g63)

def s63 : St Dist Dist Unit ℚ where
  term := { Term.ex0 with queue := fun t => if t = 0 then [⟨1, 0, true⟩] else [] }
  alg := a63
  queue := fun t => if t = 0 then [(⟨1, 0, true⟩, 2, ())] else []
  buff := fun _ => []
  hand := fun _ => []

theorem a63_run : Async.run sssp c63 (Async.start sssp g63) mail63 = some a63 := by
  have h : (Async.run sssp c63 (Async.start sssp g63) mail63).isSome = true := by decide +kernel
  obtain ⟨s, hs⟩ := Option.isSome_iff_exists.1 h
  rw [a63, hs]; rfl

theorem a63_pend (v : Nat) : a63.pend v = if v = 2 then [()] else [] := by
  have hsup := Async.supp_run (n := 4) (sssp_eq ▸ minAlg_local _ _ 4) (xs := mail63) (by decide)
    (Async.supp_loaded sssp 4 g63 (fun v hv => by simp only [g63]; rw [if_neg (by omega), if_neg (by omega)])
      (fun v e he => by
        simp only [g63] at he
        split at he
        · simp at he; rw [he]; decide
        · split at he
          · simp at he; rw [he]; decide
          · cases he)) a63_run
  by_cases hv : v < 4
  · have : ∀ v, v < 4 → a63.pend v = if v = 2 then [()] else [] := by decide +kernel
    exact this v hv
  · rw [hsup.pend v (by omega), if_neg (by omega)]

omit [DecidableEq N] in
/-- Threads not in the program do nothing. -/
theorem task_out {a : Alg P M N E} {c : Async.Cfg M N} : ∀ {xs : List (Async.Act E)} {s s' : Async.St P M N E}, Async.run a c s xs = some s' → ∀ t, c.T ≤ t → s'.task t = s.task t
  | [], s, s', h, t, ht => by simp only [Async.run, Option.some.injEq] at h; rw [h]
  | x :: xs, s, s', h, t, ht => by
    simp only [Async.run] at h
    obtain ⟨s1, h1, h2⟩ := Option.bind_eq_some_iff.1 h
    rw [task_out h2 t ht]
    have hf : ∀ u v, Async.free c s u v = true → t ≠ u := by
      intro u v hu e
      simp only [Async.free, Bool.and_eq_true, decide_eq_true_eq] at hu
      omega
    cases x with
    | init u v =>
      simp only [Async.step] at h1
      repeat' split at h1
      all_goals cases h1
      all_goals first | rfl | (dsimp only; exact upd_ne _ _ (hf _ _ (by tauto)))
    | recv u v i =>
      simp only [Async.step] at h1
      repeat' split at h1
      all_goals cases h1
      all_goals first | rfl | (dsimp only; exact upd_ne _ _ (hf _ _ (by tauto)))
    | add u v i =>
      simp only [Async.step] at h1
      repeat' split at h1
      all_goals cases h1
      all_goals first | rfl | (dsimp only; exact upd_ne _ _ (hf _ _ (by tauto)))
    | del u v i =>
      simp only [Async.step] at h1
      repeat' split at h1
      all_goals cases h1
      all_goals first | rfl | (dsimp only; exact upd_ne _ _ (hf _ _ (by tauto)))
    | go u =>
      simp only [Async.step] at h1
      split at h1
      · rename_i hu
        have htu : t ≠ u := by omega
        unfold Async.goStep at h1
        repeat' (first | split at h1 | (dsimp only at h1; split at h1))
        all_goals cases h1
        all_goals first | rfl | (dsimp only; exact upd_ne _ _ htu)
      · cases h1

theorem s63_start : Start c63 1024 s63 := by
  refine ⟨⟨fun _ => rfl, fun _ => rfl, fun t sl h => ?_, fun _ => rfl, fun _ => rfl, fun _ => rfl, fun _ _ => rfl, fun _ _ => rfl, fun _ _ => rfl, fun _ => rfl, fun _ => rfl, rfl⟩,
    fun t => ?_, fun _ => rfl, fun _ => rfl, fun t => ?_, fun t x hx => ?_, fun v => ?_⟩
  · simp only [s63] at h
    split at h
    · rw [List.mem_singleton] at h; subst h; decide
    · cases h
  · by_cases ht : t < 2
    · have h2 : ∀ t, t < 2 → isIdle (a63.task t) = true := by decide +kernel
      have := h2 t ht
      change a63.task t = _
      revert this; cases a63.task t <;> simp [isIdle]
    · exact task_out a63_run t (by simp only [c63]; omega)
  · simp only [s63]; split <;> rfl
  · simp only [s63] at hx
    split at hx
    · rename_i e; rw [List.mem_singleton] at hx; rw [hx, e]; rfl
    · cases hx
  · change (a63.pend v).Perm _
    rw [a63_pend]
    by_cases hv : v = 2
    · subst hv; decide
    · rw [if_neg hv]
      simp only [s63]
      split
      · rw [List.filterMap_cons]; simp [Ne.symm hv]
      · rfl

def turns63 : List Nat := (List.replicate 40 [0, 0, 0, 0, 0, 1, 1, 1, 1, 1, 1]).flatten

/-- The hypotheses of `C63_sssp` are met: both threads leave, after two notifications; 3 is at distance 6. -/
example : ∃ xs s, run sssp c63 1024 s63 xs = some s ∧ Finished c63 s ∧ s.alg.inited 1 = true ∧ (∀ y, Act.topo y ∉ xs) ∧
    s.alg.prop 3 = ((6 : ℚ) : Dist) ∧ s.term.msgRecv 0 + s.term.msgRecv 1 = 2 := by
  refine ⟨_, _, drive_run sssp c63 1024 s63 turns63, ?_, by decide +kernel, fun y hy => ?_, by decide +kernel, by decide +kernel⟩
  · intro t ht
    have : ∀ t, t < 2 → (drive sssp c63 1024 s63 turns63).2.term.pc t = .done := by decide +kernel
    exact this t ht
  · exact drive_topo sssp c63 1024 s63 turns63 y hy

end Verif.Props.Engine
