import Verif.MinLabelInit
import Verif.Props.SyncQueue

/-!
# Synchronous runs end (C65)

For both variants, every number of threads, every order of the vertices and every interleaving.
-/

namespace Verif.Props.Sync

open Verif
open Verif.Async (Edge Alg Task)
open Verif.Sync Verif.MinLabel Verif.Props.MinLabel

variable {P M N E : Type}

theorem queue_step {a : Alg P M N E} {c : Cfg M} {s s' : St P M N E} {x : Act} (hs : step a c s x = some s') (t : Nat) :
    (s'.queue t).length ≤ (s.queue t).length + 1 := by
  sync_cases hs
  all_goals grind [upd]

/-- A queue holds no more than there were steps. -/
theorem queue_run {a : Alg P M N E} {c : Cfg M} {s' : St P M N E} : ∀ (xs : List Act) (s : St P M N E), run a c s xs = some s' →
    ∀ t, (s'.queue t).length ≤ (s.queue t).length + xs.length
  | [], s, hr, t => by simp only [run, Option.some.injEq] at hr; rw [hr]; exact Nat.le_add_right _ _
  | x :: xs, s, hr, t => by
    simp only [run] at hr
    obtain ⟨s1, h1, h2⟩ := Option.bind_eq_some_iff.1 hr
    have h3 := queue_run xs s1 h2 t
    have h4 := queue_step h1 t
    rw [List.length_cons]
    omega

/-- No thread waits for room if there is some. -/
theorem go_room {a : Alg P M N E} {c : Cfg M} {s : St P M N E} (hq : ∀ t, (s.queue t).length < c.cap) (t : Nat) (ht : t < c.T)
    (hb : s.task t ≠ .idle) : ∃ s', step a c s (.go t) = some s' := by
  simp only [step, if_pos ht]
  cases hk : s.task t with
  | idle => exact absurd hk hb
  | load v g => exact ⟨_, rfl⟩
  | run v q =>
    cases q with
    | done => exact ⟨_, rfl⟩
    | post w m k => simp only [goStep]; split <;> exact ⟨_, rfl⟩
    | send w m k => exact ⟨_, rfl⟩
  | cas v w k => simp only [goStep]; split <;> exact ⟨_, rfl⟩
  | put v w m k =>
    simp only [goStep]
    rw [if_pos (hq _)]
    exact ⟨_, rfl⟩

/-- With queues of size `cap`. -/
def sized (c : Cfg M) (cap : Nat) : Cfg M := { c with cap := cap }

theorem sized_ok {c : Cfg M} (h : c.Ok) (cap : Nat) : (sized c cap).Ok := ⟨h.mem, h.own⟩

/-- Queues that do not fill up: larger than `B`, or, when only mail of the previous iteration is used, large
enough for the vertices of the thread. -/
def Ample (c : Cfg M) (cap B : Nat) : Prop := B < cap ∨ (c.prev = true ∧ ∀ t, (c.verts t).length ≤ cap)

/-- If asynchronous runs of an algorithm are bounded then synchronous runs are, and end by stopping. -/
theorem sync_of_bound (a : Alg P M N E) (hu : ∀ v p es n i m, (a.onUpdate v p es n i m).2.Unique) (c : Cfg M) (hc : c.Ok) (hloc : Async.Local a c.n)
    (es0 : Nat → List (Edge E)) (hes : Within c.n es0) (K : Nat)
    (hK : ∀ ys r, (∀ y ∈ ys, Plain y ∧ y.below c.n = true) → Async.run a (absCfg c) (Async.start a es0) ys = some r → ys.length ≤ K) :
    ∃ B, ∀ cap xs s, run a (sized c cap) (start a es0) xs = some s →
      xs.length ≤ B ∧ (Ample c cap B → (∀ x, step a (sized c cap) s x = none) → s.phase = .stopped) := by
  refine ⟨measure c (start a es0) + (price c + 2) * K, fun cap xs s h => ?_⟩
  have hc' := sized_ok hc cap
  have hlen : xs.length ≤ measure c (start a es0) + (price c + 2) * K := by
    obtain ⟨ys, log, hy, hr, hm⟩ := count_run (c := sized c cap) hu hc' xs _ (inv_start es0) h []
    rw [abs_start] at hr
    have := Nat.mul_le_mul_left (price c + 2) (hK ys _ hy hr)
    have h1 : measure (sized c cap) (start a es0) = measure c (start a es0) := rfl
    have h2 : price (sized c cap) = price c := rfl
    rw [h1, h2] at hm
    omega
  refine ⟨hlen, fun hA hend => ?_⟩
  by_contra hst
  have : ∃ x s', step a (sized c cap) s x = some s' := by
    rcases hA with hA | ⟨hp, hA⟩
    · refine goes_on hc' h (go_room fun t => ?_) hst
      have h1 := queue_run xs _ h t
      have h2 : ((start a es0).queue t).length = 0 := rfl
      have h3 : (sized c cap).cap = cap := rfl
      omega
    · exact (C58_partial _ hu (sized c cap) hc' hA hp hloc es0 hes xs s h).2 hst
  obtain ⟨x, s', hs⟩ := this
  rw [hend x] at hs
  cases hs

/-- **C65** for any least-label algorithm whose edges do not lower labels, in any arithmetic. -/
theorem C65_bound {L : Type} [LinearOrder L] [OrderTop L] (f : E → L → L) (g : Bool) (htop : ∀ e, f e ⊤ = ⊤) (c : Cfg L) (hc : c.Ok)
    (es0 : Nat → List (Edge E)) (hes : Within c.n es0) (hinf : ∀ u e, e ∈ es0 u → ∀ x, x ≤ f e.data x) :
    ∃ B, ∀ cap xs s, run (minAlg f g) (sized c cap) (start (minAlg f g) es0) xs = some s →
      xs.length ≤ B ∧ (Ample c cap B → (∀ x, step (minAlg f g) (sized c cap) s x = none) → s.phase = .stopped) := by
  obtain ⟨K, hK⟩ := converge_start f g htop (absCfg c) (fun _ => rfl) c.n (es0 := es0)
    (fun v hv => by
      by_contra hn
      exact hv (hes.src v (Nat.le_of_not_lt hn))) hes.src hes.dst hinf
  exact sync_of_bound (minAlg f g) (minAlg_unique f g) c hc (minAlg_local f g c.n) es0 hes K fun ys r hy hr => hK ys r hy hr

/-- **C65** for shortest paths: without negative weights a synchronous run ends whatever the schedule, and,
unless its queues fill up, with the least weights of walks. -/
theorem C65_sssp (c : Cfg Dist) (hc : c.Ok) (src : Nat) (hsrc : src < c.n)
    (hi : ∀ v, c.initMail v = if v = src then some 0 else none) (es0 : Nat → List (Edge ℚ)) (hes : Within c.n es0)
    (hw : ∀ u e, e ∈ es0 u → 0 ≤ e.data) :
    ∃ B, ∀ cap xs s, run sssp (sized c cap) (start sssp es0) xs = some s →
      xs.length ≤ B ∧ (Ample c cap B → (∀ x, step sssp (sized c cap) s x = none) → s.phase = .stopped ∧
        ∀ v, (s.prop v = ⊤ ↔ ¬ ∃ d, Walk es0 src v d) ∧ ∀ d : ℚ, s.prop v = (d : Dist) ↔ IsLeast {x | Walk es0 src v x} d) := by
  have hb := sssp_eq ▸ C65_bound (fun (w : ℚ) (x : Dist) => x + (w : Dist)) true (fun e => WithTop.top_add _) c hc es0 hes
  obtain ⟨B, hB⟩ := hb fun u e he x => by
    have : (0 : Dist) ≤ ((e.data : ℚ) : Dist) := by exact_mod_cast hw u e he
    simpa using add_le_add_right this x
  refine ⟨B, fun cap xs s h => ⟨(hB cap xs s h).1, fun hA hend => ?_⟩⟩
  have hst := (hB cap xs s h).2 hA hend
  exact ⟨hst, C36_sssp (sized c cap) (sized_ok hc cap) src hsrc hi es0 hes xs s h hst⟩

/-- **C65** for components: a synchronous run ends whatever the schedule, and, unless its queues fill up, on an
undirected graph with the least raw id of each component. -/
theorem C65_cc (c : Cfg Label) (hc : c.Ok) (raw : Nat → Label) (hi : ∀ v, c.initMail v = some (raw v))
    (es0 : Nat → List (Edge Unit)) (hes : Within c.n es0) :
    ∃ B, ∀ cap xs s, run cc (sized c cap) (start cc es0) xs = some s →
      xs.length ≤ B ∧ (Ample c cap B → (∀ x, step cc (sized c cap) s x = none) → s.phase = .stopped ∧
        (Undirected es0 → ∀ v, v < c.n → IsLeast {x | ∃ u, Connected es0 u v ∧ raw u = x} (s.prop v))) := by
  have hb := cc_eq ▸ C65_bound (fun (_ : Unit) (x : Label) => x) false (fun _ => rfl) c hc es0 hes
  obtain ⟨B, hB⟩ := hb fun u e he x => le_refl _
  refine ⟨B, fun cap xs s h => ⟨(hB cap xs s h).1, fun hA hend => ?_⟩⟩
  have hst := (hB cap xs s h).2 hA hend
  exact ⟨hst, fun hund v hv => C36_cc (sized c cap) (sized_ok hc cap) raw hi es0 hes hund xs s h hst v hv⟩

/-! ## Negative weights -/

/-- One thread, one vertex. -/
def cfgLoop : Cfg Dist :=
  { n := 1, T := 1, own := fun _ => 0, verts := fun t => if t = 0 then [0] else [],
    initMail := fun v => if v = 0 then some 0 else none, prev := false, cap := 1 }

/-- An edge from the source to itself with weight -1. -/
def negLoop : Nat → List (Edge ℚ) := fun v => if v = 0 then [⟨0, -1⟩] else []

/-- An iteration begins, with news for vertex 0. -/
structure Spin (s : St Dist Dist Unit ℚ) (x : ℚ) : Prop where
  phase : s.phase = .visit
  pos : s.pos 0 = 0
  task : s.task 0 = .idle
  inbox : s.inbox 0 = (x : Dist)
  prop : ((x : ℚ) : Dist) < s.prop 0
  edges : s.edges 0 = [⟨0, -1⟩]
  act : s.act 0 = 1
  queue : s.queue 0 = [0]

def round : List Act := [.scan 0, .go 0, .go 0, .go 0, .go 0, .go 0, .barrier]

theorem spin_round {s : St Dist Dist Unit ℚ} {x : ℚ} (h : Spin s x) : ∃ s', run sssp cfgLoop s round = some s' ∧ Spin s' (x - 1) := by
  have hlt : ((x : ℚ) : Dist) + ((-1 : ℚ) : Dist) = ((x - 1 : ℚ) : Dist) := by rw [← WithTop.coe_add, sub_eq_add_neg]
  have hdec : ((x - 1 : ℚ) : Dist) < (x : Dist) := WithTop.coe_lt_coe.2 (sub_one_lt x)
  obtain ⟨prop, edges, inbox, act, inited, task, queue, phase, pos, sent, last, front, iteration⟩ := s
  obtain ⟨h1, h2, h3, h4, h5, h6, h7, h8⟩ := h
  dsimp only at h1 h2 h3 h4 h5 h6 h7 h8
  subst h1
  have hT : (0 : Nat) < cfgLoop.T := Nat.zero_lt_one
  have hv : (cfgLoop.verts 0)[0]? = some 0 := rfl
  have hp : cfgLoop.prev = false := rfl
  have ho : cfgLoop.own 0 = 0 := rfl
  have hc : cfgLoop.cap = 1 := rfl
  have e0 : sssp.onUpdate 0 (prop 0) [⟨0, -1⟩] sssp.noNote 0 (x : Dist) = ((x : Dist), .post 0 ((x - 1 : ℚ) : Dist) fun _ => .done) := by
    simp only [sssp, ssspUpdate, if_neg (not_le.2 h5), List.map_cons, List.map_nil, postAll, hlt]
  have em : sssp.merge ((x - 1 : ℚ) : Dist) 0 (x : Dist) = (((x - 1 : ℚ) : Dist), true) := by
    simp only [sssp, min_eq_right (le_of_lt hdec), hdec, decide_true]
  have er : sssp.retrieve (x : Dist) (prop 0) = ((x : Dist), (x : Dist)) := rfl
  have hidle : Task.isIdle (P := Dist) (M := Dist) (N := Unit) (E := ℚ) .idle = true := rfl
  have hq : ∀ q : Task Dist Dist Unit ℚ, (upd task 0 q) 0 = q := fun q => upd_same _ _ _
  refine ⟨⟨upd prop 0 (x : Dist), edges, upd (upd inbox 0 (x : Dist)) 0 ((x - 1 : ℚ) : Dist), upd (upd act 0 0) 0 1, inited,
      upd (upd (upd (upd (upd (upd task 0 (.load 0 fun p es m => sssp.onUpdate 0 p es sssp.noNote 0 m)) 0
        (.run 0 (.post 0 ((x - 1 : ℚ) : Dist) fun _ => .done))) 0 (.cas 0 0 fun _ => .done)) 0
        (.put 0 0 sssp.noNote .done)) 0 (.run 0 .done)) 0 .idle,
      upd (upd queue 0 []) 0 [0], .visit, fun _ => 0, fun _ => 0, last, front, iteration + 1⟩, ?_, ?_⟩
  · simp only [round, run, step, hT, if_true, h2, h3, hidle, true_and, hv, hp, h7, h8, upd_same, goStep, h4, h6, er, e0, em,
      Option.bind_some, Bool.false_eq_true, if_false, ho, hc, List.tail_cons, List.length_nil, Nat.zero_lt_one, List.nil_append]
    simp [atEnd, activity, loop, cfgLoop, hidle]
  · exact ⟨rfl, rfl, by simp only [upd_same], by simp only [upd_same], by simpa only [upd_same] using hdec, h6, by simp only [upd_same], by simp only [upd_same]⟩

theorem run_append' {a : Alg P M N E} {c : Cfg M} : ∀ (xs ys : List Act) (s s1 s2 : St P M N E), run a c s xs = some s1 →
    run a c s1 ys = some s2 → run a c s (xs ++ ys) = some s2
  | [], ys, s, s1, s2, h1, h2 => by simp only [run, Option.some.injEq] at h1; subst h1; exact h2
  | x :: xs, ys, s, s1, s2, h1, h2 => by
    simp only [run] at h1
    obtain ⟨s', h3, h4⟩ := Option.bind_eq_some_iff.1 h1
    simp only [List.cons_append, run, h3, Option.bind_some]
    exact run_append' xs ys s' s1 s2 h4 h2

theorem spin_rounds (k : Nat) {s : St Dist Dist Unit ℚ} {x : ℚ} (h : Spin s x) : ∃ ys s', ys.length = 7 * k ∧ run sssp cfgLoop s ys = some s' := by
  induction k generalizing s x with
  | zero => exact ⟨[], s, rfl, rfl⟩
  | succ k ih =>
    obtain ⟨s1, h1, h2⟩ := spin_round h
    obtain ⟨ys, s', hl, hr⟩ := ih h2
    exact ⟨round ++ ys, s', by simp [round, hl]; omega, run_append' _ _ _ _ _ h1 hr⟩

/-- Without `hw` there is no bound: with a negative cycle iterations follow for ever. -/
theorem C65_negative (B : Nat) : ∃ xs s, run sssp cfgLoop (start sssp negLoop) xs = some s ∧ B < xs.length := by
  have h1 : ∃ s, run sssp cfgLoop (start sssp negLoop) [.init 0 0, .go 0, .go 0, .go 0, .go 0, .go 0, .barrier] = some s ∧ Spin s (-1) := by
    cases e : run sssp cfgLoop (start sssp negLoop) [.init 0 0, .go 0, .go 0, .go 0, .go 0, .go 0, .barrier] with
    | none => exact absurd (congrArg Option.isSome e) (by decide +kernel)
    | some s =>
      refine ⟨s, rfl, ?_⟩
      have hb := congrArg (Option.map fun s => (decide (s.phase = .visit), s.pos 0, (s.task 0).isIdle, s.inbox 0)) e
      rw [show Option.map _ (run sssp cfgLoop (start sssp negLoop) [.init 0 0, .go 0, .go 0, .go 0, .go 0, .go 0, .barrier]) =
        some (true, 0, true, ((-1 : ℚ) : Dist)) by decide +kernel] at hb
      have hd := congrArg (Option.map fun s => (s.prop 0, (s.edges 0).map (fun e => (e.dst, e.data)), s.act 0, s.queue 0)) e
      rw [show Option.map (fun s => (s.prop 0, (s.edges 0).map (fun e => (e.dst, e.data)), s.act 0, s.queue 0))
          (run sssp cfgLoop (start sssp negLoop) [.init 0 0, .go 0, .go 0, .go 0, .go 0, .go 0, .barrier]) =
        some (((0 : ℚ) : Dist), [(0, -1)], 1, [0]) by decide +kernel] at hd
      simp only [Option.map_some, Option.some.injEq, Prod.mk.injEq] at hb hd
      obtain ⟨b1, b2, b3, b4⟩ := hb
      obtain ⟨d1, d2, d3, d4⟩ := hd
      refine ⟨of_decide_eq_true b1.symm, b2.symm, ?_, b4.symm, ?_, ?_, d3.symm, d4.symm⟩
      · cases hk : s.task 0 <;> simp [hk, Task.isIdle] at b3 ⊢
      · rw [← d1]; exact WithTop.coe_lt_coe.2 (by decide)
      · cases he : s.edges 0 with
        | nil => simp [he] at d2
        | cons e l =>
          cases l with
          | nil => 
            simp only [he, List.map_cons, List.map_nil, List.cons.injEq, Prod.mk.injEq, and_true] at d2
            obtain ⟨k1, k2⟩ := d2
            rw [k1, k2]
          | cons _ _ => simp [he] at d2
  obtain ⟨s, hr, hs⟩ := h1
  obtain ⟨ys, s', hl, hr'⟩ := spin_rounds B hs
  exact ⟨_, s', run_append' _ _ _ _ _ hr hr', by simp [hl]; omega⟩

/-! ## A case -/

/-- Both variants of the run of three vertices by two threads end after a bounded number of steps; with room for
the vertices, the variant that uses mail of the previous iteration ends with the distance 2 of vertex 2. -/
example : (∃ B, ∀ xs s, run sssp (cfg false) (start sssp tri) xs = some s → xs.length ≤ B) ∧
    ∀ xs s, run sssp (cfg true) (start sssp tri) xs = some s → (∀ x, step sssp (cfg true) s x = none) → s.prop 2 = ((2 : ℚ) : Dist) := by
  have hw : ∀ u e, e ∈ tri u → 0 ≤ e.data := by
    intro v e he
    match v, he with
    | 0, he => simp [tri] at he; rcases he with rfl | rfl <;> decide
    | 1, he => simp [tri] at he; subst he; decide
    | v + 2, he => simp [tri] at he
  refine ⟨?_, fun xs s h hend => ?_⟩
  · obtain ⟨B, hB⟩ := C65_sssp (cfg false) (cfg_ok _) 0 (by decide) (fun _ => rfl) tri tri_within hw
    exact ⟨B, fun xs s h => (hB 2 xs s h).1⟩
  · obtain ⟨B, hB⟩ := C65_sssp (cfg true) (cfg_ok _) 0 (by decide) (fun _ => rfl) tri tri_within hw
    obtain ⟨hst, hd⟩ := (hB 2 xs s h).2 (.inr ⟨rfl, fun t => by simp only [cfg]; split; · decide
                                                                split <;> decide⟩) hend
    exact ((hd 2).2 2).2 tri_dist

end Verif.Props.Sync
