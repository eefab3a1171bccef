import Verif.SyncSim
import Verif.Props.MinLabel

/-!
# Synchronous execution (C36)

A synchronous run that stops ends in a state that some asynchronous run ends in with nothing
outstanding, so that whatever holds of the results of all asynchronous runs holds of its result. For
every algorithm that uses unique notifications only, every graph, every number of threads, every order
of the vertices in the loops, every interleaving within the loops, and for both variants.
-/

namespace Verif.Props.Sync

open Verif
open Verif.Async (Edge Alg)
open Verif.Sync Verif.MinLabel Verif.Props.MinLabel

variable {P M N E : Type}

/-- The graph has the vertices `0, …, n-1`. -/
structure Within (n : Nat) (es0 : Nat → List (Edge E)) : Prop where
  src : ∀ v, n ≤ v → es0 v = []
  dst : ∀ v e, e ∈ es0 v → e.dst < n

/-- **C36.** A synchronous run stops only when no vertex is active and no thread is at work; the result
is that of an asynchronous run without topology changes that has nothing outstanding. -/
theorem C36_stop (a : Alg P M N E) (hu : ∀ v p es n i m, (a.onUpdate v p es n i m).2.Unique) (c : Cfg M) (hc : c.Ok)
    (ha : Async.Local a c.n) (es0 : Nat → List (Edge E)) (hes : Within c.n es0) (xs : List Act) (s : St P M N E)
    (h : run a c (start a es0) xs = some s) (hstop : s.phase = .stopped) :
    (∀ v, s.act v = 0) ∧ (∀ t, t < c.T → s.task t = .idle) ∧ s.edges = es0 ∧
    ∃ (ys : List (Async.Act E)) (r : Async.St P M N E), Async.run a (absCfg c) (Async.start a es0) ys = some r ∧
      Async.Quiet (absCfg c) r ∧ (∀ t v es, Async.Act.add t v es ∉ ys) ∧ (∀ t v k, Async.Act.del t v k ∉ ys) ∧
      (∀ v, r.inited v = decide (v < c.n)) ∧ r.prop = s.prop ∧ r.inbox = s.inbox ∧ r.edges = s.edges := by
  obtain ⟨hi, ys, log, hy, e⟩ := sim_run hu hc xs _ (inv_start es0) h []
  rw [abs_start] at e
  have hsup := Async.supp_run ha (List.all_eq_true.2 fun x hx => (hy x hx).2) (Async.supp_loaded a c.n es0 hes.src hes.dst) e
  have hin := inited_run xs _ (by simp [start]) h (by rw [hstop]; decide)
  have hf := hi.none hstop
  obtain ⟨hact, hidle⟩ := hi.quiet hstop
  have hact' : ∀ v, s.act v = 0 := by
    intro v
    by_cases hv : v < c.n
    · exact hact v hv
    · rcases hi.act v with h0 | h1
      · exact h0
      · have := hsup.pend v (Nat.le_of_not_lt hv)
        simp [Sync.abs, h1] at this
  refine ⟨hact', hidle, edges_run xs _ h, ys, _, e, ⟨?_, ?_⟩, ?_, ?_, ?_, ?_, rfl, rfl⟩
  · intro v hv
    simp [Sync.abs, absTask, hidle _ (hc.own v hv), about, hf]
  · intro v
    simp [Sync.abs, hact' v]
  · intro t v es hx
    exact (hy _ hx).1
  · intro t v es hx
    exact (hy _ hx).1
  · intro v
    by_cases hv : v < c.n
    · simpa [hv, Sync.abs] using hin v hv
    · simpa [hv] using hsup.inited v (Nat.le_of_not_lt hv)
  · funext v
    simp [Sync.abs, hf v]

theorem minAlg_unique {L : Type} [LinearOrder L] [OrderTop L] (f : E → L → L) (g : Bool) :
    ∀ v p es n i m, ((minAlg f g).onUpdate v p es n i m).2.Unique := by
  intro v p es n i m
  simp only [minAlg]
  split
  · trivial
  · generalize false = b
    generalize es.map (fun e => (e.dst, f e.data m)) = ws
    induction ws generalizing b with
    | nil => trivial
    | cons w ws ih => intro b; exact ih _

/-- What the result of a least-label algorithm is, whichever way it was run. -/
theorem least_result {L : Type} [LinearOrder L] [OrderTop L] {f : E → L → L} (g : Bool) (hmono : ∀ e, Monotone (f e))
    (htop : ∀ e, f e ⊤ = ⊤) {c : Cfg L} (hc : c.Ok) {es0 : Nat → List (Edge E)} (hes : Within c.n es0) {xs : List Act}
    {s : St L L Unit E} (h : run (minAlg f g) c (start (minAlg f g) es0) xs = some s) (hstop : s.phase = .stopped) (v : Nat) :
    (s.prop v = ⊤ ∨ Reach f es0 (fun v => if v < c.n then c.initMail v else none) v (s.prop v)) ∧
      ∀ x, Reach f es0 (fun v => if v < c.n then c.initMail v else none) v x → s.prop v ≤ x := by
  obtain ⟨-, -, he, ys, r, hr, hq, -, hdel, hin, hp, -, hre⟩ :=
    C36_stop _ (minAlg_unique f g) c hc (minAlg_local f g c.n) es0 hes xs s h hstop
  have := quiet_least g hmono htop (c := absCfg c)
    (fun v hv => by
      by_contra hn
      exact hv (hes.src v (Nat.le_of_not_lt hn)))
    (NoDeletes.addOnly (fun t v k => hdel t v k)) hr hq v
  rw [hre, he, hp] at this
  have hs : seeds (absCfg c) r = fun v => if v < c.n then c.initMail v else none := by
    funext v
    simp [seeds, hin, absCfg]
  rw [hs] at this
  exact this

/-- Two runs of a least-label algorithm on the same graph, one synchronous and one asynchronous, agree. -/
theorem least_agree {L : Type} [LinearOrder L] [OrderTop L] {f : E → L → L} (g : Bool) (hmono : ∀ e, Monotone (f e))
    (htop : ∀ e, f e ⊤ = ⊤) {c : Cfg L} (hc : c.Ok) {es0 : Nat → List (Edge E)} (hes : Within c.n es0) {xs : List Act}
    {s : St L L Unit E} (h : run (minAlg f g) c (start (minAlg f g) es0) xs = some s) (hstop : s.phase = .stopped)
    {d : Async.Cfg L Unit} (hd : ∀ v, v < c.n → d.initMail v = c.initMail v) (hown : ∀ v, v < c.n → d.own v < d.T)
    {ys : List (Async.Act E)} {r : Async.St L L Unit E} (hr : Async.run (minAlg f g) d (Async.start (minAlg f g) es0) ys = some r)
    (hq : Async.Quiet d r) (hy : NoDeletes ys) (hre : r.edges = es0) (hin : ∀ v, r.inited v = decide (v < c.n)) :
    r.prop = s.prop := by
  funext v
  have h1 := least_result g hmono htop hc hes h hstop v
  have h2 := quiet_least g hmono htop
    (fun v hv => by
      by_cases hn : v < c.n
      · exact hown v hn
      · exact absurd (hes.src v (Nat.le_of_not_lt hn)) hv) hy.addOnly hr hq v
  have hs : seeds d r = fun v => if v < c.n then c.initMail v else none := by
    funext v
    by_cases hv : v < c.n
    · simp [seeds, hin, hv, hd v hv]
    · simp [seeds, hin, hv]
  rw [hre, hs] at h2
  apply le_antisymm
  · rcases h1.1 with e | e
    · rw [e]; exact le_top
    · exact h2.2 _ e
  · rcases h2.1 with e | e
    · rw [e]; exact le_top
    · exact h1.2 _ e

/-- **C36** for shortest paths: a stopped synchronous run holds exactly the least weights of walks. -/
theorem C36_sssp (c : Cfg Dist) (hc : c.Ok) (src : Nat) (hsrc : src < c.n)
    (hi : ∀ v, c.initMail v = if v = src then some 0 else none) (es0 : Nat → List (Edge ℚ)) (hes : Within c.n es0)
    (xs : List Act) (s : St Dist Dist Unit ℚ) (h : run sssp c (start sssp es0) xs = some s) (hstop : s.phase = .stopped)
    (v : Nat) :
    (s.prop v = ⊤ ↔ ¬ ∃ d, Walk es0 src v d) ∧ ∀ d : ℚ, s.prop v = (d : Dist) ↔ IsLeast {x | Walk es0 src v x} d := by
  have hl : Async.Local sssp c.n := by rw [sssp_eq]; exact minAlg_local _ _ _
  have hu : ∀ v p es n i m, (sssp.onUpdate v p es n i m).2.Unique := by rw [sssp_eq]; exact minAlg_unique _ _
  obtain ⟨-, -, he, ys, r, hr, hq, -, hdel, hin, hp, -, hre⟩ := C36_stop sssp hu c hc hl es0 hes xs s h hstop
  have := C31_exact (absCfg c) src hi
    (fun v hv => by
      by_contra hn
      exact hv (hes.src v (Nat.le_of_not_lt hn))) ys hdel r hr hq (by rw [hin]; simpa using hsrc) v
  rw [hp, hre, he] at this
  exact this

/-- **C36** for components: a stopped synchronous run on an undirected graph holds the least raw id of
each component. -/
theorem C36_cc (c : Cfg Label) (hc : c.Ok) (raw : Nat → Label) (hi : ∀ v, c.initMail v = some (raw v))
    (es0 : Nat → List (Edge Unit)) (hes : Within c.n es0) (hund : Undirected es0)
    (xs : List Act) (s : St Label Label Unit Unit) (h : run cc c (start cc es0) xs = some s) (hstop : s.phase = .stopped)
    (v : Nat) (hv : v < c.n) : IsLeast {x | ∃ u, Connected es0 u v ∧ raw u = x} (s.prop v) := by
  have hl : Async.Local cc c.n := by rw [cc_eq]; exact minAlg_local _ _ _
  have hu : ∀ v p es n i m, (cc.onUpdate v p es n i m).2.Unique := by rw [cc_eq]; exact minAlg_unique _ _
  obtain ⟨-, -, he, ys, r, hr, hq, -, hdel, hin, hp, -, hre⟩ := C36_stop cc hu c hc hl es0 hes xs s h hstop
  have := C32_exact (absCfg c) raw hi
    (fun v hv => by
      by_contra hn
      exact hv (hes.src v (Nat.le_of_not_lt hn))) ys hdel r hr hq
    (fun u e hue => by
      rw [hre, he] at hue
      rw [hin, hin]
      refine ⟨?_, decide_eq_true (hes.dst u e hue)⟩
      refine decide_eq_true (Nat.lt_of_not_le fun hn => ?_)
      rw [hes.src u hn] at hue
      cases hue) (by rw [hre, he]; exact hund) v (by rw [hin]; simpa using hv)
  rw [hp, hre, he] at this
  exact this

/-- **C36** for shortest paths: the same distances as any asynchronous run on the same graph, loaded
before or while the algorithm runs. -/
theorem C36_sssp_agree (c : Cfg Dist) (hc : c.Ok) (es0 : Nat → List (Edge ℚ)) (hes : Within c.n es0)
    (xs : List Act) (s : St Dist Dist Unit ℚ) (h : run sssp c (start sssp es0) xs = some s) (hstop : s.phase = .stopped)
    (d : Async.Cfg Dist Unit) (hd : ∀ v, v < c.n → d.initMail v = c.initMail v) (hown : ∀ v, v < c.n → d.own v < d.T)
    (ys : List (Async.Act ℚ)) (r : Async.St Dist Dist Unit ℚ) (hr : Async.run sssp d (Async.start sssp es0) ys = some r)
    (hq : Async.Quiet d r) (hy : NoDeletes ys) (hre : r.edges = es0) (hin : ∀ v, r.inited v = decide (v < c.n)) :
    r.prop = s.prop := by
  rw [sssp_eq] at h hr
  exact least_agree true (fun e a b hab => by exact add_le_add_left hab _) (fun e => by exact WithTop.top_add _) hc hes h hstop hd hown hr hq hy hre hin

/-- **C36** for labels (on directed graphs as well). -/
theorem C36_cc_agree (c : Cfg Label) (hc : c.Ok) (es0 : Nat → List (Edge Unit)) (hes : Within c.n es0)
    (xs : List Act) (s : St Label Label Unit Unit) (h : run cc c (start cc es0) xs = some s) (hstop : s.phase = .stopped)
    (d : Async.Cfg Label Unit) (hd : ∀ v, v < c.n → d.initMail v = c.initMail v) (hown : ∀ v, v < c.n → d.own v < d.T)
    (ys : List (Async.Act Unit)) (r : Async.St Label Label Unit Unit) (hr : Async.run cc d (Async.start cc es0) ys = some r)
    (hq : Async.Quiet d r) (hy : NoDeletes ys) (hre : r.edges = es0) (hin : ∀ v, r.inited v = decide (v < c.n)) :
    r.prop = s.prop := by
  rw [cc_eq] at h hr
  exact least_agree false (fun _ a b hab => hab) (fun _ => rfl) hc hes h hstop hd hown hr hq hy hre hin

/-! ## Runs -/

/-- Two threads, three vertices, source 0. -/
def cfg (prev : Bool) : Cfg Dist :=
  { n := 3, T := 2, own := fun v => v % 2, verts := fun t => if t = 0 then [0, 2] else if t = 1 then [1] else [],
    initMail := fun v => if v = 0 then some 0 else none, prev := prev, cap := 2 }

theorem cfg_ok (prev : Bool) : (cfg prev).Ok := by
  refine ⟨fun t v => ?_, fun v _ => ?_⟩
  · simp only [cfg]
    split
    · simp; omega
    · split
      · simp; omega
      · simp; omega
  · simp only [cfg]; omega

/-- 0 → 1 (1), 0 → 2 (5), 1 → 2 (1). -/
def tri : Nat → List (Edge ℚ)
  | 0 => [⟨1, 1⟩, ⟨2, 5⟩]
  | 1 => [⟨2, 1⟩]
  | _ => []

theorem tri_within : Within 3 tri := by
  refine ⟨fun v hv => ?_, fun v e he => ?_⟩
  · match v, hv with
    | v + 3, _ => rfl
  · match v, he with
    | 0, he => simp [tri] at he; rcases he with rfl | rfl <;> decide
    | 1, he => simp [tri] at he; subst he; decide
    | v + 2, he => simp [tri] at he

def initActs : List Act := [.init 0 0, .go 0, .go 0, .go 0, .go 0, .go 0, .go 0, .go 0, .go 0, .init 1 1, .init 0 2, .barrier]

/-- Thread 0 visits vertex 2 with the weight 5 before thread 1 visits vertex 1. -/
def runBoth : List Act :=
  initActs ++ [.scan 0, .scan 0, .go 0, .go 0, .scan 1, .go 1, .go 1, .go 1, .go 1, .go 1, .barrier] ++
    [.scan 0, .scan 0, .go 0, .go 0, .scan 1, .barrier]

def runPrev : List Act :=
  initActs ++ [.scan 1, .scan 0, .scan 0, .barrier, .scan 1, .go 1, .go 1, .go 1, .go 1, .scan 0, .scan 0, .go 0, .barrier] ++
    [.scan 1, .scan 0, .scan 0, .barrier, .scan 1, .scan 0, .scan 0, .go 0, .barrier]

example : (run sssp (cfg false) (start sssp tri) (runBoth.take 16)).map (fun s => (s.prop 0, s.prop 1, s.prop 2)) =
    some (((0 : ℚ) : Dist), ⊤, ((5 : ℚ) : Dist)) := by decide +kernel

example : (run sssp (cfg false) (start sssp tri) runBoth).map (fun s => (s.prop 0, s.prop 1, s.prop 2, decide (s.phase = .stopped), s.iteration)) =
    some (((0 : ℚ) : Dist), ((1 : ℚ) : Dist), ((2 : ℚ) : Dist), true, 2) := by decide +kernel

example : (run sssp (cfg true) (start sssp tri) runPrev).map (fun s => (s.prop 0, s.prop 1, s.prop 2, decide (s.phase = .stopped), s.iteration)) =
    some (((0 : ℚ) : Dist), ((1 : ℚ) : Dist), ((2 : ℚ) : Dist), true, 2) := by decide +kernel

/-- `C36_sssp` applies to both runs: the distance of vertex 2 is 2. -/
theorem tri_dist : IsLeast {x | Walk tri 0 2 x} 2 := by
  cases e : run sssp (cfg false) (start sssp tri) runBoth with
  | none => exact absurd (congrArg Option.isSome e) (by decide +kernel)
  | some s =>
    have hp : s.phase = .stopped := by
      have := congrArg (Option.map fun s => s.phase) e
      rw [show (run sssp (cfg false) (start sssp tri) runBoth).map (fun s => s.phase) = some .stopped by decide +kernel] at this
      exact (Option.some.inj this).symm
    have h2 : s.prop 2 = ((2 : ℚ) : Dist) := by
      have := congrArg (Option.map fun s => s.prop 2) e
      rw [show (run sssp (cfg false) (start sssp tri) runBoth).map (fun s => s.prop 2) = some ((2 : ℚ) : Dist) by decide +kernel] at this
      exact (Option.some.inj this).symm
    exact ((C36_sssp (cfg false) (cfg_ok _) 0 (by decide) (fun _ => rfl) tri tri_within _ s e hp 2).2 2).1 h2

end Verif.Props.Sync
