import Verif.MinLabelConv
import Verif.WorkInit
import Verif.Props.MinLabel
import Verif.Props.Async
import Mathlib.Tactic.Linarith

/-!
# Shortest paths and components come to rest (C62)

However threads are scheduled, once the graph stops changing only finitely many steps are left, and when no
step is left the labels are final. For shortest paths no edge may have negative weight (`C62_negative`).
-/

namespace Verif.Props.Converge

open Verif Verif.Async Verif.MinLabel Verif.Props.MinLabel

/-- The graph has finitely many edges. -/
def FiniteGraph {E : Type} (es : Nat → List (Edge E)) : Prop := ∃ n, ∀ v, (n ≤ v → es v = []) ∧ ∀ e ∈ es v, e.dst < n

/-- Only notifications are taken and callbacks continued: no vertex or edge is added or deleted. -/
def NoTopology {E : Type} (ys : List (Act E)) : Prop := ∀ y ∈ ys, (∃ t, y = .go t) ∨ ∃ t v i, y = .recv t v i

/-- No thread can do anything but change the graph. -/
def Rests {P M N E : Type} (a : Alg P M N E) (c : Cfg M N) (s : St P M N E) : Prop :=
  (∀ t, step a c s (.go t) = none) ∧ ∀ t v i, step a c s (.recv t v i) = none

theorem NoTopology.work {E : Type} {ys : List (Act E)} (h : NoTopology ys) : ∀ y ∈ ys, y.work = true := by
  intro y hy
  rcases h y hy with ⟨t, rfl⟩ | ⟨t, v, i, rfl⟩ <;> rfl

theorem below_mono {E : Type} {n m : Nat} (h : n ≤ m) {x : Act E} (hx : x.below n = true) : x.below m = true := by
  cases x with
  | init t v => exact decide_eq_true (Nat.lt_of_lt_of_le (of_decide_eq_true hx) h)
  | recv t v i => rfl
  | add t v es =>
    simp only [Act.below, Bool.and_eq_true, decide_eq_true_eq, List.all_eq_true] at *
    exact ⟨by omega, fun e he => Nat.lt_of_lt_of_le (hx.2 e he) h⟩
  | del t v k => exact decide_eq_true (Nat.lt_of_lt_of_le (of_decide_eq_true hx) h)
  | go t => rfl

theorem exists_bound {E : Type} : ∀ es : List (Edge E), ∃ n, ∀ e ∈ es, e.dst < n
  | [] => ⟨0, fun e he => nomatch he⟩
  | e :: es => by
    obtain ⟨n, hn⟩ := exists_bound es
    refine ⟨max n (e.dst + 1), fun e' he => ?_⟩
    rcases List.mem_cons.1 he with rfl | he
    · omega
    · have := hn e' he; omega

theorem exists_below {E : Type} (n0 : Nat) : ∀ xs : List (Act E), ∃ n, n0 ≤ n ∧ xs.all (Act.below n) = true
  | [] => ⟨n0, Nat.le_refl _, rfl⟩
  | x :: xs => by
    obtain ⟨n, h0, hn⟩ := exists_below n0 xs
    have hx : ∃ m, x.below m = true := by
      cases x with
      | init t v => exact ⟨v + 1, by simp [Act.below]⟩
      | recv t v i => exact ⟨0, rfl⟩
      | add t v es =>
        obtain ⟨m, hm⟩ := exists_bound es
        refine ⟨max m (v + 1), ?_⟩
        simp only [Act.below, Bool.and_eq_true, decide_eq_true_eq, List.all_eq_true]
        exact ⟨by omega, fun e he => by have := hm e he; omega⟩
      | del t v k => exact ⟨v + 1, by simp [Act.below]⟩
      | go t => exact ⟨0, rfl⟩
    obtain ⟨m, hm⟩ := hx
    refine ⟨max n m, by omega, ?_⟩
    rw [List.all_cons, Bool.and_eq_true]
    refine ⟨below_mono (Nat.le_max_right _ _) hm, List.all_eq_true.2 fun y hy => below_mono (Nat.le_max_left _ _) (List.all_eq_true.1 hn y hy)⟩

theorem run_append {P M N E : Type} (a : Alg P M N E) (c : Cfg M N) : ∀ (xs ys : List (Act E)) (s s1 s2 : St P M N E), run a c s xs = some s1 → run a c s1 ys = some s2 →
    run a c s (xs ++ ys) = some s2
  | [], ys, s, s1, s2, h1, h2 => by simp only [run, Option.some.injEq] at h1; subst h1; exact h2
  | x :: xs, ys, s, s1, s2, h1, h2 => by
    simp only [run] at h1
    obtain ⟨s0, h3, h4⟩ := Option.bind_eq_some_iff.1 h1
    simp only [List.cons_append, run, h3, Option.bind_some]
    exact run_append a c xs ys s0 s1 s2 h4 h2

theorem quiet_of_rests {P M N E : Type} {a : Alg P M N E} {c : Cfg M N} {s : St P M N E} (hown : ∀ v, c.own v < c.T) (h : Rests a c s) : Quiet c s := by
  by_contra hq
  obtain ⟨x, s', hs, ⟨t, rfl⟩ | ⟨v, rfl⟩⟩ := Async.C29_enabled a c s hown hq
  · rw [h.1 t] at hs; cases hs
  · rw [h.2 _ v 0] at hs; cases hs

theorem stay_run {P M N E : Type} {a : Alg P M N E} {c : Cfg M N} : ∀ {ys : List (Act E)} {s s' : St P M N E}, NoTopology ys → run a c s ys = some s' →
    s'.edges = s.edges ∧ s'.inited = s.inited
  | [], s, s', _, h => by simp only [run, Option.some.injEq] at h; subst h; exact ⟨rfl, rfl⟩
  | y :: ys, s, s', hy, h => by
    simp only [run] at h
    obtain ⟨s1, h1, h2⟩ := Option.bind_eq_some_iff.1 h
    have hw := hy.work y (by simp)
    obtain ⟨e1, e2⟩ := stay_run (fun z hz => hy z (by simp [hz])) h2
    exact ⟨e1.trans (edges_work hw h1), e2.trans (inited_stays hw h1)⟩

theorem _root_.Verif.Props.MinLabel.NoDeletes.append {E : Type} {xs ys : List (Act E)} (hx : NoDeletes xs) (hy : NoTopology ys) : NoDeletes (xs ++ ys) := by
  intro t v k hm
  rcases List.mem_append.1 hm with hm | hm
  · exact hx t v k hm
  · rcases hy _ hm with ⟨_, e⟩ | ⟨_, _, _, e⟩ <;> cases e

/-- **C62** for any least-label algorithm whose edges do not lower labels, in any arithmetic. -/
theorem C62_bound {L E : Type} [LinearOrder L] [OrderTop L] (f : E → L → L) (g : Bool) (htop : ∀ e, f e ⊤ = ⊤)
    (c : Cfg L Unit) (hn : ∀ v, c.initNote v = none) (hown : ∀ v, c.own v < c.T)
    (es0 : Nat → List (Edge E)) (hes : FiniteGraph es0) (xs : List (Act E)) (hx : NoDeletes xs) (s : St L L Unit E)
    (h : run (minAlg f g) c (start (minAlg f g) es0) xs = some s) (hinf : ∀ u e, e ∈ s.edges u → ∀ x, x ≤ f e.data x) :
    ∃ B, ∀ ys s', NoTopology ys → run (minAlg f g) c s ys = some s' → ys.length ≤ B := by
  obtain ⟨n0, hn0⟩ := hes
  obtain ⟨n, hle, hxn⟩ := exists_below n0 xs
  obtain ⟨B, hB⟩ := converge f g htop c hn n (es0 := es0) (fun v _ => hown v) (fun v hv => (hn0 v).1 (by omega))
    (fun v e he => Nat.lt_of_lt_of_le ((hn0 v).2 e he) hle) hx.addOnly hxn h hinf
  exact ⟨B, fun ys s' hy hr => hB ys s' hy.work hr⟩

/-- **C62** for shortest paths: without negative weights the number of steps left is bounded whatever the
schedule, and a run that cannot go on holds the least weights of walks. -/
theorem C62_sssp (c : Cfg Dist Unit) (hn : ∀ v, c.initNote v = none) (hown : ∀ v, c.own v < c.T)
    (src : Nat) (hc : ∀ v, c.initMail v = if v = src then some 0 else none)
    (es0 : Nat → List (Edge ℚ)) (hes : FiniteGraph es0) (xs : List (Act ℚ)) (hx : NoDeletes xs) (s : St Dist Dist Unit ℚ)
    (h : run sssp c (start sssp es0) xs = some s) (hw : ∀ u e, e ∈ s.edges u → 0 ≤ e.data) (hsrc : s.inited src = true) :
    ∃ B, ∀ ys s', NoTopology ys → run sssp c s ys = some s' →
      ys.length ≤ B ∧ (Rests sssp c s' → ∀ v, (s'.prop v = ⊤ ↔ ¬ ∃ d, Walk s.edges src v d) ∧
        ∀ d : ℚ, s'.prop v = (d : Dist) ↔ IsLeast {x | Walk s.edges src v x} d) := by
  have hb := sssp_eq ▸ C62_bound (fun (w : ℚ) (x : Dist) => x + (w : Dist)) true (fun e => WithTop.top_add _) c hn hown es0 hes xs hx s
  obtain ⟨B, hB⟩ := hb h fun u e he x => by
    have : (0 : Dist) ≤ ((e.data : ℚ) : Dist) := by exact_mod_cast hw u e he
    simpa using add_le_add_right this x
  refine ⟨B, fun ys s' hy hr => ⟨hB ys s' hy hr, fun hrest v => ?_⟩⟩
  have hstay := stay_run hy hr
  have := C31_exact c src hc (fun v _ => hown v) (xs ++ ys) (hx.append hy) s' (run_append _ _ xs ys _ _ _ h hr) (quiet_of_rests hown hrest)
    (by rw [hstay.2]; exact hsrc) v
  rw [hstay.1] at this
  exact this

/-- **C62** for components, on an undirected graph. -/
theorem C62_cc (c : Cfg Label Unit) (hn : ∀ v, c.initNote v = none) (hown : ∀ v, c.own v < c.T)
    (raw : Nat → Label) (hc : ∀ v, c.initMail v = some (raw v))
    (es0 : Nat → List (Edge Unit)) (hes : FiniteGraph es0) (xs : List (Act Unit)) (hx : NoDeletes xs) (s : St Label Label Unit Unit)
    (h : run cc c (start cc es0) xs = some s) :
    ∃ B, ∀ ys s', NoTopology ys → run cc c s ys = some s' →
      ys.length ≤ B ∧ (Rests cc c s' → Undirected s.edges → (∀ u e, e ∈ s.edges u → s.inited u = true ∧ s.inited e.dst = true) →
        ∀ v, s.inited v = true → IsLeast {x | ∃ u, Connected s.edges u v ∧ raw u = x} (s'.prop v)) := by
  have hb := cc_eq ▸ C62_bound (fun (_ : Unit) (x : Label) => x) false (fun _ => rfl) c hn hown es0 hes xs hx s
  obtain ⟨B, hB⟩ := hb h fun u e he x => le_refl _
  refine ⟨B, fun ys s' hy hr => ⟨hB ys s' hy hr, fun hrest hund hin v hv => ?_⟩⟩
  have hstay := stay_run hy hr
  have := C32_exact c raw hc (fun v _ => hown v) (xs ++ ys) (hx.append hy) s' (run_append _ _ xs ys _ _ _ h hr) (quiet_of_rests hown hrest)
    (by rw [hstay.1, hstay.2]; exact hin) (by rw [hstay.1]; exact hund) v (by rw [hstay.2]; exact hv)
  rw [hstay.1] at this
  exact this

/-- A bounded run that cannot be stuck can be brought to rest. -/
theorem rest_of_bound {P M N E : Type} {a : Alg P M N E} {c : Cfg M N} (hown : ∀ v, c.own v < c.T) : ∀ (B : Nat) (s : St P M N E),
    (∀ ys s', NoTopology ys → run a c s ys = some s' → ys.length ≤ B) → ∃ ys s', NoTopology ys ∧ run a c s ys = some s' ∧ Quiet c s'
  | B, s, hB => by
    by_cases hq : Quiet c s
    · exact ⟨[], s, (fun _ hy => absurd hy (by simp)), rfl, hq⟩
    · obtain ⟨x, s1, h1, hx⟩ := Async.C29_enabled a c s hown hq
      have hx' : (∃ t, x = .go t) ∨ ∃ t v i, x = .recv t v i := hx.imp id fun ⟨v, e⟩ => ⟨_, v, 0, e⟩
      have hcons : ∀ ys, NoTopology ys → NoTopology (x :: ys) := by
        intro ys hy y hm
        rcases List.mem_cons.1 hm with rfl | hm
        · exact hx'
        · exact hy y hm
      cases B with
      | zero => exact absurd (hB [x] s1 (hcons [] fun y hy => nomatch hy) (by simp [run, h1])) (by simp)
      | succ B =>
        obtain ⟨ys, s', hy, hr, hq'⟩ := rest_of_bound hown B s1 fun ys s' hy hr => by
          have := hB (x :: ys) s' (hcons ys hy) (by simp only [run, h1, Option.bind_some]; exact hr)
          simpa using this
        exact ⟨x :: ys, s', hcons ys hy, by simp only [run, h1, Option.bind_some]; exact hr, hq'⟩

/-- **C62.** Every history can be brought to rest: the final labels of C31 and C32 are always reached. -/
theorem C62_rest {L E : Type} [LinearOrder L] [OrderTop L] (f : E → L → L) (g : Bool) (htop : ∀ e, f e ⊤ = ⊤)
    (c : Cfg L Unit) (hn : ∀ v, c.initNote v = none) (hown : ∀ v, c.own v < c.T)
    (es0 : Nat → List (Edge E)) (hes : FiniteGraph es0) (xs : List (Act E)) (hx : NoDeletes xs) (s : St L L Unit E)
    (h : run (minAlg f g) c (start (minAlg f g) es0) xs = some s) (hinf : ∀ u e, e ∈ s.edges u → ∀ x, x ≤ f e.data x) :
    ∃ ys s', NoTopology ys ∧ run (minAlg f g) c s ys = some s' ∧ Quiet c s' := by
  obtain ⟨B, hB⟩ := C62_bound f g htop c hn hown es0 hes xs hx s h hinf
  exact rest_of_bound hown B s hB

/-! ## Negative weights -/

/-- One thread, one vertex. -/
def cLoop : Cfg Dist Unit := { T := 1, own := fun _ => 0, initMail := fun v => if v = 0 then some 0 else none, initNote := fun _ => none }

/-- An edge from the source to itself with weight -1. -/
def loop : Nat → List (Edge ℚ) := fun v => if v = 0 then [⟨0, -1⟩] else []

/-- About to visit vertex 0 with news. -/
structure Spin (s : St Dist Dist Unit ℚ) (x : ℚ) : Prop where
  task : s.task 0 = .load 0 fun p es m => sssp.onUpdate 0 p es () 0 m
  inbox : s.inbox 0 = (x : Dist)
  prop : ((x : ℚ) : Dist) < s.prop 0
  edges : s.edges 0 = [⟨0, -1⟩]
  act : s.act 0 = 0
  pend : s.pend 0 = []

def round : List (Act ℚ) := [.go 0, .go 0, .go 0, .go 0, .go 0, .recv 0 0 0]

theorem spin_round {s : St Dist Dist Unit ℚ} {x : ℚ} (h : Spin s x) : ∃ s', run sssp cLoop s round = some s' ∧ Spin s' (x - 1) := by
  have hlt : ((x : ℚ) : Dist) + ((-1 : ℚ) : Dist) = ((x - 1 : ℚ) : Dist) := by rw [← WithTop.coe_add, sub_eq_add_neg]
  have hdec : ((x - 1 : ℚ) : Dist) < (x : Dist) := WithTop.coe_lt_coe.2 (by linarith)
  obtain ⟨prop, edges, inbox, act, pend, inited, task, log⟩ := s
  obtain ⟨h1, h2, h3, h4, h5, h6⟩ := h
  dsimp only at h1 h2 h3 h4 h5 h6
  have hT : (0 : Nat) < cLoop.T := Nat.zero_lt_one
  have e0 : sssp.onUpdate 0 (prop 0) [⟨0, -1⟩] () 0 (x : Dist) = ((x : Dist), .post 0 ((x - 1 : ℚ) : Dist) fun _ => .done) := by
    simp only [sssp, ssspUpdate, if_neg (not_le.2 h3), List.map_cons, List.map_nil, postAll, hlt]
  have em : sssp.merge ((x - 1 : ℚ) : Dist) 0 (x : Dist) = (((x - 1 : ℚ) : Dist), true) := by
    simp only [sssp, min_eq_right (le_of_lt hdec), hdec, decide_true]
  refine ⟨⟨upd prop 0 (x : Dist), edges, upd (upd inbox 0 (x : Dist)) 0 ((x - 1 : ℚ) : Dist), upd (upd act 0 1) 0 0, upd (upd pend 0 [()]) 0 [], inited,
      upd (upd (upd (upd (upd (upd task 0 (.run 0 (.post 0 ((x - 1 : ℚ) : Dist) fun _ => .done))) 0 (.cas 0 0 fun _ => .done)) 0 (.put 0 0 () .done)) 0 (.run 0 .done)) 0 .idle) 0
        (.load 0 fun p es m => sssp.onUpdate 0 p es () 0 m), log ++ [.obs 0] ++ [.dep 0]⟩, ?_, ?_⟩
  · simp only [round, run, step, hT, if_true, h1, goStep, h2, h4, Option.bind_some]
    have er : sssp.retrieve (x : Dist) (prop 0) = ((x : Dist), (x : Dist)) := rfl
    simp only [er, e0, upd_same, em, if_true, h5, h6, List.nil_append, Option.bind_some, free, decide_true, cLoop, List.getElem?_cons_zero, List.eraseIdx_cons_zero]
    rfl
  · exact ⟨by simp only [upd_same], by simp only [upd_same], by simpa only [upd_same] using hdec, h4, by simp only [upd_same], by simp only [upd_same]⟩

theorem spin_rounds (k : Nat) {s : St Dist Dist Unit ℚ} {x : ℚ} (h : Spin s x) : ∃ ys s', NoTopology ys ∧ ys.length = 6 * k ∧ run sssp cLoop s ys = some s' := by
  induction k generalizing s x with
  | zero => exact ⟨[], s, (fun _ hy => absurd hy (by simp)), rfl, rfl⟩
  | succ k ih =>
    obtain ⟨s1, h1, h2⟩ := spin_round h
    obtain ⟨ys, s', hy, hl, hr⟩ := ih h2
    refine ⟨round ++ ys, s', ?_, ?_, run_append _ _ _ _ _ _ _ h1 hr⟩
    · intro y hm
      rcases List.mem_append.1 hm with hm | hm
      · simp only [round, List.mem_cons, List.not_mem_nil, or_false] at hm
        rcases hm with rfl | rfl | rfl | rfl | rfl | rfl
        all_goals first | exact .inl ⟨_, rfl⟩ | exact .inr ⟨_, _, _, rfl⟩
      · exact hy y hm
    · simp [round, hl]; omega

/-- With a negative cycle there is no bound: the run can go on for ever. -/
theorem C62_negative : ∃ s, run sssp cLoop (start sssp loop) [.init 0 0] = some s ∧
    ∀ B, ∃ ys s', NoTopology ys ∧ run sssp cLoop s ys = some s' ∧ B < ys.length := by
  refine ⟨⟨fun _ => ⊤, loop, upd (fun _ => ⊤) 0 ((0 : ℚ) : Dist), fun _ => 0, fun _ => [], upd (fun _ => false) 0 true,
      upd (fun _ => .idle) 0 (.load 0 fun p es m => sssp.onUpdate 0 p es () 0 m), [.dep 0]⟩, ?_, fun B => ?_⟩
  · have hm : sssp.merge (0 : Dist) 0 ⊤ = (((0 : ℚ) : Dist), true) := by simp [sssp]
    have hi : cLoop.initMail 0 = some 0 := rfl
    have hf : free cLoop (start sssp loop) 0 0 = true := rfl
    have hb : (start sssp loop).inbox 0 = ⊤ := rfl
    simp only [run, step, hf, hi, hb, hm, if_true]
    rfl
  · obtain ⟨ys, s', hy, hl, hr⟩ := spin_rounds (B + 1) (x := 0) (s := ⟨fun _ => ⊤, loop, upd (fun _ => ⊤) 0 ((0 : ℚ) : Dist), fun _ => 0, fun _ => [],
        upd (fun _ => false) 0 true, upd (fun _ => .idle) 0 (.load 0 fun p es m => sssp.onUpdate 0 p es () 0 m), [.dep 0]⟩)
      ⟨by simp only [upd_same], by simp only [upd_same], WithTop.coe_lt_top 0, rfl, rfl, rfl⟩
    exact ⟨ys, s', hy, hr, by omega⟩

/-! ## A case -/

theorem rests_of_quiet {P M N E : Type} {a : Alg P M N E} {c : Cfg M N} {s : St P M N E} (h : Quiet c s) : Rests a c s := by
  refine ⟨fun t => ?_, fun t v i => ?_⟩
  · simp only [step]
    split
    · rw [h.1 t ‹_›]; rfl
    · rfl
  · simp only [step, h.2 v]
    split <;> simp

theorem run_split {P M N E : Type} (a : Alg P M N E) (c : Cfg M N) : ∀ (xs ys : List (Act E)) (s s2 : St P M N E),
    run a c s (xs ++ ys) = some s2 → ∃ s1, run a c s xs = some s1 ∧ run a c s1 ys = some s2
  | [], _, s, _, h => ⟨s, rfl, h⟩
  | x :: xs, ys, s, s2, h => by
    simp only [List.cons_append, run] at h ⊢
    obtain ⟨s0, h1, h2⟩ := Option.bind_eq_some_iff.1 h
    obtain ⟨s1, h3, h4⟩ := run_split a c xs ys s0 s2 h2
    exact ⟨s1, by rw [h1]; exact h3, h4⟩

/-- The run `s31` of `Verif/Props/MinLabel.lean`: up to the last new edge, and the 14 steps after it. -/
example : ∃ s s', run sssp c31 (start sssp) (s31.take 16) = some s ∧ run sssp c31 s (s31.drop 16) = some s' ∧ NoTopology (s31.drop 16) ∧
    (s31.drop 16).length = 14 ∧ Rests sssp c31 s' ∧ NoDeletes (s31.take 16) ∧ (∀ u e, e ∈ s.edges u → 0 ≤ e.data) ∧ s.inited 1 = true ∧
    (∀ v, c31.own v < c31.T) ∧ FiniteGraph (fun _ => ([] : List (Edge ℚ))) ∧ s.edges 1 = [⟨2, 5⟩, ⟨0, 1⟩] := by
  obtain ⟨s', h1, h2, h3, h4⟩ := exists_quiet (c := c31) (n := 4) (sssp_eq ▸ minAlg_local _ _ 4) (xs := s31) (by decide)
    (fun s => decide (s.edges 0 = [⟨2, 1⟩] ∧ s.edges 1 = [⟨2, 5⟩, ⟨0, 1⟩] ∧ s.edges 2 = [] ∧ s.edges 3 = [] ∧ s.inited 1 = true)) (by decide +kernel)
  obtain ⟨s, h5, h6⟩ := run_split _ _ (s31.take 16) (s31.drop 16) _ _ (by rw [List.take_append_drop]; exact h1)
  have hn : NoTopology (s31.drop 16) := by
    intro y hy
    simp only [s31, List.drop_succ_cons, List.drop_zero, List.mem_cons, List.not_mem_nil, or_false] at hy
    rcases hy with rfl | rfl | rfl | rfl | rfl | rfl | rfl | rfl | rfl | rfl | rfl | rfl | rfl | rfl
    all_goals first | exact .inl ⟨_, rfl⟩ | exact .inr ⟨_, _, _, rfl⟩
  obtain ⟨e1, e2⟩ := stay_run hn h6
  obtain ⟨g0, g1, g2, g3, g4⟩ := of_decide_eq_true h4
  refine ⟨s, s', h5, h6, hn, rfl, rests_of_quiet h2, by simp [NoDeletes, s31], ?_, e2 ▸ g4, fun v => Nat.mod_lt _ (by decide), ⟨0, fun v => ⟨fun _ => rfl, fun e he => nomatch he⟩⟩, e1 ▸ g1⟩
  intro u e he
  rw [← e1] at he
  match u, he with
  | 0, he => rw [g0] at he; simp at he; subst he; decide
  | 1, he => rw [g1] at he; simp at he; rcases he with rfl | rfl <;> decide
  | 2, he => rw [g2] at he; cases he
  | 3, he => rw [g3] at he; cases he
  | u + 4, he => rw [h3.edges _ (by omega)] at he; cases he

end Verif.Props.Converge
