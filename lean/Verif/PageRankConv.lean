import Verif.PageRankInv
import Verif.WorkInit
import Mathlib.Data.Rat.Floor
import Mathlib.Algebra.Order.Field.Basic
import Mathlib.Algebra.Order.Ring.Abs
import Mathlib.Tactic.Abel
import Mathlib.Algebra.Order.BigOperators.Group.Finset

/-!
# PageRank comes to rest

What is in mailboxes, withheld or about to be posted, in absolute value, never grows while the graph stays as it
is, and each visit that passes anything on absorbs more than `(1 - d) ε` of it.
-/

namespace Verif.PageRank

open Verif.Async
open Verif.Sync (Plain)

variable {E : Type}

/-- What a program posts, in absolute value. -/
def total : Prog ℚ Unit → ℚ
  | .done => 0
  | .post _ x k => |x| + total (k false)
  | .send _ _ k => total k

theorem total_nonneg : ∀ q, 0 ≤ total q
  | .done => le_refl _
  | .post _ x k => add_nonneg (abs_nonneg x) (total_nonneg (k false))
  | .send _ _ k => total_nonneg k

def totalOf (l : List (Nat × ℚ)) : ℚ := (l.map fun q => |q.2|).sum

theorem total_shareAll : ∀ l, total (shareAll l) = totalOf l
  | [] => rfl
  | (w, x) :: l => by simp [shareAll, total, totalOf, total_shareAll l]

theorem totalOf_append (l l' : List (Nat × ℚ)) : totalOf (l ++ l') = totalOf l + totalOf l' := by simp [totalOf]

theorem totalOf_map (x : ℚ) : ∀ es : List (Edge E), totalOf (es.map fun e => (e.dst, x)) = es.length * |x|
  | [] => by simp [totalOf]
  | e :: es => by
    have ih := totalOf_map x es
    simp only [totalOf, List.map_cons, List.sum_cons, List.length_cons, Nat.cast_add, Nat.cast_one] at ih ⊢
    rw [ih]; ring

theorem len_shareAll : ∀ l : List (Nat × ℚ), (shareAll l).len = l.length
  | [] => rfl
  | (_, _) :: l => by simp [shareAll, Prog.len, len_shareAll l]; omega

theorem len_update (d ε : ℚ) (p : PR) (es : List (Edge E)) (m : ℚ) : (onUpdate d ε p es m).2.len ≤ es.length := by
  unfold onUpdate
  simp only
  split
  · simp only
    split
    · simp [len_shareAll]
    · exact Nat.zero_le _
  · exact Nat.zero_le _

theorem flat_update (d ε : ℚ) (p : PR) (es : List (Edge E)) (m : ℚ) : Flat (onUpdate d ε p es m).2 := by
  unfold onUpdate
  simp only
  split
  · simp only
    split
    · exact flat_shareAll _
    · trivial
  · trivial

theorem mul_abs_div (k : Nat) (x : ℚ) : (k : ℚ) * |x / k| ≤ |x| := by
  rw [abs_div, Nat.abs_cast]
  by_cases h : (k : ℚ) = 0
  · rw [h]; simp
  · rw [mul_div_cancel₀ _ h]

/-- A visit passes on and withholds no more than it found; if it passes anything on, it absorbs some. -/
theorem update_total {d ε : ℚ} (h0 : 0 ≤ d) (h1 : d < 1) (p : PR) (es : List (Edge E)) (m : ℚ) :
    ((onUpdate d ε p es m).2.len = 0 ∧ total (onUpdate d ε p es m).2 + |(onUpdate d ε p es m).1.inflow| ≤ |p.inflow| + |m|) ∨
    total (onUpdate d ε p es m).2 + |(onUpdate d ε p es m).1.inflow| + (1 - d) * ε ≤ |p.inflow| + |m| := by
  have htri := abs_add_le p.inflow m
  unfold onUpdate
  simp only
  split
  · next hb =>
    right
    have hd : (1 - d) * ε ≤ (1 - d) * |p.inflow + m| := mul_le_mul_of_nonneg_left (le_of_lt hb) (by linarith)
    have ht : total (if es.length > 0 then shareAll (es.map fun e => (e.dst, d * (p.inflow + m) / es.length)) else .done) ≤ d * |p.inflow + m| := by
      split
      · rw [total_shareAll, totalOf_map]
        have := mul_abs_div es.length (d * (p.inflow + m))
        rwa [abs_mul, abs_of_nonneg h0] at this
      · exact mul_nonneg h0 (abs_nonneg _)
    simp only [abs_zero]
    linarith
  · left
    refine ⟨rfl, ?_⟩
    simp only [total]
    linarith

/-- A callback for a change of the graph: it passes on a part of what it found, and at most twice what its vertex
has passed on before. -/
structure Tame (d : ℚ) (B : Nat) (es : List (Edge E)) (h : PR → List (Edge E) → ℚ → PR × Prog ℚ Unit) : Prop where
  flat : ∀ p m, Flat (h p es m).2
  len : ∀ p m, (h p es m).2.len ≤ B
  total : ∀ p m, total (h p es m).2 + |(h p es m).1.inflow| ≤ |p.inflow| + |m| + 2 * (d / (1 - d)) * |p.mass|

theorem tame_add {d : ℚ} (h0 : 0 ≤ d) (h1 : d < 1) (es : List (Edge E)) (st : Nat) (hst : st ≤ es.length) :
    Tame d es.length es (fun p es m => onEdgeAdd d p es st m) := by
  refine ⟨fun p m => flat_shareAll _, fun p m => ?_, fun p m => ?_⟩
  · unfold onEdgeAdd
    simp only [len_shareAll, List.length_append, List.length_map, List.length_drop]
    split
    · simp only [List.length_map, List.length_take]; omega
    · simp only [List.length_nil]; omega
  · have hk : 0 ≤ d / (1 - d) := div_nonneg h0 (by linarith)
    have htri := abs_add_le p.inflow m
    have hd := mul_le_mul_of_nonneg_right (le_of_lt h1) (abs_nonneg (p.inflow + m))
    have hA : |p.mass * (d / (1 - d))| = d / (1 - d) * |p.mass| := by rw [abs_mul, abs_of_nonneg hk, mul_comm]
    have hx := mul_abs_div es.length (d * (p.inflow + m))
    rw [abs_mul d, abs_of_nonneg h0] at hx
    have hn := mul_abs_div es.length (p.mass * (d / (1 - d)))
    have ho := mul_abs_div st (p.mass * (d / (1 - d)))
    rw [hA] at hn ho
    have hle : (st : ℚ) ≤ es.length := by exact_mod_cast hst
    have h0' : (0 : ℚ) ≤ st := Nat.cast_nonneg _
    unfold onEdgeAdd
    simp only [total_shareAll, totalOf_append, totalOf_map, abs_zero, List.length_drop]
    rw [Nat.cast_sub hst]
    generalize p.mass * (d / (1 - d)) / es.length = dn at *
    generalize d * (p.inflow + m) / es.length = x at *
    have h2 : ((es.length : ℚ) - st) * |dn + x| ≤ (es.length - st) * (|dn| + |x|) := mul_le_mul_of_nonneg_left (abs_add_le _ _) (by linarith)
    have h3 : totalOf (if st ≠ 0 then (es.take st).map fun e => (e.dst, dn - p.mass * (d / (1 - d)) / st + x) else []) ≤ st * (|dn| + |p.mass * (d / (1 - d)) / st| + |x|) := by
      split
      · rw [totalOf_map, List.length_take, Nat.min_eq_left hst]
        refine mul_le_mul_of_nonneg_left ?_ h0'
        have := abs_add_le (dn - p.mass * (d / (1 - d)) / st) x
        have := abs_sub dn (p.mass * (d / (1 - d)) / st)
        linarith
      · simp only [totalOf, List.map_nil, List.sum_nil]
        positivity
    nlinarith

theorem tame_del {d : ℚ} (h0 : 0 ≤ d) (h1 : d < 1) (es ds : List (Edge E)) :
    Tame d (es.length + ds.length) es (fun p es m => onEdgeDel d p es ds m) := by
  refine ⟨fun p m => flat_shareAll _, fun p m => ?_, fun p m => ?_⟩
  · unfold onEdgeDel
    simp only [len_shareAll, List.length_append, List.length_map]
    split
    · simp only [List.length_map]; omega
    · simp only [List.length_nil]; omega
  · have hk : 0 ≤ d / (1 - d) := div_nonneg h0 (by linarith)
    have htri := abs_add_le p.inflow m
    have hd := mul_le_mul_of_nonneg_right (le_of_lt h1) (abs_nonneg (p.inflow + m))
    have hA : |p.mass * (d / (1 - d))| = d / (1 - d) * |p.mass| := by rw [abs_mul, abs_of_nonneg hk, mul_comm]
    have hx := mul_abs_div es.length (d * (p.inflow + m))
    rw [abs_mul d, abs_of_nonneg h0] at hx
    have hn := mul_abs_div es.length (p.mass * (d / (1 - d)))
    have ho := mul_abs_div (es.length + ds.length) (p.mass * (d / (1 - d)))
    rw [hA] at hn ho
    unfold onEdgeDel
    simp only [total_shareAll, totalOf_append, totalOf_map, abs_zero]
    rw [show -1 * (p.mass * (d / (1 - d))) / ((es.length + ds.length : Nat) : ℚ) = -(p.mass * (d / (1 - d)) / ((es.length + ds.length : Nat) : ℚ)) by ring, abs_neg]
    generalize hdo : p.mass * (d / (1 - d)) / ((es.length + ds.length : Nat) : ℚ) = dold at *
    generalize p.mass * (d / (1 - d)) / es.length = dn at *
    generalize d * (p.inflow + m) / es.length = x at *
    rw [Nat.cast_add] at ho
    have hl : (0 : ℚ) ≤ es.length := Nat.cast_nonneg _
    have h3 : totalOf (if es.length > 0 then es.map fun e => (e.dst, dn - dold + x) else []) ≤ es.length * (|dn| + |dold| + |x|) := by
      split
      · rw [totalOf_map]
        refine mul_le_mul_of_nonneg_left ?_ hl
        have := abs_add_le (dn - dold) x
        have := abs_sub dn dold
        linarith
      · simp only [totalOf, List.map_nil, List.sum_nil]
        positivity
    nlinarith

/-! ## The invariant -/

/-- Tasks about to run a callback belong to the owner of a vertex below `n`, and are visits or tame. -/
structure Calm (d ε : ℚ) (c : Cfg ℚ Unit) (n B : Nat) (s : S E) : Prop where
  flat : ∀ t, FlatTask (s.task t)
  own : ∀ t v h, s.task t = .load v h → c.own v = t ∧ v < n
  tame : ∀ t v h, s.task t = .load v h → h = onUpdate d ε ∨ Tame d B (s.edges v) h
  len : ∀ v, (s.edges v).length ≤ B

theorem Tame.mono {d : ℚ} {B B' : Nat} (hB : B ≤ B') {es : List (Edge E)} {h : PR → List (Edge E) → ℚ → PR × Prog ℚ Unit} (ht : Tame d B es h) : Tame d B' es h :=
  ⟨ht.flat, fun p m => le_trans (ht.len p m) hB, ht.total⟩

theorem Calm.mono {d ε : ℚ} {c : Cfg ℚ Unit} {n B B' : Nat} (hB : B ≤ B') {s : S E} (h : Calm d ε c n B s) : Calm d ε c n B' s :=
  ⟨h.flat, h.own, fun t v k hk => (h.tame t v k hk).imp id (·.mono hB), fun v => le_trans (h.len v) hB⟩

theorem Calm.loads {d ε : ℚ} {c : Cfg ℚ Unit} {n B : Nat} {s : S E} (h : Calm d ε c n B s) : Loads B s := by
  intro t v k hk p m
  rcases h.tame t v k hk with rfl | ht
  · exact le_trans (len_update d ε p _ m) (h.len v)
  · exact ht.len p m

theorem calm_upd {d ε : ℚ} {c : Cfg ℚ Unit} {n B : Nat} {s s' : S E} (hi : Calm d ε c n B s) (t : Nat) (k : Task PR ℚ Unit E) (hk : s'.task = upd s.task t k)
    (he : ∀ v, c.own v ≠ t → s'.edges v = s.edges v) (hl : ∀ v, (s'.edges v).length ≤ B) (hf : FlatTask k)
    (hload : ∀ v h, k = .load v h → (c.own v = t ∧ v < n) ∧ (h = onUpdate d ε ∨ Tame d B (s'.edges v) h)) : Calm d ε c n B s' := by
  refine ⟨fun u => ?_, fun u v h => ?_, fun u v h => ?_, hl⟩
  · rw [hk]
    by_cases e : u = t
    · rw [e, upd_same]; exact hf
    · rw [upd_ne _ _ e]; exact hi.flat u
  · rw [hk]
    by_cases e : u = t
    · rw [e, upd_same]; exact fun hh => (hload v h hh).1
    · rw [upd_ne _ _ e]; exact hi.own u v h
  · rw [hk]
    by_cases e : u = t
    · rw [e, upd_same]; exact fun hh => (hload v h hh).2
    · rw [upd_ne _ _ e]
      intro hh
      rw [he v (fun e' => e (by rw [← (hi.own u v h hh).1, e']))]
      exact hi.tame u v h hh

theorem calm_start {d ε : ℚ} {c : Cfg ℚ Unit} {n : Nat} (es0 : Nat → List (Edge E)) (B : Nat) (hB : ∀ v, (es0 v).length ≤ B) : Calm d ε c n B (start (alg d ε) es0 : S E) :=
  ⟨fun _ => trivial, fun _ _ _ e => (by cases e), fun _ _ _ e => (by cases e), hB⟩

theorem calm_init {d ε : ℚ} {c : Cfg ℚ Unit} (hn : ∀ v, c.initNote v = none) {n B : Nat} {s s' : S E} {t v : Nat} (hv : v < n) (hi : Calm d ε c n B s)
    (h : step (alg d ε) c s (.init t v) = some s') : Calm d ε c n B s' := by
  simp only [step] at h
  split at h
  · next hf =>
    obtain ⟨ht, ho, hk⟩ := (free_iff c s t v).1 hf.1
    rw [hn v] at h
    repeat' split at h
    all_goals simp only [Option.some.injEq, reduceCtorEq] at h
    · refine calm_upd hi t (.load v (onUpdate d ε)) (by rw [← h]; rfl) (fun w _ => by rw [← h]) (by rw [← h]; exact hi.len) trivial ?_
      intro w k e
      injection e with e1 e2
      subst e1 e2
      exact ⟨⟨ho, hv⟩, .inl rfl⟩
    all_goals try (next hh => cases hh; done)
    all_goals exact ⟨by rw [← h]; exact hi.flat, by rw [← h]; exact hi.own, by rw [← h]; exact hi.tame, by rw [← h]; exact hi.len⟩
  · cases h

theorem calm_work {d ε : ℚ} {c : Cfg ℚ Unit} {n B : Nat} {s s' : S E} (hs : Supp n s) {x : Act E} (hx : x.work = true) (hi : Calm d ε c n B s)
    (h : step (alg d ε) c s x = some s') : Calm d ε c n B s' := by
  have he := edges_work hx h
  have hl : ∀ v, (s'.edges v).length ≤ B := by rw [he]; exact hi.len
  have hE : ∀ (t v : Nat), c.own v ≠ t → s'.edges v = s.edges v := fun _ _ _ => by rw [he]
  cases x with
  | init _ _ => cases hx
  | add _ _ _ => cases hx
  | del _ _ _ => cases hx
  | recv t v i =>
    simp only [step] at h
    split at h
    · next hf =>
      obtain ⟨ht, ho, hk⟩ := (free_iff c s t v).1 hf
      split at h
      · cases h
      · next y hp =>
        simp only [Option.some.injEq] at h
        have hv : v < n := by
          by_contra hn
          rw [hs.pend v (Nat.le_of_not_lt hn)] at hp
          simp at hp
        refine calm_upd hi t (.load v (onUpdate d ε)) (by rw [← h]; rfl) (hE t) hl trivial ?_
        intro w k e
        injection e with e1 e2
        subst e1 e2
        exact ⟨⟨ho, hv⟩, .inl rfl⟩
    · cases h
  | go t =>
    simp only [step] at h
    split at h
    · have hf := hi.flat t
      cases hk : s.task t with
      | idle => rw [hk] at h; cases h
      | load v k =>
        rw [hk] at h
        simp only [goStep, Option.some.injEq] at h
        refine calm_upd hi t _ (by rw [← h]) (hE t) hl ?_ (fun _ _ e => by cases e)
        rcases hi.tame t v k hk with rfl | ht
        · exact flat_update d ε _ _ _
        · exact ht.flat _ _
      | run v q =>
        rw [hk] at h hf
        cases q with
        | done =>
          simp only [goStep, Option.some.injEq] at h
          exact calm_upd hi t .idle (by rw [← h]) (hE t) hl trivial (fun _ _ e => by cases e)
        | post w m k =>
          simp only [goStep] at h
          split at h
          all_goals simp only [Option.some.injEq] at h
          · exact calm_upd hi t (.cas v w k) (by rw [← h]) (hE t) hl hf (fun _ _ e => by cases e)
          · exact calm_upd hi t (.run v (k false)) (by rw [← h]) (hE t) hl hf.2 (fun _ _ e => by cases e)
        | send w y k => exact hf.elim
      | cas v w k =>
        rw [hk] at h hf
        simp only [goStep] at h
        split at h
        all_goals simp only [Option.some.injEq] at h
        · exact calm_upd hi t (.put v w () (k true)) (by rw [← h]) (hE t) hl (show Flat (k true) by rw [hf.1]; exact hf.2) (fun _ _ e => by cases e)
        · exact calm_upd hi t (.run v (k false)) (by rw [← h]) (hE t) hl hf.2 (fun _ _ e => by cases e)
      | put v w y k =>
        rw [hk] at h hf
        simp only [goStep, Option.some.injEq] at h
        exact calm_upd hi t (.run v k) (by rw [← h]) (hE t) hl hf (fun _ _ e => by cases e)
    · cases h

/-- Every reachable state is calm, for some bound. -/
theorem calm_step {d ε : ℚ} (h0 : 0 ≤ d) (h1 : d < 1) {c : Cfg ℚ Unit} (hn : ∀ v, c.initNote v = none) {n B : Nat} {s s' : S E} (hs : Supp n s) {x : Act E} (hx : x.below n = true)
    (hi : Calm d ε c n B s) (h : step (alg d ε) c s x = some s') : ∃ B', Calm d ε c n B' s' := by
  cases x with
  | init t v => exact ⟨B, calm_init hn (of_decide_eq_true hx) hi h⟩
  | recv t v i => exact ⟨B, calm_work hs rfl hi h⟩
  | go t => exact ⟨B, calm_work hs rfl hi h⟩
  | add t v es =>
    simp only [step] at h
    split at h
    · next hf =>
      obtain ⟨ht, ho, hk⟩ := (free_iff c s t v).1 hf.1
      simp only [Option.some.injEq] at h
      simp only [Act.below, Bool.and_eq_true, decide_eq_true_eq] at hx
      refine ⟨B + es.length, calm_upd (hi.mono (Nat.le_add_right _ _)) t (.load v fun p es m => onEdgeAdd d p es (s.edges v).length m) (by rw [← h]; rfl) ?_ ?_ trivial ?_⟩
      · intro w hw
        rw [← h]
        exact upd_ne _ _ fun e => hw (by rw [e]; exact ho)
      · intro w
        rw [← h]
        by_cases e : w = v
        · simp only [e, upd_same, List.length_append]
          have := hi.len v
          omega
        · simp only [upd_ne _ _ e]
          have := hi.len w
          omega
      · intro w k e
        injection e with e1 e2
        subst e1 e2
        refine ⟨⟨ho, hx.1⟩, .inr ?_⟩
        rw [← h]
        simp only [upd_same]
        refine (tame_add h0 h1 (s.edges v ++ es) (s.edges v).length (by simp)).mono ?_
        have := hi.len v
        simp only [List.length_append]
        omega
    · cases h
  | del t v keep =>
    simp only [step] at h
    split at h
    · next hf =>
      obtain ⟨ht, ho, hk⟩ := (free_iff c s t v).1 hf
      simp only [Option.some.injEq] at h
      have hsel := length_select keep (s.edges v)
      have := hi.len v
      refine ⟨B, calm_upd hi t (.load v fun p es m => onEdgeDel d p es (select keep (s.edges v)).2 m) (by rw [← h]; rfl) ?_ ?_ trivial ?_⟩
      · intro w hw
        rw [← h]
        exact upd_ne _ _ fun e => hw (by rw [e]; exact ho)
      · intro w
        rw [← h]
        by_cases e : w = v
        · simp only [e, upd_same]
          omega
        · simp only [upd_ne _ _ e]
          exact hi.len w
      · intro w k e
        injection e with e1 e2
        subst e1 e2
        refine ⟨⟨ho, of_decide_eq_true hx⟩, .inr ?_⟩
        rw [← h]
        simp only [upd_same]
        exact (tame_del h0 h1 (select keep (s.edges v)).1 (select keep (s.edges v)).2).mono (by omega)
    · cases h

theorem calm_run {d ε : ℚ} (h0 : 0 ≤ d) (h1 : d < 1) {c : Cfg ℚ Unit} (hn : ∀ v, c.initNote v = none) {n : Nat} (hloc : Local (alg d ε : Alg PR ℚ Unit E) n) :
    ∀ {xs : List (Act E)} {s s' : S E} {B : Nat}, Supp n s → Calm d ε c n B s → (∀ x ∈ xs, x.below n = true) → run (alg d ε) c s xs = some s' → ∃ B', Calm d ε c n B' s'
  | [], s, s', B, _, hi, _, h => by simp only [run, Option.some.injEq] at h; subst h; exact ⟨B, hi⟩
  | x :: xs, s, s', B, hs, hi, hx, h => by
    simp only [run] at h
    obtain ⟨s1, h2, h3⟩ := Option.bind_eq_some_iff.1 h
    obtain ⟨B', hi'⟩ := calm_step h0 h1 hn hs (hx x (by simp)) hi h2
    exact calm_run h0 h1 hn hloc (supp_step hloc (hx x (by simp)) hs h2) hi' (fun y hy => hx y (by simp [hy])) h3

/-! ## The measure -/

open Classical in
/-- What a task may still post, in absolute value, beyond what its callback finds. -/
noncomputable def owed (d ε : ℚ) (prop : Nat → PR) : Task PR ℚ Unit E → ℚ
  | .idle => 0
  | .load v h => if h = onUpdate d ε then 0 else 2 * (d / (1 - d)) * |(prop v).mass|
  | .run _ q => total q
  | .cas _ _ k => total (k false)
  | .put _ _ _ k => total k

open Classical in
/-- How many posts a task has left, apart from visits not begun. -/
noncomputable def ahead (d ε : ℚ) (B : Nat) : Task PR ℚ Unit E → Nat
  | .idle => 0
  | .load _ h => if h = onUpdate d ε then 0 else B
  | .run _ q => q.len
  | .cas _ _ k => (k false).len
  | .put _ _ _ k => k.len

/-- At a vertex: mail, withheld inflow, and initial mail to come. -/
def cell (s : S E) (v : Nat) : ℚ := |s.inbox v| + |(s.prop v).inflow| + if s.inited v = true then 0 else 1

/-- All that is around, in absolute value. -/
noncomputable def residue (d ε : ℚ) (c : Cfg ℚ Unit) (n : Nat) (s : S E) : ℚ :=
  ∑ v ∈ Finset.range n, cell s v + ∑ t ∈ Finset.range c.T, owed d ε s.prop (s.task t)

noncomputable def posting (d ε : ℚ) (c : Cfg ℚ Unit) (B : Nat) (s : S E) : Nat := ∑ t ∈ Finset.range c.T, ahead d ε B (s.task t)

theorem sum_change {α : Type} [AddCommMonoid α] (f g : Nat → α) {T t : Nat} (ht : t < T) (h : ∀ i, i ≠ t → f i = g i) :
    ∑ i ∈ Finset.range T, f i + g t = ∑ i ∈ Finset.range T, g i + f t := by
  have hi : t ∈ Finset.range T := Finset.mem_range.2 ht
  rw [← Finset.add_sum_erase _ f hi, ← Finset.add_sum_erase _ g hi, Finset.sum_congr rfl fun j hj => h j (Finset.ne_of_mem_erase hj)]
  abel

theorem owed_nonneg {d ε : ℚ} (h0 : 0 ≤ d) (h1 : d < 1) (prop : Nat → PR) (k : Task PR ℚ Unit E) : 0 ≤ owed d ε prop k := by
  have hk : 0 ≤ d / (1 - d) := div_nonneg h0 (by linarith)
  cases k with
  | idle => exact le_refl _
  | load v h =>
    simp only [owed]
    split
    · exact le_refl _
    · positivity
  | run _ q => exact total_nonneg q
  | cas _ _ k => exact total_nonneg _
  | put _ _ _ k => exact total_nonneg k

theorem cell_nonneg (s : S E) (v : Nat) : 0 ≤ cell s v := by
  unfold cell
  have : (0 : ℚ) ≤ if s.inited v = true then 0 else 1 := by split <;> norm_num
  have := abs_nonneg (s.inbox v)
  have := abs_nonneg (s.prop v).inflow
  linarith

theorem residue_nonneg {d ε : ℚ} (h0 : 0 ≤ d) (h1 : d < 1) (c : Cfg ℚ Unit) (n : Nat) (s : S E) : 0 ≤ residue d ε c n s :=
  add_nonneg (Finset.sum_nonneg fun v _ => cell_nonneg s v) (Finset.sum_nonneg fun t _ => owed_nonneg h0 h1 _ _)

/-- A step of thread `t` that concerns vertex `v`. -/
theorem residue_change {d ε : ℚ} {c : Cfg ℚ Unit} {n t v : Nat} {s s' : S E} (ht : t < c.T) (hv : v < n)
    (hc : ∀ w, w ≠ v → cell s' w = cell s w) (hk : ∀ u, u ≠ t → owed d ε s'.prop (s'.task u) = owed d ε s.prop (s.task u)) :
    residue d ε c n s' + (cell s v + owed d ε s.prop (s.task t)) = residue d ε c n s + (cell s' v + owed d ε s'.prop (s'.task t)) := by
  have h1 := sum_change (cell s') (cell s) hv hc
  have h2 := sum_change (fun u => owed d ε s'.prop (s'.task u)) (fun u => owed d ε s.prop (s.task u)) ht hk
  unfold residue
  linarith

theorem residue_task {d ε : ℚ} {c : Cfg ℚ Unit} {n t : Nat} {s s' : S E} (ht : t < c.T)
    (hc : ∀ w, cell s' w = cell s w) (hk : ∀ u, u ≠ t → owed d ε s'.prop (s'.task u) = owed d ε s.prop (s.task u)) :
    residue d ε c n s' + owed d ε s.prop (s.task t) = residue d ε c n s + owed d ε s'.prop (s'.task t) := by
  have h2 := sum_change (fun u => owed d ε s'.prop (s'.task u)) (fun u => owed d ε s.prop (s.task u)) ht hk
  unfold residue
  rw [Finset.sum_congr rfl fun w _ => hc w]
  linarith

theorem posting_change {d ε : ℚ} {c : Cfg ℚ Unit} {B t : Nat} {s s' : S E} {k : Task PR ℚ Unit E} (ht : t < c.T) (hk : s'.task = upd s.task t k) :
    posting d ε c B s' + ahead d ε B (s.task t) = posting d ε c B s + ahead d ε B k := by
  have := sum_change (fun u => ahead d ε B (s'.task u)) (fun u => ahead d ε B (s.task u)) ht fun i hi => by rw [hk, upd_ne _ _ hi]
  simp only [hk, upd_same] at this
  unfold posting
  rw [hk]
  exact this

/-- What a step does to the measures: nothing grows, and posts are used up; or posts are gained, at most `B` of
them, and more than `(1 - d) ε` is absorbed. -/
def Pays (d ε : ℚ) (c : Cfg ℚ Unit) (n B : Nat) (s s' : S E) (x : Act E) : Prop :=
  (residue d ε c n s' ≤ residue d ε c n s ∧ posting d ε c B s' + (if charged (alg d ε) s x = true then 1 else 0) ≤ posting d ε c B s) ∨
  (residue d ε c n s' + (1 - d) * ε ≤ residue d ε c n s ∧ posting d ε c B s' ≤ posting d ε c B s + B ∧ charged (alg d ε) s x = false)

theorem owed_task {d ε : ℚ} {s s' : S E} {t : Nat} {k : Task PR ℚ Unit E} (hp : s'.prop = s.prop) (hk : s'.task = upd s.task t k) :
    ∀ u, u ≠ t → owed d ε s'.prop (s'.task u) = owed d ε s.prop (s.task u) := by
  intro u hu
  rw [hp, hk, upd_ne _ _ hu]

theorem pays_init {d ε : ℚ} {c : Cfg ℚ Unit} (hn : ∀ v, c.initNote v = none) (hm : ∀ v, c.initMail v = some 1) {n B : Nat} {s s' : S E} {t v : Nat} (hv : v < n)
    (h : step (alg d ε) c s (.init t v) = some s') : Pays d ε c n B s s' (.init t v) := by
  simp only [step] at h
  split at h
  · next hf =>
    obtain ⟨ht, ho, hk⟩ := (free_iff c s t v).1 hf.1
    have hin := hf.2
    rw [hn v, hm v] at h
    dsimp only at h
    left
    have hcell : (∀ w, w ≠ v → s'.inbox w = s.inbox w) → s'.inbox v = s.inbox v + 1 → s'.prop = s.prop → s'.inited = upd s.inited v true →
        (∀ w, w ≠ v → cell s' w = cell s w) ∧ cell s' v ≤ cell s v := by
      intro h1 h2 h3 h4
      refine ⟨fun w hw => by unfold cell; rw [h1 w hw, h3, h4, upd_ne _ _ hw], ?_⟩
      unfold cell
      rw [h2, h3, h4, upd_same, hin]
      have := abs_add_le (s.inbox v) 1
      rw [abs_one] at this
      simp only [if_true, Bool.false_eq_true, if_false]
      linarith
    have hfin : ∀ k : Task PR ℚ Unit E, s'.task = upd s.task t k → (∀ p, owed d ε p k = 0) → ahead d ε B k = 0 → s'.prop = s.prop →
        (∀ w, w ≠ v → cell s' w = cell s w) ∧ cell s' v ≤ cell s v → residue d ε c n s' ≤ residue d ε c n s ∧ posting d ε c B s' + 0 ≤ posting d ε c B s := by
      intro k h1 h2 h3 hp h4
      have e1 := residue_change (d := d) (ε := ε) ht hv h4.1 (owed_task hp h1)
      have e2 := posting_change (d := d) (ε := ε) (B := B) ht h1
      rw [h3, hk] at e2
      rw [hk, h1, upd_same, h2] at e1
      simp only [owed] at e1
      simp only [ahead] at e2
      exact ⟨by linarith [h4.2], by omega⟩
    split at h
    · simp only [Option.some.injEq] at h
      refine hfin (.load v (onUpdate d ε)) (by rw [← h]; rfl) (fun p => by simp [owed]) (by simp [ahead]) (by rw [← h]) (hcell (fun w hw => ?_) ?_ (by rw [← h]) (by rw [← h]))
      · rw [← h]; exact upd_ne _ _ hw
      · rw [← h]; exact upd_same _ _ _
    · simp only [Option.some.injEq] at h
      refine hfin .idle (by rw [← h]; exact (Sync.upd_self s.task t _ hk).symm) (fun p => by simp [owed]) (by simp [ahead]) (by rw [← h]) (hcell (fun w hw => ?_) ?_ (by rw [← h]) (by rw [← h]))
      · rw [← h]; exact upd_ne _ _ hw
      · rw [← h]; exact upd_same _ _ _
  · cases h

/-- A step that changes only the task of `t` (and queues). -/
theorem pays_task {d ε : ℚ} {c : Cfg ℚ Unit} {n B t : Nat} {s s' : S E} {x : Act E} {k : Task PR ℚ Unit E} (ht : t < c.T) (hp : s'.prop = s.prop)
    (hb : s'.inbox = s.inbox) (hi : s'.inited = s.inited) (hk : s'.task = upd s.task t k) (hx : charged (alg d ε) s x = false)
    (h1 : owed d ε s.prop k ≤ owed d ε s.prop (s.task t)) (h2 : ahead d ε B k ≤ ahead d ε B (s.task t)) : Pays d ε c n B s s' x := by
  left
  have e1 := residue_task (d := d) (ε := ε) (n := n) ht (fun w => by unfold cell; rw [hp, hb, hi]) (owed_task hp hk)
  have e2 := posting_change (d := d) (ε := ε) (B := B) ht hk
  rw [hk, upd_same, hp] at e1
  rw [hx]
  refine ⟨by linarith, ?_⟩
  simp only [Bool.false_eq_true, if_false]
  omega

theorem pays_load {d ε : ℚ} (h0 : 0 ≤ d) (h1 : d < 1) {c : Cfg ℚ Unit} {n B t v : Nat} {s s' : S E} {h : PR → List (Edge E) → ℚ → PR × Prog ℚ Unit}
    (hi : Calm d ε c n B s) (ht : t < c.T) (hk : s.task t = .load v h) (hp : s'.prop = upd s.prop v (h (s.prop v) (s.edges v) (s.inbox v)).1)
    (hb : s'.inbox = upd s.inbox v 0) (hin : s'.inited = s.inited) (hk' : s'.task = upd s.task t (.run v (h (s.prop v) (s.edges v) (s.inbox v)).2)) :
    Pays d ε c n B s s' (.go t) := by
  obtain ⟨ho, hv⟩ := hi.own t v h hk
  have hcell : ∀ w, w ≠ v → cell s' w = cell s w := fun w hw => by unfold cell; rw [hp, hb, hin, upd_ne _ _ hw, upd_ne _ _ hw]
  have howed : ∀ u, u ≠ t → owed d ε s'.prop (s'.task u) = owed d ε s.prop (s.task u) := by
    intro u hu
    rw [hk', upd_ne _ _ hu]
    cases hku : s.task u with
    | load w k =>
      have : w ≠ v := fun e => hu (by rw [← (hi.own u w k hku).1, e, ho])
      simp only [owed]
      rw [hp, upd_ne _ _ this]
    | _ => rfl
  have e1 := residue_change (d := d) (ε := ε) ht hv hcell howed
  have e2 := posting_change (d := d) (ε := ε) (B := B) ht hk'
  have hc : charged (alg d ε) s (.go t) = false := by simp only [charged, hk]
  rw [hk', upd_same, hk] at e1
  rw [hk] at e2
  unfold cell at e1
  rw [hb, hp, upd_same, upd_same, hin] at e1
  simp only [owed, abs_zero] at e1
  simp only [ahead] at e2
  unfold Pays
  rw [hc]
  rcases hi.tame t v h hk with rfl | htm
  · rw [if_pos rfl] at e1 e2
    have hl := len_update d ε (s.prop v) (s.edges v) (s.inbox v)
    have := hi.len v
    rcases update_total (ε := ε) h0 h1 (s.prop v) (s.edges v) (s.inbox v) with ⟨g1, g2⟩ | g
    · left
      simp only [Bool.false_eq_true, if_false]
      exact ⟨by linarith, by omega⟩
    · right
      exact ⟨by linarith, by omega, rfl⟩
  · by_cases hu : h = onUpdate d ε
    · subst hu
      rw [if_pos rfl] at e1 e2
      have hl := len_update d ε (s.prop v) (s.edges v) (s.inbox v)
      have := hi.len v
      rcases update_total (ε := ε) h0 h1 (s.prop v) (s.edges v) (s.inbox v) with ⟨g1, g2⟩ | g
      · left
        simp only [Bool.false_eq_true, if_false]
        exact ⟨by linarith, by omega⟩
      · right
        exact ⟨by linarith, by omega, rfl⟩
    · rw [if_neg hu] at e1 e2
      left
      have g1 := htm.total (s.prop v) (s.inbox v)
      have g2 := htm.len (s.prop v) (s.inbox v)
      simp only [Bool.false_eq_true, if_false]
      exact ⟨by linarith, by omega⟩

theorem pays_post {d ε : ℚ} {c : Cfg ℚ Unit} {n B t v w : Nat} {x : ℚ} {k : Bool → Prog ℚ Unit} {s s' : S E} {k' : Task PR ℚ Unit E}
    (ht : t < c.T) (hw : w < n) (hk : s.task t = .run v (.post w x k)) (hp : s'.prop = s.prop) (hin : s'.inited = s.inited)
    (hb : s'.inbox = upd s.inbox w (s.inbox w + x)) (hk' : s'.task = upd s.task t k')
    (h1 : owed d ε s.prop k' = total (k false)) (h2 : ahead d ε B k' = (k false).len) : Pays d ε c n B s s' (.go t) := by
  left
  have hcell : ∀ u, u ≠ w → cell s' u = cell s u := fun u hu => by unfold cell; rw [hp, hb, hin, upd_ne _ _ hu]
  have e1 := residue_change (d := d) (ε := ε) ht hw hcell (owed_task hp hk')
  have e2 := posting_change (d := d) (ε := ε) (B := B) ht hk'
  rw [hk', upd_same, hk, hp, h1] at e1
  rw [hk, h2] at e2
  unfold cell at e1
  rw [hb, hp, upd_same, hin] at e1
  simp only [owed, total] at e1
  simp only [ahead, Prog.len] at e2
  have g1 := abs_add_le (s.inbox w) x
  have g2 : (k false).len ≤ max (k true).len (k false).len := le_max_right _ _
  refine ⟨by linarith, ?_⟩
  split <;> omega

theorem pays_work {d ε : ℚ} (h0 : 0 ≤ d) (h1 : d < 1) {c : Cfg ℚ Unit} {n B : Nat} {s s' : S E} (hs : Supp n s) {x : Act E} (hx : x.work = true) (hi : Calm d ε c n B s)
    (h : step (alg d ε) c s x = some s') : Pays d ε c n B s s' x := by
  cases x with
  | init _ _ => cases hx
  | add _ _ _ => cases hx
  | del _ _ _ => cases hx
  | recv t v i =>
    simp only [step] at h
    split at h
    · next hf =>
      obtain ⟨ht, ho, hk⟩ := (free_iff c s t v).1 hf
      split at h
      · cases h
      · simp only [Option.some.injEq] at h
        exact pays_task (k := .load v (onUpdate d ε)) ht (by rw [← h]) (by rw [← h]) (by rw [← h]) (by rw [← h]; rfl) rfl
          (by rw [hk]; simp [owed]) (by rw [hk]; simp [ahead])
    · cases h
  | go t =>
    simp only [step] at h
    split at h
    · next ht =>
      have hf := hi.flat t
      have hb := hs.task t
      cases hk : s.task t with
      | idle => rw [hk] at h; cases h
      | load v k =>
        rw [hk] at h
        simp only [goStep, Option.some.injEq] at h
        exact pays_load h0 h1 hi ht hk (by rw [← h]; rfl) (by rw [← h]; rfl) (by rw [← h]) (by rw [← h]; rfl)
      | run v q =>
        rw [hk] at h hf hb
        cases q with
        | done =>
          simp only [goStep, Option.some.injEq] at h
          exact pays_task (k := .idle) ht (by rw [← h]) (by rw [← h]) (by rw [← h]) (by rw [← h]) (by simp only [charged, hk])
            (by rw [hk]; simp [owed, total]) (by rw [hk]; simp [ahead])
        | post w m k =>
          simp only [goStep] at h
          split at h
          all_goals simp only [Option.some.injEq] at h
          · exact pays_post ht hb.1 hk (by rw [← h]) (by rw [← h]) (by rw [← h]; rfl) (k' := .cas v w k) (by rw [← h]) rfl rfl
          · exact pays_post ht hb.1 hk (by rw [← h]) (by rw [← h]) (by rw [← h]; rfl) (k' := .run v (k false)) (by rw [← h]) rfl rfl
        | send w y k => exact hf.elim
      | cas v w k =>
        rw [hk] at h hf
        simp only [goStep] at h
        split at h
        all_goals simp only [Option.some.injEq] at h
        · exact pays_task (k := .put v w () (k true)) ht (by rw [← h]) (by rw [← h]) (by rw [← h]) (by rw [← h]) (by simp only [charged, hk])
            (by rw [hk]; simp only [owed]; rw [hf.1]) (by rw [hk]; simp only [ahead]; rw [hf.1])
        · exact pays_task (k := .run v (k false)) ht (by rw [← h]) (by rw [← h]) (by rw [← h]) (by rw [← h]) (by simp only [charged, hk])
            (by rw [hk]; simp [owed]) (by rw [hk]; simp [ahead])
      | put v w y k =>
        rw [hk] at h hf
        simp only [goStep, Option.some.injEq] at h
        exact pays_task (k := .run v k) ht (by rw [← h]) (by rw [← h]) (by rw [← h]) (by rw [← h]) (by simp only [charged, hk])
            (by rw [hk]; simp [owed]) (by rw [hk]; simp [ahead])
    · cases h

/-- The number that goes down. -/
noncomputable def budget (d ε : ℚ) (c : Cfg ℚ Unit) (n B : Nat) (s : S E) : Nat :=
  B * ⌊residue d ε c n s / ((1 - d) * ε)⌋₊ + posting d ε c B s

theorem budget_step {d ε : ℚ} (h0 : 0 ≤ d) (h1 : d < 1) (hε : 0 < ε) {c : Cfg ℚ Unit} {n B : Nat} {s s' : S E} {x : Act E}
    (h : Pays d ε c n B s s' x) : budget d ε c n B s' + (if charged (alg d ε) s x = true then 1 else 0) ≤ budget d ε c n B s := by
  have hδ : 0 < (1 - d) * ε := mul_pos (by linarith) hε
  unfold budget
  rcases h with ⟨h2, h3⟩ | ⟨h2, h3, h4⟩
  · have : ⌊residue d ε c n s' / ((1 - d) * ε)⌋₊ ≤ ⌊residue d ε c n s / ((1 - d) * ε)⌋₊ := Nat.floor_mono (div_le_div_of_nonneg_right h2 (le_of_lt hδ))
    have := Nat.mul_le_mul_left B this
    omega
  · have h5 : residue d ε c n s' / ((1 - d) * ε) + 1 ≤ residue d ε c n s / ((1 - d) * ε) := by
      rw [div_add_one (ne_of_gt hδ)]
      exact div_le_div_of_nonneg_right h2 (le_of_lt hδ)
    have h6 : ⌊residue d ε c n s' / ((1 - d) * ε)⌋₊ + 1 ≤ ⌊residue d ε c n s / ((1 - d) * ε)⌋₊ := by
      rw [← Nat.floor_add_one (div_nonneg (residue_nonneg h0 h1 c n s') (le_of_lt hδ))]
      exact Nat.floor_mono h5
    have := Nat.mul_le_mul_left B h6
    rw [Nat.mul_add] at this
    rw [h4]
    simp only [Bool.false_eq_true, if_false]
    omega

/-- **The bound**, from any calm state. -/
theorem converge {d ε : ℚ} (h0 : 0 ≤ d) (h1 : d < 1) (hε : 0 < ε) {c : Cfg ℚ Unit} (hn : ∀ v, c.initNote v = none) (hm : ∀ v, c.initMail v = some 1) {n : Nat}
    (hloc : Local (alg d ε : Alg PR ℚ Unit E) n) {B : Nat} {s : S E} (hs : Supp n s) (hi : Calm d ε c n B s) :
    ∃ K, ∀ ys s', (∀ y ∈ ys, Plain y ∧ y.below n = true) → run (alg d ε) c s ys = some s' → ys.length ≤ K := by
  refine ⟨_, fun ys s' hy h => plain_bound (B := B) hloc (fun r => Calm d ε c n B r) (fun r => budget d ε c n B r) (fun r hr => hr.loads) ?_ hi hs hy h⟩
  intro r r' x hr hsr hp hb hst
  have hwork : x.work = true → Calm d ε c n B r' ∧ budget d ε c n B r' + (if charged (alg d ε) r x = true then 1 else 0) ≤ budget d ε c n B r :=
    fun hw => ⟨calm_work hsr hw hr hst, budget_step h0 h1 hε (pays_work h0 h1 hsr hw hr hst)⟩
  cases x with
  | add => exact hp.elim
  | del => exact hp.elim
  | recv => exact hwork rfl
  | go => exact hwork rfl
  | init t v =>
    have hv : v < n := of_decide_eq_true hb
    exact ⟨calm_init hn hv hr hst, budget_step h0 h1 hε (pays_init hn hm hv hst)⟩

end Verif.PageRank
