import Verif.PageRank
import Verif.AsyncInv
import Mathlib.Algebra.BigOperators.Group.Finset.Basic
import Mathlib.Algebra.BigOperators.Ring.Finset
import Mathlib.Tactic.Ring
import Mathlib.Tactic.FieldSimp
import Mathlib.Tactic.Linarith
import Mathlib.Data.Rat.Cast.Order

/-!
# The PageRank ledger

What has been sent to a vertex is what the edges and masses prescribe, at every moment.
-/

namespace Verif.PageRank

open Verif.Async

variable {E : Type}

/-- The program does not depend on what was sent, and only posts. -/
def Flat : Prog ℚ Unit → Prop
  | .done => True
  | .post _ _ k => k true = k false ∧ Flat (k false)
  | .send _ _ _ => False

/-- What the program posts to `v` in all. -/
def posts (v : Nat) : Prog ℚ Unit → ℚ
  | .done => 0
  | .post w x k => (if w = v then x else 0) + posts v (k false)
  | .send _ _ k => posts v k

theorem flat_shareAll : ∀ l, Flat (shareAll l)
  | [] => trivial
  | (_, _) :: l => ⟨rfl, flat_shareAll l⟩

/-- The sum of what a list of posts gives to `v`. -/
def given (v : Nat) : List (Nat × ℚ) → ℚ
  | [] => 0
  | (w, x) :: l => (if w = v then x else 0) + given v l

theorem posts_shareAll (v : Nat) : ∀ l, posts v (shareAll l) = given v l
  | [] => rfl
  | (w, x) :: l => by simp only [shareAll, posts, given, posts_shareAll v l]

theorem given_append (v : Nat) : ∀ l l', given v (l ++ l') = given v l + given v l'
  | [], l' => by simp [given]
  | (w, x) :: l, l' => by simp only [List.cons_append, given, given_append v l l']; ring

/-- How many of the edges lead to `v`. -/
def cnt (v : Nat) (es : List (Edge E)) : Nat := es.countP fun e => decide (e.dst = v)

theorem given_map (v : Nat) (x : ℚ) : ∀ es : List (Edge E), given v (es.map fun e => (e.dst, x)) = cnt v es * x
  | [] => by simp [given, cnt]
  | e :: es => by
    have ih := given_map v x es
    simp only [List.map_cons, given, ih, cnt, List.countP_cons]
    by_cases h : e.dst = v
    · simp [h]; ring
    · simp [h]

theorem cnt_append (v : Nat) (a b : List (Edge E)) : cnt v (a ++ b) = cnt v a + cnt v b := List.countP_append

theorem cnt_select (v : Nat) : ∀ (ks : List Bool) (es : List (Edge E)), cnt v (select ks es).1 + cnt v (select ks es).2 = cnt v es
  | [], es => by simp [select, cnt]
  | _ :: _, [] => by simp [select, cnt]
  | k :: ks, e :: es => by
    have ih := cnt_select v ks es
    simp only [select]
    unfold cnt at *
    cases k
    · simp only [Bool.false_eq_true, if_false, List.countP_cons]; omega
    · simp only [if_true, List.countP_cons]; omega

theorem length_select {α : Type} : ∀ (ks : List Bool) (es : List α), (select ks es).1.length + (select ks es).2.length = es.length
  | [], es => by simp [select]
  | _ :: _, [] => by simp [select]
  | k :: ks, e :: es => by
    have ih := length_select ks es
    simp only [select]
    cases k
    · simp only [Bool.false_eq_true, if_false, List.length_cons]; omega
    · simp only [if_true, List.length_cons]; omega

/-- What a vertex with this mass has given to `v` along these edges: its mass, undamped, shared among the
edges. -/
def share (d mass : ℚ) (es : List (Edge E)) (v : Nat) : ℚ := cnt v es * (mass * (d / (1 - d)) / es.length)

theorem cnt_zero {v : Nat} {es : List (Edge E)} (h : es.length = 0) : cnt v es = 0 := by
  rw [List.length_eq_zero_iff.1 h]; rfl

/-- The callback settles: own flow is kept, and what it posts leads from what was given (`g`) to what the
new mass and the edges prescribe. -/
def Settles (d : ℚ) (p : PR) (es : List (Edge E)) (g : Nat → ℚ) (h : PR → List (Edge E) → ℚ → PR × Prog ℚ Unit) : Prop :=
  ∀ m, (h p es m).1.inflow + (h p es m).1.mass / (1 - d) = p.inflow + p.mass / (1 - d) + m ∧ Flat (h p es m).2 ∧
    ∀ v, posts v (h p es m).2 = share d (h p es m).1.mass es v - g v

theorem settles_update {d ε : ℚ} (hd : 1 - d ≠ 0) (p : PR) (es : List (Edge E)) : Settles d p es (share d p.mass es) (onUpdate d ε) := by
  intro m
  unfold onUpdate
  simp only
  split
  · refine ⟨by field_simp; ring, ?_, ?_⟩
    · split
      · exact flat_shareAll _
      · trivial
    · intro v
      split
      · next hl =>
        rw [posts_shareAll, given_map]
        have : (es.length : ℚ) ≠ 0 := by exact_mod_cast Nat.pos_iff_ne_zero.1 hl
        unfold share
        field_simp
        ring
      · next hl => unfold share; rw [cnt_zero (by omega)]; simp [posts]
  · exact ⟨by ring, trivial, fun v => by simp [posts]⟩

theorem settles_add {d : ℚ} (hd : 1 - d ≠ 0) (p : PR) (es : List (Edge E)) (hes : es ≠ []) (st : Nat) (hst : st ≤ es.length) :
    Settles d p es (share d p.mass (es.take st)) (fun p es m => onEdgeAdd d p es st m) := by
  intro m
  unfold onEdgeAdd
  simp only
  refine ⟨by field_simp; ring, flat_shareAll _, ?_⟩
  intro v
  have hl : (es.length : ℚ) ≠ 0 := by
    have := List.length_pos_iff.2 hes
    exact_mod_cast this.ne'
  have hc : (cnt v es : ℚ) = cnt v (es.take st) + cnt v (es.drop st) := by
    rw [← Nat.cast_add, ← cnt_append, List.take_append_drop]
  rw [posts_shareAll, given_append, given_map]
  unfold share
  rw [List.length_take, Nat.min_eq_left hst, hc]
  split
  · next h0 =>
    have h0' : (st : ℚ) ≠ 0 := by exact_mod_cast h0
    rw [given_map]
    field_simp
    ring
  · next h0 =>
    have h0 : st = 0 := by simpa using h0
    subst h0
    simp only [given, List.take_zero, List.drop_zero, cnt, List.countP_nil, Nat.cast_zero]
    field_simp
    ring

theorem settles_del {d : ℚ} (hd : 1 - d ≠ 0) (p : PR) (all es ds : List (Edge E)) (hc : ∀ v, cnt v es + cnt v ds = cnt v all) (hl : es.length + ds.length = all.length) :
    Settles d p es (share d p.mass all) (fun p es m => onEdgeDel d p es ds m) := by
  intro m
  unfold onEdgeDel
  simp only
  refine ⟨by field_simp; ring, flat_shareAll _, ?_⟩
  intro v
  rw [posts_shareAll, given_append, given_map]
  unfold share
  rw [← hc v, ← hl]
  by_cases ha : es.length + ds.length = 0
  · have h1 : es.length = 0 := by omega
    have h2 : ds.length = 0 := by omega
    rw [cnt_zero h1, cnt_zero h2, if_neg (by omega)]
    simp [given]
  · have ha' : ((es.length + ds.length : Nat) : ℚ) ≠ 0 := by exact_mod_cast ha
    split
    · next h0 =>
      have h0' : (es.length : ℚ) ≠ 0 := by exact_mod_cast h0.ne'
      rw [given_map]
      push_cast at *
      field_simp
      ring
    · next h0 =>
      rw [cnt_zero (by omega : es.length = 0)]
      push_cast at *
      simp only [given]
      field_simp
      ring

/-! ## The invariant -/

abbrev S (E : Type) := St PR ℚ Unit E

/-- What is left to post to `v` in a task. -/
def left (v : Nat) : Task PR ℚ Unit E → ℚ
  | .run _ q => posts v q
  | .cas _ _ k => posts v (k false)
  | .put _ _ _ k => posts v k
  | _ => 0

def FlatTask : Task PR ℚ Unit E → Prop
  | .run _ q => Flat q
  | .cas _ _ k => k true = k false ∧ Flat (k false)
  | .put _ _ _ k => Flat k
  | _ => True

/-- `G u v`: what vertex `u` has given to `v` so far. -/
structure Ledger (d : ℚ) (c : Cfg ℚ Unit) (n : Nat) (s : S E) (G : Nat → Nat → ℚ) : Prop where
  bal : ∀ v, s.inbox v + (s.prop v).inflow + (s.prop v).mass / (1 - d) + ∑ t ∈ Finset.range c.T, left v (s.task t) =
    (if s.inited v = true then 1 else 0) + ∑ u ∈ Finset.range n, G u v
  flat : ∀ t, t < c.T → FlatTask (s.task t)
  load : ∀ t, t < c.T → ∀ v h, s.task t = .load v h → c.own v = t ∧ Settles d (s.prop v) (s.edges v) (G v) h
  rest : ∀ u, (∀ h, s.task (c.own u) ≠ .load u h) → G u = share d (s.prop u).mass (s.edges u)
  out : ∀ u, n ≤ u → s.edges u = [] ∧ ∀ v, G u v = 0

theorem sum_upd {α : Type} (f : α → ℚ) (g : Nat → α) (t : Nat) (x : α) : ∀ T, t < T →
    ∑ i ∈ Finset.range T, f (upd g t x i) = ∑ i ∈ Finset.range T, f (g i) - f (g t) + f x := by
  intro T
  induction T with
  | zero => intro h; omega
  | succ T ih =>
    intro h
    rw [Finset.sum_range_succ, Finset.sum_range_succ]
    by_cases e : t = T
    · subst e
      rw [upd_same]
      have : ∑ i ∈ Finset.range t, f (upd g t x i) = ∑ i ∈ Finset.range t, f (g i) := by
        apply Finset.sum_congr rfl
        intro i hi
        rw [Finset.mem_range] at hi
        rw [upd_ne _ _ (by omega)]
      rw [this]; ring
    · have := ih (by omega)
      rw [upd_ne g x (fun e' => e e'.symm), this]
      ring

theorem share_nil (d m : ℚ) (v : Nat) : share d m ([] : List (Edge E)) v = 0 := by simp [share, cnt]

theorem ledger_start (d ε : ℚ) (c : Cfg ℚ Unit) (n : Nat) (es0 : Nat → List (Edge E)) (hes : ∀ u, n ≤ u → es0 u = []) : Ledger d c n (start (alg d ε) es0 : S E) (fun _ _ => 0) := by
  refine ⟨?_, fun _ _ => trivial, ?_, ?_, fun u hu => ⟨hes u hu, fun _ => rfl⟩⟩
  · intro v; simp [start, alg, left]
  · intro t _ v h e; cases e
  · intro u _; funext v; simp [share, start, alg]

/-- A step of thread `t` from one task to another that leaves properties, edges and what was given alone. -/
theorem ledger_move {d : ℚ} {c : Cfg ℚ Unit} {n : Nat} {s s' : S E} {G : Nat → Nat → ℚ} (hi : Ledger d c n s G) (t : Nat) (ht : t < c.T) (x : Task PR ℚ Unit E)
    (hk : s'.task = upd s.task t x) (hp : s'.prop = s.prop) (he : s'.edges = s.edges) (hnl : ∀ v h, s.task t ≠ .load v h)
    (hx : FlatTask x) (hl : ∀ v h, x = .load v h → c.own v = t ∧ Settles d (s.prop v) (s.edges v) (G v) h)
    (hb : ∀ v, s'.inbox v + left v x - (if s'.inited v = true then 1 else 0) = s.inbox v + left v (s.task t) - (if s.inited v = true then 1 else 0)) : Ledger d c n s' G := by
  refine ⟨?_, ?_, ?_, ?_, ?_⟩
  · intro v
    have h1 := hi.bal v
    have h2 := hb v
    rw [hk, sum_upd (left v) s.task t x c.T ht, hp]
    linarith
  · intro u hu
    rw [hk]
    by_cases e : u = t
    · rw [e, upd_same]; exact hx
    · rw [upd_ne _ _ e]; exact hi.flat u hu
  · intro u hu v h
    rw [hk, hp, he]
    by_cases e : u = t
    · rw [e, upd_same]; exact hl v h
    · rw [upd_ne _ _ e]; exact hi.load u hu v h
  · intro u hu
    rw [hp, he]
    apply hi.rest
    intro h hh
    by_cases e : c.own u = t
    · rw [e] at hh; exact hnl _ _ hh
    · refine hu h ?_
      rw [hk, upd_ne _ _ e]; exact hh
  · intro u hu; rw [he]; exact hi.out u hu

/-- Vertex `v` can only be changed below `n`. -/
def Within (n : Nat) : Act E → Prop
  | .add _ v _ => v < n
  | _ => True

theorem ledger_step {d ε : ℚ} (hd : 1 - d ≠ 0) {T : Nat} {own : Nat → Nat} {n : Nat} {s s' : S E} {x : Act E} (hx : Within n x) {G : Nat → Nat → ℚ}
    (hi : Ledger d (cfg T own) n s G) (h : step (alg d ε) (cfg T own) s x = some s') : ∃ G', Ledger d (cfg T own) n s' G' := by
  cases x with
  | init t v =>
    simp only [step] at h
    split at h
    · next hf =>
      obtain ⟨ht, hown, hk⟩ := (free_iff _ s t v).1 hf.1
      have hnl : ∀ v h, s.task t ≠ .load v h := by intro v h e; rw [hk] at e; cases e
      have hbal : ∀ u, upd s.inbox v (merge ε 1 (s.inbox v)).1 u + 0 - (if upd s.inited v true u = true then (1 : ℚ) else 0) = s.inbox u + 0 - (if s.inited u = true then 1 else 0) := by
        intro u
        by_cases e : u = v
        · rw [e, upd_same, upd_same, hf.2]; simp [merge]
        · rw [upd_ne _ _ e, upd_ne _ _ e]
      simp only [cfg] at h
      split at h
      · simp only [Option.some.injEq] at h; subst h
        refine ⟨G, ledger_move hi t ht _ rfl rfl rfl hnl trivial ?_ ?_⟩
        · intro u h e
          injection e with e1 e2
          subst e1 e2
          refine ⟨hown, ?_⟩
          rw [hi.rest v (by intro h; rw [hown]; exact hnl _ _)]
          exact settles_update hd _ _
        · intro u; rw [hk]; exact hbal u
      · simp only [Option.some.injEq] at h; subst h
        refine ⟨G, ledger_move hi t ht .idle ?_ rfl rfl hnl trivial (by intro _ _ e; cases e) ?_⟩
        · funext u
          show s.task u = _
          by_cases e : u = t
          · rw [e, upd_same, hk]
          · rw [upd_ne _ _ e]
        · intro u; rw [hk]; exact hbal u
    · cases h
  | recv t v i =>
    simp only [step] at h
    split at h
    · next hf =>
      obtain ⟨ht, hown, hk⟩ := (free_iff _ s t v).1 hf
      have hnl : ∀ v h, s.task t ≠ .load v h := by intro v h e; rw [hk] at e; cases e
      cases hp : (s.pend v)[i]? with
      | none => rw [hp] at h; cases h
      | some m =>
        rw [hp] at h
        simp only [Option.some.injEq] at h; subst h
        refine ⟨G, ledger_move hi t ht _ rfl rfl rfl hnl trivial ?_ ?_⟩
        · intro u h e
          injection e with e1 e2
          subst e1 e2
          refine ⟨hown, ?_⟩
          rw [hi.rest v (by intro h; rw [hown]; exact hnl _ _)]
          exact settles_update hd _ _
        · intro u; rw [hk]; simp [left]
    · cases h
  | add t v es =>
    simp only [step] at h
    split at h
    · next hf =>
      obtain ⟨ht, hown, hk⟩ := (free_iff _ s t v).1 hf.1
      have hnl : ∀ v h, s.task t ≠ .load v h := by intro v h e; rw [hk] at e; cases e
      simp only [Option.some.injEq] at h; subst h
      have hG := hi.rest v (by intro h; rw [hown]; exact hnl _ _)
      refine ⟨G, ?_, ?_, ?_, ?_, ?_⟩
      · intro u
        have := hi.bal u
        show s.inbox u + (s.prop u).inflow + (s.prop u).mass / (1 - d) + ∑ i ∈ Finset.range T, left u (upd s.task t _ i) = _
        rw [sum_upd (left u) s.task t _ T ht, hk]
        simp only [left, sub_zero, add_zero]
        exact this
      · intro u hu
        show FlatTask (upd s.task t _ u)
        by_cases e : u = t
        · rw [e, upd_same]; trivial
        · rw [upd_ne _ _ e]; exact hi.flat u hu
      · intro u hu w h
        show upd s.task t _ u = _ → _ ∧ Settles d (s.prop w) (upd s.edges v _ w) (G w) h
        intro hh
        by_cases e : u = t
        · rw [e, upd_same] at hh
          injection hh with e1 e2
          subst e1 e2
          rw [upd_same, hG]
          refine ⟨by rw [hown, e], ?_⟩
          have := settles_add hd (s.prop v) (s.edges v ++ es) (by simp [hf.2]) (s.edges v).length (by simp)
          rw [List.take_left'  rfl] at this
          exact this
        · rw [upd_ne _ _ e] at hh
          obtain ⟨h1, h2⟩ := hi.load u hu w h hh
          have hne : w ≠ v := by rintro rfl; exact e (by rw [← h1, hown])
          rw [upd_ne _ _ hne]; exact ⟨h1, h2⟩
      · intro u hu
        show G u = share d (s.prop u).mass (upd s.edges v _ u)
        have hne : u ≠ v := by
          rintro rfl
          refine hu (fun p es m => onEdgeAdd d p es (s.edges u).length m) ?_
          show upd s.task t _ (own u) = _
          have : own u = t := hown
          rw [this, upd_same]; rfl
        rw [upd_ne _ _ hne]
        apply hi.rest
        intro h hh
        by_cases e : own u = t
        · exact hnl _ _ (by have := hh; rw [show (cfg T own).own u = t from e] at this; exact this)
        · exact hu h (by show upd s.task t _ (own u) = _; rw [upd_ne _ _ e]; exact hh)
      · intro u hu
        have hne : u ≠ v := by have : v < n := hx; omega
        show upd s.edges v _ u = [] ∧ _
        rw [upd_ne _ _ hne]; exact hi.out u hu
    · cases h
  | del t v keep =>
    simp only [step] at h
    split at h
    · next hf =>
      obtain ⟨ht, hown, hk⟩ := (free_iff _ s t v).1 hf
      have hnl : ∀ v h, s.task t ≠ .load v h := by intro v h e; rw [hk] at e; cases e
      simp only [Option.some.injEq] at h; subst h
      have hG := hi.rest v (by intro h; rw [hown]; exact hnl _ _)
      refine ⟨G, ?_, ?_, ?_, ?_, ?_⟩
      · intro u
        have := hi.bal u
        show s.inbox u + (s.prop u).inflow + (s.prop u).mass / (1 - d) + ∑ i ∈ Finset.range T, left u (upd s.task t _ i) = _
        rw [sum_upd (left u) s.task t _ T ht, hk]
        simp only [left, sub_zero, add_zero]
        exact this
      · intro u hu
        show FlatTask (upd s.task t _ u)
        by_cases e : u = t
        · rw [e, upd_same]; trivial
        · rw [upd_ne _ _ e]; exact hi.flat u hu
      · intro u hu w h
        show upd s.task t _ u = _ → _ ∧ Settles d (s.prop w) (upd s.edges v _ w) (G w) h
        intro hh
        by_cases e : u = t
        · rw [e, upd_same] at hh
          injection hh with e1 e2
          subst e1 e2
          rw [upd_same, hG]
          exact ⟨by rw [hown, e], settles_del hd (s.prop v) (s.edges v) _ _ (fun w => cnt_select w keep _) (length_select keep _)⟩
        · rw [upd_ne _ _ e] at hh
          obtain ⟨h1, h2⟩ := hi.load u hu w h hh
          have hne : w ≠ v := by rintro rfl; exact e (by rw [← h1, hown])
          rw [upd_ne _ _ hne]; exact ⟨h1, h2⟩
      · intro u hu
        show G u = share d (s.prop u).mass (upd s.edges v _ u)
        have hne : u ≠ v := by
          rintro rfl
          refine hu (fun p es m => onEdgeDel d p es (select keep (s.edges u)).2 m) ?_
          show upd s.task t _ (own u) = _
          have : own u = t := hown
          rw [this, upd_same]; rfl
        rw [upd_ne _ _ hne]
        apply hi.rest
        intro h hh
        by_cases e : own u = t
        · exact hnl _ _ (by have := hh; rw [show (cfg T own).own u = t from e] at this; exact this)
        · exact hu h (by show upd s.task t _ (own u) = _; rw [upd_ne _ _ e]; exact hh)
      · intro u hu
        show upd s.edges v _ u = [] ∧ _
        by_cases e : u = v
        · subst e
          rw [upd_same, (hi.out u hu).1]
          refine ⟨?_, (hi.out u hu).2⟩
          cases keep <;> rfl
        · rw [upd_ne _ _ e]; exact hi.out u hu
    · cases h
  | go t =>
    simp only [step] at h
    split at h
    · next ht =>
      have hfl := hi.flat t ht
      cases hk : s.task t with
      | idle => rw [hk] at h; cases h
      | load v hd' =>
        rw [hk] at h
        simp only [goStep, Option.some.injEq] at h
        obtain ⟨hown, hset⟩ := hi.load t ht v hd' hk
        obtain ⟨h1, h2, h3⟩ := hset (s.inbox v)
        have hr : (alg d ε : Alg PR ℚ Unit E).retrieve (s.inbox v) (s.prop v) = (0, s.inbox v) := rfl
        rw [hr] at h
        simp only at h
        generalize hq : hd' (s.prop v) (s.edges v) (s.inbox v) = q at h h1 h2 h3
        subst h
        refine ⟨fun u w => if u = v then share d q.1.mass (s.edges v) w else G u w, ?_, ?_, ?_, ?_, ?_⟩
        · intro w
          have hb := hi.bal w
          show upd s.inbox v 0 w + (upd s.prop v q.1 w).inflow + (upd s.prop v q.1 w).mass / (1 - d) + ∑ i ∈ Finset.range T, left w (upd s.task t (.run v q.2) i) = _
          rw [sum_upd (left w) s.task t _ T ht, hk]
          have hsum : ∑ u ∈ Finset.range n, (if u = v then share d q.1.mass (s.edges v) w else G u w) = ∑ u ∈ Finset.range n, G u w + posts w q.2 := by
            by_cases hv : v < n
            · have e1 : ∀ u, (if u = v then share d q.1.mass (s.edges v) w else G u w) = id (upd (fun u => G u w) v (share d q.1.mass (s.edges v) w) u) := by
                intro u
                by_cases e : u = v
                · rw [e, if_pos rfl, upd_same]; rfl
                · rw [if_neg e, upd_ne _ _ e]; rfl
              simp only [e1]
              rw [sum_upd id (fun u => G u w) v _ n hv, h3 w]
              simp only [id]
              ring
            · have h4 := hi.out v (by omega)
              have h5 : posts w q.2 = 0 := by rw [h3 w, h4.1, share_nil, h4.2 w]; ring
              rw [h5, add_zero]
              apply Finset.sum_congr rfl
              intro u hu
              rw [if_neg]
              rw [Finset.mem_range] at hu
              omega
          show _ = _ + ∑ u ∈ Finset.range n, (if u = v then share d q.1.mass (s.edges v) w else G u w)
          rw [hsum]
          show _ + (∑ i ∈ Finset.range T, left w (s.task i) - left w (.load v hd') + posts w q.2) = _
          have hb' : s.inbox w + (s.prop w).inflow + (s.prop w).mass / (1 - d) + ∑ i ∈ Finset.range T, left w (s.task i) = (if s.inited w = true then 1 else 0) + ∑ u ∈ Finset.range n, G u w := hb
          have hl0 : left w (.load v hd' : Task PR ℚ Unit E) = 0 := rfl
          rw [hl0]
          show _ = (if s.inited w = true then (1 : ℚ) else 0) + _
          by_cases e : w = v
          · subst e
            rw [upd_same, upd_same]
            linarith
          · rw [upd_ne _ _ e, upd_ne _ _ e]
            linarith
        · intro u hu
          show FlatTask (upd s.task t _ u)
          by_cases e : u = t
          · rw [e, upd_same]; exact h2
          · rw [upd_ne _ _ e]; exact hi.flat u hu
        · intro u hu w h
          show upd s.task t _ u = _ → _ ∧ Settles d (upd s.prop v _ w) (s.edges w) _ h
          intro hh
          by_cases e : u = t
          · rw [e, upd_same] at hh; cases hh
          · rw [upd_ne _ _ e] at hh
            obtain ⟨h4, h5⟩ := hi.load u hu w h hh
            have hne : w ≠ v := by rintro rfl; exact e (by rw [← h4, hown])
            rw [upd_ne _ _ hne]
            refine ⟨h4, ?_⟩
            have : (fun x => if w = v then share d q.1.mass (s.edges v) x else G w x) = G w := by funext x; rw [if_neg hne]
            rw [this]; exact h5
        · intro u hu
          show (fun x => if u = v then share d q.1.mass (s.edges v) x else G u x) = share d (upd s.prop v _ u).mass (s.edges u)
          by_cases e : u = v
          · subst e
            rw [upd_same]; funext x; rw [if_pos rfl]
          · rw [upd_ne _ _ e]
            simp only [if_neg e]
            apply hi.rest
            intro h hh
            by_cases eo : own u = t
            · have hh' : s.task (own u) = .load u h := hh
              rw [eo, hk] at hh'
              injection hh' with e1
              exact e e1.symm
            · exact hu h (by show upd s.task t _ (own u) = _; rw [upd_ne _ _ eo]; exact hh)
        · intro u hu
          refine ⟨(hi.out u hu).1, ?_⟩
          intro x
          show (if u = v then _ else _) = _
          by_cases e : u = v
          · subst e; rw [if_pos rfl, (hi.out u hu).1, share_nil]
          · rw [if_neg e]; exact (hi.out u hu).2 x
      | run v q =>
        rw [hk] at h hfl
        have hnl : ∀ v h, s.task t ≠ .load v h := by intro v h e; rw [hk] at e; cases e
        cases q with
        | done =>
          simp only [goStep, Option.some.injEq] at h; subst h
          exact ⟨G, ledger_move hi t ht _ rfl rfl rfl hnl trivial (by intro _ _ e; cases e) (by intro u; rw [hk]; simp [left, posts])⟩
        | post w x k =>
          have hb : ∀ u, upd s.inbox w (merge ε x (s.inbox w)).1 u + posts u (k false) = s.inbox u + left u (s.task t) := by
            intro u
            rw [hk]
            simp only [left, posts]
            by_cases e : u = w
            · rw [e, upd_same]; simp [merge]; ring
            · rw [upd_ne _ _ e, if_neg (fun h => e h.symm)]; ring
          simp only [goStep] at h
          split at h
          · simp only [Option.some.injEq] at h; subst h
            refine ⟨G, ledger_move hi t ht _ rfl rfl rfl hnl hfl (by intro _ _ e; cases e) ?_⟩
            intro u
            have := hb u
            exact congrArg (· - (if s.inited u = true then (1 : ℚ) else 0)) this
          · simp only [Option.some.injEq] at h; subst h
            refine ⟨G, ledger_move hi t ht _ rfl rfl rfl hnl hfl.2 (by intro _ _ e; cases e) ?_⟩
            intro u
            have := hb u
            exact congrArg (· - (if s.inited u = true then (1 : ℚ) else 0)) this
        | send w m k => exact absurd hfl id
      | cas v w k =>
        rw [hk] at h hfl
        have hnl : ∀ v h, s.task t ≠ .load v h := by intro v h e; rw [hk] at e; cases e
        simp only [goStep] at h
        split at h
        · simp only [Option.some.injEq] at h; subst h
          refine ⟨G, ledger_move hi t ht _ rfl rfl rfl hnl ?_ (by intro _ _ e; cases e) ?_⟩
          · show Flat (k true); rw [hfl.1]; exact hfl.2
          · intro u; rw [hk]; simp only [left, hfl.1]
        · simp only [Option.some.injEq] at h; subst h
          exact ⟨G, ledger_move hi t ht _ rfl rfl rfl hnl hfl.2 (by intro _ _ e; cases e) (by intro u; rw [hk]; rfl)⟩
      | put v w m k =>
        rw [hk] at h hfl
        have hnl : ∀ v h, s.task t ≠ .load v h := by intro v h e; rw [hk] at e; cases e
        simp only [goStep, Option.some.injEq] at h; subst h
        exact ⟨G, ledger_move hi t ht _ rfl rfl rfl hnl hfl (by intro _ _ e; cases e) (by intro u; rw [hk]; rfl)⟩
    · cases h

theorem ledger_run {d ε : ℚ} (hd : 1 - d ≠ 0) {T : Nat} {own : Nat → Nat} {n : Nat} : ∀ {xs : List (Act E)} {s s' : S E} {G : Nat → Nat → ℚ}, (∀ x ∈ xs, Within n x) →
    Ledger d (cfg T own) n s G → run (alg d ε) (cfg T own) s xs = some s' → ∃ G', Ledger d (cfg T own) n s' G'
  | [], s, s', G, _, hi, h => by simp only [run, Option.some.injEq] at h; exact ⟨G, h ▸ hi⟩
  | x :: xs, s, s', G, hx, hi, h => by
    simp only [run] at h
    obtain ⟨s1, h1, h2⟩ := Option.bind_eq_some_iff.1 h
    obtain ⟨G1, hi1⟩ := ledger_step hd (hx x (by simp)) hi h1
    exact ledger_run hd (fun y hy => hx y (by simp [hy])) hi1 h2

/-! ## The residual -/

/-- `OnUpdateVertex` keeps at most the threshold back; the edge callbacks keep nothing back. -/
def Keeps (ε : ℚ) (h : PR → List (Edge E) → ℚ → PR × Prog ℚ Unit) : Prop := ∀ p es m, |(h p es m).1.inflow| ≤ ε

structure Small (ε : ℚ) (s : S E) : Prop where
  flow : ∀ v, |(s.prop v).inflow| ≤ ε
  load : ∀ t v h, s.task t = .load v h → Keeps ε h

theorem keeps_update {d ε : ℚ} (hε : 0 ≤ ε) : Keeps ε (onUpdate d ε : PR → List (Edge E) → ℚ → _) := by
  intro p es m
  unfold onUpdate
  simp only
  split
  · simpa using hε
  · next h => exact not_lt.1 h

theorem small_start {d ε : ℚ} (hε : 0 ≤ ε) (es0 : Nat → List (Edge E)) : Small ε (start (alg d ε) es0 : S E) := ⟨fun v => by simpa [start, alg] using hε, fun _ _ _ e => by cases e⟩

theorem small_upd {ε : ℚ} {s s' : S E} (hi : Small ε s) (hp : ∀ v, s'.prop v = s.prop v ∨ |(s'.prop v).inflow| ≤ ε) (t : Nat) (x : Task PR ℚ Unit E)
    (hk : s'.task = upd s.task t x) (hx : ∀ v h, x = .load v h → Keeps ε h) : Small ε s' := by
  refine ⟨?_, ?_⟩
  · intro v
    rcases hp v with h | h
    · rw [h]; exact hi.flow v
    · exact h
  · intro u v h
    rw [hk]
    by_cases e : u = t
    · rw [e, upd_same]; exact hx v h
    · rw [upd_ne _ _ e]; exact hi.load u v h

theorem small_step {d ε : ℚ} (hε : 0 ≤ ε) {c : Cfg ℚ Unit} {s s' : S E} {x : Act E} (hi : Small ε s) (h : step (alg d ε) c s x = some s') : Small ε s' := by
  cases x with
  | init t v =>
    simp only [step] at h
    split at h
    · split at h
      · split at h
        · simp only [Option.some.injEq] at h; subst h
          exact small_upd hi (fun _ => .inl rfl) t _ rfl (by intro u h e; injection e with e1 e2; subst e2; exact keeps_update hε)
        · simp only [Option.some.injEq] at h; subst h
          exact ⟨hi.flow, hi.load⟩
      · simp only [Option.some.injEq] at h; subst h
        exact small_upd hi (fun _ => .inl rfl) t _ rfl (by intro _ _ e; cases e)
      · simp only [Option.some.injEq] at h; subst h
        exact ⟨hi.flow, hi.load⟩
    · cases h
  | recv t v i =>
    simp only [step] at h
    split at h
    · cases hp : (s.pend v)[i]? with
      | none => rw [hp] at h; cases h
      | some m =>
        rw [hp] at h
        simp only [Option.some.injEq] at h; subst h
        exact small_upd hi (fun _ => .inl rfl) t _ rfl (by intro u h e; injection e with e1 e2; subst e2; exact keeps_update hε)
    · cases h
  | add t v es =>
    simp only [step] at h
    split at h
    · simp only [Option.some.injEq] at h; subst h
      exact small_upd hi (fun _ => .inl rfl) t _ rfl (by intro u h e; injection e with e1 e2; subst e2; intro p es m; simpa [alg, onEdgeAdd] using hε)
    · cases h
  | del t v keep =>
    simp only [step] at h
    split at h
    · simp only [Option.some.injEq] at h; subst h
      exact small_upd hi (fun _ => .inl rfl) t _ rfl (by intro u h e; injection e with e1 e2; subst e2; intro p es m; simpa [alg, onEdgeDel] using hε)
    · cases h
  | go t =>
    simp only [step] at h
    split at h
    · cases hk : s.task t with
      | idle => rw [hk] at h; cases h
      | load v hd' =>
        have hkeep := hi.load t v hd' hk
        rw [hk] at h
        simp only [goStep, Option.some.injEq] at h; subst h
        refine small_upd hi ?_ t _ rfl (by intro _ _ e; cases e)
        intro u
        by_cases e : u = v
        · right
          show |(upd s.prop v _ u).inflow| ≤ ε
          rw [e, upd_same]; exact hkeep _ _ _
        · left; exact upd_ne _ _ e
      | run v q =>
        rw [hk] at h
        cases q with
        | done =>
          simp only [goStep, Option.some.injEq] at h; subst h
          exact small_upd hi (fun _ => .inl rfl) t _ rfl (by intro _ _ e; cases e)
        | post w x k =>
          simp only [goStep] at h
          split at h <;> (simp only [Option.some.injEq] at h; subst h; exact small_upd hi (fun _ => .inl rfl) t _ rfl (by intro _ _ e; cases e))
        | send w m k =>
          simp only [goStep, Option.some.injEq] at h; subst h
          exact small_upd hi (fun _ => .inl rfl) t _ rfl (by intro _ _ e; cases e)
      | cas v w k =>
        rw [hk] at h
        simp only [goStep] at h
        split at h <;> (simp only [Option.some.injEq] at h; subst h; exact small_upd hi (fun _ => .inl rfl) t _ rfl (by intro _ _ e; cases e))
      | put v w m k =>
        rw [hk] at h
        simp only [goStep, Option.some.injEq] at h; subst h
        exact small_upd hi (fun _ => .inl rfl) t _ rfl (by intro _ _ e; cases e)
    · cases h

/-- Mail above the threshold is news its owner has not read. -/
def BigUnseen (ε : ℚ) (s : S E) : Prop := ∀ v, |s.inbox v| > ε → Unseen v s.log

theorem merge_big {ε x y : ℚ} (hne : |y| ≠ ε) (h : |y + x| > ε) (hn : ¬ (merge ε x y).2 = true) : |y| > ε := by
  simp only [merge, Bool.and_eq_true, decide_eq_true_eq, not_and] at hn
  rcases lt_trichotomy |y| ε with h1 | h1 | h1
  · exact absurd h (hn h1)
  · exact absurd h1 hne
  · exact h1

theorem bigUnseen_merge {ε : ℚ} {s s' : S E} (hi : BigUnseen ε s) (w : Nat) (x : ℚ) (hne : |s.inbox w| ≠ ε)
    (hb : s'.inbox = upd s.inbox w (merge ε x (s.inbox w)).1) (hl : s'.log = if (merge ε x (s.inbox w)).2 = true then s.log ++ [.dep w] else s.log) : BigUnseen ε s' := by
  intro v hv
  rw [hb] at hv
  rw [hl]
  by_cases e : v = w
  · subst e
    rw [upd_same] at hv
    split
    · exact (unseen_dep _ _ _).2 (.inl rfl)
    · next hn => exact hi v (merge_big hne hv hn)
  · rw [upd_ne _ _ e] at hv
    split
    · exact (unseen_dep _ _ _).2 (.inr (hi v hv))
    · exact hi v hv

theorem bigUnseen_step {d ε : ℚ} (hε : 0 ≤ ε) {c : Cfg ℚ Unit} {s s' : S E} {x : Act E} (hne : ∀ v, |s.inbox v| ≠ ε) (hi : BigUnseen ε s)
    (h : step (alg d ε) c s x = some s') : BigUnseen ε s' := by
  have hmerge : ∀ x v y, (alg d ε : Alg PR ℚ Unit E).merge x v y = merge ε x y := fun _ _ _ => rfl
  cases x with
  | init t v =>
    simp only [step] at h
    split at h
    · split at h
      · rw [hmerge] at h
        split at h
        · next hm => simp only [Option.some.injEq] at h; subst h; exact bigUnseen_merge hi v _ (hne v) rfl (by rw [if_pos hm])
        · next hm => simp only [Option.some.injEq] at h; subst h; exact bigUnseen_merge hi v _ (hne v) rfl (by rw [if_neg hm])
      · simp only [Option.some.injEq] at h; subst h; exact hi
      · simp only [Option.some.injEq] at h; subst h; exact hi
    · cases h
  | recv t v i =>
    simp only [step] at h
    split at h
    · cases hp : (s.pend v)[i]? with
      | none => rw [hp] at h; cases h
      | some m => rw [hp] at h; simp only [Option.some.injEq] at h; subst h; exact hi
    · cases h
  | add t v es =>
    simp only [step] at h
    split at h
    · simp only [Option.some.injEq] at h; subst h; exact hi
    · cases h
  | del t v keep =>
    simp only [step] at h
    split at h
    · simp only [Option.some.injEq] at h; subst h; exact hi
    · cases h
  | go t =>
    simp only [step] at h
    split at h
    · cases hk : s.task t with
      | idle => rw [hk] at h; cases h
      | load v hd' =>
        rw [hk] at h
        simp only [goStep, Option.some.injEq] at h; subst h
        intro u hu
        have hu' : |upd s.inbox v 0 u| > ε := hu
        by_cases e : u = v
        · rw [e, upd_same, abs_zero] at hu'
          exact absurd hu' (not_lt.2 hε)
        · rw [upd_ne _ _ e] at hu'
          exact (unseen_obs _ _ _).2 ⟨fun h => e h.symm, hi u hu'⟩
      | run v q =>
        rw [hk] at h
        cases q with
        | done => simp only [goStep, Option.some.injEq] at h; subst h; exact hi
        | post w x k =>
          simp only [goStep] at h
          rw [hmerge] at h
          split at h
          · next hm => simp only [Option.some.injEq] at h; subst h; exact bigUnseen_merge hi w x (hne w) rfl (by rw [if_pos hm])
          · next hm => simp only [Option.some.injEq] at h; subst h; exact bigUnseen_merge hi w x (hne w) rfl (by rw [if_neg hm])
        | send w m k => simp only [goStep, Option.some.injEq] at h; subst h; exact hi
      | cas v w k =>
        rw [hk] at h
        simp only [goStep] at h
        split at h <;> (simp only [Option.some.injEq] at h; subst h; exact hi)
      | put v w m k => rw [hk] at h; simp only [goStep, Option.some.injEq] at h; subst h; exact hi
    · cases h

/-- `P` holds in every state the run passes. -/
def Always (a : Alg PR ℚ Unit E) (c : Cfg ℚ Unit) (P : S E → Prop) (s : S E) (xs : List (Act E)) : Prop :=
  ∀ ys zs s', xs = ys ++ zs → run a c s ys = some s' → P s'

theorem bigUnseen_run {d ε : ℚ} (hε : 0 ≤ ε) {c : Cfg ℚ Unit} : ∀ {xs : List (Act E)} {s s' : S E}, Always (alg d ε) c (fun s => ∀ v, |s.inbox v| ≠ ε) s xs →
    BigUnseen ε s → run (alg d ε) c s xs = some s' → BigUnseen ε s'
  | [], s, s', _, hi, h => by simp only [run, Option.some.injEq] at h; exact h ▸ hi
  | x :: xs, s, s', ha, hi, h => by
    simp only [run] at h
    obtain ⟨s1, h1, h2⟩ := Option.bind_eq_some_iff.1 h
    refine bigUnseen_run hε ?_ (bigUnseen_step hε (ha [] (x :: xs) s rfl rfl) hi h1) h2
    intro ys zs s2 he hr
    exact ha (x :: ys) zs s2 (by rw [he]; rfl) (by simp only [run]; rw [h1]; exact hr)

/-- Every run stays below some bound. -/
theorem within_mono {y : Act E} {a b : Nat} (hab : a ≤ b) (hy : Within a y) : Within b y := by
  cases y <;> first | trivial | (simp only [Within] at *; omega)

theorem exists_within (xs : List (Act E)) : ∃ n, ∀ x ∈ xs, Within n x := by
  induction xs with
  | nil => exact ⟨0, fun _ h => by simp at h⟩
  | cons x xs ih =>
    obtain ⟨n, hn⟩ := ih
    have hmono : ∀ {y : Act E} {a b : Nat}, a ≤ b → Within a y → Within b y := by
      intro y a b hab hy
      cases y <;> first | trivial | (simp only [Within] at *; omega)
    have : ∃ m, Within m x := by
      cases x with
      | add t v es => exact ⟨v + 1, Nat.lt_succ_self v⟩
      | _ => exact ⟨0, trivial⟩
    obtain ⟨m, hm⟩ := this
    refine ⟨max n m, ?_⟩
    intro y hy
    rcases List.mem_cons.1 hy with rfl | hy
    · exact hmono (Nat.le_max_right _ _) hm
    · exact hmono (Nat.le_max_left _ _) (hn y hy)

end Verif.PageRank
