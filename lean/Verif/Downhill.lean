import Verif.WorkInit

/-!
# Algorithms whose news goes downhill

Suppose mail is news only to vertices of lower rank than the sender. Then a run ends: a notification of a vertex
sets off at most as many more as its rank and the number of edges allow. A post of a vertex to itself would repeat
its visit, so the graph must be without self loops.
-/

namespace Verif.Async

open Finset
open Verif.Sync (Plain)

variable {P M N E : Type}

/-- The program only posts, and what it posts is `Good`. -/
def Prog.Fits (Good : Nat → M → Prop) : Prog M N → Prop
  | .done => True
  | .post w m k => Good w m ∧ ∀ b, (k b).Fits Good
  | .send _ _ _ => False

/-- The program does not post to `v`. -/
def Prog.Avoids (v : Nat) : Prog M N → Prop
  | .done => True
  | .post w _ k => w ≠ v ∧ ∀ b, (k b).Avoids v
  | .send _ _ k => k.Avoids v

/-- What a notification of a vertex of rank `i` can set off, if programs have length at most `B`. -/
def spread (B i : Nat) : Nat := (2 * B + 2) ^ i

/-- What a program of `v` can set off. -/
def Prog.toll (B : Nat) (r : Nat → Nat) (v : Nat) : Prog M N → Nat
  | .done => 0
  | .post w _ k => (if w = v ∨ r w < r v then 1 + spread B (r w) else 0) + max ((k true).toll B r v) ((k false).toll B r v)
  | .send _ _ k => k.toll B r v

open Classical in
/-- What a task can set off. -/
noncomputable def Task.toll (B : Nat) (r : Nat → Nat) (edges : Nat → List (Edge E)) : Task P M N E → Nat
  | .idle => 0
  | .load v h => if ∀ p m, (h p (edges v) m).2.Avoids v then spread B (r v) else B * (spread B (r v) + 1)
  | .run v q => q.toll B r v
  | .cas v w k => spread B (r w) + max ((k true).toll B r v) ((k false).toll B r v)
  | .put v w _ k => spread B (r w) + k.toll B r v

/-- What is outstanding can set off. -/
noncomputable def tolls (B : Nat) (r : Nat → Nat) (n : Nat) (c : Cfg M N) (s : St P M N E) : Nat :=
  ∑ v ∈ range n, spread B (r v) * (s.pend v).length + ∑ v ∈ range n, (if s.inited v = true then 0 else spread B (r v)) +
    ∑ t ∈ range c.T, (s.task t).toll B r s.edges

theorem spread_pos (B i : Nat) : 1 ≤ spread B i := Nat.one_le_pow _ _ (by omega)

theorem spread_mono (B : Nat) {i j : Nat} (h : i ≤ j) : spread B i ≤ spread B j := Nat.pow_le_pow_right (by omega) h

theorem toll_le {B X : Nat} {r : Nat → Nat} {v : Nat} (hX : ∀ w, r w < r v → spread B (r w) + 1 ≤ X) :
    ∀ q : Prog M N, q.Avoids v → q.toll B r v ≤ q.len * X
  | .done, _ => Nat.zero_le _
  | .post w m k, h => by
    have h1 := toll_le hX (k true) (h.2 true)
    have h2 := toll_le hX (k false) (h.2 false)
    have h3 := Nat.mul_le_mul_right X (Nat.le_max_left (k true).len (k false).len)
    have h4 := Nat.mul_le_mul_right X (Nat.le_max_right (k true).len (k false).len)
    have h5 : (if w = v ∨ r w < r v then 1 + spread B (r w) else 0) ≤ X := by
      split
      · next hc =>
        have := hX w (hc.resolve_left h.1)
        omega
      · omega
    simp only [Prog.toll, Prog.len, Nat.add_mul, Nat.one_mul]
    have : max ((k true).toll B r v) ((k false).toll B r v) ≤ max (k true).len (k false).len * X := max_le (by omega) (by omega)
    omega
  | .send _ _ k, h => by
    have := toll_le hX k h
    simp only [Prog.toll, Prog.len, Nat.add_mul]
    omega

theorem toll_le_any {B X : Nat} {r : Nat → Nat} {v : Nat} (hX : ∀ w, w = v ∨ r w < r v → spread B (r w) + 1 ≤ X) :
    ∀ q : Prog M N, q.toll B r v ≤ q.len * X
  | .done => Nat.zero_le _
  | .post w m k => by
    have h1 := toll_le_any hX (k true)
    have h2 := toll_le_any hX (k false)
    have h3 := Nat.mul_le_mul_right X (Nat.le_max_left (k true).len (k false).len)
    have h4 := Nat.mul_le_mul_right X (Nat.le_max_right (k true).len (k false).len)
    have h5 : (if w = v ∨ r w < r v then 1 + spread B (r w) else 0) ≤ X := by
      split
      · next hc =>
        have := hX w hc
        omega
      · omega
    simp only [Prog.toll, Prog.len, Nat.add_mul, Nat.one_mul]
    have : max ((k true).toll B r v) ((k false).toll B r v) ≤ max (k true).len (k false).len * X := max_le (by omega) (by omega)
    omega
  | .send _ _ k => by
    have := toll_le_any hX k
    simp only [Prog.toll, Prog.len, Nat.add_mul]
    omega

/-- A visit sets off no more than the notification that caused it stands for. -/
theorem toll_visit {B : Nat} {r : Nat → Nat} {v : Nat} (q : Prog M N) (hq : q.Avoids v) (hl : q.len ≤ B) : q.toll B r v ≤ spread B (r v) := by
  rcases Nat.eq_zero_or_pos (r v) with h | h
  · have := toll_le (B := B) (X := 0) (r := r) (fun w hw => by omega) q hq
    omega
  · obtain ⟨i, hi⟩ : ∃ i, r v = i + 1 := ⟨r v - 1, by omega⟩
    have h1 := toll_le (B := B) (X := 2 * spread B i) (r := r) (fun w hw => by
      have := spread_mono B (show r w ≤ i by omega)
      have := spread_pos B i
      omega) q hq
    have h2 := Nat.mul_le_mul_right (2 * spread B i) hl
    have h3 : spread B (r v) = (2 * B + 2) * spread B i := by rw [hi]; unfold spread; rw [Nat.pow_succ, Nat.mul_comm]
    rw [h3, Nat.add_mul]
    have : B * (2 * spread B i) = 2 * B * spread B i := by rw [← Nat.mul_assoc, Nat.mul_comm B 2]
    omega

theorem toll_load {B : Nat} {r : Nat → Nat} {edges : Nat → List (Edge E)} {v : Nat} {h : P → List (Edge E) → M → P × Prog M N} (hl : ∀ p m, (h p (edges v) m).2.len ≤ B) (p : P) (m : M) :
    (Task.run v (h p (edges v) m).2 : Task P M N E).toll B r edges ≤ (Task.load v h : Task P M N E).toll B r edges := by
  simp only [Task.toll]
  split
  · next ha => exact toll_visit _ (ha p m) (hl p m)
  · refine le_trans (toll_le_any (X := spread B (r v) + 1) (fun w hw => ?_) _) (Nat.mul_le_mul_right _ (hl p m))
    have : r w ≤ r v := by
      rcases hw with rfl | hw
      · exact le_refl _
      · omega
    have := spread_mono B this
    omega

/-- What tasks are made of. -/
def Task.Fits (Good : Nat → M → Prop) (B : Nat) (edges : Nat → List (Edge E)) : Task P M N E → Prop
  | .idle => True
  | .load v h => ∀ p m, (h p (edges v) m).2.Fits Good ∧ (h p (edges v) m).2.len ≤ B
  | .run _ q => q.Fits Good
  | .cas _ _ k => ∀ b, (k b).Fits Good
  | .put _ _ _ k => k.Fits Good

structure Slope (a : Alg P M N E) (Good : Nat → M → Prop) (B : Nat) (s : St P M N E) : Prop where
  task : ∀ t, (s.task t).Fits Good B s.edges
  upd : ∀ v p y i m, (a.onUpdate v p (s.edges v) y i m).2.Fits Good ∧ (a.onUpdate v p (s.edges v) y i m).2.len ≤ B ∧ (a.onUpdate v p (s.edges v) y i m).2.Avoids v

theorem Slope.loads {a : Alg P M N E} {Good : Nat → M → Prop} {B : Nat} {s : St P M N E} (h : Slope a Good B s) : Loads B s := by
  intro t v k hk p m
  have := h.task t
  rw [hk] at this
  exact (this p m).2

theorem slope_upd {a : Alg P M N E} {Good : Nat → M → Prop} {B : Nat} {s s' : St P M N E} (hi : Slope a Good B s) (t : Nat) (k : Task P M N E)
    (he : s'.edges = s.edges) (hk : s'.task = upd s.task t k) (hf : k.Fits Good B s.edges) : Slope a Good B s' := by
  refine ⟨fun u => ?_, by rw [he]; exact hi.upd⟩
  rw [hk, he]
  by_cases e : u = t
  · rw [e, upd_same]; exact hf
  · rw [upd_ne _ _ e]; exact hi.task u

theorem sum_change_nat (f g : Nat → Nat) {T t : Nat} (ht : t < T) (h : ∀ i, i ≠ t → f i = g i) : ∑ i ∈ range T, f i + g t = ∑ i ∈ range T, g i + f t := by
  have hi : t ∈ range T := mem_range.2 ht
  have : ∑ i ∈ (range T).erase t, f i = ∑ i ∈ (range T).erase t, g i := Finset.sum_congr rfl fun j hj => h j (Finset.ne_of_mem_erase hj)
  have h1 := Finset.add_sum_erase (range T) f hi
  have h2 := Finset.add_sum_erase (range T) g hi
  omega

theorem tolls_task {B : Nat} {r : Nat → Nat} {n : Nat} {c : Cfg M N} {s s' : St P M N E} {t : Nat} {k : Task P M N E} (ht : t < c.T) (he : s'.edges = s.edges)
    (hp : s'.pend = s.pend) (hin : s'.inited = s.inited) (hk : s'.task = upd s.task t k) :
    tolls B r n c s' + (s.task t).toll B r s.edges = tolls B r n c s + k.toll B r s.edges := by
  have := sum_upd (fun x : Task P M N E => x.toll B r s.edges) s.task t k c.T ht
  unfold tolls
  rw [hp, hk, hin, he]
  omega

theorem tolls_pend {B : Nat} {r : Nat → Nat} {n : Nat} {c : Cfg M N} {s s' : St P M N E} {t w : Nat} {k : Task P M N E} {l : List N} (ht : t < c.T) (hw : w < n) (he : s'.edges = s.edges)
    (hp : s'.pend = upd s.pend w l) (hin : s'.inited = s.inited) (hk : s'.task = upd s.task t k) :
    tolls B r n c s' + (s.task t).toll B r s.edges + spread B (r w) * (s.pend w).length = tolls B r n c s + k.toll B r s.edges + spread B (r w) * l.length := by
  have h1 := sum_upd (fun x : Task P M N E => x.toll B r s.edges) s.task t k c.T ht
  have h2 := sum_change_nat (fun v => spread B (r v) * (upd s.pend w l v).length) (fun v => spread B (r v) * (s.pend v).length) hw
    (fun i hi => by rw [upd_ne _ _ hi])
  rw [upd_same] at h2
  unfold tolls
  rw [hp, hk, hin, he]
  omega

theorem tolls_init {B : Nat} {r : Nat → Nat} {n : Nat} {c : Cfg M N} {s s' : St P M N E} {t w : Nat} {k : Task P M N E} (ht : t < c.T) (hw : w < n) (he : s'.edges = s.edges)
    (hin0 : s.inited w = false) (hp : s'.pend = s.pend) (hin : s'.inited = upd s.inited w true) (hk : s'.task = upd s.task t k) :
    tolls B r n c s' + (s.task t).toll B r s.edges + spread B (r w) = tolls B r n c s + k.toll B r s.edges := by
  have h1 := sum_upd (fun x : Task P M N E => x.toll B r s.edges) s.task t k c.T ht
  have h2 := sum_change_nat (fun v => if upd s.inited w true v = true then 0 else spread B (r v)) (fun v => if s.inited v = true then 0 else spread B (r v)) hw
    (fun i hi => by rw [upd_ne _ _ hi])
  simp only [upd_same, hin0, Bool.false_eq_true, if_false, if_true] at h2
  unfold tolls
  rw [hp, hk, hin, he]
  omega

/-- Every step keeps the slope, and pays for what it sets off. -/
theorem slope_step {a : Alg P M N E} {Good : Nat → M → Prop} {r : Nat → Nat} {n : Nat}
    (hnews : ∀ v w m x, w < n → Good w m → (a.merge m v x).2 = true → w = v ∨ r w < r v)
    {c : Cfg M N} {B : Nat} {s s' : St P M N E} {x : Act E} (hi : Slope a Good B s) (hs : Supp n s) (hp : Plain x) (hb : x.below n = true) (h : step a c s x = some s') :
    Slope a Good B s' ∧ tolls B r n c s' + (if charged a s x = true then 1 else 0) ≤ tolls B r n c s := by
  have huf : ∀ v y i, (Task.load v fun p es m => a.onUpdate v p es y i m : Task P M N E).Fits Good B s.edges := fun v y i p m => ⟨(hi.upd v p y i m).1, (hi.upd v p y i m).2.1⟩
  have hut : ∀ v y i, (Task.load v fun p es m => a.onUpdate v p es y i m : Task P M N E).toll B r s.edges = spread B (r v) := by
    intro v y i
    simp only [Task.toll]
    rw [if_pos fun p m => (hi.upd v p y i m).2.2]
  cases x with
  | add => exact hp.elim
  | del => exact hp.elim
  | init t v =>
    have hv : v < n := of_decide_eq_true hb
    simp only [step] at h
    split at h
    · next hf =>
      obtain ⟨hfree, hin⟩ := hf
      obtain ⟨ht, -, hk⟩ := (free_iff c s t v).1 hfree
      have hc : charged a s (.init t v) = false := rfl
      rw [hc]
      simp only [Bool.false_eq_true, if_false]
      have same : s'.edges = s.edges → s'.pend = s.pend → s'.inited = upd s.inited v true → s'.task = s.task →
          Slope a Good B s' ∧ tolls B r n c s' + 0 ≤ tolls B r n c s := by
        intro h1 h2 h3 h4
        have h5 : s'.task = upd s.task t (s.task t) := by
          rw [h4]; funext u
          by_cases e : u = t
          · rw [e, upd_same]
          · rw [upd_ne _ _ e]
        refine ⟨slope_upd hi t (s.task t) h1 h5 (hi.task t), ?_⟩
        have := tolls_init (B := B) (r := r) ht hv h1 hin h2 h3 h5
        omega
      repeat' split at h
      all_goals simp only [Option.some.injEq] at h
      · have := tolls_init (B := B) (r := r) (s' := s') (k := .load v fun p es m => a.onUpdate v p es a.noNote 0 m) ht hv (by rw [← h]) hin (by rw [← h]) (by rw [← h]) (by rw [← h])
        rw [hut] at this
        exact ⟨slope_upd hi t _ (by rw [← h]) (by rw [← h]) (huf v a.noNote 0), by omega⟩
      · exact same (by rw [← h]) (by rw [← h]) (by rw [← h]) (by rw [← h])
      · next y _ _ =>
        have := tolls_init (B := B) (r := r) (s' := s') (k := .put v v y .done) ht hv (by rw [← h]) hin (by rw [← h]) (by rw [← h]) (by rw [← h])
        simp only [Task.toll, Prog.toll] at this
        exact ⟨slope_upd hi t (.put v v y .done) (by rw [← h]) (by rw [← h]) trivial, by omega⟩
      · exact same (by rw [← h]) (by rw [← h]) (by rw [← h]) (by rw [← h])
    · cases h
  | recv t v i =>
    simp only [step] at h
    split at h
    · next hf =>
      obtain ⟨ht, -, hk⟩ := (free_iff c s t v).1 hf
      cases hpn : (s.pend v)[i]? with
      | none => rw [hpn] at h; cases h
      | some y =>
        rw [hpn] at h
        simp only [Option.some.injEq] at h
        have hv : v < n := by
          by_contra hn
          rw [hs.pend v (Nat.le_of_not_lt hn)] at hpn
          simp at hpn
        have hil : i < (s.pend v).length := (List.getElem?_eq_some_iff.1 hpn).1
        have := tolls_pend (B := B) (r := r) (s := s) (s' := s') (k := .load v fun p es m => a.onUpdate v p es y (s.act v - 1) m) ht hv (by rw [← h]) (by rw [← h]) (by rw [← h]) (by rw [← h])
        rw [hut, hk, List.length_eraseIdx_of_lt hil] at this
        refine ⟨slope_upd hi t _ (by rw [← h]) (by rw [← h]) (huf v y (s.act v - 1)), ?_⟩
        simp only [charged, Bool.false_eq_true, if_false]
        generalize hle : (s.pend v).length = m at this hil
        obtain ⟨m, rfl⟩ : ∃ m', m = m' + 1 := ⟨m - 1, by omega⟩
        rw [Nat.add_sub_cancel, Nat.mul_add] at this
        simp only [Task.toll] at this
        omega
    · cases h
  | go t =>
    simp only [step] at h
    split at h
    · next ht =>
      have hf := hi.task t
      have hbl := hs.task t
      cases hk : s.task t with
      | idle => rw [hk] at h; cases h
      | load v f =>
        rw [hk] at h hf
        simp only [goStep, Option.some.injEq] at h
        have := tolls_task (B := B) (r := r) (n := n) (s := s) (s' := s') (k := .run v (f (s.prop v) (s.edges v) (a.retrieve (s.inbox v) (s.prop v)).2).2) ht
          (by rw [← h]) (by rw [← h]) (by rw [← h]) (by rw [← h])
        rw [hk] at this
        have h2 := toll_load (r := r) (fun p m => (hf p m).2) (s.prop v) (a.retrieve (s.inbox v) (s.prop v)).2
        refine ⟨slope_upd hi t (.run v (f (s.prop v) (s.edges v) (a.retrieve (s.inbox v) (s.prop v)).2).2) (by rw [← h]) (by rw [← h]) (hf _ _).1, ?_⟩
        simp only [charged, hk, Bool.false_eq_true, if_false]
        omega
      | run v q =>
        rw [hk] at h hf hbl
        cases q with
        | done =>
          simp only [goStep, Option.some.injEq] at h
          have := tolls_task (B := B) (r := r) (n := n) (s := s) (s' := s') (k := .idle) ht (by rw [← h]) (by rw [← h]) (by rw [← h]) (by rw [← h])
          rw [hk] at this
          refine ⟨slope_upd hi t .idle (by rw [← h]) (by rw [← h]) trivial, ?_⟩
          simp only [charged, hk, Bool.false_eq_true, if_false]
          simp only [Task.toll, Prog.toll] at this
          omega
        | post w m k =>
          simp only [goStep] at h
          split at h
          · next hn =>
            simp only [Option.some.injEq] at h
            have := tolls_task (B := B) (r := r) (n := n) (s := s) (s' := s') (k := .cas v w k) ht (by rw [← h]) (by rw [← h]) (by rw [← h]) (by rw [← h])
            rw [hk] at this
            simp only [Task.toll, Prog.toll, if_pos (hnews v w m _ hbl.1 hf.1 hn)] at this
            refine ⟨slope_upd hi t (.cas v w k) (by rw [← h]) (by rw [← h]) hf.2, ?_⟩
            simp only [charged, hk, hn, if_true]
            omega
          · next hn =>
            simp only [Option.some.injEq] at h
            have := tolls_task (B := B) (r := r) (n := n) (s := s) (s' := s') (k := .run v (k false)) ht (by rw [← h]) (by rw [← h]) (by rw [← h]) (by rw [← h])
            rw [hk] at this
            simp only [Task.toll, Prog.toll] at this
            refine ⟨slope_upd hi t (.run v (k false)) (by rw [← h]) (by rw [← h]) (hf.2 false), ?_⟩
            simp only [charged, hk, hn, Bool.false_eq_true, if_false]
            have := Nat.le_max_right ((k true).toll B r v) ((k false).toll B r v)
            omega
        | send w y k => exact hf.elim
      | cas v w k =>
        rw [hk] at h hf
        simp only [goStep] at h
        have h1 := Nat.le_max_right ((k true).toll B r v) ((k false).toll B r v)
        have h2 := Nat.le_max_left ((k true).toll B r v) ((k false).toll B r v)
        split at h
        all_goals simp only [Option.some.injEq] at h
        · have := tolls_task (B := B) (r := r) (n := n) (s := s) (s' := s') (k := .put v w a.noNote (k true)) ht (by rw [← h]) (by rw [← h]) (by rw [← h]) (by rw [← h])
          rw [hk] at this
          simp only [Task.toll] at this
          refine ⟨slope_upd hi t (.put v w a.noNote (k true)) (by rw [← h]) (by rw [← h]) (hf true), ?_⟩
          simp only [charged, hk, Bool.false_eq_true, if_false]
          omega
        · have := tolls_task (B := B) (r := r) (n := n) (s := s) (s' := s') (k := .run v (k false)) ht (by rw [← h]) (by rw [← h]) (by rw [← h]) (by rw [← h])
          rw [hk] at this
          simp only [Task.toll] at this
          refine ⟨slope_upd hi t (.run v (k false)) (by rw [← h]) (by rw [← h]) (hf false), ?_⟩
          simp only [charged, hk, Bool.false_eq_true, if_false]
          omega
      | put v w y k =>
        rw [hk] at h hf hbl
        simp only [goStep, Option.some.injEq] at h
        have := tolls_pend (B := B) (r := r) (n := n) (s := s) (s' := s') (k := .run v k) ht hbl.1 (by rw [← h]) (by rw [← h]) (by rw [← h]) (by rw [← h])
        rw [hk] at this
        simp only [Task.toll, List.length_append, List.length_cons, List.length_nil] at this
        refine ⟨slope_upd hi t (.run v k) (by rw [← h]) (by rw [← h]) hf, ?_⟩
        simp only [charged, hk, Bool.false_eq_true, if_false]
        rw [Nat.mul_add] at this
        omega
    · cases h

/-- **The bound.** If news goes downhill, the number of steps left is bounded, whatever the schedule. -/
theorem downhill_bound {a : Alg P M N E} {Good : Nat → M → Prop} {r : Nat → Nat} {n : Nat} (ha : Local a n)
    (hnews : ∀ v w m x, w < n → Good w m → (a.merge m v x).2 = true → w = v ∨ r w < r v)
    (c : Cfg M N) {B : Nat} {s : St P M N E} (hi : Slope a Good B s) (hs : Supp n s) :
    ∃ K, ∀ ys s', (∀ y ∈ ys, Plain y ∧ y.below n = true) → run a c s ys = some s' → ys.length ≤ K :=
  ⟨_, fun _ _ hy h => plain_bound (B := B) ha (Slope a Good B) (tolls B r n c) (fun _ hr => hr.loads)
    (fun _ _ _ hr hsr hp hb hst => slope_step hnews hr hsr hp hb hst) hi hs hy h⟩

end Verif.Async
