import Verif.TerminateLive
import Verif.Props.Terminate
import Mathlib.Tactic.Ring

/-!
C56: once nothing is in flight, every thread detects it and leaves its loop, after a bounded number
of its own instructions.

As with C35, the statement fails when a vote is read between the two stores of termination.go 44-45
(`C56_false`), and holds for all other executions (`C56_partial`, `C56_eventually_partial`).
-/

namespace Verif.Term

section
variable {c : Cfg} {s s' : St} {a : Act} {V : Nat}

/-- Bound on the instructions of a thread until it is back at the top of its loop, in a state in
which nothing is in flight. -/
def rank (n : Nat) : PC → Nat
  | .top _ | .done => 0
  | .lower _ | .reset _ => 1
  | .fall _ => 2
  | .all i => 1 + (n - i)
  | .three => n + 2
  | .ready i => n + 3 + (n - i)
  | .two => 2 * n + 4
  | .zeros i => 2 * n + 5 + (n - i)
  | .begin => 3 * n + 6
  | .views i _ => 3 * n + 7 + (n - i)
  | .cmp _ => 4 * n + 8
  | .sum i _ => 4 * n + 9 + (n - i)
  | .report => 5 * n + 10
  | .recvd _ => 5 * n + 11
  | .drain _ => 5 * n + 12
  | .polled _ => 5 * n + 13
  | .pullQ _ => 5 * n + 14
  | .pullB _ => 5 * n + 15
  | .work .. | .put .. => 0

theorem rank_le (n : Nat) (p : PC) : rank n p ≤ 5 * n + 15 := by
  cases p <;> simp only [rank] <;> omega

def isTop : PC → Bool
  | .top _ => true
  | _ => false

/-- The step is the first of a pass of thread `t` through its loop. -/
def starting (s : St) (t : Nat) (a : Act) : Bool := a = .go t && isTop (s.pc t)

/-- Passes begun by thread `t` in a run. -/
def starts (c : Cfg) (t : Nat) : St → List Act → Nat
  | _, [] => 0
  | s, a :: as => (if starting s t a then 1 else 0) +
      match step c s a with
      | none => 0
      | some s' => starts c t s' as

theorem rank_step (t : Nat) (ht : t < c.n) (h : Still c s) (hs : step c s a = some s') :
    (if a = .go t then 1 else 0) + rank c.n (s'.pc t) ≤
      rank c.n (s.pc t) + if starting s t a then 5 * c.n + 16 else 0 := by
  have := h t ht
  clear h
  unfold starting isTop
  step_cases hs
  all_goals grind [upd, busy, rank]

theorem count_le (t : Nat) (ht : t < c.n) {as : List Act} (h : Still c s)
    (hr : run c s as = some s') :
    as.count (.go t) + rank c.n (s'.pc t) ≤
      rank c.n (s.pc t) + starts c t s as * (5 * c.n + 16) := by
  induction as generalizing s with
  | nil => cases hr; simp [starts]
  | cons a as ih =>
    simp only [run] at hr
    cases hs : step c s a with
    | none => rw [hs] at hr; cases hr
    | some s1 =>
      rw [hs] at hr
      have h1 := ih (still_step h hs) hr
      have h2 := rank_step t ht h hs
      simp only [starts, hs, List.count_cons]
      have e : (if (a == Act.go t) = true then 1 else 0) = if a = Act.go t then 1 else 0 := by
        by_cases h : a = Act.go t <;> simp [h]
      rw [e, Nat.add_mul]
      have e2 : (if starting s t a = true then 1 else 0) * (5 * c.n + 16) =
          if starting s t a = true then 5 * c.n + 16 else 0 := by
        split <;> simp
      rw [e2]
      omega

/-- A pass begun before and another begun in this run: the first one is complete. -/
theorem pass {Pre A P : St → Prop} (t : Nat)
    (hpre : ∀ s a s', Pre s → Fresh s a → step c s a = some s' → Pre s')
    (hA0 : ∀ s s' k, Pre s → s.pc t = .top k → step c s (.go t) = some s' → A s')
    (hA : ∀ s a s', Pre s → step c s a = some s' → A s → A s')
    (hAP : ∀ s k, Pre s → A s → s.pc t = .top k → P s)
    (hP : ∀ s a s', Pre s → step c s a = some s' → P s → P s') {as : List Act}
    (h : Pre s) (hr : runFresh c s as = some s') :
    Pre s' ∧ (P s → P s') ∧ (A s → A s') ∧ (1 ≤ starts c t s as → A s') ∧
    (A s → 1 ≤ starts c t s as → P s') ∧ (2 ≤ starts c t s as → P s') := by
  induction as generalizing s with
  | nil =>
    cases hr
    refine ⟨h, id, id, ?_, ?_, ?_⟩ <;> simp [starts]
  | cons a as ih =>
    simp only [runFresh] at hr
    split at hr
    swap
    · cases hr
    rename_i hf
    cases hs : step c s a with
    | none => rw [hs] at hr; cases hr
    | some s1 =>
      rw [hs] at hr
      obtain ⟨i1, i2, i3, i4, i5, i6⟩ := ih (hpre s a s1 h (fresh_iff s a hf) hs) hr
      have k1 : P s → P s1 := hP s a s1 h hs
      have k2 : A s → A s1 := hA s a s1 h hs
      have k3 : starting s t a = true → A s1 ∧ (A s → P s1) := by
        intro hst
        simp only [starting, Bool.and_eq_true, decide_eq_true_eq] at hst
        obtain ⟨rfl, htop⟩ := hst
        cases hp : s.pc t <;> simp only [hp, isTop, Bool.false_eq_true] at htop
        rename_i k
        exact ⟨hA0 s s1 k h hp hs, fun ha => k1 (hAP s k h ha hp)⟩
      simp only [starts, hs]
      refine ⟨i1, fun hp => i2 (k1 hp), fun ha => i3 (k2 ha), ?_, ?_, ?_⟩
      · intro h1
        by_cases hst : starting s t a = true
        · exact i3 (k3 hst).1
        · rw [if_neg hst] at h1; exact i4 (by omega)
      · intro ha h1
        by_cases hst : starting s t a = true
        · exact i2 ((k3 hst).2 ha)
        · rw [if_neg hst] at h1; exact i5 (k2 ha) (by omega)
      · intro h2
        by_cases hst : starting s t a = true
        · rw [if_pos hst] at h2; exact i5 (k3 hst).1 (by omega)
        · rw [if_neg hst] at h2; exact i6 (by omega)

/-- Every thread has either left by the end of the run or executed enough instructions in it for
two passes through its loop. -/
def Fair (c : Cfg) (s' : St) (as : List Act) : Prop :=
  ∀ t, t < c.n → s'.pc t = .done ∨ 10 * c.n + 32 ≤ as.count (.go t)

theorem round {Pre : St → Prop} {A P : St → Nat → Prop}
    (hst : ∀ s, Pre s → Still c s)
    (hpre : ∀ s a s', Pre s → Fresh s a → step c s a = some s' → Pre s')
    (hA0 : ∀ t, t < c.n → ∀ s s' k, Pre s → s.pc t = .top k → step c s (.go t) = some s' → A s' t)
    (hA : ∀ t, t < c.n → ∀ s a s', Pre s → step c s a = some s' → A s t → A s' t)
    (hAP : ∀ t, t < c.n → ∀ s k, Pre s → A s t → s.pc t = .top k → P s t)
    (hP : ∀ t, t < c.n → ∀ s a s', Pre s → step c s a = some s' → P s t → P s' t)
    (hd : ∀ t, t < c.n → ∀ s, Pre s → s.pc t = .done → P s t)
    {as : List Act} (h : Pre s) (hr : runFresh c s as = some s') (hf : Fair c s' as) :
    Pre s' ∧ ∀ t, t < c.n → P s' t := by
  have key := fun t ht => pass (A := fun s => A s t) (P := fun s => P s t) t hpre (hA0 t ht)
    (hA t ht) (hAP t ht) (hP t ht) h hr
  have hpre' : Pre s' := by
    have := pass (A := fun _ => True) (P := fun _ => True) 0 hpre (fun _ _ _ _ _ _ => trivial)
      (fun _ _ _ _ _ _ => trivial) (fun _ _ _ _ _ => trivial) (fun _ _ _ _ _ _ => trivial) h hr
    exact this.1
  refine ⟨hpre', fun t ht => ?_⟩
  rcases hf t ht with hdone | hcnt
  · exact hd t ht s' hpre' hdone
  · have h1 := count_le t ht (hst s h) (runFresh_run hr)
    have h2 := rank_le c.n (s.pc t)
    refine (key t ht).2.2.2.2.2 ?_
    by_contra hlt
    have : starts c t s as ≤ 1 := by omega
    have := Nat.mul_le_mul_right (5 * c.n + 16) this
    omega

theorem top_go {t k : Nat} (ht : t < c.n) (hp : s.pc t = .top k)
    (hs : step c s (.go t) = some s') : s'.pc t = .pullB k := by
  simp only [step, ht, if_true, goStep, hp, St.at] at hs
  cases hs
  simp

theorem six {b1 b2 b3 b4 b5 b6 : List Act} {s1 s2 s3 s4 s5 s6 : St} (hm : 0 < c.max)
    (h : Base c V s)
    (r1 : runFresh c s b1 = some s1) (f1 : Fair c s1 b1)
    (r2 : runFresh c s1 b2 = some s2) (f2 : Fair c s2 b2)
    (r3 : runFresh c s2 b3 = some s3) (f3 : Fair c s3 b3)
    (r4 : runFresh c s3 b4 = some s4) (f4 : Fair c s4 b4)
    (r5 : runFresh c s4 b5 = some s5) (f5 : Fair c s5 b5)
    (r6 : runFresh c s5 b6 = some s6) (f6 : Fair c s6 b6) :
    Base c V s6 ∧ ∀ t, t < c.n → s6.pc t = .done := by
  -- reports
  have p1 := round (Pre := Base c V) (A := fun s t => Try 1 s t (Rep s t)) (P := Rep)
    (fun s h => h.still) (fun s a s' h hf hs => base_step hm h hf hs)
    (fun t ht s s' k h hp hs => Or.inl (by rw [top_go ht hp hs]; exact Nat.le_refl _))
    (fun t ht s a s' h hs ha => rep_try h t ht ha hs)
    (fun t ht s k h ha hp => by
      rcases ha with ha | ha
      · rw [hp] at ha; exact absurd ha (by simp [stage])
      · exact ha)
    (fun t ht s a s' h hs hp => rep_step h t ht hp hs)
    (fun t ht s h hd => (h.fin t ht hd).1) h r1 f1
  -- views
  have p2 := round (Pre := fun s => Base c V s ∧ ∀ u, u < c.n → Rep s u)
    (A := fun s t => okAcc c s V (s.pc t) ∧ Try 3 s t (Seen c V s t)) (P := Seen c V)
    (fun s h => h.1.still)
    (fun s a s' h hf hs => ⟨base_step hm h.1 hf hs, fun u hu => rep_step h.1 u hu (h.2 u hu) hs⟩)
    (fun t ht s s' k h hp hs => by
      rw [top_go ht hp hs]
      exact ⟨trivial, Or.inl (by rw [top_go ht hp hs]; simp [stage])⟩)
    (fun t ht s a s' h hs ha => seen_try h.1 h.2 t ht ha hs)
    (fun t ht s k h ha hp => by
      rcases ha.2 with ha | ha
      · rw [hp] at ha; exact absurd ha (by simp [stage])
      · exact ha)
    (fun t ht s a s' h hs hp => seen_step h.1 h.2 t hp hs)
    (fun t ht s h hd => ⟨(h.1.fin t ht hd).2.1, by rw [hd]; trivial⟩) p1 r2 f2
  have hall : ∀ s a s', AllSeen c V s → Fresh s a → step c s a = some s' → AllSeen c V s' :=
    fun s a s' h hf hs => ⟨base_step hm h.1 hf hs, fun u hu => rep_step h.1 u hu (h.2.1 u hu) hs,
      fun u hu => seen_step h.1 h.2.1 u (h.2.2 u hu) hs⟩
  -- first votes
  have p3 := round (Pre := AllSeen c V) (A := fun s t => Try 5 s t (Voted s t)) (P := Voted)
    (fun s h => h.1.still) hall
    (fun t ht s s' k h hp hs => Or.inl (by rw [top_go ht hp hs]; simp [stage]))
    (fun t ht s a s' h hs ha => voted_try h t ht ha hs)
    (fun t ht s k h ha hp => by
      rcases ha with ha | ha
      · rw [hp] at ha; exact absurd ha (by simp [stage])
      · exact ha)
    (fun t ht s a s' h hs hp => voted_step h t ht hp hs)
    (fun t ht s h hd => ⟨by rw [(h.1.fin t ht hd).2.2]; decide, by rw [hd]; simp⟩)
    ⟨p2.1.1, p2.1.2, p2.2⟩ r3 f3
  -- second votes
  have p4 := round (Pre := fun s => AllSeen c V s ∧ ∀ u, u < c.n → Voted s u)
    (A := fun s t => Try 7 s t (Second s t)) (P := Second)
    (fun s h => h.1.1.still)
    (fun s a s' h hf hs => ⟨hall s a s' h.1 hf hs, fun u hu => voted_step h.1 u hu (h.2 u hu) hs⟩)
    (fun t ht s s' k h hp hs => Or.inl (by rw [top_go ht hp hs]; simp [stage]))
    (fun t ht s a s' h hs ha => second_try h.1 h.2 t ht ha hs)
    (fun t ht s k h ha hp => by
      rcases ha with ha | ha
      · rw [hp] at ha; exact absurd ha (by simp [stage])
      · exact ha)
    (fun t ht s a s' h hs hp => second_step h.1 h.2 t ht hp hs)
    (fun t ht s h hd => ⟨by rw [(h.1.1.fin t ht hd).2.2]; decide, by rw [hd]; simp⟩)
    p3 r4 f4
  -- third votes
  have p5 := round (Pre := fun s => (AllSeen c V s ∧ ∀ u, u < c.n → Voted s u) ∧
      ∀ u, u < c.n → Second s u)
    (A := fun s t => Try 9 s t (Third s t)) (P := Third)
    (fun s h => h.1.1.1.still)
    (fun s a s' h hf hs => ⟨⟨hall s a s' h.1.1 hf hs,
      fun u hu => voted_step h.1.1 u hu (h.1.2 u hu) hs⟩,
      fun u hu => second_step h.1.1 h.1.2 u hu (h.2 u hu) hs⟩)
    (fun t ht s s' k h hp hs => Or.inl (by rw [top_go ht hp hs]; simp [stage]))
    (fun t ht s a s' h hs ha => third_try h.1.1 h.1.2 h.2 t ht ha hs)
    (fun t ht s k h ha hp => by
      rcases ha with ha | ha
      · rw [hp] at ha; exact absurd ha (by simp [stage])
      · exact ha)
    (fun t ht s a s' h hs hp => third_step h.1.1 h.1.2 h.2 t ht hp hs)
    (fun t ht s h hd => ⟨(h.1.1.1.fin t ht hd).2.2, by rw [hd]; simp, by rw [hd]; simp⟩)
    p4 r5 f5
  -- return
  have p6 := round (Pre := fun s => ((AllSeen c V s ∧ ∀ u, u < c.n → Voted s u) ∧
      ∀ u, u < c.n → Second s u) ∧ ∀ u, u < c.n → Third s u)
    (A := fun s t => Try 10 s t (s.pc t = .done)) (P := fun s t => s.pc t = .done)
    (fun s h => h.1.1.1.1.still)
    (fun s a s' h hf hs => ⟨⟨⟨hall s a s' h.1.1.1 hf hs,
      fun u hu => voted_step h.1.1.1 u hu (h.1.1.2 u hu) hs⟩,
      fun u hu => second_step h.1.1.1 h.1.1.2 u hu (h.1.2 u hu) hs⟩,
      fun u hu => third_step h.1.1.1 h.1.1.2 h.1.2 u hu (h.2 u hu) hs⟩)
    (fun t ht s s' k h hp hs => Or.inl (by rw [top_go ht hp hs]; simp [stage]))
    (fun t ht s a s' h hs ha => done_try h.1.1.1 h.1.1.2 h.1.2 h.2 t ht ha hs)
    (fun t ht s k h ha hp => by
      rcases ha with ha | ha
      · rw [hp] at ha; exact absurd ha (by simp [stage])
      · exact ha)
    (fun t ht s a s' h hs hp => done_step t hp hs)
    (fun t ht s h hd => hd)
    p5 r6 f6
  exact ⟨p6.1.1.1.1.1, p6.2⟩

/-- Facts about the indices held by a thread. -/
def Aux (c : Cfg) (s : St) : Prop :=
  (∀ t i, t < c.n → s.pc t = .fall i → i < c.n) ∧ ∀ t x, s.pc t = .lower x → x ≠ 0

theorem aux_step (h : Aux c s) (hs : step c s a = some s') : Aux c s' := by
  obtain ⟨h1, h2⟩ := h
  constructor
  · clear h2; step_cases hs
    all_goals grind [upd]
  · clear h1; step_cases hs
    all_goals grind [upd]

theorem aux_run {as : List Act} (h : Aux c s) (hr : run c s as = some s') : Aux c s' := by
  induction as generalizing s with
  | nil => cases hr; exact h
  | cons a as ih =>
    simp only [run] at hr
    cases hs : step c s a with
    | none => rw [hs] at hr; cases hr
    | some s1 => rw [hs] at hr; exact ih (aux_step h hs) hr

theorem base_of {s0 : St} {as : List Act} (hm : 0 < c.max) (h0 : Start c s0)
    (h : runFresh c s0 as = some s) (hn : NothingInFlight c s) : Base c (tot c.n s.acts) s := by
  have ha : Aux c s := aux_run ⟨fun t i _ hp => (by rw [h0.pc] at hp; cases hp),
    fun t x hp => (by rw [h0.pc] at hp; cases hp)⟩ (runFresh_run h)
  exact ⟨hn.1, rfl, ha.1, ha.2, (inv_runFresh hm (inv_start h0) (balance_start h0) h).1⟩

/-- A thread that has not left its loop can always execute its next instruction: nothing in the
loop or the check blocks. -/
theorem go_enabled {t : Nat} (ht : t < c.n) (hp : s.pc t ≠ .done) :
    ∃ s', step c s (.go t) = some s' := by
  simp only [step, ht, if_true]
  unfold goStep
  repeat' split
  all_goals first | exact ⟨_, rfl⟩ | contradiction

/-- C56, quantitatively: when nothing is in flight, six rounds suffice, in each of which every
thread that has not left takes at least `10 n + 32` steps, in any order. -/
theorem C56_partial {s0 : St} {as b1 b2 b3 b4 b5 b6 : List Act} {s1 s2 s3 s4 s5 s6 : St}
    (hm : 0 < c.max) (h0 : Start c s0) (h : runFresh c s0 as = some s) (hn : NothingInFlight c s)
    (r1 : runFresh c s b1 = some s1) (f1 : Fair c s1 b1)
    (r2 : runFresh c s1 b2 = some s2) (f2 : Fair c s2 b2)
    (r3 : runFresh c s2 b3 = some s3) (f3 : Fair c s3 b3)
    (r4 : runFresh c s3 b4 = some s4) (f4 : Fair c s4 b4)
    (r5 : runFresh c s4 b5 = some s5) (f5 : Fair c s5 b5)
    (r6 : runFresh c s5 b6 = some s6) (f6 : Fair c s6 b6) :
    ∀ t, t < c.n → s6.pc t = .done :=
  (six hm (base_of hm h0 h hn) r1 f1 r2 f2 r3 f3 r4 f4 r5 f5 r6 f6).2

/-! ### Infinite executions -/

/-- An infinite execution: its states and its actions. -/
structure Exec (c : Cfg) where
  st : Nat → St
  act : Nat → Act
  next : ∀ i, step c (st i) (act i) = some (st (i + 1))

/-- Every thread either leaves its loop or executes instructions for ever. -/
def Exec.Fair (e : Exec c) : Prop :=
  ∀ t, t < c.n → ∀ i, ∃ j, i ≤ j ∧ (e.act j = .go t ∨ (e.st j).pc t = .done)

/-- C56 in full. -/
def C56Statement : Prop :=
  ∀ (c : Cfg) (s0 : St) (as : List Act) (e : Exec c), 0 < c.max → Start c s0 →
    run c s0 as = some (e.st 0) → NothingInFlight c (e.st 0) → e.Fair →
    ∃ k, ∀ t, t < c.n → (e.st k).pc t = .done

/-- The `k` actions of an execution from step `m`. -/
def Exec.seg (e : Exec c) (m k : Nat) : List Act := (List.range k).map fun i => e.act (m + i)

theorem Exec.seg_succ (e : Exec c) (m k : Nat) :
    e.seg m (k + 1) = e.act m :: e.seg (m + 1) k := by
  simp only [Exec.seg, List.range_succ_eq_map, List.map_cons, List.map_map, Nat.add_zero,
    List.cons.injEq, true_and]
  refine List.map_congr_left fun i _ => ?_
  simp only [Function.comp, Nat.succ_eq_add_one]
  congr 1; omega

theorem Exec.seg_last (e : Exec c) (m k : Nat) :
    e.seg m (k + 1) = e.seg m k ++ [e.act (m + k)] := by
  simp [Exec.seg, List.range_succ]

theorem Exec.run (e : Exec c) (hf : ∀ i, fresh (e.st i) (e.act i) = true) (m k : Nat) :
    runFresh c (e.st m) (e.seg m k) = some (e.st (m + k)) := by
  induction k generalizing m with
  | zero => rfl
  | succ k ih =>
    rw [Exec.seg_succ]
    simp only [runFresh, hf, if_true, e.next, Option.bind_some]
    rw [ih]; congr 2; omega

theorem Exec.done_stays (e : Exec c) {t m : Nat} (h : (e.st m).pc t = .done) (k : Nat) :
    (e.st (m + k)).pc t = .done := by
  induction k with
  | zero => exact h
  | succ k ih => exact done_step t ih (e.next (m + k))

/-- Eventually thread `t` has left or made `K` steps since `m`. -/
theorem Exec.enough (e : Exec c) (hfair : e.Fair) {t : Nat} (ht : t < c.n) (m K : Nat) :
    ∃ k, ∀ k', k ≤ k' → (e.st (m + k')).pc t = .done ∨ K ≤ (e.seg m k').count (.go t) := by
  induction K with
  | zero => exact ⟨0, fun k' _ => Or.inr (Nat.zero_le _)⟩
  | succ K ih =>
    obtain ⟨k, hk⟩ := ih
    obtain ⟨j, hj, hj2⟩ := hfair t ht (m + k)
    have hmono : ∀ k1 k2, k1 ≤ k2 → (e.seg m k1).count (.go t) ≤ (e.seg m k2).count (.go t) := by
      intro k1 k2 hle
      induction hle with
      | refl => exact Nat.le_refl _
      | step _ ih =>
        rw [Exec.seg_last, List.count_append]; omega
    refine ⟨j - m + 1, fun k' hk' => ?_⟩
    rcases hj2 with ha | hd
    · rcases hk (j - m) (by omega) with h1 | h1
      · left
        have := e.done_stays h1 (k' - (j - m))
        rwa [show m + (j - m) + (k' - (j - m)) = m + k' by omega] at this
      · right
        have := hmono (j - m + 1) k' hk'
        rw [Exec.seg_last, List.count_append, show m + (j - m) = j by omega, ha] at this
        simp only [List.count_singleton, BEq.rfl, if_true] at this
        omega
    · left
      have := e.done_stays hd (m + k' - j)
      rwa [show j + (m + k' - j) = m + k' by omega] at this

theorem Exec.round (e : Exec c) (hfair : e.Fair) (m : Nat) :
    ∃ k, Term.Fair c (e.st (m + k)) (e.seg m k) := by
  have : ∀ n, n ≤ c.n → ∃ k, ∀ k', k ≤ k' → ∀ t, t < n →
      (e.st (m + k')).pc t = .done ∨ 10 * c.n + 32 ≤ (e.seg m k').count (.go t) := by
    intro n
    induction n with
    | zero => exact fun _ => ⟨0, fun _ _ t ht => absurd ht (by omega)⟩
    | succ n ih =>
      intro hn
      obtain ⟨k1, h1⟩ := ih (by omega)
      obtain ⟨k2, h2⟩ := e.enough hfair (t := n) (by omega) m (10 * c.n + 32)
      refine ⟨k1 + k2, fun k' hk' t ht => ?_⟩
      rcases Nat.lt_succ_iff_lt_or_eq.1 ht with hlt | rfl
      · exact h1 k' (by omega) t hlt
      · exact h2 k' (by omega)
  obtain ⟨k, hk⟩ := this c.n (Nat.le_refl _)
  exact ⟨k, fun t ht => hk k (Nat.le_refl _) t ht⟩

/-- C56 for executions in which no vote is read between the two stores of termination.go 44-45:
when nothing is in flight, all threads eventually leave their loops, under every fair schedule.
Missing for the full statement: the other executions, for which it is false. -/
theorem C56_eventually_partial {s0 : St} {as : List Act} (e : Exec c) (hm : 0 < c.max)
    (h0 : Start c s0) (h : runFresh c s0 as = some (e.st 0))
    (hf : ∀ i, fresh (e.st i) (e.act i) = true) (hn : NothingInFlight c (e.st 0))
    (hfair : e.Fair) : ∃ k, ∀ t, t < c.n → (e.st k).pc t = .done := by
  obtain ⟨k1, f1⟩ := e.round hfair 0
  obtain ⟨k2, f2⟩ := e.round hfair (0 + k1)
  obtain ⟨k3, f3⟩ := e.round hfair (0 + k1 + k2)
  obtain ⟨k4, f4⟩ := e.round hfair (0 + k1 + k2 + k3)
  obtain ⟨k5, f5⟩ := e.round hfair (0 + k1 + k2 + k3 + k4)
  obtain ⟨k6, f6⟩ := e.round hfair (0 + k1 + k2 + k3 + k4 + k5)
  exact ⟨_, C56_partial hm h0 h hn (e.run hf _ _) f1 (e.run hf _ _) f2 (e.run hf _ _) f3
    (e.run hf _ _) f4 (e.run hf _ _) f5 (e.run hf _ _) f6⟩

/-! ### The counterexample -/

theorem stuck_not_done (h : Stuck s) : s.pc 0 ≠ .done := by
  intro hd
  rcases h.2.2.2.2.2 with ⟨h, _⟩ | ⟨_, h⟩
  · rw [hd] at h; cases h
  · rw [hd] at h; exact h

/-- The next state of thread 0 alone. -/
def zeroNext (s : St) : St := (step ⟨2, 1024⟩ s (.go 0)).getD s

theorem zeroNext_step (h : Stuck s) : step ⟨2, 1024⟩ s (.go 0) = some (zeroNext s) := by
  obtain ⟨s', hs⟩ := go_enabled (c := ⟨2, 1024⟩) (s := s) (t := 0) (by decide) (stuck_not_done h)
  simp [zeroNext, hs]

theorem exHang_run : (run ⟨2, 1024⟩ ex0 (exBad ++ gos 0 8)).map (fun s =>
    (s.pc 0, s.pc 1, s.queue 0, s.buff 0)) = some (.top 0, .done, [], []) := by decide +kernel

theorem exHang_run2 : (run ⟨2, 1024⟩ ex0 (exBad ++ gos 0 8)).map (fun s =>
    (s.queue 1, s.buff 1, s.closed 0, s.closed 1)) = some ([], [], true, true) := by decide +kernel

theorem exHang_run3 : (run ⟨2, 1024⟩ ex0 (exBad ++ gos 0 8)).map (fun s =>
    (s.msgSend 0 + s.msgSend 1, s.msgRecv 0 + s.msgRecv 1)) = some (4, 4) := by decide +kernel

theorem exHang_run4 : (run ⟨2, 1024⟩ ex0 (exBad ++ gos 0 8)).map (fun s =>
    (s.view 1, s.data 1, s.acts 0)) = some (7, 5, 3) := by decide +kernel

/-- C56 is false: in the execution of `C35_false`, thread 0 goes on to process the notification that
thread 1 did not wait for; then nothing is in flight, and thread 0 looks at its queue and at the view
of thread 1 for ever. -/
theorem C56_false : ¬ C56Statement := by
  intro h
  have h1 := exHang_run
  have h2 := exHang_run2
  have h3 := exHang_run3
  have h4 := exHang_run4
  cases hs : run ⟨2, 1024⟩ ex0 (exBad ++ gos 0 8) with
  | none => rw [hs] at h1; cases h1
  | some s =>
    rw [hs] at h1 h2 h3 h4
    simp only [Option.map_some, Option.some.injEq, Prod.mk.injEq] at h1 h2 h3 h4
    have hst : Stuck s := ⟨h1.2.1, h4.1, h4.2.1, h2.2.2.1, by omega, Or.inr ⟨by omega, by
      rw [h1.1]; trivial⟩⟩
    have hiter : ∀ i, Stuck (zeroNext^[i] s) := by
      intro i
      induction i with
      | zero => exact hst
      | succ i ih => rw [Function.iterate_succ_apply']; exact stuck_step ih (zeroNext_step ih)
    let e : Exec ⟨2, 1024⟩ := ⟨fun i => zeroNext^[i] s, fun _ => .go 0, fun i => by
      rw [Function.iterate_succ_apply']; exact zeroNext_step (hiter i)⟩
    have hn : NothingInFlight ⟨2, 1024⟩ (e.st 0) := by
      refine ⟨fun t ht => ?_, ?_⟩
      · have : t = 0 ∨ t = 1 := by simp only at ht; omega
        rcases this with rfl | rfl
        · exact ⟨h1.2.2.1, h1.2.2.2, by show busy (s.pc 0) = false; rw [h1.1]; rfl, h2.2.2.1⟩
        · exact ⟨h2.1, h2.2.1, by show busy (s.pc 1) = false; rw [h1.2.1]; rfl, h2.2.2.2⟩
      · show ((Finset.range 2).sum fun t => s.msgSend t) = (Finset.range 2).sum fun t => s.msgRecv t
        simp only [Finset.sum_range_succ, Finset.sum_range_zero, Nat.zero_add]
        omega
    have hfair : e.Fair := by
      intro t ht i
      have : t = 0 ∨ t = 1 := by simp only at ht; omega
      rcases this with rfl | rfl
      · exact ⟨i, Nat.le_refl _, Or.inl rfl⟩
      · exact ⟨i, Nat.le_refl _, Or.inr (hiter i).1⟩
    obtain ⟨k, hk⟩ := h ⟨2, 1024⟩ ex0 _ e (by decide) ex0_start hs hn hfair
    exact stuck_not_done (hiter k) (hk 0 (by decide))

/-- A round: `10 * 2 + 32` instructions of each of two threads. -/
def exRound : List Act := gos 0 52 ++ gos 1 52

/-- The hypotheses of `C56_partial` are satisfiable: both threads alternate, and after fewer rounds
than six both have left. -/
example : (runFresh ⟨2, 1024⟩ ex0 (gos 1 8)).map (fun s =>
    (s.queue 0, s.queue 1, busy (s.pc 0), busy (s.pc 1), s.pc 1)) =
    some ([], [], false, false, .pullB 0) := by decide +kernel

example : (runFresh ⟨2, 1024⟩ ex0 (gos 1 8 ++ exRound ++ exRound ++ gos 0 34 ++ gos 1 25 ++
    gos 0 25)).map (fun s => (s.pc 0, s.pc 1)) = some (.done, .done) := by decide +kernel

end

end Verif.Term
