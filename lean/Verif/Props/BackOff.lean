import Verif.BackOff

/-!
# C72: waiting is patient (it is not)
-/

namespace Verif.Props.BackOff
open Verif.BackOff

theorem backOff_ok (f : Nat) : (backOff f).2 = true ↔ f ≤ 2000 := by simp [backOff]

theorem run_succ {S I : Type} (turn : S → I → Option S) (s0 : S) (inp : Nat → I) (n : Nat) :
    runTurns turn s0 inp (n + 1) = (runTurns turn s0 inp n).bind (fun s => turn s (inp n)) := rfl

/-! ### blocking queue operations -/

/-- Time slept in the first `k` calls of `BackOff`, with counts `0 .. k-1`. -/
def sleptFor (k : Nat) : Nat := 50 * k * (k + 1)

theorem sleptFor_succ (k : Nat) : sleptFor (k + 1) = sleptFor k + (k + 1) * 100 := by
  unfold sleptFor
  have : 50 * (k + 1) * (k + 1 + 1) = 50 * k * (k + 1) + (k + 1) * 100 := by
    rw [Nat.mul_assoc 50 (k + 1), Nat.mul_assoc 50 k, show (k + 1) * (k + 1 + 1) = k * (k + 1) + 2 * (k + 1) by
      rw [Nat.mul_add (k + 1), Nat.mul_comm (k + 1) (k + 1), Nat.add_mul]; omega]
    omega
  exact this

theorem waitLoop_done (ready : Nat → Bool) (k : Nat) (hk : k ≤ 2001) (hr : ready k = true) :
    ∀ (m f fuel : Nat), f + m = k → m < fuel → (∀ j, f ≤ j → j < k → ready j = false) →
      waitLoop ready fuel f (sleptFor f) = .done k (sleptFor k)
  | 0, f, 0, _, hm, _ => by omega
  | 0, f, fuel + 1, hf, _, _ => by
    have : f = k := by omega
    subst this
    simp [waitLoop, hr]
  | m + 1, f, 0, _, hm, _ => by omega
  | m + 1, f, fuel + 1, hf, hm, hno => by
    have h0 := hno f (Nat.le_refl _) (by omega)
    have ih := waitLoop_done ready k hk hr m (f + 1) fuel (by omega) (by omega)
      (fun j h1 h2 => hno j (by omega) h2)
    rw [sleptFor_succ] at ih
    simp only [waitLoop, h0]
    rw [if_neg (by simp), if_pos ((backOff_ok f).2 (by omega))]
    exact ih

theorem waitLoop_panic (ready : Nat → Bool) :
    ∀ (m f fuel : Nat), f + m = 2001 → m < fuel → (∀ j, f ≤ j → j ≤ 2001 → ready j = false) →
      waitLoop ready fuel f (sleptFor f) = .panic (sleptFor 2002)
  | 0, f, 0, _, hm, _ => by omega
  | 0, f, fuel + 1, hf, _, hno => by
    have : f = 2001 := by omega
    subst this
    simp only [waitLoop, hno 2001 (by omega) (by omega)]
    rw [if_neg (by simp), if_neg (by rw [backOff_ok]; omega)]
    rfl
  | m + 1, f, 0, _, hm, _ => by omega
  | m + 1, f, fuel + 1, hf, hm, hno => by
    have h0 := hno f (Nat.le_refl _) (by omega)
    have ih := waitLoop_panic ready m (f + 1) fuel (by omega) (by omega)
      (fun j h1 h2 => hno j (by omega) h2)
    rw [sleptFor_succ] at ih
    simp only [waitLoop, h0]
    rw [if_neg (by simp), if_pos ((backOff_ok f).2 (by omega))]
    exact ih

/-- The full claim: a blocking queue operation returns at the first poll that finds the queue
ready, however long that takes. -/
def C72_QueueStatement : Prop :=
  ∀ (ready : Nat → Bool) (k : Nat), ready k = true → (∀ j < k, ready j = false) →
    ∃ slept, wait ready = .done k slept

/-- C72 (partial): that holds if the queue is ready within 2002 polls.
Missing: longer waits, see `C72_queue_panic`. -/
theorem C72_queue_partial (ready : Nat → Bool) (k : Nat) (hk : k ≤ 2001) (hr : ready k = true)
    (hno : ∀ j < k, ready j = false) : wait ready = .done k (50 * k * (k + 1)) :=
  waitLoop_done ready k hk hr k 0 2002 (by omega) (by omega) (fun j _ h => hno j h)

example : wait (fun k => decide (7 ≤ k)) = .done 7 2800 :=
  C72_queue_partial _ 7 (by decide) rfl (by decide)

/-- C72: otherwise the operation panics, after 200.5003 seconds of sleep: a producer that finds
its queue full that long, or a consumer that finds it empty (and not closed) that long, ends the
whole process. -/
theorem C72_queue_panic (ready : Nat → Bool) (h : ∀ j ≤ 2001, ready j = false) :
    wait ready = .panic 200500300 :=
  waitLoop_panic ready 2001 0 2002 (by omega) (by omega) (fun j _ h2 => h j h2)

/-- C72: the claim is false: the other side needs one poll too many. -/
theorem C72_queue_false : ¬ C72_QueueStatement := by
  intro h
  obtain ⟨s, hs⟩ := h (fun k => decide (2002 ≤ k)) 2002 (by simp) (by intro j hj; simpa using hj)
  rw [C72_queue_panic _ (by intro j hj; simp; omega)] at hs
  exact absurd hs (by simp)

/-! ### the loop of the asynchronous run -/

/-- `algNoCountTimes` is the number of turns since there was last something to do. -/
theorem async_count (got : Nat → Bool) : ∀ (n c : Nat), runTurns asyncTurn 0 got n = some c →
    c ≤ n ∧ ∀ j, n - c ≤ j → j < n → got j = false
  | 0, c, h => by cases h; exact ⟨Nat.le_refl _, fun j _ h => by omega⟩
  | n + 1, c, h => by
    simp only [runTurns] at h
    cases hp : runTurns asyncTurn 0 got n with
    | none => rw [hp] at h; simp at h
    | some p =>
      rw [hp] at h
      simp only [Option.bind_some, asyncTurn] at h
      obtain ⟨h1, h2⟩ := async_count got n p hp
      cases hg : got n with
      | true =>
        rw [hg] at h
        simp at h
        subst h
        exact ⟨by omega, fun j hj1 hj2 => by omega⟩
      | false =>
        rw [hg] at h
        have hc : c = p + 1 := by
          simp only [Bool.false_eq_true, if_false] at h
          split at h
          · split at h
            · cases h; rfl
            · simp at h
          · cases h; rfl
        subst hc
        refine ⟨by omega, fun j hj1 hj2 => ?_⟩
        by_cases hj : j = n
        · subst hj; exact hg
        · exact h2 j (by omega) (by omega)

/-- The full claim: a thread without work goes on polling for as long as others work. -/
def C72_IdleStatement : Prop := ∀ (got : Nat → Bool) (n : Nat), (runTurns asyncTurn 0 got n).isSome = true

/-- C72 (partial): a thread of an asynchronous run is not ended by `BackOff` as long as there is
no stretch of 200100 turns without anything to do.
Missing: longer stretches, see `C72_idle_panic`. -/
theorem C72_idle_partial (got : Nat → Bool) (n : Nat)
    (h : ∀ i, i + 200100 ≤ n → ∃ j, i ≤ j ∧ j < i + 200100 ∧ got j = true) :
    (runTurns asyncTurn 0 got n).isSome = true := by
  induction n with
  | zero => rfl
  | succ n ih =>
    have ih := ih (fun i hi => h i (by omega))
    obtain ⟨c, hc⟩ := Option.isSome_iff_exists.1 ih
    obtain ⟨h1, h2⟩ := async_count got n c hc
    simp only [runTurns, hc, Option.bind_some, asyncTurn]
    cases hg : got n with
    | true => simp
    | false =>
      simp only [Bool.false_eq_true, if_false]
      split
      · rename_i hm
        by_cases hb : c + 1 < 200100
        · rw [if_pos]
          · rfl
          · simp [backOff]; omega
        · exfalso
          obtain ⟨j, j1, j2, j3⟩ := h (n + 1 - 200100) (by omega)
          by_cases hj : j = n
          · rw [hj, hg] at j3; simp at j3
          · rw [h2 j (by omega) (by omega)] at j3
            simp at j3
      · rfl

example : (runTurns asyncTurn 0 (fun k => decide (k % 1000 = 0)) 1000000).isSome = true :=
  C72_idle_partial _ _ (fun i _ => ⟨1000 * ((i + 999) / 1000), by omega, by omega, by simp⟩)

theorem idle_streak (got : Nat → Bool) (i : Nat) :
    ∀ (m c : Nat), (∀ j, i ≤ j → j < i + m → got j = false) →
      runTurns asyncTurn 0 got (i + m) = some c → m ≤ c
  | 0, c, _, _ => Nat.zero_le _
  | m + 1, c, hno, h => by
    rw [← Nat.add_assoc, run_succ] at h
    cases hp : runTurns asyncTurn 0 got (i + m) with
    | none => rw [hp] at h; simp at h
    | some p =>
      have ih := idle_streak got i m p (fun j h1 h2 => hno j h1 (by omega)) hp
      rw [hp] at h
      simp only [Option.bind_some, asyncTurn, hno (i + m) (by omega) (by omega),
        Bool.false_eq_true, if_false] at h
      split at h
      · split at h
        · cases h; omega
        · simp at h
      · cases h; omega

theorem run_mono {S I : Type} (turn : S → I → Option S) (s0 : S) (inp : Nat → I) (n : Nat) :
    ∀ m, n ≤ m → (runTurns turn s0 inp m).isSome = true → (runTurns turn s0 inp n).isSome = true := by
  intro m hm h
  induction m with
  | zero => have : n = 0 := by omega
            subst this; exact h
  | succ m ih =>
    by_cases he : n = m + 1
    · subst he; exact h
    · apply ih (by omega)
      simp only [runTurns] at h
      cases hp : runTurns turn s0 inp m with
      | none => rw [hp] at h; simp at h
      | some _ => rfl

/-- C72: after any stretch of 200200 turns without anything to do the thread has panicked,
whatever happened before. -/
theorem C72_idle_panic (got : Nat → Bool) (i : Nat) (h : ∀ j, i ≤ j → j < i + 200200 → got j = false) :
    runTurns asyncTurn 0 got (i + 200200) = none := by
  cases hr : runTurns asyncTurn 0 got (i + 200200) with
  | none => rfl
  | some c =>
    exfalso
    -- some turn of the last hundred has a count divisible by 100
    have hs := run_mono asyncTurn 0 got
    have key : ∀ m ≤ 200200, ∃ c', runTurns asyncTurn 0 got (i + m) = some c' :=
      fun m hm => Option.isSome_iff_exists.1 (hs (i + m) (i + 200200) (by omega) (by rw [hr]; rfl))
    have step : ∀ m < 200200, ∀ c', runTurns asyncTurn 0 got (i + m) = some c' →
        runTurns asyncTurn 0 got (i + m + 1) = some (c' + 1) ∧
          ((c' + 1) % 100 = 0 → (c' + 1) / 100 ≤ 2000) := by
      intro m hm c' hc'
      obtain ⟨d, hd⟩ := key (m + 1) (by omega)
      rw [← Nat.add_assoc] at hd
      rw [run_succ] at hd ⊢
      simp only [hc', Option.bind_some, asyncTurn, h (i + m) (by omega) (by omega),
        Bool.false_eq_true, if_false] at hd ⊢
      split at hd
      · rename_i hmod
        split at hd
        · rename_i hb
          rw [if_pos hmod, if_pos hb]
          exact ⟨rfl, fun _ => (backOff_ok _).1 hb⟩
        · simp at hd
      · rename_i hmod
        exact ⟨by rw [if_neg hmod], fun h => absurd h hmod⟩
    obtain ⟨c0, hc0⟩ := key 200000 (by omega)
    have hbig := idle_streak got i 200000 c0 (fun j h1 h2 => h j h1 (by omega)) hc0
    have walk : ∀ k ≤ 200, runTurns asyncTurn 0 got (i + (200000 + k)) = some (c0 + k) := by
      intro k
      induction k with
      | zero => intro _; exact hc0
      | succ k ih =>
        intro hk
        have := (step (200000 + k) (by omega) _ (ih (by omega))).1
        rw [show i + (200000 + (k + 1)) = i + (200000 + k) + 1 by omega, this]
        rfl
    -- the turn at which the count reaches the next multiple of 100 above 200000
    have hlt : 99 - c0 % 100 + 100 < 200 := by omega
    have h1 := (step (200000 + (99 - c0 % 100)) (by omega) _ (walk _ (by omega))).2 (by omega)
    have h2 := (step (200000 + (99 - c0 % 100 + 100)) (by omega) _ (walk _ (by omega))).2 (by omega)
    omega

/-- C72: so the claim is false. -/
theorem C72_idle_false : ¬ C72_IdleStatement := by
  intro h
  have := h (fun _ => false) 200200
  have hp := C72_idle_panic (fun _ => false) 0 (fun _ _ _ => rfl)
  rw [Nat.zero_add] at hp
  rw [hp] at this
  simp at this

/-! ### the loop of the dynamic run -/

/-- Each counter counts the turns since its side last had something, or the thread anything to do. -/
theorem dynamic_count (inp : Nat → Turn) : ∀ (n : Nat) (c : Fails),
    runTurns dynamicTurn ⟨0, 0⟩ inp n = some c →
    c.top ≤ n ∧ c.alg ≤ n ∧
      (∀ j, n - c.top ≤ j → j < n → (inp j).waits = true ∧ (inp j).topFailed = true) ∧
      (∀ j, n - c.alg ≤ j → j < n → (inp j).waits = true ∧ (inp j).algFailed = true)
  | 0, c, h => by cases h; exact ⟨Nat.le_refl _, Nat.le_refl _, fun j _ h => by omega, fun j _ h => by omega⟩
  | n + 1, c, h => by
    simp only [runTurns] at h
    cases hp : runTurns dynamicTurn ⟨0, 0⟩ inp n with
    | none => rw [hp] at h; simp at h
    | some p =>
      rw [hp] at h
      simp only [Option.bind_some] at h
      obtain ⟨h1, h2, h3, h4⟩ := dynamic_count inp n p hp
      unfold dynamicTurn at h
      cases hw : (inp n).waits with
      | false =>
        rw [hw] at h
        simp at h
        subst h
        exact ⟨Nat.zero_le _, Nat.zero_le _, fun j h1 h2 => by simp at h1; omega,
          fun j h1 h2 => by simp at h1; omega⟩
      | true =>
        rw [hw] at h
        simp only [if_true] at h
        have hb : (c.top = 0 ∨ c.top = p.top + 1 ∧ (inp n).topFailed = true) ∧
            (c.alg = 0 ∨ c.alg = p.alg + 1 ∧ (inp n).algFailed = true) := by
          split at h
          · simp at h
          · rename_i top ht
            have htop : top = 0 ∨ top = p.top + 1 ∧ (inp n).topFailed = true := by
              split at ht
              · split at ht
                · cases ht; exact Or.inr ⟨rfl, by assumption⟩
                · simp at ht
              · cases ht; exact Or.inl rfl
            split at h
            · split at h
              · split at h
                · cases h; exact ⟨htop, Or.inr ⟨rfl, by assumption⟩⟩
                · simp at h
              · cases h; exact ⟨htop, Or.inr ⟨rfl, by assumption⟩⟩
            · cases h; exact ⟨htop, Or.inl rfl⟩
        refine ⟨by omega, by omega, fun j hj1 hj2 => ?_, fun j hj1 hj2 => ?_⟩
        · rcases hb.1 with e | ⟨e, e'⟩
          · omega
          · by_cases hj : j = n
            · subst hj; exact ⟨hw, e'⟩
            · exact h3 j (by omega) (by omega)
        · rcases hb.2 with e | ⟨e, e'⟩
          · omega
          · by_cases hj : j = n
            · subst hj; exact ⟨hw, e'⟩
            · exact h4 j (by omega) (by omega)

/-- The full claim for a thread of a dynamic run: it waits for as long as its input pauses. -/
def C72_DynamicStatement : Prop :=
  ∀ (inp : Nat → Turn) (n : Nat), (runTurns dynamicTurn ⟨0, 0⟩ inp n).isSome = true

/-- C72 (partial): a thread of a dynamic run is not ended by `BackOff` as long as there are no 2002
turns in a row in which it has nothing to do and finds nothing in the stream, nor 20011 in a row in
which it has nothing to do and finds no notifications. Missing: longer pauses, see `C72_dynamic_panic`. -/
theorem C72_dynamic_partial (inp : Nat → Turn) (n : Nat)
    (ht : ∀ i, i + 2002 ≤ n → ∃ j, i ≤ j ∧ j < i + 2002 ∧ ((inp j).waits = false ∨ (inp j).topFailed = false))
    (ha : ∀ i, i + 20011 ≤ n → ∃ j, i ≤ j ∧ j < i + 20011 ∧ ((inp j).waits = false ∨ (inp j).algFailed = false)) :
    (runTurns dynamicTurn ⟨0, 0⟩ inp n).isSome = true := by
  induction n with
  | zero => rfl
  | succ n ih =>
    have ih := ih (fun i hi => ht i (by omega)) (fun i hi => ha i (by omega))
    obtain ⟨c, hc⟩ := Option.isSome_iff_exists.1 ih
    obtain ⟨h1, h2, h3, h4⟩ := dynamic_count inp n c hc
    simp only [runTurns, hc, Option.bind_some]
    unfold dynamicTurn
    cases hw : (inp n).waits with
    | false => simp
    | true =>
      have htop : (inp n).topFailed = true → (backOff c.top).2 = true := by
        intro hf
        by_cases hb : c.top ≤ 2000
        · exact (backOff_ok _).2 hb
        · exfalso
          obtain ⟨j, j1, j2, j3⟩ := ht (n + 1 - 2002) (by omega)
          by_cases hj : j = n
          · rw [hj, hw, hf] at j3; simp at j3
          · obtain ⟨e1, e2⟩ := h3 j (by omega) (by omega)
            rw [e1, e2] at j3; simp at j3
      have halg : (inp n).algFailed = true → c.alg % 10 = 0 → (backOff (c.alg / 10)).2 = true := by
        intro hf hm
        by_cases hb : c.alg < 20010
        · exact (backOff_ok _).2 (by omega)
        · exfalso
          obtain ⟨j, j1, j2, j3⟩ := ha (n + 1 - 20011) (by omega)
          by_cases hj : j = n
          · rw [hj, hw, hf] at j3; simp at j3
          · obtain ⟨e1, e2⟩ := h4 j (by omega) (by omega)
            rw [e1, e2] at j3; simp at j3
      cases hf1 : (inp n).topFailed <;> cases hf2 : (inp n).algFailed <;> simp_all <;> split <;> simp_all

/-- A turn in which neither the stream nor the algorithm has anything for the thread. -/
def pause : Turn := ⟨true, true, true, true⟩

example : (runTurns dynamicTurn ⟨0, 0⟩ (fun k => if k % 2000 = 0 then ⟨true, false, true, true⟩ else pause)
    50000).isSome = true :=
  C72_dynamic_partial _ _ (fun i _ => ⟨2000 * ((i + 1999) / 2000), by omega, by omega, by simp⟩)
    (fun i _ => ⟨2000 * ((i + 1999) / 2000), by omega, by omega, by simp [Turn.waits]⟩)

/-- A long wait for notifications only, with the stream not being read every thousandth turn. -/
example : (runTurns dynamicTurn ⟨0, 0⟩ (fun k => if k % 1000 = 0 then ⟨false, false, true, true⟩ else pause)
    20000).isSome = true :=
  C72_dynamic_partial _ _ (fun i _ => ⟨1000 * ((i + 999) / 1000), by omega, by omega, by simp⟩)
    (fun i h => absurd h (by omega))

theorem pause_streak (inp : Nat → Turn) (i : Nat) :
    ∀ (m : Nat) (c : Fails), (∀ j, i ≤ j → j < i + m → inp j = pause) →
      runTurns dynamicTurn ⟨0, 0⟩ inp (i + m) = some c → m ≤ c.top ∧ (0 < m → c.top ≤ 2001)
  | 0, c, _, _ => ⟨Nat.zero_le _, fun h => by omega⟩
  | m + 1, c, hno, h => by
    rw [← Nat.add_assoc, run_succ] at h
    cases hp : runTurns dynamicTurn ⟨0, 0⟩ inp (i + m) with
    | none => rw [hp] at h; simp at h
    | some p =>
      have ih := (pause_streak inp i m p (fun j h1 h2 => hno j h1 (by omega)) hp).1
      rw [hp] at h
      simp only [Option.bind_some, hno (i + m) (by omega) (by omega)] at h
      by_cases hb : p.top ≤ 2000
      · have hb' := (backOff_ok _).2 hb
        simp only [dynamicTurn, pause, Turn.waits, hb', Bool.not_true, Bool.false_or, Bool.and_true,
          if_true] at h
        have : c.top = p.top + 1 := by
          split at h
          · split at h
            · cases h; rfl
            · simp at h
          · cases h; rfl
        omega
      · have hb' : (backOff p.top).2 = false := by
          rw [← Bool.not_eq_true, backOff_ok]; omega
        simp [dynamicTurn, pause, Turn.waits, hb'] at h

/-- C72: a pause of 2002 turns ends the process, whatever happened before: when the input stream
(a pipe, a growing file, a slow loader) has nothing new for about 200 seconds of sleep. -/
theorem C72_dynamic_panic (inp : Nat → Turn) (i : Nat)
    (h : ∀ j, i ≤ j → j < i + 2002 → inp j = pause) :
    runTurns dynamicTurn ⟨0, 0⟩ inp (i + 2002) = none := by
  cases hr : runTurns dynamicTurn ⟨0, 0⟩ inp (i + 2002) with
  | none => rfl
  | some c =>
    have := pause_streak inp i 2002 c h hr
    omega

/-- C72: so the claim is false. -/
theorem C72_dynamic_false : ¬ C72_DynamicStatement := by
  intro h
  have := h (fun _ => pause) 2002
  have hp := C72_dynamic_panic (fun _ => pause) 0 (fun _ _ _ => rfl)
  rw [Nat.zero_add] at hp
  rw [hp] at this
  simp at this

end Verif.Props.BackOff
