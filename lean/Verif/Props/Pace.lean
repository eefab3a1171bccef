import Verif.Pace
import Mathlib.Tactic.Linarith
import Mathlib.Tactic.Ring
import Mathlib.Tactic.FieldSimp
import Mathlib.Tactic.Positivity
import Mathlib.Tactic.NormNum

/-!
# C92: a stream with a target rate is no faster than that

With `-dr r` (`TargetRate`), at most `r` events per second are passed on. The statement is false for rates below 100 events per
second: the remitter computes by how many seconds it is early and sleeps that many nanoseconds, or ten milliseconds if that is
more, so that it does a hundred events per second whatever rate below that is asked for. For rates from 100 on the statement holds.
-/

namespace Verif.Props.Pace
open Verif.Pace

/-- The stopwatch never shows more than the time that has gone by. -/
def Shows (rate : Rat) : St → List Turn → Prop
  | _, [] => True
  | s, t :: ts => t.shown ≤ s.now + t.gap ∧ t.shown' ≤ (turn rate s t).now ∧ Shows rate (turn rate s t) ts

/-- The stopwatch shows the time, the next event is there at once, and no sleep is longer than asked for. -/
def Prompt (rate : Rat) : St → List Turn → Prop
  | _, [] => True
  | s, t :: ts => t.gap = 0 ∧ t.late = 0 ∧ t.shown = s.now ∧ t.shown' = (turn rate s t).now ∧ Prompt rate (turn rate s t) ts

/-- Seconds. -/
def secs (ns : Nat) : Rat := (ns : Rat) / 1000000000

/-- When the event is passed on that comes after the turns `ts`; `t` is its turn. -/
def sent (rate : Rat) (ts : List Turn) (t : Turn) : Rat := secs (pass (run rate ts) t).now

/-- **C92.** Whatever the rate: when an event is passed on, no more events have been passed on before than the rate allows
for the time since the start. -/
def C92Statement : Prop :=
  ∀ (rate : Rat) (ts : List Turn) (t : Turn), 0 < rate → Shows rate start ts → (ts.length : Rat) ≤ rate * sent rate ts t

theorem secs_add (a b : Nat) : secs (a + b) = secs a + secs b := by
  simp only [secs]; push_cast; ring

theorem secs_mono {a b : Nat} (h : a ≤ b) : secs a ≤ secs b := by
  have : (a : Rat) ≤ b := by exact_mod_cast h
  simp only [secs]; linarith

theorem secs_nonneg (a : Nat) : 0 ≤ secs a := by simp only [secs]; positivity

theorem due_nonneg (rate : Rat) (e : Nat) (h : 0 ≤ rate) : 0 ≤ ⌊(e : Rat) / 1000000000 * rate⌋ :=
  Int.floor_nonneg.2 (by positivity)

theorem due_eq (rate : Rat) (e : Nat) (h : 0 ≤ rate) : ((due rate e : Nat) : Rat) = (⌊secs e * rate⌋ : Int) := by
  have := due_nonneg rate e h
  have h2 : ((due rate e : Nat) : Int) = ⌊secs e * rate⌋ := by
    simp only [due, secs]; omega
  exact_mod_cast congrArg (fun z : Int => (z : Rat)) h2

theorem due_le (rate : Rat) (e : Nat) (h : 0 ≤ rate) : ((due rate e : Nat) : Rat) ≤ rate * secs e := by
  rw [due_eq rate e h, mul_comm]; exact Int.floor_le _

theorem lt_due (rate : Rat) (e : Nat) (h : 0 ≤ rate) : rate * secs e < (due rate e : Nat) + 1 := by
  rw [due_eq rate e h, mul_comm]; exact Int.lt_floor_add_one _

theorem le_due (rate : Rat) (e n : Nat) (h : (n : Rat) ≤ rate * secs e) : n ≤ due rate e := by
  have h2 : (n : Int) ≤ ⌊secs e * rate⌋ := Int.le_floor.2 (by push_cast; linarith [mul_comm rate (secs e)])
  simp only [due, secs] at *; omega

theorem minSleep_eq : minSleep = 10000000 := rfl

/-- A sleep is at least ten milliseconds. -/
theorem nap_ge (rate : Rat) (n m : Nat) : 10000000 ≤ nap rate n m := by
  have h : (10000000 : Int) ≤ ⌊max' minSleep (((n - m : Nat) : Rat) / rate * 1)⌋ := by
    apply Int.le_floor.2
    rw [max', minSleep_eq]
    push_cast
    by_cases c : (10000000 : Rat) < ((n - m : Nat) : Rat) / rate * 1
    · rw [if_pos c]; exact c.le
    · rw [if_neg c]
  simp only [nap]; omega

/-- It is ten milliseconds unless the remitter is early by ten million seconds. -/
theorem nap_eq (rate : Rat) (n m : Nat) (hr : 0 < rate) (h : (n : Rat) ≤ m + rate * 10000000) : nap rate n m = 10000000 := by
  have h1 : ((n - m : Nat) : Rat) ≤ rate * 10000000 := by
    by_cases hm : m ≤ n
    · rw [Nat.cast_sub hm]; linarith
    · rw [Nat.sub_eq_zero_of_le (by omega)]; push_cast; positivity
  have h2 : ¬ minSleep < ((n - m : Nat) : Rat) / rate * 1 := by
    rw [mul_one, minSleep_eq, not_lt, div_le_iff₀ hr]; linarith
  have h3 : nap rate n m = (⌊minSleep⌋).toNat := by
    show (⌊max' minSleep (((n - m : Nat) : Rat) / rate * 1)⌋).toNat = _
    rw [max', if_neg h2]
  rw [h3]
  decide +kernel

theorem run_snoc (rate : Rat) (ts : List Turn) (t : Turn) : run rate (ts ++ [t]) = turn rate (run rate ts) t := by
  simp [run]

/-- The three ways of a turn. -/
theorem turn_sleep (rate : Rat) (s : St) (t : Turn) (hr : rate ≠ 0) (c1 : s.remitted + 1 > s.target)
    (c2 : s.remitted + 1 > due rate t.shown) : turn rate s t =
      ⟨s.remitted + 1, due rate t.shown', s.now + t.gap + nap rate (s.remitted + 1) (due rate t.shown) + t.late⟩ := by
  show pace rate ⟨s.remitted + 1, s.target, s.now + t.gap⟩ t = _
  rw [pace, if_pos ⟨hr, c1⟩]
  exact if_pos c2

theorem turn_read (rate : Rat) (s : St) (t : Turn) (hr : rate ≠ 0) (c1 : s.remitted + 1 > s.target)
    (c2 : ¬ s.remitted + 1 > due rate t.shown) : turn rate s t = ⟨s.remitted + 1, due rate t.shown, s.now + t.gap⟩ := by
  show pace rate ⟨s.remitted + 1, s.target, s.now + t.gap⟩ t = _
  rw [pace, if_pos ⟨hr, c1⟩]
  exact if_neg c2

theorem turn_free (rate : Rat) (s : St) (t : Turn) (c : ¬ (rate ≠ 0 ∧ s.remitted + 1 > s.target)) :
    turn rate s t = ⟨s.remitted + 1, s.target, s.now + t.gap⟩ := by
  show pace rate ⟨s.remitted + 1, s.target, s.now + t.gap⟩ t = _
  rw [pace, if_neg c]

/-- Every turn passes on one event. -/
theorem turn_remitted (rate : Rat) (s : St) (t : Turn) : (turn rate s t).remitted = s.remitted + 1 := by
  by_cases c : rate ≠ 0 ∧ s.remitted + 1 > s.target
  · by_cases c2 : s.remitted + 1 > due rate t.shown
    · rw [turn_sleep rate s t c.1 c.2 c2]
    · rw [turn_read rate s t c.1 c.2 c2]
  · rw [turn_free rate s t c]

theorem fold_remitted (rate : Rat) (ts : List Turn) : ∀ s, (ts.foldl (turn rate) s).remitted = s.remitted + ts.length := by
  induction ts with
  | nil => intro s; rfl
  | cons t ts ih => intro s; rw [List.foldl_cons, ih, turn_remitted, List.length_cons]; omega

theorem run_remitted (rate : Rat) (ts : List Turn) : (run rate ts).remitted = ts.length := by
  rw [run, fold_remitted]; simp [start]

/-- What is kept between turns: the events passed on are within the larger of the rate and 100 per second, and the target is
within the rate. -/
structure Kept (rate : Rat) (s : St) : Prop where
  count : (s.remitted : Rat) ≤ max rate 100 * secs s.now
  target : (s.target : Rat) ≤ rate * secs s.now

theorem kept_start (rate : Rat) : Kept rate start := by
  constructor <;> simp [start, secs]

theorem kept_turn (rate : Rat) (s : St) (t : Turn) (hr : 0 < rate) (h : Kept rate s) (h1 : t.shown ≤ s.now + t.gap)
    (h2 : t.shown' ≤ (turn rate s t).now) : Kept rate (turn rate s t) := by
  have hm1 : rate ≤ max rate 100 := le_max_left _ _
  have hm2 : 100 ≤ max rate 100 := le_max_right _ _
  have hgap : secs s.now ≤ secs (s.now + t.gap) := secs_mono (Nat.le_add_right _ _)
  have hw := secs_nonneg (s.now + t.gap)
  have hmw : ∀ w : Nat, rate * secs w ≤ max rate 100 * secs w := fun w => mul_le_mul_of_nonneg_right hm1 (secs_nonneg w)
  have hd1 := due_le rate t.shown hr.le
  have hs1 : rate * secs t.shown ≤ rate * secs (s.now + t.gap) := mul_le_mul_of_nonneg_left (secs_mono h1) hr.le
  by_cases c1 : s.remitted + 1 > s.target
  · by_cases c2 : s.remitted + 1 > due rate t.shown
    · have e := turn_sleep rate s t hr.ne' c1 c2
      rw [e] at h2 ⊢
      dsimp only at h2
      refine ⟨?_, ?_⟩
      · dsimp only
        have hn := nap_ge rate (s.remitted + 1) (due rate t.shown)
        have h3 : secs (s.now + 10000000) ≤ secs (s.now + t.gap + nap rate (s.remitted + 1) (due rate t.shown) + t.late) :=
          secs_mono (by omega)
        have h4 : secs (s.now + 10000000) = secs s.now + 1 / 100 := by rw [secs_add]; norm_num [secs]
        have h5 := mul_le_mul_of_nonneg_left h3 (by linarith : (0 : Rat) ≤ max rate 100)
        rw [h4] at h5
        have := h.count
        push_cast
        linarith
      · exact (due_le rate t.shown' hr.le).trans (mul_le_mul_of_nonneg_left (secs_mono h2) hr.le)
    · have e := turn_read rate s t hr.ne' c1 c2
      rw [e]
      refine ⟨?_, hd1.trans hs1⟩
      have : ((s.remitted + 1 : Nat) : Rat) ≤ (due rate t.shown : Nat) := by exact_mod_cast Nat.le_of_not_gt c2
      exact this.trans (hd1.trans (hs1.trans (hmw _)))
  · have e := turn_free rate s t fun h => c1 h.2
    rw [e]
    have h3 : rate * secs s.now ≤ rate * secs (s.now + t.gap) := mul_le_mul_of_nonneg_left hgap hr.le
    refine ⟨?_, h.target.trans h3⟩
    have : ((s.remitted + 1 : Nat) : Rat) ≤ (s.target : Nat) := by exact_mod_cast Nat.le_of_not_gt c1
    exact this.trans (h.target.trans (h3.trans (hmw _)))

theorem kept_fold (rate : Rat) (hr : 0 < rate) (ts : List Turn) :
    ∀ s, Kept rate s → Shows rate s ts → Kept rate (ts.foldl (turn rate) s) := by
  induction ts with
  | nil => intro s h _; exact h
  | cons t ts ih => intro s h hs; exact ih _ (kept_turn rate s t hr h hs.1 hs.2.1) hs.2.2

/-- **C92, what holds.** The rate is kept, except that a hundred events per second are always possible. -/
theorem C92_rate_partial (rate : Rat) (ts : List Turn) (t : Turn) (hr : 0 < rate) (hs : Shows rate start ts) :
    (ts.length : Rat) ≤ max rate 100 * sent rate ts t := by
  have h := (kept_fold rate hr ts start (kept_start rate) hs).count
  have e := run_remitted rate ts
  rw [← e]
  refine h.trans (mul_le_mul_of_nonneg_left (secs_mono (Nat.le_add_right _ _)) ?_)
  exact (by norm_num : (0 : Rat) ≤ 100).trans (le_max_right _ _)

/-- From 100 events per second on the statement holds. -/
theorem C92_high_rates (rate : Rat) (ts : List Turn) (t : Turn) (hr : 100 ≤ rate) (hs : Shows rate start ts) :
    (ts.length : Rat) ≤ rate * sent rate ts t := by
  have h := C92_rate_partial rate ts t (by linarith) hs
  rwa [max_eq_left hr] at h

/-- Without a rate nothing is held back. -/
theorem C92_unbounded (ts : List Turn) : ∀ s, (ts.foldl (turn 0) s).now = s.now + (ts.map (·.gap)).sum := by
  induction ts with
  | nil => intro s; rfl
  | cons t ts ih =>
    intro s
    rw [List.foldl_cons, ih, turn_free 0 s t fun h => h.1 rfl, List.map_cons, List.sum_cons, Nat.add_assoc]

/-- With a rate nothing is held back that the rate allows: if it allows for the event, no time is lost on it. -/
theorem C92_no_needless_sleep (rate : Rat) (s : St) (t : Turn) (h : (s.remitted : Rat) + 1 ≤ rate * secs t.shown) :
    (turn rate s t).now = s.now + t.gap := by
  have h2 : s.remitted + 1 ≤ due rate t.shown := le_due rate _ _ (by push_cast; exact h)
  by_cases c : rate ≠ 0 ∧ s.remitted + 1 > s.target
  · rw [turn_read rate s t c.1 c.2 (by omega)]
  · rw [turn_free rate s t c]

/-- What is kept in a run without delays, from 100 events per second on. -/
theorem keeps_turn (rate : Rat) (s : St) (t : Turn) (hr : 100 ≤ rate) (hk : Kept rate s)
    (h : rate * secs s.now ≤ s.remitted + rate / 100) (g : t.gap = 0) (l : t.late = 0) (e1 : t.shown = s.now) :
    rate * secs (turn rate s t).now ≤ (turn rate s t).remitted + rate / 100 := by
  have hr0 : 0 < rate := by linarith
  rw [turn_remitted]
  push_cast
  by_cases c1 : s.remitted + 1 > s.target
  · by_cases c2 : s.remitted + 1 > due rate t.shown
    · have e : (turn rate s t).now = s.now + nap rate (s.remitted + 1) (due rate s.now) := by
        rw [turn_sleep rate s t hr0.ne' c1 c2, g, l, e1]; simp only [Nat.add_zero]
      have hk1 := hk.count
      rw [max_eq_left hr] at hk1
      have hd := lt_due rate s.now hr0.le
      have hn : nap rate (s.remitted + 1) (due rate s.now) = 10000000 := by
        apply nap_eq _ _ _ hr0
        push_cast
        linarith
      have h4 : secs (s.now + 10000000) = secs s.now + 1 / 100 := by rw [secs_add]; norm_num [secs]
      rw [e, hn, h4]
      rw [e1] at c2
      have c3 : ((due rate s.now : Nat) : Rat) + 1 ≤ s.remitted + 1 := by exact_mod_cast c2
      linarith
    · have e : (turn rate s t).now = s.now := by
        rw [turn_read rate s t hr0.ne' c1 c2, g]; rfl
      rw [e]; linarith
  · have e : (turn rate s t).now = s.now := by
      rw [turn_free rate s t fun h => c1 h.2, g]; rfl
    rw [e]; linarith

theorem prompt_shows (rate : Rat) (ts : List Turn) : ∀ s, Prompt rate s ts → Shows rate s ts := by
  induction ts with
  | nil => intro s _; trivial
  | cons t ts ih =>
    intro s h
    obtain ⟨g, _, e1, e2, h'⟩ := h
    exact ⟨by omega, by omega, ih _ h'⟩

/-- From 100 events per second on, a run without delays never falls behind the rate by more than what the rate allows in ten
milliseconds. -/
theorem C92_keeps_up (rate : Rat) (ts : List Turn) (hr : 100 ≤ rate) (hp : Prompt rate start ts) :
    rate * secs (run rate ts).now ≤ ts.length + rate / 100 := by
  have key : ∀ (ts : List Turn) s, Kept rate s → rate * secs s.now ≤ s.remitted + rate / 100 → Prompt rate s ts →
      rate * secs (ts.foldl (turn rate) s).now ≤ (ts.foldl (turn rate) s).remitted + rate / 100 := by
    intro ts
    induction ts with
    | nil => intro s _ h _; exact h
    | cons t ts ih =>
      intro s hk h hp
      have hs := prompt_shows rate _ _ hp
      obtain ⟨g, l, e1, _, h'⟩ := hp
      exact ih _ (kept_turn rate s t (by linarith) hk hs.1 hs.2.1) (keeps_turn rate s t hr hk h g l e1) h'
  have h := key ts start (kept_start rate) (by simp [start, secs]; linarith) hp
  have e := run_remitted rate ts
  rw [run] at e
  rw [e] at h
  exact h

/-- **C92, what goes wrong.** Below 100 events per second, a run without delays takes ten milliseconds for each event, whatever
the rate (for the first `rate * 10 ^ 7` events). -/
theorem C92_low_rates (rate : Rat) (ts : List Turn) (hr : 0 < rate) (hr' : rate < 100) (hp : Prompt rate start ts)
    (hn : (ts.length : Rat) ≤ rate * 10000000) : secs (run rate ts).now = ts.length / 100 := by
  have key : ∀ (ts : List Turn) s, (s.target : Rat) ≤ rate * secs s.now → secs s.now = s.remitted / 100 →
      ((s.remitted + ts.length : Nat) : Rat) ≤ rate * 10000000 → Prompt rate s ts →
      secs (ts.foldl (turn rate) s).now = (ts.foldl (turn rate) s).remitted / 100 := by
    intro ts
    induction ts with
    | nil => intro s _ h _ _; exact h
    | cons t ts ih =>
      intro s ht hw hn hp
      obtain ⟨g, l, e1, e2, h'⟩ := hp
      have hlt : rate * secs s.now < s.remitted + 1 := by
        rw [hw]
        have : (0 : Rat) ≤ s.remitted := by positivity
        nlinarith
      have c1 : s.remitted + 1 > s.target := by
        have : (s.target : Rat) < ((s.remitted + 1 : Nat) : Rat) := by push_cast; linarith
        exact_mod_cast this
      have c2 : s.remitted + 1 > due rate s.now := by
        have : ((due rate s.now : Nat) : Rat) < ((s.remitted + 1 : Nat) : Rat) := by
          push_cast; linarith [due_le rate s.now hr.le]
        exact_mod_cast this
      have hnap : nap rate (s.remitted + 1) (due rate s.now) = 10000000 := by
        apply nap_eq _ _ _ hr
        have h0 : (0 : Rat) ≤ (due rate s.now : Nat) := by positivity
        have h1 : ((s.remitted + 1 : Nat) : Rat) ≤ ((s.remitted + (t :: ts).length : Nat) : Rat) := by
          have : s.remitted + 1 ≤ s.remitted + (t :: ts).length := by simp
          exact_mod_cast this
        linarith
      obtain ⟨d, hd, hd'⟩ : ∃ d, nap rate (s.remitted + 1) (due rate s.now) = d ∧ secs d = 1 / 100 :=
        ⟨_, rfl, by rw [hnap]; norm_num [secs]⟩
      have e : turn rate s t = ⟨s.remitted + 1, due rate t.shown', s.now + d⟩ := by
        rw [turn_sleep rate s t hr.ne' c1 (by rw [e1]; exact c2), g, l, e1, hd]; simp only [Nat.add_zero]
      rw [List.foldl_cons]
      refine ih _ ?_ ?_ ?_ h'
      · have h1 := due_le rate t.shown' hr.le
        rw [e] at e2 ⊢
        dsimp only at e2 ⊢
        rwa [← e2]
      · rw [e]
        dsimp only
        rw [secs_add, hw, hd']; push_cast; ring
      · rw [turn_remitted]
        have : s.remitted + 1 + ts.length = s.remitted + (t :: ts).length := by simp; omega
        rw [this]; exact hn
  have h := key ts start (by simp [start, secs]) (by simp [start, secs]) (by simpa [start] using hn) hp
  have e := run_remitted rate ts
  rw [run] at e
  rw [e] at h
  exact h

/-- A run without delays of `n` events. -/
def prompt (rate : Rat) : Nat → St → List Turn
  | 0, _ => []
  | n + 1, s =>
    let w := (turn rate s ⟨0, s.now, 0, 0⟩).now
    let t : Turn := ⟨0, s.now, 0, w⟩
    t :: prompt rate n (turn rate s t)

theorem prompt_length (rate : Rat) : ∀ n s, (prompt rate n s).length = n := by
  intro n
  induction n with
  | zero => intro s; rfl
  | succ n ih => intro s; simp [prompt, ih]

/-- When the turn is over does not depend on what the stopwatch shows after the sleep. -/
theorem turn_now (rate : Rat) (s : St) (g e l a b : Nat) : (turn rate s ⟨g, e, l, a⟩).now = (turn rate s ⟨g, e, l, b⟩).now := by
  by_cases c : rate ≠ 0 ∧ s.remitted + 1 > s.target
  · by_cases c2 : s.remitted + 1 > due rate e
    · rw [turn_sleep rate s _ c.1 c.2 c2, turn_sleep rate s _ c.1 c.2 c2]
    · rw [turn_read rate s _ c.1 c.2 c2, turn_read rate s _ c.1 c.2 c2]
  · rw [turn_free rate s _ c, turn_free rate s _ c]

theorem prompt_prompt (rate : Rat) : ∀ n s, Prompt rate s (prompt rate n s) := by
  intro n
  induction n with
  | zero => intro s; trivial
  | succ n ih => intro s; exact ⟨rfl, rfl, rfl, turn_now rate s _ _ _ _ _, ih _⟩

/-- Every rate below 100 (and above one event in ten million seconds or so) is exceeded: of some run without delays the rate asked
for allows for fewer events than have been passed on. -/
theorem C92_exceeded (rate : Rat) (n : Nat) (hr : 0 < rate) (hr' : rate < 100) (hn : (n : Rat) ≤ rate * 10000000) (h0 : 0 < n) :
    ∃ ts t, Shows rate start ts ∧ ts.length = n ∧ sent rate ts t = n / 100 ∧ rate * sent rate ts t < n := by
  refine ⟨prompt rate n start, ⟨0, 0, 0, 0⟩, prompt_shows _ _ _ (prompt_prompt _ _ _), prompt_length _ _ _, ?_⟩
  have h := C92_low_rates rate (prompt rate n start) hr hr' (prompt_prompt _ _ _) (by rw [prompt_length]; exact hn)
  rw [prompt_length] at h
  have e : sent rate (prompt rate n start) ⟨0, 0, 0, 0⟩ = n / 100 := by
    simp only [sent, pass, Nat.add_zero]; exact h
  refine ⟨e, ?_⟩
  rw [e]
  have : (0 : Rat) < n := by exact_mod_cast h0
  nlinarith

/-- **C92 is false**: ten events per second are asked for; in the first second a hundred are passed on. -/
theorem C92_statement_false : ¬ C92Statement := by
  intro h
  obtain ⟨ts, t, hs, hl, _, h2⟩ := C92_exceeded 10 100 (by norm_num) (by norm_num) (by norm_num) (by norm_num)
  have h3 := h 10 ts t (by norm_num) hs
  rw [hl] at h3
  push_cast at h2 h3
  linarith

/-- The three ways of a turn: an event at once (sleep of 10 ms), one after 50 ms (no sleep, and none for the four events allowed
since), at a rate of 100; the stopwatch lags behind by a microsecond. -/
def turns : List Turn := [⟨0, 0, 5, 9999000⟩, ⟨50000000, 59999000, 0, 0⟩, ⟨0, 0, 0, 0⟩, ⟨0, 0, 0, 0⟩, ⟨0, 0, 0, 0⟩, ⟨0, 60000000, 0, 60000000⟩]

example : Shows 100 start turns ∧ (run 100 turns).now = 60000005 ∧ (run 100 turns).remitted = 6 ∧ (run 100 turns).target = 6 := by
  refine ⟨?_, ?_, ?_, ?_⟩
  · simp only [turns, Shows]; decide +kernel
  all_goals decide +kernel

example : (turns.length : Rat) ≤ 100 * sent 100 turns ⟨0, 0, 0, 0⟩ :=
  C92_high_rates 100 turns ⟨0, 0, 0, 0⟩ (by norm_num) (by simp only [turns, Shows]; decide +kernel)

example : (run 10 (prompt 10 5 start)).now = 50000000 ∧ (run 1000 (prompt 1000 25 start)).now = 30000000 := by decide +kernel

end Verif.Props.Pace
