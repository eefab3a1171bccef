import Verif.Watch

/-!
# C39: the stopwatch counts running time only
-/

namespace Verif.Props.Watch
open Verif.Watch

/-- Is the watch running after a call? -/
def runningAfter (r : Bool) : Op → Bool
  | .start => true
  | .pause => false
  | .unPause => true
  | _ => r

/-- Specification: total length, up to `now`, of the intervals between consecutive calls during
which the watch was running; `last` is the time of the previous call. -/
def runTime (r : Bool) (last : Int) : List (Op × Int) → Int → Int
  | [], now => if r then now - last else 0
  | (o, t) :: os, now => (if r then t - last else 0) + runTime (runningAfter r o) t os now

/-- Specification: the calls are used properly: pause and unpause alternate, no second start. -/
def Proper (r : Bool) : List (Op × Int) → Prop
  | [] => True
  | (.start, _) :: _ => False
  | (.pause, _) :: os => r = true ∧ Proper false os
  | (.unPause, _) :: os => r = false ∧ Proper true os
  | (_, _) :: os => Proper r os

theorem elapsed_gen (os : List (Op × Int)) : ∀ (w : Watch) (r : Bool) (last base : Int),
    w.paused = (!r) → elapsed w last = base → Proper r os →
    ∃ w' rs, run w os = some (w', rs) ∧ w'.startTime = w.startTime ∧
      ∀ now, elapsed w' now = base + runTime r last os now := by
  induction os with
  | nil =>
    intro w r last base hp he _
    refine ⟨w, [], rfl, rfl, ?_⟩
    intro now
    cases r <;> simp [elapsed, hp, runTime] at he ⊢ <;> omega
  | cons p os ih =>
    obtain ⟨o, t⟩ := p
    intro w r last base hp he hprop
    have noop : ∀ v, Proper r os → step w t o = some (w, v) → runningAfter r o = r →
        ∃ w' rs, run w ((o, t) :: os) = some (w', rs) ∧ w'.startTime = w.startTime ∧
        ∀ now, elapsed w' now = base + runTime r last ((o, t) :: os) now := by
      intro v h1 h2 h3
      obtain ⟨w', rs, e1, e2, e3⟩ := ih w r t (base + if r then t - last else 0) hp (by
        cases r <;> simp [elapsed, hp] at he ⊢ <;> omega) h1
      refine ⟨w', v :: rs, by simp [run, h2, e1], e2, ?_⟩
      intro now; rw [e3, runTime, h3]; omega
    cases o with
    | start => exact absurd hprop (by simp [Proper])
    | elapsed => exact noop _ hprop rfl rfl
    | absoluteElapsed => exact noop _ hprop rfl rfl
    | pause =>
      obtain ⟨rfl, hprop⟩ := hprop
      obtain ⟨w', rs, e1, e2, e3⟩ := ih { w with pauseTime := t, paused := true } false t
        (base + (t - last)) rfl (by simp [elapsed, hp] at he ⊢; omega) hprop
      refine ⟨w', _, by simp only [run, step, pause, hp, Bool.not_true, Bool.false_eq_true,
        not_false_eq_true, if_true, e1, Option.map_some]; rfl, e2, ?_⟩
      intro now; rw [e3]; simp [runTime, runningAfter]; omega
    | unPause =>
      obtain ⟨rfl, hprop⟩ := hprop
      obtain ⟨w', rs, e1, e2, e3⟩ := ih
        { w with paused := false, adjustedTime := w.adjustedTime + (t - w.pauseTime) } true t base rfl
        (by simp [elapsed, hp] at he ⊢; omega) hprop
      refine ⟨w', _, by simp only [run, step, unPause, hp, Bool.not_false,
        if_true, e1, Option.map_some]; rfl, e2, ?_⟩
      intro now; rw [e3]; simp [runTime, runningAfter]

/-- C39: after `Start` at `t0` and any proper sequence of calls, nothing panics and `Elapsed`
at `now` is exactly the running time since the start; `AbsoluteElapsed` is the wall time. -/
theorem C39_elapsed (w : Watch) (hw : w.paused = false) (t0 : Int) (os : List (Op × Int))
    (h : Proper true os) :
    ∃ w1 w' rs, start w t0 = some w1 ∧ run w1 os = some (w', rs) ∧
      (∀ now, elapsed w' now = runTime true t0 os now) ∧
      (∀ now, absoluteElapsed w' now = now - t0) := by
  obtain ⟨w', rs, e1, e2, e3⟩ := elapsed_gen os { w with startTime := t0, adjustedTime := t0 } true t0 0
    (by simp [hw]) (by simp [elapsed, hw]) h
  refine ⟨_, w', rs, by simp only [start]; rw [if_neg (by simp [hw])], e1, ?_, ?_⟩
  · intro now; rw [e3, Int.zero_add]
  · intro now; rw [absoluteElapsed, e2]

/-- C39: the duration returned by `Pause` is the running time so far. -/
theorem C39_pause_returns (w : Watch) (hw : w.paused = false) (t0 : Int) (os : List (Op × Int))
    (t : Int) (h : Proper true (os ++ [(.pause, t)])) :
    ∃ w1 w' rs, start w t0 = some w1 ∧ run w1 os = some (w', rs) ∧
      ∃ w'', pause w' t = some (w'', runTime true t0 os t) := by
  have split : ∀ (os : List (Op × Int)) (r : Bool), Proper r (os ++ [(.pause, t)]) →
      Proper r os ∧ os.foldl (fun r o => runningAfter r o.1) r = true := by
    intro os
    induction os with
    | nil => intro r h; simp [Proper] at h; exact ⟨trivial, by simpa using h⟩
    | cons p os ih =>
      obtain ⟨o, t'⟩ := p
      intro r h
      cases o <;> simp only [List.cons_append, Proper] at h ⊢
      · obtain ⟨rfl, h⟩ := h; exact ⟨⟨rfl, (ih _ h).1⟩, (ih _ h).2⟩
      · obtain ⟨rfl, h⟩ := h; exact ⟨⟨rfl, (ih _ h).1⟩, (ih _ h).2⟩
      · exact ih _ h
      · exact ih _ h
  have paused : ∀ (os : List (Op × Int)) (w w' : Watch) (rs : List Int) (r : Bool), w.paused = (!r) →
      run w os = some (w', rs) → Proper r os →
      w'.paused = (!os.foldl (fun r o => runningAfter r o.1) r) := by
    intro os
    induction os with
    | nil => intro w w' rs r hp h _; simp [run] at h; rw [← h.1]; exact hp
    | cons p os ih =>
      obtain ⟨o, t'⟩ := p
      intro w w' rs r hp h hprop
      rw [run] at h
      cases hst : step w t' o with
      | none => simp [hst] at h
      | some q =>
        obtain ⟨w1, v⟩ := q
        rw [hst] at h
        simp only [Option.map_eq_some_iff] at h
        obtain ⟨p', e1, e2⟩ := h
        have hw1 : w1.paused = (!runningAfter r o) := by
          cases o <;> simp only [Proper] at hprop <;>
            simp only [step, pause, unPause, runningAfter] at hst ⊢
          · obtain ⟨rfl, _⟩ := hprop
            simp [hp] at hst; rw [← hst.1]; rfl
          · obtain ⟨rfl, _⟩ := hprop
            simp [hp] at hst; rw [← hst.1]; rfl
          · simp at hst; rw [← hst.1]; exact hp
          · simp at hst; rw [← hst.1]; exact hp
        have hprop' : Proper (runningAfter r o) os := by
          cases o <;> simp only [Proper] at hprop
          · exact hprop.2
          · exact hprop.2
          · exact hprop
          · exact hprop
        refine ih w1 w' p'.2 _ hw1 ?_ hprop'
        rw [e1]; cases e2; rfl
  obtain ⟨hos, hrun⟩ := split os true h
  obtain ⟨w1, w', rs, a1, a2, a3, a4⟩ := C39_elapsed w hw t0 os hos
  refine ⟨w1, w', rs, a1, a2, ?_⟩
  have hw1 : w1.paused = false := by
    simp only [start] at a1; split at a1
    · cases a1
    · cases a1; exact hw
  have hp := paused os w1 w' rs true (by simp [hw1]) a2 hos
  rw [hrun] at hp
  have := a3 t
  simp only [elapsed, hp, Bool.not_true, Bool.false_eq_true, if_false] at this
  exact ⟨{ w' with pauseTime := t, paused := true }, by simp [pause, hp, this]⟩

theorem runTime_bounds (os : List (Op × Int)) : ∀ (r : Bool) (last now : Int),
    List.Pairwise (· ≤ ·) (last :: os.map (·.2) ++ [now]) →
    0 ≤ runTime r last os now ∧ runTime r last os now ≤ now - last := by
  induction os with
  | nil =>
    intro r last now h
    simp at h
    cases r <;> simp [runTime] <;> omega
  | cons p os ih =>
    obtain ⟨o, t⟩ := p
    intro r last now h
    simp only [List.map_cons, List.cons_append, List.pairwise_cons] at h
    have h1 := h.1 t (by simp)
    have := ih (runningAfter r o) t now (by simpa [List.pairwise_cons] using h.2)
    rw [runTime]
    cases r <;> simp <;> omega

/-- C39: with clock readings that never go back, elapsed time lies between zero and wall time. -/
theorem C39_bounds (w : Watch) (hw : w.paused = false) (t0 : Int) (os : List (Op × Int))
    (h : Proper true os) (now : Int)
    (hmono : List.Pairwise (· ≤ ·) (t0 :: os.map (·.2) ++ [now])) :
    ∃ w1 w' rs, start w t0 = some w1 ∧ run w1 os = some (w', rs) ∧
      0 ≤ elapsed w' now ∧ elapsed w' now ≤ absoluteElapsed w' now := by
  obtain ⟨w1, w', rs, a1, a2, a3, a4⟩ := C39_elapsed w hw t0 os h
  have := runTime_bounds os true t0 now hmono
  exact ⟨w1, w', rs, a1, a2, by rw [a3]; exact this.1, by rw [a3, a4]; exact this.2⟩

/-- Running 10..13, paused until 20, running 20..25, paused: 8. -/
example : runTime true 10 [(.pause, 13), (.elapsed, 17), (.unPause, 20), (.pause, 25)] 99 = 8 ∧
    Proper true [(.pause, 13), (.elapsed, 17), (.unPause, 20), (.pause, 25)] := by
  constructor
  · decide
  · simp [Proper]

example : (run zero [(.start, 10), (.pause, 13), (.elapsed, 17), (.unPause, 20), (.elapsed, 25)]).map (·.2) =
    some [0, 3, 3, 0, 8] := by decide

end Verif.Props.Watch
