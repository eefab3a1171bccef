import Verif.Assume
import Verif.EnactWindow

/-!
# C102: options that need times are refused for edges without them

A type keeps times if what is put in can be read again. The check before a run tries one number; for the types of the library
this settles it, for others it does not. It is not made for a window, although the window needs it (`graph-options.go:43`).
-/

namespace Verif.Assume

variable {E : Type}

/-- Every timestamp can be stored. -/
def KeepsTs (T : Times E) : Prop := ∀ (t : UInt64) (e : E), T.getTs (T.setTs t e) = t
/-- Every end time can be stored. -/
def KeepsEnd (T : Times E) : Prop := ∀ (t : UInt64) (e : E), T.getEnd (T.setEnd t e) = t

/-- The times an option needs: timestamps if they are read, counted, or used by a window; end times for time ranges. -/
def Supports (T : Times E) (o : Opts) : Prop :=
  (o.logical = true ∨ o.tsPos ≠ 0 ∨ 0 < o.window → KeepsTs T) ∧ (o.timeRange = true → KeepsEnd T)

/-- The full statement: a run goes ahead exactly if the edges can store the times it needs. -/
def C102Statement : Prop := ∀ (E : Type) (T : Times E) (o : Opts), checkAssumptions T o = true ↔ Supports T o

/-- No run is refused whose edges can store what it needs, whatever the type. -/
theorem C102_not_refused (T : Times E) (o : Opts) (h : Supports T o) : checkAssumptions T o = true := by
  obtain ⟨h1, h2⟩ := h
  unfold KeepsTs at h1
  unfold KeepsEnd at h2
  unfold checkAssumptions
  cases hl : o.logical <;> cases hr : o.timeRange <;> by_cases hp : o.tsPos = 0 <;> simp_all

/-- The types of the library. -/
inductive Library : {E : Type} → Times E → Prop
  | stamp : Library withTimestamp
  | none : Library noTimestamp
  | weighted (W : Type) (w0 : W) : Library (timestampWeighted W w0)
  | range : Library timeRangeEdge

/-- For the types of the library without a window, or with one and times to go with it, the check is exact. Missing: types that store
only some times, and a window without times. -/
theorem C102_library_partial (T : Times E) (hT : Library T) (o : Opts) (hw : o.window = 0 ∨ o.logical = true ∨ o.tsPos ≠ 0) :
    checkAssumptions T o = true ↔ Supports T o := by
  refine ⟨fun h => ?_, C102_not_refused T o⟩
  have hw' : o.logical = true ∨ o.tsPos ≠ 0 ∨ 0 < o.window → o.logical = true ∨ o.tsPos ≠ 0 := by
    rintro (h | h | h)
    · exact .inl h
    · exact .inr h
    · rcases hw with hw | hw
      · rw [hw] at h; exact absurd h (by decide)
      · exact hw
  unfold checkAssumptions at h
  refine ⟨fun hn => ?_, fun hr => ?_⟩
  · have hn := hw' hn
    cases hT with
    | stamp => intro t e; rfl
    | weighted => intro t e; rfl
    | range => intro t e; rfl
    | none =>
      exfalso
      have hb : (o.logical || o.tsPos != 0) = true := by rcases hn with h | h <;> simp [h]
      simp [hb, noTimestamp] at h
  · cases hT with
    | range => intro t e; rfl
    | stamp => exfalso; simp [hr, withTimestamp] at h
    | weighted => exfalso; simp [hr, timestampWeighted] at h
    | none => exfalso; simp [hr, noTimestamp] at h

/-- Refused: a file with timestamps and edges without; time ranges and edges with one time. Accepted: the others. -/
example : checkAssumptions noTimestamp ⟨false, 1, false, 0⟩ = false ∧ checkAssumptions withTimestamp ⟨true, 0, true, 0⟩ = false ∧
    checkAssumptions timeRangeEdge ⟨false, 2, true, 86400⟩ = true ∧ checkAssumptions withTimestamp ⟨false, 1, false, 86400⟩ = true := by decide

/-- Edges with timestamps of 16 bits. -/
def short : Times UInt16 :=
  { zero := 0, getTs := UInt16.toUInt64, getEnd := fun _ => 0, setTs := fun t _ => t.toUInt16, setEnd := fun _ => id }

/-- They pass the check, and read 86400 back as 20864. -/
theorem C102_short_passes : checkAssumptions short ⟨false, 1, false, 0⟩ = true ∧ short.getTs (short.setTs 86400 0) = 20864 := by decide

/-- A window on edges without timestamps passes the check whatever its length, if the timestamp column is not given. -/
theorem C102_window_passes (w : UInt64) : checkAssumptions noTimestamp ⟨false, 0, false, w⟩ = true := rfl

theorem C102_statement_false : ¬ C102Statement := by
  intro h
  have := ((h Unit noTimestamp ⟨false, 0, false, 86400⟩).1 (C102_window_passes _)).1 (.inr (.inr (by decide))) 5 ()
  exact absurd this (by decide)

/-- What such a window does: in every batch every edge that was added is deleted again, whatever the length of the window, and
nothing is kept for later. -/
theorem C102_window_takes_all (o : Opts) (es : List Unit) (he : es ≠ []) :
    injectExpired noTimestamp o [] es = some (es, []) := by
  have hx : ∀ l : List Unit, expire noTimestamp o 0 l = (l, []) := by
    intro l
    induction l with
    | nil => rfl
    | cons e l ih =>
      have h1 : noTimestamp.getTs e = 0 := rfl
      have h2 : ∀ t, noTimestamp.setTs t e = e := fun _ => rfl
      simp [expire, ih, h1, h2]
  have hq : es.map (queued noTimestamp o) = es := by
    have : ∀ l : List Unit, l.map (queued noTimestamp o) = l := by intro l; induction l <;> simp_all
    exact this es
  unfold injectExpired
  cases hl : es.getLast? with
  | none => simp_all
  | some l =>
    have ht : ∀ e, noTimestamp.getTs e = 0 := fun _ => rfl
    simp [ht, hq, hx]

/-- The deletes come after the adds in the list of a vertex (`EnactTopologyEvents` 171-182, 243-392), so after the batch it has no edge
left, whatever edges were added. -/
theorem C102_window_empties {D : Type} (others : Nat → Bool) (w : UInt64) (es : List (Enact.Edge D)) (hc : ∀ e ∈ es, Enact.Clean e) (wn : Bool) (runs : Nat) (calls : List (Enact.Call D)) :
    (Enact.applyAll ⟨false, false, w⟩ others ⟨[], calls, wn, runs⟩
      (es.map (fun e => ⟨.add, e⟩) ++ es.map (fun e => ⟨.del, e⟩))).map (·.edges) = some [] := by
  have hadds : Enact.addsOf (es.map (fun e => (⟨.add, e⟩ : Enact.Change D)) ++ es.map (fun e => ⟨.del, e⟩)) = es := by
    have h1 : ∀ l : List (Enact.Edge D), (l.map (fun e => (⟨.add, e⟩ : Enact.Change D))).filter Enact.isAdd = l.map (fun e => ⟨.add, e⟩) := by
      intro l; induction l <;> simp_all [Enact.isAdd]
    have h2 : ∀ l : List (Enact.Edge D), (l.map (fun e => (⟨.del, e⟩ : Enact.Change D))).filter Enact.isAdd = [] := by
      intro l; induction l <;> simp_all [Enact.isAdd]
    simp only [Enact.addsOf, List.filter_append, h1, h2, List.append_nil, List.map_map]
    exact List.map_id es
  have hlast := Enact.heads_spec es [] (es.map (fun e => (⟨.del, e⟩ : Enact.Change D))) (by simp) (by simp)
  have key : ∀ (todo done : List (Enact.Edge D)), done ++ todo = es →
      Enact.Good true done (todo.map (fun e => ⟨.add, e⟩) ++ es.map (fun e => ⟨.del, e⟩)) ∧
      Enact.rule done (todo.map (fun e => ⟨.add, e⟩) ++ es.map (fun e => ⟨.del, e⟩)) = some [] := by
    intro todo
    induction todo with
    | nil => intro done h; simp only [List.append_nil] at h hlast; subst h; exact hlast
    | cons e todo ih =>
      intro done h
      simpa only [List.map_cons, List.cons_append, Enact.Good, Enact.rule] using ih (done ++ [e]) (by simpa using h)
  obtain ⟨k1, k2⟩ := key es [] rfl
  rw [Enact.applyAll_rule ⟨false, false, w⟩ rfl others _ _ _ (Nat.le_refl _) ⟨by rw [hadds]; simpa using hc, fun h => by cases h⟩ k1]
  exact k2

/-- With timestamps that nobody sets (all 0) a window deletes nothing, ever. -/
theorem C102_window_idle (o : Opts) (ho : o.timeRange = false) (hw : 0 < o.window) (n m : Nat) (hm : 0 < m) :
    injectExpired withTimestamp o (List.replicate n o.window) (List.replicate m 0) = some ([], List.replicate (n + m) o.window) := by
  obtain ⟨k, rfl⟩ : ∃ k, m = k + 1 := ⟨m - 1, by omega⟩
  have hq : queued withTimestamp o 0 = o.window := by simp [queued, ho, withTimestamp]
  have ha : (List.replicate n o.window ++ List.replicate (k + 1) o.window) = o.window :: List.replicate (n + k) o.window := by
    rw [List.replicate_append_replicate]; rfl
  unfold injectExpired
  rw [List.getLast?_replicate]
  simp only [Nat.succ_ne_zero, if_false, List.map_replicate, hq, ha]
  simp [expire, withTimestamp, hw, ← Nat.add_assoc, List.replicate_succ]

/-- With edges that store timestamps (and nothing else changes when they are replaced) the deletes put in a batch carry the
properties of the edges added first, as they were, up to the first one that is not over; the others are kept. -/
theorem C102_window_right (T : Times E) (hk : KeepsTs T) (hs : ∀ (t u : UInt64) (e : E), T.setTs t (T.setTs u e) = T.setTs t e)
    (hg : ∀ e, T.setTs (T.getTs e) e = e) (o : Opts) (ho : o.timeRange = false) (old es : List E) (l : E) (hl : es.getLast? = some l)
    (hle : ∀ e ∈ es, T.getTs e ≤ T.getTs l) :
    injectExpired T o (old.map (queued T o)) es =
      some ((old ++ es).takeWhile (fun e => decide (T.getTs e + o.window ≤ T.getTs l)),
        ((old ++ es).dropWhile (fun e => decide (T.getTs e + o.window ≤ T.getTs l))).map fun e => T.setTs (T.getTs e + o.window) e) := by
  have hq : ∀ e, queued T o e = T.setTs (T.getTs e + o.window) e := by intro e; simp [queued, ho]
  have hx : ∀ xs : List E, expire T o (T.getTs l) (xs.map (queued T o)) =
      (xs.takeWhile (fun e => decide (T.getTs e + o.window ≤ T.getTs l)),
        (xs.dropWhile (fun e => decide (T.getTs e + o.window ≤ T.getTs l))).map fun e => T.setTs (T.getTs e + o.window) e) := by
    intro xs
    induction xs with
    | nil => rfl
    | cons e xs ih =>
      by_cases h : T.getTs e + o.window ≤ T.getTs l
      · have h' : ¬ T.getTs e + o.window > T.getTs l := UInt64.not_lt.2 h
        have hsub : T.getTs e + o.window - o.window = T.getTs e := UInt64.add_sub_cancel _ _
        simp only [List.map_cons, expire, hq, hk _ _, if_neg h', hsub, hs, hg, List.takeWhile_cons, List.dropWhile_cons, h, decide_true, if_true]
        simp [ih]
      · have h' : T.getTs e + o.window > T.getTs l := UInt64.not_le.1 h
        simp [expire, hq, hk _ _, h', h]
  have hany : es.any (fun e => decide (T.getTs e > T.getTs l)) = false := by
    simp only [List.any_eq_false, decide_eq_true_eq]
    intro e he
    exact UInt64.not_lt.2 (hle e he)
  unfold injectExpired
  rw [hl]
  simp only [hany, Bool.false_eq_true, if_false]
  rw [← List.map_append, hx]

/-- `WithTimestamp` and `TimestampWeightedEdge` are such types. -/
example : (KeepsTs withTimestamp ∧ (∀ t u e, withTimestamp.setTs t (withTimestamp.setTs u e) = withTimestamp.setTs t e) ∧ ∀ e, withTimestamp.setTs (withTimestamp.getTs e) e = e) ∧
    (KeepsTs (timestampWeighted Nat 1) ∧ (∀ t u e, (timestampWeighted Nat 1).setTs t ((timestampWeighted Nat 1).setTs u e) = (timestampWeighted Nat 1).setTs t e) ∧
      ∀ e, (timestampWeighted Nat 1).setTs ((timestampWeighted Nat 1).getTs e) e = e) :=
  ⟨⟨fun _ _ => rfl, fun _ _ _ => rfl, fun _ => rfl⟩, fun _ _ => rfl, fun _ _ _ => rfl, fun _ => rfl⟩

example : injectExpired noTimestamp ⟨false, 0, false, 86400⟩ [] [(), (), ()] = some ([(), (), ()], []) ∧
    injectExpired withTimestamp ⟨false, 0, false, 86400⟩ [86400] [0, 0] = some ([], [86400, 86400, 86400]) ∧
    injectExpired withTimestamp ⟨false, 1, false, 10⟩ [15] [20, 30] = some ([5, 20], [40]) := by decide

/-- Three edges, two of them to the same vertex. -/
example : ∀ e ∈ [(⟨(0, 1), 0, 0, 0, ()⟩ : Enact.Edge Unit), ⟨(0, 2), 0, 0, 0, ()⟩, ⟨(0, 1), 1, 0, 0, ()⟩], Enact.Clean e := by
  simp [Enact.Clean]

end Verif.Assume
