import Verif.TempPathsInv
import Mathlib.Tactic.IntervalCases

/-!
# Temporal paths: the mailbox (C37) and the result (C61)

C37 is about one mailbox with any contents, C61 about whole runs: every graph, every order of edge additions and
endings, every number of threads and every schedule.
-/

namespace Verif.Props.TempPaths

open Verif Verif.Async Verif.TempPaths

/-! ## C37 -/

/-- The mailbox of a vertex with `n` known incoming edges after neighbours deposited windows at positions. -/
def deposited (n : Nat) (l : List (Nat × Path)) : Mail :=
  l.foldl (fun m d => (merge { newPath := d.2, scratch := [], pos := d.1 } 0 m).1) (baseMail n)

/-- Retrieving never aborts, whatever was deposited in whatever order. -/
def C37Statement : Prop := ∀ (n : Nat) (l : List (Nat × Path)) (p : VP), retrieve (deposited n l) p ≠ none

/-- It does abort: the windows [1, 2), [5, 6), [3, 4) at positions 0, 1, 2 form a heap which is not sorted. -/
theorem C37_false : ¬ C37Statement := by
  intro h
  exact h 0 [(0, ⟨1, 2, 1⟩), (1, ⟨5, 6, 1⟩), (2, ⟨3, 4, 1⟩)] newVP (by decide +kernel)

theorem apart_get (l : List Path) (hl : Apart l) : ∀ (i : Nat) (a b : Path), l[i]? = some a → l[i + 1]? = some b → a.stop ≤ b.start := by
  induction l with
  | nil => intro i a b h; simp at h
  | cons x l ih =>
    intro i a b ha hb
    cases l with
    | nil => simp at hb
    | cons y l =>
      cases i with
      | zero =>
        simp only [List.getElem?_cons_zero, Option.some.injEq] at ha
        simp only [List.getElem?_cons_succ, List.getElem?_cons_zero, Option.some.injEq] at hb
        rw [← ha, ← hb]; exact hl.1
      | succ i => exact ih hl.2 i a b (by simpa using ha) (by simpa using hb)

/-- Windows at later positions start later. Missing from the full statement: other orders. -/
theorem C37_partial (m : Mail) (p : VP)
    (hord : ∀ (i j : Nat) (x y : Path), i < j → m.scratch[i]? = some x → m.scratch[j]? = some y → x.start ≠ 2 ^ 64 - 1 → y.start ≠ 2 ^ 64 - 1 → x.start ≤ y.start) :
    ∃ p', retrieve m p = some p' ∧ p'.windows = p.windows ∧
      (¬ (m.newPath.start = 0 ∧ m.newPath.stop = 2 ^ 64 - 1) →
        -- the new windows are in order and do not overlap
        p'.next.Pairwise (fun a b => a.start ≤ b.start) ∧
        (∀ i a b, p'.next[i]? = some a → p'.next[i + 1]? = some b → a.stop ≤ b.start) ∧
        -- they cover exactly the times that were deposited
        (∀ t, (∃ w ∈ p'.next, w.start ≤ t ∧ t < w.stop) ↔ ∃ x ∈ m.scratch, x.start ≠ 2 ^ 64 - 1 ∧ x.start ≤ t ∧ t < x.stop) ∧
        -- also strictly after their starts
        (∀ t, (∃ w ∈ p'.next, w.start < t ∧ t < w.stop) ↔ ∃ x ∈ m.scratch, x.start ≠ 2 ^ 64 - 1 ∧ x.start < t ∧ t < x.stop) ∧
        -- a change is reported unless they are the old windows
        (p'.changed = false → p'.next.map (fun w => (w.start, w.stop)) = p.windows.map fun w => (w.start, w.stop))) := by
  have ht : Timed m.scratch := by
    unfold Timed
    rw [List.pairwise_iff_getElem]
    intro i j hi hj hij h1 h2
    exact hord i j _ _ hij (List.getElem?_eq_getElem hi) (List.getElem?_eq_getElem hj) h1 h2
  unfold retrieve
  by_cases hs : isSource m = true
  · rw [if_pos hs]
    refine ⟨_, rfl, rfl, ?_⟩
    intro h
    exact absurd (of_decide_eq_true hs) h
  · rw [if_neg hs]
    obtain ⟨r, hr, h1, h2, h3, h4⟩ := windowsOf_ok (old := p.windows) ht
    rw [hr]
    refine ⟨_, rfl, rfl, fun _ => ⟨h1, ?_, fun t => h3 0 t (by omega), fun t => h3 1 t (by omega), h4⟩⟩
    exact apart_get r.1 h2

/-- Three offers, two of which overlap, with a gap in the positions. -/
def box : Mail := deposited 0 [(0, ⟨1, 4, 1⟩), (3, ⟨9, 12, 1⟩), (1, ⟨3, 6, 2⟩)]

example : (∀ (i j : Nat) (x y : Path), i < j → box.scratch[i]? = some x → box.scratch[j]? = some y → x.start ≠ 2 ^ 64 - 1 → y.start ≠ 2 ^ 64 - 1 → x.start ≤ y.start) := by
  have : box.scratch = [⟨1, 4, 1⟩, ⟨3, 6, 2⟩, noPath, ⟨9, 12, 1⟩] := by decide +kernel
  rw [this]
  intro i j x y hij hx hy h1 h2
  have hj : j < 4 := (List.getElem?_eq_some_iff.1 hy).1
  interval_cases j <;> interval_cases i <;> (simp [noPath, INF] at hx hy; subst hx hy; simp_all)

example : (retrieve box newVP).map (fun p => (p.next, p.changed)) = some ([⟨1, 6, 2⟩, ⟨9, 12, 1⟩], true) := by decide +kernel

/-! ## C61 -/

/-- The edges added in a run, with their sources. -/
def added (xs : List TAct) : List (Nat × Edge Link) :=
  xs.flatMap fun x => match x with
    | .add _ v es => es.map fun e => (v, e)
    | _ => []

/-- What a stream in order of time gives: edges into a vertex have different positions, later ones start no
earlier; edges out of a vertex come in order of time. Times and positions are not the special values. -/
structure TimeOrdered (l : List (Nat × Edge Link)) : Prop where
  distinct : (l.map fun a => (a.2.dst, a.2.data.pos)).Nodup
  into : ∀ a ∈ l, ∀ b ∈ l, a.2.dst = b.2.dst → a.2.data.pos < b.2.data.pos → a.2.data.ts ≤ b.2.data.ts
  outOf : l.Pairwise fun a b => a.1 = b.1 → a.2.data.ts ≤ b.2.data.ts
  pos : ∀ a ∈ l, a.2.data.pos < 2 ^ 32 - 1
  ts : ∀ a ∈ l, a.2.data.ts < 2 ^ 64 - 1

/-- `v` can be reached at time `t`: it is the source, or there is an edge into it from a vertex that can be reached
when the edge starts, and `t` is after the start and before the end of the edge. -/
inductive Reach (edges : Nat → List (Edge Link)) (src : Nat) : Nat → Nat → Prop
  | source {t : Nat} : 0 < t → t < 2 ^ 64 - 1 → Reach edges src src t
  | along {u t : Nat} {e : Edge Link} : Reach edges src u e.data.ts → e ∈ edges u → e.data.ts < t → (e.data.te ≠ 0 → t < e.data.te) → (e.data.te = 0 → t < 2 ^ 64 - 1) → Reach edges src e.dst t

theorem keyed_of {l : List (Nat × Edge Link)} (h : TimeOrdered l) : Keyed (l.map sig) := by
  refine ⟨?_, ?_, ?_, ?_, ?_⟩
  · rw [List.map_map]; exact h.distinct
  · intro a ha b hb
    obtain ⟨a', ha', rfl⟩ := List.mem_map.1 ha
    obtain ⟨b', hb', rfl⟩ := List.mem_map.1 hb
    exact h.into a' ha' b' hb'
  · rw [List.pairwise_map]; exact h.outOf
  · intro a ha
    obtain ⟨a', ha', rfl⟩ := List.mem_map.1 ha
    exact h.pos a' ha'
  · intro a ha
    obtain ⟨a', ha', rfl⟩ := List.mem_map.1 ha
    exact h.ts a' ha'

theorem adds_eq (xs : List TAct) : (added xs).map sig = adds xs := by
  unfold added adds
  rw [List.map_flatMap]
  congr 1
  funext x
  cases x <;> simp [addsOf, sig, Function.comp_def]

variable {T : Nat} {own : Nat → Nat} {src : Nat} {L : List (Nat × Edge Link)} {slots : Nat → Nat} {xs : List TAct} {s : S}

theorem inv_of (hp : TimeOrdered (L ++ added xs)) (h : trun (cfg T own src) (begin L slots) xs = some s) : Inv (L.map sig ++ adds xs) (cfg T own src) src s := by
  have hk := keyed_of hp
  rw [List.map_append, adds_eq] at hk
  exact inv_run xs _ _ s hk (inv_begin hk.left _ src slots) h

theorem step_outside {c : Cfg Mail Unit} {s s' : S} {x : TAct} (h : tstep c s x = some s') (u : Nat) (hu : c.T ≤ u) : s'.task u = s.task u := by
  cases x with
  | init t v => exact step_task (x := .init t v) h u hu
  | recv t v i => exact step_task (x := .recv t v i) h u hu
  | add t v es => exact step_task (x := .add t v es) h u hu
  | go t => exact step_task (x := .go t) h u hu
  | stop t v ds =>
    simp only [tstep] at h
    split at h
    · next hf =>
      obtain ⟨ht, -, -⟩ := (free_iff _ s t v).1 hf
      rw [Option.map_eq_some_iff] at h
      obtain ⟨r, -, rfl⟩ := h
      exact upd_ne _ _ (by omega)
    · cases h

theorem run_outside {c : Cfg Mail Unit} : ∀ {xs : List TAct} {s s' : S}, trun c s xs = some s' → ∀ u, c.T ≤ u → s'.task u = s.task u
  | [], s, s', h, u, _ => by simp only [trun, Option.some.injEq] at h; rw [h]
  | x :: xs, s, s', h, u, hu => by
    simp only [trun] at h
    obtain ⟨s1, h1, h2⟩ := Option.bind_eq_some_iff.1 h
    rw [run_outside h2 u hu, step_outside h1 u hu]

/-- The result is right: when a run has come to rest, the times strictly inside the windows of a vertex are those
at which it can be reached in the final graph. -/
theorem C61_windows (hp : TimeOrdered (L ++ added xs)) (h : trun (cfg T own src) (begin L slots) xs = some s) (hq : Quiet (cfg T own src) s) (hsrc : s.inited src = true)
    (v t : Nat) (ht : t < 2 ^ 64 - 1) : (∃ w ∈ (s.prop v).windows, w.start < t ∧ t < w.stop) ↔ Reach s.edges src v t := by
  have hi := inv_of hp h
  have hfresh : ∀ v, Fresh s v := fun v => (hi.fresh v).resolve_left (seen_of h hq v)
  have hrest : ∀ u, ∀ e ∈ s.edges u, slot s e.dst e.data.pos = offered (s.prop u).windows e.data := by
    intro u
    apply hi.rest
    have : s.task ((cfg T own src).own u) = .idle := by
      by_cases e : (cfg T own src).own u < (cfg T own src).T
      · exact hq.1 _ e
      · rw [run_outside h _ (by omega)]; rfl
    rw [this]
    simp [about]
  have hs := (hfresh src).1 (hi.init hsrc)
  have hother : ∀ v, v ≠ src → (s.inbox v).newPath = noPath := by
    intro v hv
    rcases hi.box v with h' | ⟨-, h', -⟩
    · exact h'
    · exact absurd h' hv
  have hupto : ∀ (e : Link) (t : Nat), t < e.upto ↔ (e.te ≠ 0 → t < e.te) ∧ (e.te = 0 → t < 2 ^ 64 - 1) := by
    intro e t
    unfold Link.upto INF
    split <;> simp_all
  have hoff : ∀ (ws : List Path) (e : Link), (offered ws e).1 ≠ INF → InSome 1 ws e.ts ∧ offered ws e = (e.ts, e.upto) := by
    intro ws e h'
    unfold offered at *
    split at h'
    · next hin => rw [if_pos hin]; exact ⟨hin, rfl⟩
    · exact absurd rfl h'
  show InSome 1 (s.prop v).windows t ↔ _
  constructor
  · intro hw
    induction t using Nat.strong_induction_on generalizing v with
    | _ t ih =>
      by_cases hv : v = src
      · subst hv
        rw [hs] at hw
        obtain ⟨w, hw, h1, h2⟩ := hw
        simp only [List.mem_singleton] at hw
        subst hw
        exact .source h1 h2
      · obtain ⟨p, h1, h2⟩ := ((hfresh v).2 (hother v hv) 1 t (by omega)).1 hw
        rcases hi.scr v p with h' | ⟨u, h'⟩
        · rw [h'] at h1; exact absurd rfl h1
        · obtain ⟨e, he, e1, e2, e3⟩ := hi.all _ h'
          simp only at e1 e2 e3 he
          have h3 := hrest u e he
          rw [e1, e2] at h3
          rw [h3] at h1 h2
          obtain ⟨h4, h5⟩ := hoff _ _ h1
          rw [h5] at h2
          have h6 : e.data.ts < t := h2.1
          have h7 := (hupto _ _).1 h2.2
          rw [← e1]
          exact .along (ih _ h6 u (by omega) h4) he h6 h7.1 h7.2
  · intro hr
    induction hr with
    | source h1 h2 =>
      rw [hs]
      exact ⟨always, by simp, h1, h2⟩
    | @along u t e h1 he h2 h3 h4 ih =>
      have hts := (hi.edges u).ts e he
      by_cases hv : e.dst = src
      · rw [hv, hs]
        exact ⟨always, by simp, show 0 + 1 ≤ t by omega, ht⟩
      · rw [(hfresh e.dst).2 (hother _ hv) 1 t (by omega)]
        refine ⟨e.data.pos, ?_⟩
        have h5 : offered (s.prop u).windows e.data = (e.data.ts, e.data.upto) := by
          unfold offered
          rw [if_pos (ih (by omega))]
        rw [hrest u e he, h5]
        exact ⟨by show e.data.ts ≠ INF; omega, h2, (hupto _ _).2 ⟨h3, h4⟩⟩

/-- No callback aborts, and windows are always in order, one ending before the next starts. -/
theorem C61_no_panic (hp : TimeOrdered (L ++ added xs)) (h : trun (cfg T own src) (begin L slots) xs = some s) (v : Nat) :
    (s.prop v).panicked = false ∧ (s.prop v).windows.Pairwise (fun a b => a.start ≤ b.start) ∧
      ∀ i a b, (s.prop v).windows[i]? = some a → (s.prop v).windows[i + 1]? = some b → a.stop ≤ b.start :=
  ⟨(inv_of hp h).pan v, (inv_of hp h).ord v, apart_get _ ((inv_of hp h).apart v)⟩

/-- Before the source is known nothing is reachable. -/
theorem C61_before (hp : TimeOrdered (L ++ added xs)) (h : trun (cfg T own src) (begin L slots) xs = some s) (hsrc : s.inited src = false) (v : Nat) : (s.prop v).windows = [] :=
  ((inv_of hp h).dark hsrc v).1

/-- Two runs that end with the same graph end with the same reachable times. -/
theorem C61_schedule {T' : Nat} {own' slots' : Nat → Nat} {L' : List (Nat × Edge Link)} {xs' : List TAct} {s' : S}
    (hp : TimeOrdered (L ++ added xs)) (h : trun (cfg T own src) (begin L slots) xs = some s) (hq : Quiet (cfg T own src) s) (hsrc : s.inited src = true)
    (hp' : TimeOrdered (L' ++ added xs')) (h' : trun (cfg T' own' src) (begin L' slots') xs' = some s') (hq' : Quiet (cfg T' own' src) s') (hsrc' : s'.inited src = true)
    (he : ∀ u e, e ∈ s.edges u ↔ e ∈ s'.edges u) (v t : Nat) (ht : t < 2 ^ 64 - 1) :
    (∃ w ∈ (s.prop v).windows, w.start < t ∧ t < w.stop) ↔ ∃ w ∈ (s'.prop v).windows, w.start < t ∧ t < w.stop := by
  rw [C61_windows hp h hq hsrc v t ht, C61_windows hp' h' hq' hsrc' v t ht]
  have : ∀ {f g : Nat → List (Edge Link)}, (∀ u e, e ∈ f u → e ∈ g u) → Reach f src v t → Reach g src v t := by
    intro f g hfg hr
    induction hr with
    | source h1 h2 => exact .source h1 h2
    | along h1 he h2 h3 h4 ih => exact .along (ih (by omega)) (hfg _ _ he) h2 h3 h4
  exact ⟨this fun u e => (he u e).1, this fun u e => (he u e).2⟩

/-! ### Examples -/

/-- An edge to `d` at position `p` from time `ts`. -/
def edge (d p ts : Nat) : Edge Link := ⟨d, ⟨p, ts, 0⟩⟩

def gos (t n : Nat) : List TAct := List.replicate n (.go t)

/-- Two threads. Edges 0 → 1 from time 2 and 1 → 2 from time 4; then the first one ends at 3, so that 2 cannot be
reached any more; then another edge 0 → 1 from time 7. -/
def retract : List TAct :=
  [.init 0 0, .init 1 1] ++ gos 0 2 ++ [.add 0 0 [edge 1 0 2]] ++ gos 0 5 ++ [.add 1 1 [edge 2 0 4]] ++ gos 1 5 ++ [.recv 1 1 0] ++ gos 1 2 ++ [.recv 0 2 0] ++ gos 0 2 ++
  [.stop 0 0 [(0, 3)]] ++ gos 0 5 ++ [.recv 1 1 0] ++ gos 1 5 ++ [.recv 0 2 0] ++ gos 0 2 ++ [.add 0 0 [edge 1 1 7]] ++ gos 0 6 ++ [.recv 1 1 0] ++ gos 1 3

def twoThreads : Cfg Mail Unit := cfg 2 (· % 2) 0

def isIdle : Task VP Mail Unit Link → Bool
  | .idle => true
  | _ => false

/-- The run exists, ends at rest with the source initialised, and its edges are in order of time. -/
example : (trun twoThreads (begin [] fun _ => 0) retract).map (fun s => (isIdle (s.task 0) && isIdle (s.task 1), s.inited 0, (s.prop 1).windows, (s.prop 2).windows)) =
    some (true, true, [⟨2, 3, 1⟩, ⟨7, 18446744073709551615, 1⟩], []) := by decide +kernel

example : (trun twoThreads (begin [] fun _ => 0) retract).map (fun s => (s.pend 0, s.pend 1, s.pend 2)) = some ([], [], []) := by decide +kernel

theorem retract_ordered : TimeOrdered ([] ++ added retract) := by
  have : [] ++ added retract = [(0, edge 1 0 2), (1, edge 2 0 4), (0, edge 1 1 7)] := by decide +kernel
  rw [this]
  refine ⟨by decide, by decide, by decide, by decide, by decide⟩

/-- In the middle of it, vertex 2 can be reached. -/
example : (trun twoThreads (begin [] fun _ => 0) (retract.take 22)).map (fun s => (s.prop 2).windows) = some [⟨4, 18446744073709551615, 2⟩] := by decide +kernel

/-- With edges out of order of time the run panics: edges 0 → 1 from times 1, 5, 3 that end at once after. -/
def outOfOrder : List TAct :=
  [.init 0 0] ++ gos 0 2 ++ [.add 0 0 [edge 1 0 1, edge 1 1 5, edge 1 2 3]] ++ gos 0 9 ++ [.stop 0 0 [(0, 2), (1, 6), (2, 4)]] ++ gos 0 8 ++ [.recv 1 1 0, .go 1]

/-- Without the order of time the property fails: a run in which a callback aborts. -/
theorem C61_needs_order : ∃ (xs : List TAct) (s : S), trun twoThreads (begin [] fun _ => 0) xs = some s ∧ (s.prop 1).panicked = true := by
  have h : (trun twoThreads (begin [] fun _ => 0) outOfOrder).map (fun s => (s.prop 1).panicked) = some true := by decide +kernel
  rw [Option.map_eq_some_iff] at h
  obtain ⟨s, hs, hp⟩ := h
  exact ⟨_, s, hs, hp⟩

end Verif.Props.TempPaths
