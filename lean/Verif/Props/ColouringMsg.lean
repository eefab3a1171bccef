import Verif.ColouringMsgConv
import Verif.ColouringMsgWait
import Verif.Props.ColouringWait

/-!
# Message-passing colouring (C70)

For every graph that is loaded before the run, every number of threads and every schedule.
-/

namespace Verif.Props.ColouringMsg

open Verif Verif.ColouringMsg
open Verif.Props.ColouringWait (Mirrored Sequential Earlier)

/-- A loaded undirected graph: the edges into a vertex have the positions `0, 1, …`; every edge comes with its reverse;
no self loops; the vertices are `0 … n - 1`, each owned by a thread. -/
structure Loaded (c : Cfg) : Prop where
  distinct : (c.es.map Prod.snd).Nodup
  dense : ∀ a ∈ c.es, a.2.2 < c.es.countP fun b => decide (b.2.1 = a.2.1)
  mirrored : Mirrored c.es
  small : c.es.length < 2 ^ 32 - 2
  loopless : ∀ a ∈ c.es, a.1 ≠ a.2.1
  vertices : ∀ a ∈ c.es, a.1 < c.n ∧ a.2.1 < c.n
  owned : ∀ v, v < c.n → c.own v < c.T

/-- A vertex without colour. -/
def noColour : Nat := 2 ^ 32 - 1

/-- No thread can do anything. -/
def Stuck (c : Cfg) (s : St) : Prop := ∀ x, step c s x = none

theorem good {c : Cfg} (h : Loaded c) : Good c := by
  refine ⟨h.distinct, h.dense, fun v => lt_of_le_of_lt List.countP_le_length h.small, fun v => ?_, h.loopless, h.vertices, h.owned⟩
  have := (h.mirrored.countP_eq fun x => decide (x.1 = v))
  rw [List.countP_map, List.countP_map] at this
  unfold links
  rw [List.length_map, ← List.countP_eq_length_filter]
  exact this

theorem rev_of {c : Cfg} (h : Loaded c) : ∀ a ∈ c.es, ∃ q, (a.2.1, a.1, q) ∈ c.es := by
  intro a ha
  have := h.mirrored.mem_iff.1 (List.mem_map.2 ⟨a, ha, rfl⟩)
  obtain ⟨b, hb, e⟩ := List.mem_map.1 this
  simp only [Prod.mk.injEq] at e
  refine ⟨b.2.2, ?_⟩
  rw [← e.1, ← e.2]
  exact hb

theorem inv_of {c : Cfg} (h : Loaded c) {xs : List Act} {s : St} (hr : run c (start c) xs = some s) : Inv c s := inv_run (good h) xs _ s (inv_start (good h)) hr

/-! ## The theorems -/

/-- **C70.** No run panics. -/
theorem C70_safe (c : Cfg) (h : Loaded c) (xs : List Act) (s : St) (hr : run c (start c) xs = some s) : s.crashed = false := (inv_of h hr).ok

/-- **C70.** One number bounds the steps of every run, whatever the threads do. -/
theorem C70_bound (c : Cfg) (h : Loaded c) : ∃ B, ∀ xs s, run c (start c) xs = some s → xs.length ≤ B :=
  ⟨stepsLeft c (start c), fun xs s hr => left_run (good h) xs _ s (inv_start (good h)) hr⟩

/-- **C70.** A run that cannot go on has nothing outstanding. -/
theorem C70_rest (c : Cfg) (h : Loaded c) (xs : List Act) (s : St) (hr : run c (start c) xs = some s) (hst : Stuck c s) : Quiet c s := by
  have hi := inv_of h hr
  have hidle : ∀ t, t < c.T → s.task t = .idle := by
    intro t ht
    have := hst (.go t)
    simp only [step] at this
    rw [if_pos ⟨hi.ok, ht⟩] at this
    cases hk : s.task t with
    | idle => rfl
    | visit v n left =>
      rw [hk] at this
      simp only [goStep] at this
      split at this <;> cases this
    | run v l =>
      rw [hk] at this
      cases l <;> cases this
    | put v w n l =>
      rw [hk] at this
      cases this
  refine ⟨hidle, fun v => ?_⟩
  cases hq : s.queue v with
  | nil => rfl
  | cons n q =>
    have hv := (hi.legit v n (by rw [hq]; exact List.mem_cons_self)).1
    have := hst (.recv (c.own v) v)
    simp only [step] at this
    rw [if_pos ⟨hi.ok, h.owned v hv, trivial, hidle _ (h.owned v hv)⟩, hq] at this
    cases this

/-- **C70.** Once nothing is outstanding, without wait counts, every vertex has a colour, at most its degree, and
neighbours have different ones. -/
theorem C70_proper (c : Cfg) (h : Loaded c) (hw : c.wait = false) (xs : List Act) (s : St) (hr : run c (start c) xs = some s) (hq : Quiet c s) :
    (∀ v, v < c.n → (s.vp v).colour ≠ noColour ∧ (s.vp v).colour ≤ c.es.countP fun b => decide (b.2.1 = v)) ∧ ∀ a ∈ c.es, (s.vp a.1).colour ≠ (s.vp a.2.1).colour := by
  have hi := inv_of h hr
  have hc : ∀ v, v < c.n → (s.vp v).colour ≠ EMPTY := fun v hv he => by
    have := (quiet_coloured (good h) hi hq hv he).1
    rw [hw] at this; cases this
  refine ⟨fun v hv => ⟨hc v hv, (hi.col v).resolve_left (hc v hv)⟩, fun a ha => ?_⟩
  exact quiet_proper (good h) hi hq ha (rev_of h a ha) (hc _ (h.vertices a ha).1) (hc _ (h.vertices a ha).2)

/-- **C70.** With or without wait counts: once nothing is outstanding, neighbours that have colours have different ones. -/
theorem C70_conflict (c : Cfg) (h : Loaded c) (xs : List Act) (s : St) (hr : run c (start c) xs = some s) (hq : Quiet c s) (a : Nat × Nat × Nat) (ha : a ∈ c.es)
    (h1 : (s.vp a.1).colour ≠ noColour) (h2 : (s.vp a.2.1).colour ≠ noColour) : (s.vp a.1).colour ≠ (s.vp a.2.1).colour :=
  quiet_proper (good h) (inv_of h hr) hq ha (rev_of h a ha) h1 h2

/-- C70 with wait counts, in full. -/
def C70WaitStatement : Prop :=
  ∀ (c : Cfg), Loaded c → c.wait = true → ∀ (col : Nat → Nat), Sequential c.es col → ∀ (xs : List Act) (s : St), run c (start c) xs = some s → Quiet c s → ∀ v, v < c.n → (s.vp v).colour = col v

theorem seq_of {c : Cfg} {col : Nat → Nat} (h : Sequential c.es col) : Seq c col := by
  intro v
  refine ⟨fun a ha hav hp => (h v).1 a.1 ⟨⟨a.2.2, by rw [← hav]; exact ha⟩, hp⟩, fun k hk => ?_⟩
  by_contra hn
  have := (h v).2 (show k ∈ {k | ∀ u, Earlier c.es u v → col u ≠ k} from fun u hu he => by
    obtain ⟨⟨p, hp⟩, hpr⟩ := hu
    exact hn ⟨_, hp, rfl, hpr, he⟩)
  omega

/-- **C70** (`_partial`: the `i`-th out-edge of a vertex goes to where its `i`-th in-edge comes from; see `C70_wait_false`).
With wait counts a vertex has no colour, or that of the sequential greedy colouring, and once nothing is outstanding every
vertex has it. -/
theorem C70_wait_partial (c : Cfg) (h : Loaded c) (hw : c.wait = true) (hal : ∀ v i e, (links c v)[i]? = some e → (e.1, v, i) ∈ c.es) (col : Nat → Nat) (hc : Sequential c.es col)
    (xs : List Act) (s : St) (hr : run c (start c) xs = some s) : (∀ v, (s.vp v).colour = noColour ∨ (s.vp v).colour = col v) ∧ (Quiet c s → ∀ v, v < c.n → (s.vp v).colour = col v) := by
  have hi := inv_of h hr
  have hiw := invW_run (good h) hw (rev_of h) hal (seq_of hc) xs _ s (inv_start (good h)) (invW_start (good h) hw hal col) hr
  refine ⟨hiw.hue, fun hq v hv => ?_⟩
  have : v < c.n → (s.vp v).colour ≠ EMPTY := by
    refine (Verif.Props.ColouringWait.earlier_wf c.es).induction (C := fun v => v < c.n → (s.vp v).colour ≠ EMPTY) v ?_
    intro v ih hv
    refine quiet_waiting (good h) hi hiw hal hq hv fun a ha hav hp => ?_
    exact ih a.1 ⟨⟨a.2.2, by rw [← hav]; exact ha⟩, hp⟩ (h.vertices a ha).1
  exact (hiw.hue v).resolve_left (this hv)

/-! ## Violations -/

/-- A vertex with a self loop. -/
def looped (T : Nat) (own : Nat → Nat) : Cfg := { es := [(0, 0, 0)], n := 1, T := T, own := own, wait := false }

/-- The states of its runs: what there is in the queue, the counter, the property, and what its owner does. -/
inductive Turn : List Note → Int → VP → Task → Prop
  | first : Turn [initNote] 1 ⟨EMPTY, [EMPTY], 0⟩ .idle
  | begun : Turn [] 0 ⟨EMPTY, [EMPTY], 0⟩ (.visit 0 initNote 0)
  | come (k x : Nat) : k < 2 → Turn [⟨0, k, true⟩] 1 ⟨k, [x], 0⟩ .idle
  | look (k x : Nat) : k < 2 → Turn [] 0 ⟨k, [x], 0⟩ (.visit 0 ⟨0, k, true⟩ 0)
  | tell (k x : Nat) : k < 2 → Turn [] 0 ⟨k, [x], 0⟩ (.run 0 [(0, ⟨0, k, true⟩)])
  | put (k x : Nat) : k < 2 → Turn [] 1 ⟨k, [x], 0⟩ (.put 0 0 ⟨0, k, true⟩ [])
  | over (k x : Nat) : k < 2 → Turn [⟨0, k, true⟩] 1 ⟨k, [x], 0⟩ (.run 0 [])

structure Loop (own : Nat → Nat) (s : St) : Prop where
  ok : s.crashed = false
  quiet : ∀ v, v ≠ 0 → s.queue v = []
  idle : ∀ t, t ≠ own 0 → s.task t = .idle
  turn : Turn (s.queue 0) (s.act 0) (s.vp 0) (s.task (own 0))

theorem loop_start (T : Nat) (own : Nat → Nat) : Loop own (start (looped T own)) :=
  ⟨by rfl, fun v hv => if_neg (by show ¬ v < 1; omega), fun _ _ => rfl, by
    have : base (looped T own) 0 = ⟨EMPTY, [EMPTY], 0⟩ := by rfl
    show Turn [initNote] 1 (base (looped T own) 0) .idle
    rw [this]; exact .first⟩

theorem visited (k x : Nat) (hk : k < 2) : ∃ p, note false ⟨k, [x], 0⟩ ⟨0, k, true⟩ = some p ∧ ∃ k' < 2, colour false p [⟨0, 0, false⟩] 0 = (⟨k', [k], 0⟩, [(0, ⟨0, k', true⟩)]) := by
  have : k = 0 ∨ k = 1 := by omega
  rcases this with rfl | rfl
  · exact ⟨⟨EMPTY, [0], 0⟩, by rfl, 1, by decide, by decide⟩
  · exact ⟨⟨EMPTY, [1], 0⟩, by rfl, 0, by decide, by decide⟩

theorem loop_step {T : Nat} {own : Nat → Nat} {s s' : St} (hi : Loop own s) {x : Act} (h : step (looped T own) s x = some s') : Loop own s' := by
  have hwait : (looped T own).wait = false := rfl
  have hedges : edges (looped T own) 0 = [⟨0, 0, false⟩] := by rfl
  cases x with
  | recv t v =>
    simp only [step] at h
    split at h
    · next hf =>
      obtain ⟨-, -, ho, hk⟩ := hf
      by_cases hv : v = 0
      · subst hv
        have ho : own 0 = t := ho
        subst ho
        have ht := hi.turn
        rw [hk] at ht
        generalize hq : s.queue 0 = q at ht h
        generalize ha : s.act 0 = a at ht h
        generalize hp : s.vp 0 = p at ht
        cases ht with
        | first =>
          simp only [Option.some.injEq] at h
          subst h
          refine ⟨hi.ok, fun v hv => by dsimp only; rw [upd_ne _ _ hv]; exact hi.quiet v hv, fun t ht => by dsimp only; rw [upd_ne _ _ ht]; exact hi.idle t ht, ?_⟩
          dsimp only
          rw [upd_same, upd_same, upd_same, hp]
          exact .begun
        | come k x hk2 =>
          simp only [Option.some.injEq] at h
          subst h
          refine ⟨hi.ok, fun v hv => by dsimp only; rw [upd_ne _ _ hv]; exact hi.quiet v hv, fun t ht => by dsimp only; rw [upd_ne _ _ ht]; exact hi.idle t ht, ?_⟩
          dsimp only
          rw [upd_same, upd_same, upd_same, hp]
          exact .look k x hk2
      · rw [hi.quiet v hv] at h; cases h
    · cases h
  | go t =>
    simp only [step] at h
    split at h
    · by_cases ht : t = own 0
      · subst ht
        have ht := hi.turn
        generalize hq : s.queue 0 = q at ht
        generalize ha : s.act 0 = a at ht
        generalize hp : s.vp 0 = p at ht
        generalize hk : s.task (own 0) = k at ht h
        cases ht with
        | first => cases h
        | come => cases h
        | begun =>
          have hn : note false ⟨EMPTY, [EMPTY], 0⟩ initNote = some ⟨EMPTY, [EMPTY], 0⟩ := by rfl
          have hc : colour false ⟨EMPTY, [EMPTY], 0⟩ [⟨0, 0, false⟩] 0 = (⟨0, [EMPTY], 0⟩, [(0, ⟨0, 0, true⟩)]) := by decide
          simp only [goStep, hwait, hp, hn, hedges, hc, Option.some.injEq] at h
          subst h
          refine ⟨hi.ok, hi.quiet, fun t ht => by dsimp only; rw [upd_ne _ _ ht]; exact hi.idle t ht, ?_⟩
          dsimp only
          rw [upd_same, upd_same, hq, ha]
          exact .tell 0 _ (by decide)
        | look k x hk2 =>
          obtain ⟨p', hn, k', hk', hc⟩ := visited k x hk2
          simp only [goStep, hwait, hp, hn, hedges, hc, Option.some.injEq] at h
          subst h
          refine ⟨hi.ok, hi.quiet, fun t ht => by dsimp only; rw [upd_ne _ _ ht]; exact hi.idle t ht, ?_⟩
          dsimp only
          rw [upd_same, upd_same, hq, ha]
          exact .tell k' _ hk'
        | tell k x hk2 =>
          simp only [goStep, Option.some.injEq] at h
          subst h
          refine ⟨hi.ok, hi.quiet, fun t ht => by dsimp only; rw [upd_ne _ _ ht]; exact hi.idle t ht, ?_⟩
          dsimp only
          rw [upd_same, upd_same, hq, ha, hp]
          exact .put k x hk2
        | put k x hk2 =>
          simp only [goStep, Option.some.injEq] at h
          subst h
          refine ⟨hi.ok, fun v hv => by dsimp only; rw [upd_ne _ _ hv]; exact hi.quiet v hv, fun t ht => by dsimp only; rw [upd_ne _ _ ht]; exact hi.idle t ht, ?_⟩
          dsimp only
          rw [upd_same, upd_same, hq, ha, hp]
          exact .over k x hk2
        | over k x hk2 =>
          simp only [goStep, Option.some.injEq] at h
          subst h
          refine ⟨hi.ok, hi.quiet, fun t ht => by dsimp only; rw [upd_ne _ _ ht]; exact hi.idle t ht, ?_⟩
          dsimp only
          rw [upd_same, hq, ha, hp]
          exact .come k x hk2
      · rw [hi.idle t ht] at h; cases h
    · cases h

theorem loop_run {T : Nat} {own : Nat → Nat} : ∀ (xs : List Act) (s s' : St), Loop own s → run (looped T own) s xs = some s' → Loop own s'
  | [], s, s', hi, h => by cases h; exact hi
  | x :: xs, s, s', hi, h => by
    simp only [run, Option.bind_eq_some_iff] at h
    obtain ⟨s1, h1, h2⟩ := h
    exact loop_run xs s1 s' (loop_step hi h1) h2

/-- **C70** fails with a self loop: whatever the threads do, a run on a graph of one vertex with a self loop never comes
to rest. The vertex gives way to itself. -/
theorem C70_selfloop_false (T : Nat) (own : Nat → Nat) (h0 : own 0 < T) (xs : List Act) (s : St) (hr : run (looped T own) (start (looped T own)) xs = some s) :
    ¬ Quiet (looped T own) s ∧ ¬ Stuck (looped T own) s := by
  have hi := loop_run xs _ s (loop_start T own) hr
  have ht := hi.turn
  refine ⟨fun hq => ?_, fun hst => ?_⟩
  · rw [hq.2 0, hq.1 _ h0] at ht
    generalize s.act 0 = a at ht
    generalize s.vp 0 = p at ht
    cases ht
  · have hgo := hst (.go (own 0))
    have hrecv := hst (.recv (own 0) 0)
    simp only [step] at hgo hrecv
    rw [if_pos ⟨hi.ok, h0⟩] at hgo
    generalize hq : s.queue 0 = q at ht hrecv
    generalize ha : s.act 0 = a at ht hrecv
    generalize hp : s.vp 0 = p at ht
    generalize hk : s.task (own 0) = k at ht hgo hrecv
    cases ht with
    | first => rw [if_pos ⟨hi.ok, h0, rfl, rfl⟩] at hrecv; cases hrecv
    | come => rw [if_pos ⟨hi.ok, h0, rfl, rfl⟩] at hrecv; cases hrecv
    | begun => simp only [goStep] at hgo; split at hgo <;> cases hgo
    | look => simp only [goStep] at hgo; split at hgo <;> cases hgo
    | tell => cases hgo
    | put => cases hgo
    | over => cases hgo

/-- A path `0 – 1 – 2`; the in-edges of `1` come in another order than its out-edges. -/
def crossed : Cfg := { es := [(0, 1, 1), (1, 0, 0), (2, 1, 0), (1, 2, 0)], n := 3, T := 1, own := fun _ => 0, wait := true }

/-- The same with the in-edges in the order of the out-edges. -/
def path (T : Nat) (wait : Bool) : Cfg := { es := [(0, 1, 0), (1, 0, 0), (2, 1, 1), (1, 2, 0)], n := 3, T := T, own := fun v => v % T, wait := wait }

theorem crossed_loaded : Loaded crossed := by
  refine ⟨by decide, by decide, by unfold Mirrored; decide, by decide, by decide, by decide, fun _ _ => Nat.zero_lt_one⟩

theorem quiet_of {c : Cfg} (h : Loaded c) {xs : List Act} {s : St} (hr : run c (start c) xs = some s) (h1 : ∀ t, t < c.T → s.task t = .idle) (h2 : ∀ v, v < c.n → s.queue v = []) : Quiet c s := by
  refine ⟨h1, fun v => ?_⟩
  cases hq : s.queue v with
  | nil => rfl
  | cons n q =>
    have hv := ((inv_of h hr).legit v n (by rw [hq]; exact List.mem_cons_self)).1
    rw [h2 v hv] at hq; cases hq

/-- At rest, as far as there are threads and vertices. -/
def quiet? (c : Cfg) (s : St) : Bool := ((List.range c.T).all fun t => decide (s.task t = .idle)) && (List.range c.n).all fun v => (s.queue v).isEmpty

theorem quiet_of_check {c : Cfg} (h : Loaded c) {xs : List Act} {s : St} (hr : run c (start c) xs = some s) (hq : quiet? c s = true) : Quiet c s := by
  unfold quiet? at hq
  rw [Bool.and_eq_true, List.all_eq_true, List.all_eq_true] at hq
  exact quiet_of h hr (fun t ht => of_decide_eq_true (hq.1 t (List.mem_range.2 ht))) fun v hv => List.isEmpty_iff.1 (hq.2 v (List.mem_range.2 hv))

/-- Thread `t` takes the next notification of `v` and does `k` more steps. -/
def turn (t v k : Nat) : List Act := .recv t v :: List.replicate k (.go t)

/-- **C70** fails with wait counts if in-edges and out-edges are in different orders: vertex `1` waits for ever. -/
theorem C70_wait_false : ¬ C70WaitStatement := by
  intro hall
  have h : ((run crossed (start crossed) (turn 0 0 4 ++ turn 0 1 2 ++ turn 0 1 2 ++ turn 0 2 2)).map fun s => (quiet? crossed s, (s.vp 1).colour)) = some (true, EMPTY) := by decide +kernel
  obtain ⟨s, hs, e⟩ := Option.map_eq_some_iff.1 h
  simp only [Prod.mk.injEq] at e
  obtain ⟨col, hcol⟩ := Verif.Props.ColouringWait.sequential_exists crossed.es
  have := hall crossed crossed_loaded rfl col hcol _ s hs (quiet_of_check crossed_loaded hs e.1) 1 (by decide)
  rw [e.2] at this
  have hle : ∀ k, k ≠ col 0 → col 1 ≤ k := by
    intro k hk
    refine (hcol 1).2 ?_
    rintro u ⟨⟨p, hp⟩, hpr⟩
    simp only [crossed, List.mem_cons, Prod.mk.injEq, List.not_mem_nil, or_false] at hp
    have : u = 0 ∨ u = 2 := by omega
    rcases this with rfl | rfl
    · exact Ne.symm hk
    · exact absurd hpr (by decide)
  have h0 := hle 0
  have h1 := hle 1
  have : EMPTY = 4294967295 := rfl
  omega

/-! ## Cases -/

theorem path_loaded (wait : Bool) : Loaded (path 2 wait) := by
  cases wait <;> exact ⟨by decide, by decide, by unfold Mirrored; decide, by decide, by decide, by decide, fun v _ => Nat.mod_lt _ (by decide)⟩

/-- `C70_proper`: `0` and `1` take colour 0 at the same time, and `1` gives way. -/
example : ∃ xs s, run (path 2 false) (start (path 2 false)) xs = some s ∧ Quiet (path 2 false) s ∧ ((s.vp 0).colour, (s.vp 1).colour, (s.vp 2).colour) = (0, 1, 0) := by
  have h : ((run (path 2 false) (start (path 2 false)) ([.recv 0 0, .recv 1 1] ++ List.replicate 4 (.go 0) ++ List.replicate 6 (.go 1) ++ turn 1 1 6 ++ turn 0 0 2 ++ turn 0 0 2 ++ turn 0 2 2 ++ turn 0 2 2 ++ turn 0 2 4 ++ turn 1 1 2)).map
      fun s => (quiet? (path 2 false) s, (s.vp 0).colour, (s.vp 1).colour, (s.vp 2).colour)) = some (true, 0, 1, 0) := by decide +kernel
  obtain ⟨s, hs, e⟩ := Option.map_eq_some_iff.1 h
  simp only [Prod.mk.injEq] at e
  exact ⟨_, s, hs, quiet_of_check (path_loaded false) hs e.1, by simp [e.2]⟩

/-- `C70_wait_partial`: `1` waits for `0`, and `2` for `1`. -/
example : (∀ v i e, (links (path 2 true) v)[i]? = some e → (e.1, v, i) ∈ (path 2 true).es) ∧ (∃ col, Sequential (path 2 true).es col) ∧
    ∃ xs s, run (path 2 true) (start (path 2 true)) xs = some s ∧ Quiet (path 2 true) s ∧ ((s.vp 0).colour, (s.vp 1).colour, (s.vp 2).colour) = (0, 1, 0) := by
  refine ⟨?_, Verif.Props.ColouringWait.sequential_exists _, ?_⟩
  · intro v i e h
    have hm := mem_links.1 (List.mem_of_getElem? h)
    simp only [path, List.mem_cons, Prod.mk.injEq, List.not_mem_nil, or_false] at hm
    have hv : v = 0 ∨ v = 1 ∨ v = 2 := by omega
    have hi : i < (links (path 2 true) v).length := (List.getElem?_eq_some_iff.1 h).1
    rcases hv with rfl | rfl | rfl
    · have : i = 0 := by have : (links (path 2 true) 0).length = 1 := rfl; omega
      subst this
      have : some (1, 0) = some e := h
      cases this; decide
    · have : i = 0 ∨ i = 1 := by have : (links (path 2 true) 1).length = 2 := rfl; omega
      rcases this with rfl | rfl
      · have : some (0, 0) = some e := h
        cases this; decide
      · have : some (2, 0) = some e := h
        cases this; decide
    · have : i = 0 := by have : (links (path 2 true) 2).length = 1 := rfl; omega
      subst this
      have : some (1, 1) = some e := h
      cases this; decide
  · have h : ((run (path 2 true) (start (path 2 true)) (turn 1 1 2 ++ turn 0 2 2 ++ turn 0 0 4 ++ turn 1 1 6 ++ turn 0 0 2 ++ turn 0 2 4 ++ turn 1 1 2)).map
        fun s => (quiet? (path 2 true) s, (s.vp 0).colour, (s.vp 1).colour, (s.vp 2).colour)) = some (true, 0, 1, 0) := by decide +kernel
    obtain ⟨s, hs, e⟩ := Option.map_eq_some_iff.1 h
    simp only [Prod.mk.injEq] at e
    exact ⟨_, s, hs, quiet_of_check (path_loaded true) hs e.1, by simp [e.2]⟩

/-- `C70_rest`: a state at rest cannot go on. -/
theorem stuck_of_quiet {c : Cfg} {s : St} (hq : Quiet c s) : Stuck c s := by
  intro x
  cases x with
  | recv t v =>
    simp only [step, hq.2 v]
    split <;> rfl
  | go t =>
    simp only [step]
    split
    · next h => rw [hq.1 t h.2]; rfl
    · rfl

end Verif.Props.ColouringMsg
