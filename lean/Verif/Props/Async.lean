import Verif.AsyncInv
import Mathlib.Tactic.ByContra

/-!
# Notifications: C29, C30

For every algorithm, every number of threads, every assignment of vertices to threads, every edge
change and every schedule.
-/

namespace Verif.Props.Async

open Verif Verif.Async

variable {P M N E : Type}

/-- Notifications of `v` sent but not yet retrieved: those in the queue, and those counted by a thread
that is about to put them there. -/
def outstanding (c : Cfg M N) (s : St P M N E) (v : Nat) : Nat :=
  (s.pend v).length + ((List.range c.T).filter fun t => match s.task t with | .put _ w _ _ => decide (w = v) | _ => false).length

theorem outstanding_eq (c : Cfg M N) (s : St P M N E) (v : Nat) : outstanding c s v = (s.pend v).length + puts c s v := by
  unfold outstanding puts
  rw [List.countP_eq_length_filter]
  congr 2

/-- **C30.** The activity counter of a vertex is the number of its outstanding notifications. -/
theorem C30_counter (a : Alg P M N E) (c : Cfg M N) {es0 : Nat → List (Edge E)} (xs : List (Act E)) (s : St P M N E) (h : run a c (start a es0) xs = some s) (v : Nat) :
    s.act v = (outstanding c s v : Int) := by
  rw [outstanding_eq]; exact counts_run h v

/-- **C30.** The activity value given to a visit is the number of notifications still outstanding after
the one that caused it, and the note given is that one's. -/
theorem C30_visit (a : Alg P M N E) (c : Cfg M N) {es0 : Nat → List (Edge E)} (xs : List (Act E)) (s s' : St P M N E) (h : run a c (start a es0) xs = some s)
    (t v i : Nat) (h' : step a c s (.recv t v i) = some s') :
    ∃ n, (s.pend v)[i]? = some n ∧ outstanding c s v = outstanding c s' v + 1 ∧
      s'.task t = .load v (fun p es m => a.onUpdate v p es n (outstanding c s' v) m) := by
  have h1 := counts_run h v
  have h2 := counts_step (counts_run h) h' v
  simp only [step] at h'
  split at h'
  · next hf =>
    cases hp : (s.pend v)[i]? with
    | none => rw [hp] at h'; cases h'
    | some n =>
      rw [hp] at h'
      simp only [Option.some.injEq] at h'
      have ea : s'.act v = s.act v - 1 := by rw [← h']; exact upd_same _ _ _
      refine ⟨n, rfl, ?_, ?_⟩
      · rw [outstanding_eq, outstanding_eq]; omega
      · rw [outstanding_eq, ← h2, ea, ← h']
        exact upd_same _ _ _
  · cases h'

/-- Mail with news for `v`, not read by its owner since. -/
def Unread (v : Nat) (log : List Note) : Prop := ∃ x y, log = x ++ .dep v :: y ∧ Note.obs v ∉ y

/-- **C29.** While news for `v` is unread, a notification of `v` is in the queue, or some thread is
just about to test the flag of `v`, put a notification of `v`, or read the mailbox of `v`. -/
theorem C29_on_its_way (a : Alg P M N E) (c : Cfg M N) {es0 : Nat → List (Edge E)} (xs : List (Act E)) (s : St P M N E) (h : run a c (start a es0) xs = some s)
    (v : Nat) (hv : Unread v s.log) :
    s.pend v ≠ [] ∨ ∃ t, t < c.T ∧ ((∃ u k, s.task t = .cas u v k) ∨ (∃ u n k, s.task t = .put u v n k) ∨ ∃ f, s.task t = .load v f) := by
  rcases noticed_run h v hv with h1 | ⟨t, ht, h1⟩
  · exact .inl h1
  · refine .inr ⟨t, ht, ?_⟩
    cases hk : s.task t with
    | idle => rw [hk] at h1; exact h1.elim
    | load w f => rw [hk] at h1; cases (h1 : w = v); exact .inr (.inr ⟨f, rfl⟩)
    | run _ _ => rw [hk] at h1; exact h1.elim
    | cas u w k => rw [hk] at h1; cases (h1 : w = v); exact .inl ⟨u, k, rfl⟩
    | put u w n k => rw [hk] at h1; cases (h1 : w = v); exact .inr (.inl ⟨u, n, k, rfl⟩)

/-- **C29.** When nothing is outstanding, every deposit of news was followed by a read of the mailbox
by the owner. -/
theorem C29_seen (a : Alg P M N E) (c : Cfg M N) {es0 : Nat → List (Edge E)} (xs : List (Act E)) (s : St P M N E) (h : run a c (start a es0) xs = some s)
    (hq : Quiet c s) (v : Nat) (x y : List Note) (hl : s.log = x ++ .dep v :: y) : Note.obs v ∈ y := by
  by_contra hn
  rcases C29_on_its_way a c xs s h v ⟨x, y, hl, hn⟩ with h1 | ⟨t, ht, h1⟩
  · exact h1 (hq.2 v)
  · have := hq.1 t ht
    rcases h1 with ⟨_, _, h1⟩ | ⟨_, _, _, h1⟩ | ⟨_, h1⟩ <;> (rw [this] at h1; cases h1)

/-- **C29.** Nothing can be stuck: as long as something is outstanding, some thread can do a step, and a
thread between callbacks can take any outstanding notification of its vertices. -/
theorem C29_enabled (a : Alg P M N E) (c : Cfg M N) (s : St P M N E) (hown : ∀ v, c.own v < c.T) (hq : ¬ Quiet c s) :
    ∃ x s', step a c s x = some s' ∧ ((∃ t, x = .go t) ∨ ∃ v, x = .recv (c.own v) v 0) := by
  by_cases h1 : ∃ t, t < c.T ∧ s.task t ≠ .idle
  · obtain ⟨t, ht, hk⟩ := h1
    have : ∃ s', goStep a s t (s.task t) = some s' := by
      cases hq : s.task t with
      | idle => exact absurd hq hk
      | load v f => exact ⟨_, rfl⟩
      | run v q =>
        cases q with
        | done => exact ⟨_, rfl⟩
        | post w m k => simp only [goStep]; split <;> exact ⟨_, rfl⟩
        | send w n k => exact ⟨_, rfl⟩
      | cas v w k => simp only [goStep]; split <;> exact ⟨_, rfl⟩
      | put v w n k => exact ⟨_, rfl⟩
    obtain ⟨s', h⟩ := this
    exact ⟨.go t, s', by simp only [step, if_pos ht]; exact h, .inl ⟨t, rfl⟩⟩
  · have h2 : ∀ t, t < c.T → s.task t = .idle := fun t ht => by
      by_contra hk; exact h1 ⟨t, ht, hk⟩
    have h3 : ∃ v, s.pend v ≠ [] := by
      by_contra h3
      exact hq ⟨h2, fun v => by by_contra hv; exact h3 ⟨v, hv⟩⟩
    obtain ⟨v, hv⟩ := h3
    have hf : free c s (c.own v) v = true := (free_iff c s _ v).2 ⟨hown v, rfl, h2 _ (hown v)⟩
    cases hp : s.pend v with
    | nil => exact absurd hp hv
    | cons n l => exact ⟨.recv (c.own v) v 0, _, by simp only [step, if_pos hf, hp, List.getElem?_cons_zero]; rfl, .inr ⟨v, rfl⟩⟩

/-- **C29.** With unique notifications only, at most one notification per vertex is outstanding. -/
theorem C29_unique (a : Alg P M N E) (c : Cfg M N) (hu : UniqueAlg a c) {es0 : Nat → List (Edge E)} (xs : List (Act E)) (s : St P M N E) (h : run a c (start a es0) xs = some s) (v : Nat) :
    outstanding c s v ≤ 1 := by
  have h1 := (run_inv (fun _ _ _ => oneEach_step hu) (oneEach_start a c es0) h).act v
  have h2 := C30_counter a c xs s h v
  omega

/-! ## Cases -/

/-- Mail adds up; a visit sends 1 to every neighbour along a unique notification. -/
def toy : Alg Nat Nat Nat Unit :=
  { newP := 0, newM := 0, noNote := 0, merge := fun m _ x => (x + m, decide (0 < m)), retrieve := fun m _ => (0, m),
    onUpdate := fun _ p es _ _ m => (p + m, es.foldr (fun e k => .post e.dst 1 fun _ => k) .done),
    onEdgeAdd := fun _ p es _ m => (p + m, es.foldr (fun e k => .post e.dst 1 fun _ => k) .done),
    onEdgeDel := fun _ p _ _ m => (p + m, .done) }

/-- The same with active notifications: the visit records the activity value. -/
def toy2 : Alg Nat Nat Nat Unit :=
  { newP := 0, newM := 0, noNote := 0, merge := fun m _ x => (x + m, decide (0 < m)), retrieve := fun m _ => (0, m),
    onUpdate := fun _ p _ n i _ => (p + 10 * n + i.toNat, .done),
    onEdgeAdd := fun _ p es _ _ => (p, es.foldr (fun e k => .send e.dst 7 k) .done),
    onEdgeDel := fun _ p _ _ m => (p + m, .done) }

def cfg : Cfg Nat Nat := { T := 2, own := fun v => v % 2, initMail := fun _ => none, initNote := fun _ => none }

theorem unique_chain (es : List (Edge Unit)) : (es.foldr (fun e k => (.post e.dst 1 fun _ => k)) (.done : Prog Nat Nat)).Unique := by
  induction es with
  | nil => trivial
  | cons e es ih => exact fun _ => ih

/-- Hypothesis of `C29_unique`. -/
example : UniqueAlg toy cfg := ⟨fun _ _ es _ _ _ => unique_chain es, fun _ _ es _ _ => unique_chain es, fun _ _ _ _ _ => trivial, fun _ => rfl⟩

/-- Vertices 0 and 2 (thread 0) both point at 1 (thread 1). The first deposit notifies; the second
meets the raised flag. Then the owner takes the notification and reads 2. -/
def sched : List (Act Unit) :=
  [.add 0 0 [⟨1, ()⟩], .go 0, .go 0, .go 0, .go 0, .go 0, .add 0 2 [⟨1, ()⟩], .go 0, .go 0, .go 0, .go 0]

example : (run toy cfg (start toy) sched).map (fun s => (outstanding cfg s 1, s.act 1, s.inbox 1, s.log)) =
    some (1, 1, 2, [.obs 0, .dep 1, .obs 2, .dep 1]) := by decide +kernel

example : (run toy cfg (start toy) (sched ++ [.recv 1 1 0, .go 1, .go 1])).map (fun s => (outstanding cfg s 1, s.prop 1, s.log)) =
    some (0, 2, [.obs 0, .dep 1, .obs 2, .dep 1, .obs 1]) := by decide +kernel

/-- Between test and put the counter already counts the notification. -/
example : (run toy cfg (start toy) (sched.take 4)).map (fun s => (outstanding cfg s 1, (s.pend 1).length, s.act 1)) = some (1, 0, 1) := by decide +kernel

/-- Active notifications: two outstanding; the visit of the first sees activity 1 and note 7. -/
example : (run toy2 cfg (start toy2) [.add 0 0 [⟨1, ()⟩, ⟨1, ()⟩], .go 0, .go 0, .go 0, .go 0, .go 0, .recv 1 1 0, .go 1]).map
    (fun s => (outstanding cfg s 1, s.act 1, s.prop 1)) = some (1, 1, 71) := by decide +kernel

end Verif.Props.Async
