import Verif.Async
import Mathlib.Tactic.Tauto

/-!
# Invariants of asynchronous execution, for every algorithm
-/

namespace Verif.Async

variable {P M N E : Type}

/-- The task is about to put a notification of `v` into the queue. -/
def inPut (v : Nat) : Task P M N E → Bool
  | .put _ w _ _ => decide (w = v)
  | _ => false

/-- Notifications of `v` counted but not yet in the queue. -/
def puts (c : Cfg M N) (s : St P M N E) (v : Nat) : Nat := (List.range c.T).countP (fun t => inPut v (s.task t))

theorem countP_upd {α : Type} (f : α → Bool) (g : Nat → α) (t : Nat) (x : α) : ∀ T, t < T →
    (List.range T).countP (fun i => f (upd g t x i)) + (if f (g t) = true then 1 else 0) = (List.range T).countP (fun i => f (g i)) + (if f x = true then 1 else 0) := by
  intro T
  induction T with
  | zero => intro h; omega
  | succ T ih =>
    intro h
    rw [List.range_succ, List.countP_append, List.countP_append, List.countP_singleton, List.countP_singleton]
    by_cases e : t = T
    · subst e
      rw [upd_same]
      have : (List.range t).countP (fun i => f (upd g t x i)) = (List.range t).countP (fun i => f (g i)) := by
        apply List.countP_congr
        intro i hi
        rw [List.mem_range] at hi
        rw [upd_ne _ _ (by omega)]
      rw [this]; omega
    · have := ih (by omega)
      rw [upd_ne g x (fun e' => e e'.symm)]
      omega

/-- Number of notifications a task holds for `v`. -/
def held (v : Nat) (k : Task P M N E) : Nat := if inPut v k = true then 1 else 0

theorem puts_upd (c : Cfg M N) (s s' : St P M N E) (t : Nat) (x : Task P M N E) (ht : t < c.T) (h : s'.task = upd s.task t x) (v : Nat) :
    puts c s' v + held v (s.task t) = puts c s v + held v x := by
  unfold puts held
  rw [h]
  exact countP_upd (inPut v) s.task t x c.T ht

theorem puts_pos (c : Cfg M N) (s : St P M N E) (v : Nat) (h : 0 < puts c s v) : ∃ t, t < c.T ∧ inPut v (s.task t) = true := by
  unfold puts at h
  rw [List.countP_pos_iff] at h
  obtain ⟨t, ht, h⟩ := h
  exact ⟨t, List.mem_range.1 ht, h⟩

/-- The activity counter. -/
def Counts (c : Cfg M N) (s : St P M N E) : Prop := ∀ v, s.act v = ((s.pend v).length + puts c s v : Nat)

theorem free_iff (c : Cfg M N) (s : St P M N E) (t v : Nat) : free c s t v = true ↔ t < c.T ∧ c.own v = t ∧ s.task t = .idle := by
  unfold free
  cases h : s.task t <;> simp

theorem counts_start (a : Alg P M N E) (c : Cfg M N) (es0 : Nat → List (Edge E)) : Counts c (start a es0) := by
  intro v
  have : puts c (start a es0) v = 0 := by
    unfold puts start
    rw [List.countP_eq_zero]
    intro t _
    simp [inPut]
  rw [this]; simp [start]

/-- A step of thread `t` that gives it task `x`, with `b` the notifications put or taken for `w`. -/
theorem counts_upd {c : Cfg M N} {s s' : St P M N E} (hi : Counts c s) (t : Nat) (x : Task P M N E) (ht : t < c.T) (h : s'.task = upd s.task t x)
    (hv : ∀ v, s'.act v + (s.pend v).length + held v (s.task t) = s.act v + (s'.pend v).length + held v x) : Counts c s' := by
  intro v
  have h1 := puts_upd c s s' t x ht h v
  have h2 := hi v
  have h3 := hv v
  omega

theorem counts_go {a : Alg P M N E} {c : Cfg M N} {s s' : St P M N E} {t : Nat} (hi : Counts c s) (ht : t < c.T) (h : goStep a s t (s.task t) = some s') : Counts c s' := by
  cases hk : s.task t with
  | idle => rw [hk] at h; cases h
  | load v f =>
    rw [hk] at h
    simp only [goStep, Option.some.injEq] at h
    subst h
    exact counts_upd hi t _ ht rfl (by intro v'; simp [hk, held, inPut])
  | run v q =>
    rw [hk] at h
    cases q with
    | done =>
      simp only [goStep, Option.some.injEq] at h
      subst h
      exact counts_upd hi t _ ht rfl (by intro v'; simp [hk, held, inPut])
    | post w m k =>
      simp only [goStep] at h
      split at h <;> (simp only [Option.some.injEq] at h; subst h; exact counts_upd hi t _ ht rfl (by intro v'; simp [hk, held, inPut]))
    | send w n k =>
      simp only [goStep, Option.some.injEq] at h
      subst h
      refine counts_upd hi t _ ht rfl ?_
      intro v'
      by_cases e : w = v'
      · subst e; simp [hk, held, inPut]; omega
      · have e' : v' ≠ w := fun x => e x.symm
        simp [hk, held, inPut, e, upd_ne _ _ e']
  | cas v w k =>
    rw [hk] at h
    simp only [goStep] at h
    split at h
    · next hz =>
      simp only [Option.some.injEq] at h; subst h
      refine counts_upd hi t _ ht rfl ?_
      intro v'
      by_cases e : w = v'
      · subst e; simp [hk, held, inPut, hz]; omega
      · have e' : v' ≠ w := fun x => e x.symm
        simp [hk, held, inPut, e, upd_ne _ _ e']
    · simp only [Option.some.injEq] at h; subst h
      exact counts_upd hi t _ ht rfl (by intro v'; simp [hk, held, inPut])
  | put v w n k =>
    rw [hk] at h
    simp only [goStep, Option.some.injEq] at h
    subst h
    refine counts_upd hi t _ ht rfl ?_
    intro v'
    by_cases e : w = v'
    · subst e; simp [hk, held, inPut]; omega
    · have e' : v' ≠ w := fun x => e x.symm
      simp [hk, held, inPut, e, upd_ne _ _ e']

theorem counts_step {a : Alg P M N E} {c : Cfg M N} {s s' : St P M N E} {x : Act E} (hi : Counts c s) (h : step a c s x = some s') : Counts c s' := by
  cases x with
  | init t v =>
    simp only [step] at h
    split at h
    · next hf =>
      obtain ⟨ht, -, hk⟩ := (free_iff c s t v).1 hf.1
      split at h
      · split at h
        · simp only [Option.some.injEq] at h; subst h
          exact counts_upd hi t _ ht rfl (by intro v'; simp [hk, held, inPut])
        · simp only [Option.some.injEq] at h; subst h
          exact hi
      · simp only [Option.some.injEq] at h; subst h
        refine counts_upd hi t _ ht rfl ?_
        intro v'
        by_cases e : v = v'
        · subst e; simp [hk, held, inPut]; omega
        · have e' : v' ≠ v := fun x => e x.symm
          simp [hk, held, inPut, e, upd_ne _ _ e']
      · simp only [Option.some.injEq] at h; subst h
        exact hi
    · cases h
  | recv t v i =>
    simp only [step] at h
    split at h
    · next hf =>
      obtain ⟨ht, -, hk⟩ := (free_iff c s t v).1 hf
      cases hp : (s.pend v)[i]? with
      | none => rw [hp] at h; cases h
      | some n =>
        rw [hp] at h
        simp only [Option.some.injEq] at h; subst h
        have hlt := (List.getElem?_eq_some_iff.1 hp).1
        refine counts_upd hi t _ ht rfl ?_
        intro v'
        by_cases e : v' = v
        · subst e
          have := List.length_eraseIdx_of_lt hlt
          simp [hk, held, inPut, this]; omega
        · simp [hk, held, inPut, upd_ne _ _ e]
    · cases h
  | add t v es =>
    simp only [step] at h
    split at h
    · next hf =>
      obtain ⟨ht, -, hk⟩ := (free_iff c s t v).1 hf.1
      simp only [Option.some.injEq] at h; subst h
      exact counts_upd hi t _ ht rfl (by intro v'; simp [hk, held, inPut])
    · cases h
  | del t v keep =>
    simp only [step] at h
    split at h
    · next hf =>
      obtain ⟨ht, -, hk⟩ := (free_iff c s t v).1 hf
      simp only [Option.some.injEq] at h; subst h
      exact counts_upd hi t _ ht rfl (by intro v'; simp [hk, held, inPut])
    · cases h
  | go t =>
    simp only [step] at h
    split at h
    · next ht => exact counts_go hi ht h
    · cases h

/-- Invariants carry over runs. -/
theorem run_inv {a : Alg P M N E} {c : Cfg M N} {I : St P M N E → Prop} (hstep : ∀ s s' x, I s → step a c s x = some s' → I s') :
    ∀ {xs : List (Act E)} {s s' : St P M N E}, I s → run a c s xs = some s' → I s'
  | [], s, s', hi, h => by simp only [run, Option.some.injEq] at h; exact h ▸ hi
  | x :: xs, s, s', hi, h => by
    simp only [run] at h
    obtain ⟨s1, h1, h2⟩ := Option.bind_eq_some_iff.1 h
    exact run_inv hstep (hstep s s1 x hi h1) h2

theorem counts_run {a : Alg P M N E} {c : Cfg M N} {es0 : Nat → List (Edge E)} {xs : List (Act E)} {s : St P M N E} (h : run a c (start a es0) xs = some s) : Counts c s :=
  run_inv (fun _ _ _ => counts_step) (counts_start a c es0) h

/-- A step changes the task of one thread at most, and that thread exists. -/
theorem step_task {a : Alg P M N E} {c : Cfg M N} {s s' : St P M N E} {x : Act E} (h : step a c s x = some s') (u : Nat) (hu : c.T ≤ u) : s'.task u = s.task u := by
  have hup : ∀ (t : Nat) (y : Task P M N E), t < c.T → upd s.task t y u = s.task u := fun t y ht => upd_ne _ _ (by omega)
  cases x with
  | init t v =>
    simp only [step] at h
    split at h
    · next hf =>
      have ht := ((free_iff c s t v).1 hf.1).1
      split at h
      · split at h <;> (simp only [Option.some.injEq] at h; subst h; first | exact hup _ _ ht | rfl)
      · simp only [Option.some.injEq] at h; subst h; exact hup _ _ ht
      · simp only [Option.some.injEq] at h; subst h; rfl
    · cases h
  | recv t v i =>
    simp only [step] at h
    split at h
    · next hf =>
      have ht := ((free_iff c s t v).1 hf).1
      split at h
      · cases h
      · simp only [Option.some.injEq] at h; subst h; exact hup _ _ ht
    · cases h
  | add t v es =>
    simp only [step] at h
    split at h
    · next hf => simp only [Option.some.injEq] at h; subst h; exact hup _ _ ((free_iff c s t v).1 hf.1).1
    · cases h
  | del t v keep =>
    simp only [step] at h
    split at h
    · next hf => simp only [Option.some.injEq] at h; subst h; exact hup _ _ ((free_iff c s t v).1 hf).1
    · cases h
  | go t =>
    simp only [step] at h
    split at h
    · next ht =>
      cases hk : s.task t with
      | idle => rw [hk] at h; cases h
      | load v f => rw [hk] at h; simp only [goStep, Option.some.injEq] at h; subst h; exact hup _ _ ht
      | run v q =>
        rw [hk] at h
        cases q with
        | done => simp only [goStep, Option.some.injEq] at h; subst h; exact hup _ _ ht
        | post w m k => simp only [goStep] at h; split at h <;> (simp only [Option.some.injEq] at h; subst h; exact hup _ _ ht)
        | send w n k => simp only [goStep, Option.some.injEq] at h; subst h; exact hup _ _ ht
      | cas v w k => rw [hk] at h; simp only [goStep] at h; split at h <;> (simp only [Option.some.injEq] at h; subst h; exact hup _ _ ht)
      | put v w n k => rw [hk] at h; simp only [goStep, Option.some.injEq] at h; subst h; exact hup _ _ ht
    · cases h

theorem idle_outside {a : Alg P M N E} {c : Cfg M N} {es0 : Nat → List (Edge E)} {xs : List (Act E)} {s : St P M N E} (h : run a c (start a es0) xs = some s) : ∀ u, c.T ≤ u → s.task u = .idle :=
  run_inv (I := fun s => ∀ u, c.T ≤ u → s.task u = .idle) (fun _ _ _ hi h u hu => by rw [step_task h u hu]; exact hi u hu) (fun _ _ => rfl) h

/-! ## Unseen mail has a notification or visit on its way -/

/-- News for `v` that its owner has not read since. -/
def Unseen (v : Nat) (log : List Note) : Prop := ∃ x y, log = x ++ .dep v :: y ∧ Note.obs v ∉ y

theorem unseen_dep (v w : Nat) (l : List Note) : Unseen v (l ++ [.dep w]) ↔ w = v ∨ Unseen v l := by
  constructor
  · rintro ⟨x, y, h, hn⟩
    rcases List.eq_nil_or_concat y with rfl | ⟨y', e, rfl⟩
    · left
      have := (List.append_inj' h rfl).2
      simpa using this
    · right
      rw [List.concat_eq_append, ← List.cons_append, ← List.append_assoc] at h
      obtain ⟨h1, h2⟩ := List.append_inj' h rfl
      exact ⟨x, y', h1, fun hm => hn (by simp [hm])⟩
  · rintro (rfl | ⟨x, y, h, hn⟩)
    · exact ⟨l, [], rfl, by simp⟩
    · refine ⟨x, y ++ [.dep w], by rw [h]; simp, ?_⟩
      simp [hn]

theorem unseen_obs (v w : Nat) (l : List Note) : Unseen v (l ++ [.obs w]) ↔ w ≠ v ∧ Unseen v l := by
  constructor
  · rintro ⟨x, y, h, hn⟩
    rcases List.eq_nil_or_concat y with rfl | ⟨y', e, rfl⟩
    · have := (List.append_inj' h rfl).2
      simp at this
    · rw [List.concat_eq_append, ← List.cons_append, ← List.append_assoc] at h
      obtain ⟨h1, h2⟩ := List.append_inj' h rfl
      have e1 : Note.obs w = e := by simpa using h2
      subst e1
      exact ⟨by rintro rfl; exact hn (by simp), x, y', h1, fun hm => hn (by simp [hm])⟩
  · rintro ⟨hne, x, y, h, hn⟩
    refine ⟨x, y ++ [.obs w], by rw [h]; simp, ?_⟩
    simp only [List.mem_append, List.mem_singleton, Note.obs.injEq, not_or]
    exact ⟨hn, fun e => hne e.symm⟩

theorem unseen_nil (v : Nat) : ¬ Unseen v [] := by rintro ⟨x, y, h, -⟩; simp at h

/-- The task will notify or visit `v`. -/
def Cares (v : Nat) : Task P M N E → Prop
  | .load w _ => w = v
  | .cas _ w _ => w = v
  | .put _ w _ _ => w = v
  | _ => False

/-- A notification or visit of `v` is on its way. -/
def Token (c : Cfg M N) (s : St P M N E) (v : Nat) : Prop := s.pend v ≠ [] ∨ ∃ t, t < c.T ∧ Cares v (s.task t)

def Noticed (c : Cfg M N) (s : St P M N E) : Prop := ∀ v, Unseen v s.log → Token c s v

/-- Replacing the task of thread `t`: tokens survive unless they were in the old task. -/
theorem token_upd {c : Cfg M N} {s s' : St P M N E} {v : Nat} (h : Token c s v) (t : Nat) (x : Task P M N E) (hk : s'.task = upd s.task t x)
    (hp : s.pend v ≠ [] → s'.pend v ≠ [] ∨ (t < c.T ∧ Cares v x)) (hc : t < c.T → Cares v (s.task t) → s'.pend v ≠ [] ∨ Cares v x) : Token c s' v := by
  rcases h with h | ⟨u, hu, h⟩
  · rcases hp h with h | ⟨ht, h⟩
    · exact .inl h
    · exact .inr ⟨t, ht, by rw [hk, upd_same]; exact h⟩
  · by_cases e : u = t
    · subst e
      rcases hc hu h with h | h
      · exact .inl h
      · exact .inr ⟨u, hu, by rw [hk, upd_same]; exact h⟩
    · exact .inr ⟨u, hu, by rw [hk, upd_ne _ _ e]; exact h⟩

theorem noticed_go {a : Alg P M N E} {c : Cfg M N} {s s' : St P M N E} {t : Nat} (hc : Counts c s) (hi : Noticed c s) (ht : t < c.T)
    (h : goStep a s t (s.task t) = some s') : Noticed c s' := by
  intro v hv
  cases hk : s.task t with
  | idle => rw [hk] at h; cases h
  | load v' f =>
    rw [hk] at h
    simp only [goStep, Option.some.injEq] at h
    subst h
    obtain ⟨hne, hv⟩ := (unseen_obs _ _ _).1 hv
    exact token_upd (hi v hv) t _ rfl (fun h => .inl h) (fun _ h => by rw [hk] at h; exact absurd h hne)
  | run v' q =>
    rw [hk] at h
    cases q with
    | done =>
      simp only [goStep, Option.some.injEq] at h
      subst h
      exact token_upd (hi v hv) t _ rfl (fun h => .inl h) (fun _ h => by rw [hk] at h; exact h.elim)
    | post w m k =>
      simp only [goStep] at h
      split at h
      · simp only [Option.some.injEq] at h; subst h
        rcases (unseen_dep _ _ _).1 hv with e | hv
        · exact .inr ⟨t, ht, by show Cares v (upd s.task t _ t); rw [upd_same]; exact e⟩
        · exact token_upd (hi v hv) t _ rfl (fun h => .inl h) (fun _ h => by rw [hk] at h; exact h.elim)
      · simp only [Option.some.injEq] at h; subst h
        exact token_upd (hi v hv) t _ rfl (fun h => .inl h) (fun _ h => by rw [hk] at h; exact h.elim)
    | send w n k =>
      simp only [goStep, Option.some.injEq] at h
      subst h
      exact token_upd (hi v hv) t _ rfl (fun h => .inl h) (fun _ h => by rw [hk] at h; exact h.elim)
  | cas v' w k =>
    rw [hk] at h
    simp only [goStep] at h
    split at h
    · simp only [Option.some.injEq] at h; subst h
      exact token_upd (hi v hv) t _ rfl (fun h => .inl h) (fun _ h => by rw [hk] at h; exact .inr h)
    · next hz =>
      simp only [Option.some.injEq] at h; subst h
      by_cases e : w = v
      · -- a notification of `w` is counted: it is in the queue or about to be put
        subst e
        by_cases hp : s.pend w = []
        · have h1 := hc w
          rw [hp] at h1
          have : 0 < puts c s w := by
            rcases Nat.eq_zero_or_pos (puts c s w) with h0 | h0
            · rw [h0] at h1; simp at h1; exact absurd h1 hz
            · exact h0
          obtain ⟨u, hu, hiu⟩ := puts_pos c s w this
          have hut : u ≠ t := by rintro rfl; rw [hk] at hiu; simp [inPut] at hiu
          refine .inr ⟨u, hu, ?_⟩
          show Cares w (upd s.task t _ u)
          rw [upd_ne _ _ hut]
          cases hq : s.task u with
          | put _ w' _ _ => rw [hq] at hiu; exact (by simpa [inPut] using hiu : w' = w)
          | idle => rw [hq] at hiu; simp [inPut] at hiu
          | load _ _ => rw [hq] at hiu; simp [inPut] at hiu
          | run _ _ => rw [hq] at hiu; simp [inPut] at hiu
          | cas _ _ _ => rw [hq] at hiu; simp [inPut] at hiu
        · exact .inl hp
      · exact token_upd (hi v hv) t _ rfl (fun h => .inl h) (fun _ h => by rw [hk] at h; exact absurd h e)
  | put v' w n k =>
    rw [hk] at h
    simp only [goStep, Option.some.injEq] at h
    subst h
    by_cases e : v = w
    · subst e
      left
      show upd s.pend v _ v ≠ []
      rw [upd_same]; simp
    · refine token_upd (hi v hv) t _ rfl (fun h => .inl ?_) (fun _ h => by rw [hk] at h; exact absurd (h : w = v).symm e)
      show upd s.pend w _ v ≠ []
      rw [upd_ne _ _ e]; exact h

theorem noticed_step {a : Alg P M N E} {c : Cfg M N} {s s' : St P M N E} {x : Act E} (hc : Counts c s) (hi : Noticed c s) (h : step a c s x = some s') : Noticed c s' := by
  cases x with
  | init t v =>
    simp only [step] at h
    split at h
    · next hf =>
      obtain ⟨ht, -, hk⟩ := (free_iff c s t v).1 hf.1
      have hid : ∀ u, ¬ Cares u (s.task t) := by intro u h; rw [hk] at h; exact h
      split at h
      · split at h
        · simp only [Option.some.injEq] at h; subst h
          intro u hu
          rcases (unseen_dep _ _ _).1 hu with e | hu
          · exact .inr ⟨t, ht, by show Cares u (upd s.task t _ t); rw [upd_same]; exact e⟩
          · exact token_upd (hi u hu) t _ rfl (fun h => .inl h) (fun _ h => absurd h (hid u))
        · simp only [Option.some.injEq] at h; subst h
          exact hi
      · simp only [Option.some.injEq] at h; subst h
        intro u hu
        exact token_upd (hi u hu) t _ rfl (fun h => .inl h) (fun _ h => absurd h (hid u))
      · simp only [Option.some.injEq] at h; subst h
        exact hi
    · cases h
  | recv t v i =>
    simp only [step] at h
    split at h
    · next hf =>
      obtain ⟨ht, -, hk⟩ := (free_iff c s t v).1 hf
      have hid : ∀ u, ¬ Cares u (s.task t) := by intro u h; rw [hk] at h; exact h
      cases hp : (s.pend v)[i]? with
      | none => rw [hp] at h; cases h
      | some n =>
        rw [hp] at h
        simp only [Option.some.injEq] at h; subst h
        intro u hu
        refine token_upd (hi u hu) t _ rfl ?_ (fun _ h => absurd h (hid u))
        intro hne
        by_cases e : u = v
        · exact .inr ⟨ht, e.symm⟩
        · left
          show upd s.pend v _ u ≠ []
          rw [upd_ne _ _ e]; exact hne
    · cases h
  | add t v es =>
    simp only [step] at h
    split at h
    · next hf =>
      obtain ⟨ht, -, hk⟩ := (free_iff c s t v).1 hf.1
      simp only [Option.some.injEq] at h; subst h
      intro u hu
      exact token_upd (hi u hu) t _ rfl (fun h => .inl h) (fun _ h => by rw [hk] at h; exact h.elim)
    · cases h
  | del t v keep =>
    simp only [step] at h
    split at h
    · next hf =>
      obtain ⟨ht, -, hk⟩ := (free_iff c s t v).1 hf
      simp only [Option.some.injEq] at h; subst h
      intro u hu
      exact token_upd (hi u hu) t _ rfl (fun h => .inl h) (fun _ h => by rw [hk] at h; exact h.elim)
    · cases h
  | go t =>
    simp only [step] at h
    split at h
    · next ht => exact noticed_go hc hi ht h
    · cases h

theorem noticed_run {a : Alg P M N E} {c : Cfg M N} {es0 : Nat → List (Edge E)} {xs : List (Act E)} {s : St P M N E} (h : run a c (start a es0) xs = some s) : Noticed c s :=
  (run_inv (I := fun s => Counts c s ∧ Noticed c s) (fun _ _ _ hi h => ⟨counts_step hi.1 h, noticed_step hi.1 hi.2 h⟩)
    ⟨counts_start a c es0, fun v hv => absurd hv (unseen_nil v)⟩ h).2

/-! ## Unique notifications -/

/-- The program sends only unique notifications. -/
def Prog.Unique : Prog M N → Prop
  | .done => True
  | .post _ _ k => ∀ b, (k b).Unique
  | .send _ _ _ => False

/-- All notifications of the run are unique ones. -/
structure UniqueAlg (a : Alg P M N E) (c : Cfg M N) : Prop where
  upd : ∀ v p es n i m, (a.onUpdate v p es n i m).2.Unique
  add : ∀ v p es i m, (a.onEdgeAdd v p es i m).2.Unique
  del : ∀ v p es ds m, (a.onEdgeDel v p es ds m).2.Unique
  init : ∀ v, c.initNote v = none

def Task.Unique : Task P M N E → Prop
  | .idle => True
  | .load _ h => ∀ p es m, (h p es m).2.Unique
  | .run _ q => q.Unique
  | .cas _ _ k => ∀ b, (k b).Unique
  | .put _ _ _ k => k.Unique

structure OneEach (c : Cfg M N) (s : St P M N E) : Prop where
  act : ∀ v, s.act v ≤ 1
  task : ∀ t, t < c.T → (s.task t).Unique

theorem oneEach_start (a : Alg P M N E) (c : Cfg M N) (es0 : Nat → List (Edge E)) : OneEach c (start a es0) := ⟨fun v => by simp [start], fun t _ => trivial⟩

theorem oneEach_upd {c : Cfg M N} {s s' : St P M N E} (hi : OneEach c s) (t : Nat) (x : Task P M N E) (h : s'.task = upd s.task t x) (hx : x.Unique) (ha : ∀ v, s'.act v ≤ 1) : OneEach c s' := by
  refine ⟨ha, ?_⟩
  intro u hu
  rw [h]
  by_cases e : u = t
  · rw [e, upd_same]; exact hx
  · rw [upd_ne _ _ e]; exact hi.task u hu

theorem oneEach_step {a : Alg P M N E} {c : Cfg M N} (hu : UniqueAlg a c) {s s' : St P M N E} {x : Act E} (hi : OneEach c s) (h : step a c s x = some s') : OneEach c s' := by
  cases x with
  | init t v =>
    simp only [step] at h
    split at h
    · split at h
      · split at h
        · simp only [Option.some.injEq] at h; subst h
          exact oneEach_upd hi t _ rfl (fun p es m => hu.upd v p es _ 0 m) hi.act
        · simp only [Option.some.injEq] at h; subst h
          exact ⟨hi.act, hi.task⟩
      · next hn => rw [hu.init v] at hn; cases hn
      · simp only [Option.some.injEq] at h; subst h
        exact ⟨hi.act, hi.task⟩
    · cases h
  | recv t v i =>
    simp only [step] at h
    split at h
    · cases hp : (s.pend v)[i]? with
      | none => rw [hp] at h; cases h
      | some n =>
        rw [hp] at h
        simp only [Option.some.injEq] at h; subst h
        refine oneEach_upd hi t _ rfl (fun p es m => hu.upd v p es n _ m) ?_
        intro u
        show upd s.act v _ u ≤ 1
        by_cases e : u = v
        · rw [e, upd_same]; have := hi.act v; omega
        · rw [upd_ne _ _ e]; exact hi.act u
    · cases h
  | add t v es =>
    simp only [step] at h
    split at h
    · simp only [Option.some.injEq] at h; subst h
      exact oneEach_upd hi t _ rfl (fun p es m => hu.add v p es _ m) hi.act
    · cases h
  | del t v keep =>
    simp only [step] at h
    split at h
    · simp only [Option.some.injEq] at h; subst h
      exact oneEach_upd hi t _ rfl (fun p es m => hu.del v p es _ m) hi.act
    · cases h
  | go t =>
    simp only [step] at h
    split at h
    · next ht =>
      have hk := hi.task t ht
      cases hq : s.task t with
      | idle => rw [hq] at h; cases h
      | load v f =>
        rw [hq] at h hk
        simp only [goStep, Option.some.injEq] at h; subst h
        exact oneEach_upd hi t _ rfl (hk _ _ _) hi.act
      | run v q =>
        rw [hq] at h hk
        cases q with
        | done =>
          simp only [goStep, Option.some.injEq] at h; subst h
          exact oneEach_upd hi t _ rfl trivial hi.act
        | post w m k =>
          simp only [goStep] at h
          split at h
          · simp only [Option.some.injEq] at h; subst h
            exact oneEach_upd hi t _ rfl hk hi.act
          · simp only [Option.some.injEq] at h; subst h
            exact oneEach_upd hi t _ rfl (hk false) hi.act
        | send w n k => exact absurd hk id
      | cas v w k =>
        rw [hq] at h hk
        simp only [goStep] at h
        split at h
        · simp only [Option.some.injEq] at h; subst h
          refine oneEach_upd hi t _ rfl (hk true) ?_
          intro u
          show upd s.act w 1 u ≤ 1
          by_cases e : u = w
          · rw [e, upd_same]; omega
          · rw [upd_ne _ _ e]; exact hi.act u
        · simp only [Option.some.injEq] at h; subst h
          exact oneEach_upd hi t _ rfl (hk false) hi.act
      | put v w n k =>
        rw [hq] at h hk
        simp only [goStep, Option.some.injEq] at h; subst h
        exact oneEach_upd hi t _ rfl hk hi.act
    · cases h

end Verif.Async
