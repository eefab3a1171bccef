import Verif.AsyncSupport

/-!
# Runs that repeat

To show that a run can go on for ever: a piece of schedule that leads back to the same state, apart from the log,
can be repeated.
-/

namespace Verif.Async

variable {P M N E : Type}

/-- The log only records. -/
theorem step_log (a : Alg P M N E) (c : Cfg M N) {s s' : St P M N E} {x : Act E} (h : step a c s x = some s') (l : List Note) :
    ∃ l', step a c { s with log := l } x = some { s' with log := l' } := by
  have hfree : ∀ t v, free c { s with log := l } t v = free c s t v := fun _ _ => rfl
  cases x with
  | init t v =>
    simp only [step] at h ⊢
    rw [hfree]
    split at h
    · next hf =>
      rw [if_pos hf]
      split at h
      · next m hm =>
        split at h
        · next hn => rw [if_pos hn]; simp only [Option.some.injEq] at h; subst h; exact ⟨_, rfl⟩
        · next hn => rw [if_neg hn]; simp only [Option.some.injEq] at h; subst h; exact ⟨_, rfl⟩
      · simp only [Option.some.injEq] at h; subst h; exact ⟨_, rfl⟩
      · simp only [Option.some.injEq] at h; subst h; exact ⟨_, rfl⟩
    · cases h
  | recv t v i =>
    simp only [step] at h ⊢
    rw [hfree]
    split at h
    · next hf =>
      rw [if_pos hf]
      split at h
      · cases h
      · simp only [Option.some.injEq] at h; subst h; exact ⟨_, rfl⟩
    · cases h
  | add t v es =>
    simp only [step] at h ⊢
    rw [hfree]
    split at h
    · next hf => rw [if_pos hf]; simp only [Option.some.injEq] at h; subst h; exact ⟨_, rfl⟩
    · cases h
  | del t v keep =>
    simp only [step] at h ⊢
    rw [hfree]
    split at h
    · next hf => rw [if_pos hf]; simp only [Option.some.injEq] at h; subst h; exact ⟨_, rfl⟩
    · cases h
  | go t =>
    simp only [step] at h ⊢
    split at h
    · next ht =>
      rw [if_pos ht]
      cases hk : s.task t with
      | idle => rw [hk] at h; cases h
      | load v f => rw [hk] at h; simp only [goStep, Option.some.injEq] at h ⊢; subst h; exact ⟨_, rfl⟩
      | run v q =>
        rw [hk] at h
        cases q with
        | done => simp only [goStep, Option.some.injEq] at h ⊢; subst h; exact ⟨_, rfl⟩
        | post w m k =>
          simp only [goStep] at h ⊢
          split at h
          · next hn => rw [if_pos hn]; simp only [Option.some.injEq] at h; subst h; exact ⟨_, rfl⟩
          · next hn => rw [if_neg hn]; simp only [Option.some.injEq] at h; subst h; exact ⟨_, rfl⟩
        | send w y k => simp only [goStep, Option.some.injEq] at h ⊢; subst h; exact ⟨_, rfl⟩
      | cas v w k =>
        rw [hk] at h
        simp only [goStep] at h ⊢
        split at h
        · next hn => rw [if_pos hn]; simp only [Option.some.injEq] at h; subst h; exact ⟨_, rfl⟩
        · next hn => rw [if_neg hn]; simp only [Option.some.injEq] at h; subst h; exact ⟨_, rfl⟩
      | put v w y k => rw [hk] at h; simp only [goStep, Option.some.injEq] at h ⊢; subst h; exact ⟨_, rfl⟩
    · cases h

theorem run_log (a : Alg P M N E) (c : Cfg M N) : ∀ (xs : List (Act E)) {s s' : St P M N E}, run a c s xs = some s' → ∀ l, ∃ l', run a c { s with log := l } xs = some { s' with log := l' }
  | [], s, s', h, l => by simp only [run, Option.some.injEq] at h; subst h; exact ⟨l, rfl⟩
  | x :: xs, s, s', h, l => by
    simp only [run] at h ⊢
    obtain ⟨s1, h1, h2⟩ := Option.bind_eq_some_iff.1 h
    obtain ⟨l1, h3⟩ := step_log a c h1 l
    obtain ⟨l2, h4⟩ := run_log a c xs h2 l1
    exact ⟨l2, by rw [h3]; exact h4⟩

theorem run_app (a : Alg P M N E) (c : Cfg M N) : ∀ (xs ys : List (Act E)) (s : St P M N E), run a c s (xs ++ ys) = (run a c s xs).bind fun s' => run a c s' ys
  | [], _, _ => rfl
  | x :: xs, ys, s => by
    simp only [List.cons_append, run]
    cases step a c s x with
    | none => rfl
    | some s1 => exact run_app a c xs ys s1

/-- What leads back can be repeated. -/
theorem pump (a : Alg P M N E) (c : Cfg M N) {ys : List (Act E)} {s : St P M N E} (h : ∃ l, run a c s ys = some { s with log := l }) :
    ∀ k, ∃ l, run a c s (List.replicate k ys).flatten = some { s with log := l }
  | 0 => ⟨s.log, rfl⟩
  | k + 1 => by
    obtain ⟨l, h1⟩ := h
    obtain ⟨l1, h2⟩ := pump a c ⟨l, h1⟩ k
    obtain ⟨l2, h3⟩ := run_log a c _ h2 l
    refine ⟨l2, ?_⟩
    rw [List.replicate_succ, List.flatten_cons, run_app, h1]
    exact h3

/-- Callbacks are about to run for vertices below `n`, and only threads below `T` do anything. -/
structure Still (n : Nat) (c : Cfg M N) (s : St P M N E) : Prop where
  load : ∀ t v h, s.task t = .load v h → v < n
  idle : ∀ t, c.T ≤ t → s.task t = .idle

/-- Two states agree on vertices from `n` on. -/
def Agree (n : Nat) (s s' : St P M N E) : Prop := ∀ v, n ≤ v → s'.prop v = s.prop v ∧ s'.inbox v = s.inbox v ∧ s'.act v = s.act v

theorem still_step {a : Alg P M N E} {c : Cfg M N} {n : Nat} {s s' : St P M N E} {x : Act E} (hx : x.below n = true) (hs : Supp n s) (hi : Still n c s) (h : step a c s x = some s') :
    Still n c s' ∧ Agree n s s' := by
  have key : ∀ (t : Nat) (k : Task P M N E), t < c.T → s'.task = upd s.task t k → (∀ v h, k = .load v h → v < n) → Still n c s' := by
    intro t k ht h1 h2
    refine ⟨fun u v f hu => ?_, fun u hu => ?_⟩
    · rw [h1] at hu
      by_cases e : u = t
      · rw [e, upd_same] at hu; exact h2 v f hu
      · rw [upd_ne _ _ e] at hu; exact hi.load u v f hu
    · rw [h1, upd_ne _ _ (by omega)]; exact hi.idle u hu
  have ne : ∀ {α : Type} (g : Nat → α) (w : Nat) (y : α), w < n → ∀ v, n ≤ v → upd g w y v = g v := fun g w y hw v hv => upd_ne _ _ (by omega)
  cases x with
  | init t v =>
    have hv : v < n := of_decide_eq_true hx
    simp only [step] at h
    split at h
    · next hf =>
      obtain ⟨ht, -, hk⟩ := (free_iff c s t v).1 hf.1
      repeat' split at h
      all_goals simp only [Option.some.injEq] at h
      · refine ⟨key t (.load v fun p es m => a.onUpdate v p es a.noNote 0 m) ht (by rw [← h]) (fun w f e => by injection e with e1; omega), fun w hw => ?_⟩
        rw [← h]; exact ⟨rfl, ne _ _ _ hv w hw, rfl⟩
      · exact ⟨⟨by rw [← h]; exact hi.load, by rw [← h]; exact hi.idle⟩, fun w hw => by rw [← h]; exact ⟨rfl, ne _ _ _ hv w hw, rfl⟩⟩
      · next y _ _ =>
        refine ⟨key t (.put v v y .done) ht (by rw [← h]) (fun w f e => by cases e), fun w hw => ?_⟩
        rw [← h]; exact ⟨rfl, rfl, ne _ _ _ hv w hw⟩
      · exact ⟨⟨by rw [← h]; exact hi.load, by rw [← h]; exact hi.idle⟩, fun w hw => by rw [← h]; exact ⟨rfl, rfl, rfl⟩⟩
    · cases h
  | recv t v i =>
    simp only [step] at h
    split at h
    · next hf =>
      obtain ⟨ht, -, hk⟩ := (free_iff c s t v).1 hf
      split at h
      · cases h
      · next y hp =>
        have hv : v < n := by
          by_contra hn
          rw [hs.pend v (Nat.le_of_not_lt hn)] at hp
          simp at hp
        simp only [Option.some.injEq] at h
        refine ⟨key t (.load v fun p es m => a.onUpdate v p es y (s.act v - 1) m) ht (by rw [← h]) (fun w f e => by injection e with e1; omega), fun w hw => ?_⟩
        rw [← h]; exact ⟨rfl, rfl, ne _ _ _ hv w hw⟩
    · cases h
  | add t v es =>
    simp only [Act.below, Bool.and_eq_true, decide_eq_true_eq] at hx
    simp only [step] at h
    split at h
    · next hf =>
      obtain ⟨ht, -, hk⟩ := (free_iff c s t v).1 hf.1
      simp only [Option.some.injEq] at h
      refine ⟨key t (.load v fun p es m => a.onEdgeAdd v p es (s.edges v).length m) ht (by rw [← h]) (fun w f e => by injection e with e1; omega), fun w hw => ?_⟩
      rw [← h]; exact ⟨rfl, rfl, rfl⟩
    · cases h
  | del t v keep =>
    have hv : v < n := of_decide_eq_true hx
    simp only [step] at h
    split at h
    · next hf =>
      obtain ⟨ht, -, hk⟩ := (free_iff c s t v).1 hf
      simp only [Option.some.injEq] at h
      refine ⟨key t (.load v fun p es m => a.onEdgeDel v p es (select keep (s.edges v)).2 m) ht (by rw [← h]) (fun w f e => by injection e with e1; omega), fun w hw => ?_⟩
      rw [← h]; exact ⟨rfl, rfl, rfl⟩
    · cases h
  | go t =>
    simp only [step] at h
    split at h
    · next ht =>
      have hb := hs.task t
      cases hk : s.task t with
      | idle => rw [hk] at h; cases h
      | load v f =>
        have hv := hi.load t v f hk
        rw [hk] at h; simp only [goStep, Option.some.injEq] at h
        exact ⟨key t _ ht (by rw [← h]) (fun w f e => by cases e), fun w hw => by rw [← h]; exact ⟨ne _ _ _ hv w hw, ne _ _ _ hv w hw, rfl⟩⟩
      | run v q =>
        rw [hk] at h hb
        cases q with
        | done => simp only [goStep, Option.some.injEq] at h; exact ⟨key t .idle ht (by rw [← h]) (fun w f e => by cases e), fun w hw => by rw [← h]; exact ⟨rfl, rfl, rfl⟩⟩
        | post w m k =>
          simp only [goStep] at h
          split at h
          all_goals simp only [Option.some.injEq] at h
          · exact ⟨key t (.cas v w k) ht (by rw [← h]) (fun w f e => by cases e), fun u hu => by rw [← h]; exact ⟨rfl, ne _ _ _ hb.1 u hu, rfl⟩⟩
          · exact ⟨key t (.run v (k false)) ht (by rw [← h]) (fun w f e => by cases e), fun u hu => by rw [← h]; exact ⟨rfl, ne _ _ _ hb.1 u hu, rfl⟩⟩
        | send w y k =>
          simp only [goStep, Option.some.injEq] at h
          exact ⟨key t (.put v w y k) ht (by rw [← h]) (fun w f e => by cases e), fun u hu => by rw [← h]; exact ⟨rfl, rfl, ne _ _ _ hb.1 u hu⟩⟩
      | cas v w k =>
        rw [hk] at h hb
        simp only [goStep] at h
        split at h
        all_goals simp only [Option.some.injEq] at h
        · exact ⟨key t (.put v w a.noNote (k true)) ht (by rw [← h]) (fun w f e => by cases e), fun u hu => by rw [← h]; exact ⟨rfl, rfl, ne _ _ _ hb.1 u hu⟩⟩
        · exact ⟨key t (.run v (k false)) ht (by rw [← h]) (fun w f e => by cases e), fun u hu => by rw [← h]; exact ⟨rfl, rfl, rfl⟩⟩
      | put v w y k =>
        rw [hk] at h
        simp only [goStep, Option.some.injEq] at h
        exact ⟨key t (.run v k) ht (by rw [← h]) (fun w f e => by cases e), fun u hu => by rw [← h]; exact ⟨rfl, rfl, rfl⟩⟩
    · cases h

theorem still_run {a : Alg P M N E} {c : Cfg M N} {n : Nat} (ha : Local a n) : ∀ (xs : List (Act E)) {s s' : St P M N E}, (∀ x ∈ xs, x.below n = true) → Supp n s → Still n c s →
    run a c s xs = some s' → Supp n s' ∧ Still n c s' ∧ Agree n s s'
  | [], s, s', _, hs, hi, h => by simp only [run, Option.some.injEq] at h; subst h; exact ⟨hs, hi, fun _ _ => ⟨rfl, rfl, rfl⟩⟩
  | x :: xs, s, s', hx, hs, hi, h => by
    simp only [run] at h
    obtain ⟨s1, h1, h2⟩ := Option.bind_eq_some_iff.1 h
    obtain ⟨hi1, ha1⟩ := still_step (hx x (by simp)) hs hi h1
    obtain ⟨hs2, hi2, ha2⟩ := still_run ha xs (fun y hy => hx y (by simp [hy])) (supp_step ha (hx x (by simp)) hs h1) hi1 h2
    exact ⟨hs2, hi2, fun v hv => ⟨(ha2 v hv).1.trans (ha1 v hv).1, (ha2 v hv).2.1.trans (ha1 v hv).2.1, (ha2 v hv).2.2.trans (ha1 v hv).2.2⟩⟩

/-- What can be seen of a state from the vertices below `n`. -/
def seen (n : Nat) (s : St P M N E) : List (P × List (Edge E) × M) := (List.range n).map fun v => (s.prop v, s.edges v, s.inbox v)

def waits (n : Nat) (s : St P M N E) : List (Int × List N × Bool) := (List.range n).map fun v => (s.act v, s.pend v, s.inited v)

/-- Between callbacks, states that look the same are the same, apart from the log. -/
theorem eq_of_seen {n : Nat} {c : Cfg M N} {s s' : St P M N E} (hs : Supp n s) (hs' : Supp n s') (hi : Still n c s) (hi' : Still n c s') (hag : Agree n s s')
    (hk : ∀ t, t < c.T → s.task t = .idle) (hk' : ∀ t, t < c.T → s'.task t = .idle) (h : seen n s' = seen n s) (hw : waits n s' = waits n s) : s' = { s with log := s'.log } := by
  have hv : ∀ v, v < n → (s'.prop v, s'.edges v, s'.inbox v) = (s.prop v, s.edges v, s.inbox v) := fun v hv => List.map_inj_left.1 h v (List.mem_range.2 hv)
  have hv' : ∀ v, v < n → (s'.act v, s'.pend v, s'.inited v) = (s.act v, s.pend v, s.inited v) := fun v hv => List.map_inj_left.1 hw v (List.mem_range.2 hv)
  simp only [Prod.mk.injEq] at hv hv'
  have ht : ∀ t, s'.task t = s.task t := by
    intro t
    by_cases e : t < c.T
    · rw [hk t e, hk' t e]
    · rw [hi.idle t (by omega), hi'.idle t (by omega)]
  cases s with
  | mk p1 p2 p3 p4 p5 p6 p7 p8 =>
    cases s' with
    | mk q1 q2 q3 q4 q5 q6 q7 q8 =>
      simp only [St.mk.injEq]
      refine ⟨?_, ?_, ?_, ?_, ?_, ?_, funext ht, trivial⟩
      all_goals
        funext v
        by_cases e : v < n
        · first
          | exact (hv v e).1
          | exact (hv v e).2.1
          | exact (hv v e).2.2
          | exact (hv' v e).1
          | exact (hv' v e).2.1
          | exact (hv' v e).2.2
        · first
          | exact (hag v (by omega)).1
          | exact (hag v (by omega)).2.1
          | exact (hag v (by omega)).2.2
          | exact (hs'.edges v (by omega)).trans (hs.edges v (by omega)).symm
          | exact (hs'.pend v (by omega)).trans (hs.pend v (by omega)).symm
          | exact (hs'.inited v (by omega)).trans (hs.inited v (by omega)).symm

end Verif.Async
