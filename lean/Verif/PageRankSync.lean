import Verif.PageRankInv
import Verif.SyncSim

/-!
# Synchronous PageRank leaves no large mailbox behind

A mailbox over the threshold belongs to a vertex that is active, about to be activated, or about to be visited.
-/

namespace Verif.PageRank

open Verif.Async (Task Edge Alg)
open Verif.Sync

variable {E : Type}

/-- The task is about to activate `v` or read the mail of `v`. -/
def wants (v : Nat) : Task PR ℚ Unit E → Bool
  | .load w _ => w = v
  | .cas _ w _ => w = v
  | _ => false

/-- Mailboxes over the threshold are looked after. -/
def Cared (ε : ℚ) (c : Sync.Cfg ℚ) (s : Sync.St PR ℚ Unit E) : Prop :=
  ∀ v, ε < |s.inbox v| → s.act v = 1 ∨ ∃ t, t < c.T ∧ wants v (s.task t) = true

variable {d ε : ℚ} {c : Sync.Cfg ℚ} {s s' : Sync.St PR ℚ Unit E}

/-- A step that changes the task of `t`. -/
theorem cared_upd (h : Cared ε c s) (t : Nat) (k : Task PR ℚ Unit E) (hk : s'.task = upd s.task t k)
    (hv : ∀ v, ε < |s'.inbox v| → (ε < |s.inbox v| ∨ (t < c.T ∧ wants v k = true)) ∧ (s.act v = 1 → s'.act v = 1 ∨ (t < c.T ∧ wants v k = true)) ∧
      (wants v (s.task t) = true → s'.act v = 1 ∨ (t < c.T ∧ wants v k = true))) : Cared ε c s' := by
  intro v hb
  obtain ⟨h1, h2, h3⟩ := hv v hb
  have new : t < c.T ∧ wants v k = true → ∃ u, u < c.T ∧ wants v (s'.task u) = true := fun ⟨ht, hw⟩ => ⟨t, ht, by rw [hk, upd_same]; exact hw⟩
  rcases h1 with h1 | h1
  · rcases h v h1 with h4 | ⟨u, hu, hw⟩
    · exact (h2 h4).imp id new
    · by_cases e : u = t
      · subst e; exact (h3 hw).imp id new
      · exact .inr ⟨u, hu, by rw [hk, upd_ne _ _ e]; exact hw⟩
  · exact .inr (new h1)

/-- What merging does to sizes. -/
theorem merge_over {m b : ℚ} (hne : |b| ≠ ε) (h : ε < |(merge ε m b).1|) (hn : (merge ε m b).2 = false) : ε < |b| := by
  simp only [merge, Bool.and_eq_false_iff, decide_eq_false_iff_not, not_lt] at h hn
  rcases hn with hn | hn
  · exact lt_of_le_of_ne hn (Ne.symm hne)
  · exact absurd h (not_lt.2 hn)

theorem cared_step (hε : 0 ≤ ε) (hact : ∀ v, s.act v = 0 ∨ s.act v = 1) (huniq : ∀ t, (s.task t).Unique) (hne : ∀ v, |s.inbox v| ≠ ε) (h : Cared ε c s) {x : Act}
    (hs : step (alg d ε) c s x = some s') : Cared ε c s' := by
  have hz : ¬ ε < |(0 : ℚ)| := by rw [abs_zero]; exact not_lt.2 hε
  cases x with
  | barrier =>
    have e1 : s'.inbox = s.inbox := by sync_cases hs <;> rfl
    have e2 : s'.act = s.act := by sync_cases hs <;> rfl
    have e3 : s'.task = s.task := by sync_cases hs <;> rfl
    unfold Cared
    rw [e1, e2, e3]
    exact h
  | init t v =>
    simp only [step] at hs
    split at hs
    · next hg =>
      obtain ⟨-, ht, -, -, hi, -⟩ := hg
      have hidle : s.task t = .idle := (isIdle_iff _).1 hi
      split at hs
      · next m hm =>
        have hmm : (alg d ε : Alg PR ℚ Unit E).merge m v (s.inbox v) = merge ε m (s.inbox v) := rfl
        rw [hmm] at hs
        split at hs
        · next hr =>
          simp only [Option.some.injEq] at hs
          subst hs
          refine cared_upd h t (.load v fun p es m => onUpdate d ε p es m) rfl fun u hu => ?_
          rw [hidle]
          refine ⟨?_, fun e => .inl e, fun e => by simp [wants] at e⟩
          by_cases e : u = v
          · exact .inr ⟨ht, by simp [wants, e]⟩
          · left; simpa only [upd_ne _ _ e] using hu
        · next hr =>
          simp only [Option.some.injEq] at hs
          subst hs
          intro u hu
          by_cases e : u = v
          · subst e
            simp only [upd_same] at hu
            exact h u (merge_over (hne u) hu (by simpa using hr))
          · simp only [upd_ne _ _ e] at hu
            exact h u hu
      · simp only [Option.some.injEq] at hs; subst hs; exact h
    · cases hs
  | scan t =>
    simp only [step] at hs
    split at hs
    · next hg =>
      obtain ⟨ht, hi⟩ := hg
      have hidle : s.task t = .idle := (isIdle_iff _).1 hi
      split at hs
      · cases hs
      · next v hv =>
        split at hs
        · split at hs
          · simp only [Option.some.injEq] at hs
            subst hs
            intro u hu
            by_cases e : u = v
            · subst e
              simp only [upd_same] at hu
              exact absurd hu hz
            · simp only [upd_ne _ _ e] at hu ⊢
              exact h u hu
          · next hn =>
            simp only [Option.some.injEq] at hs
            subst hs
            have h0 : s.act v = 0 := (hact v).resolve_right hn
            intro u hu
            have : (upd s.act v 0) = s.act := Sync.upd_self _ _ _ h0
            show upd s.act v 0 u = 1 ∨ _
            rw [this]
            exact h u hu
        · split at hs
          · split at hs
            · simp only [Option.some.injEq] at hs
              subst hs
              refine cared_upd h t _ rfl fun u hu => ?_
              rw [hidle]
              exact ⟨.inl hu, fun e => .inl e, fun e => by simp [wants] at e⟩
            · simp only [Option.some.injEq] at hs
              subst hs
              exact h
          · split at hs
            · simp only [Option.some.injEq] at hs
              subst hs
              refine cared_upd h t (.load v fun p es m => onUpdate d ε p es m) rfl fun u hu => ?_
              rw [hidle]
              refine ⟨.inl hu, fun e => ?_, fun e => by simp [wants] at e⟩
              by_cases e' : u = v
              · exact .inr ⟨ht, by simp [wants, e']⟩
              · left; simpa only [upd_ne _ _ e'] using e
            · next hn =>
              simp only [Option.some.injEq] at hs
              subst hs
              have h0 : s.act v = 0 := (hact v).resolve_right hn
              intro u hu
              have : (upd s.act v 0) = s.act := Sync.upd_self _ _ _ h0
              show upd s.act v 0 u = 1 ∨ _
              rw [this]
              exact h u hu
        · cases hs
    · cases hs
  | go t =>
    simp only [step] at hs
    split at hs
    · next ht =>
      cases hk : s.task t with
      | idle => rw [hk] at hs; cases hs
      | load v g =>
        rw [hk] at hs
        simp only [goStep, Option.some.injEq] at hs
        subst hs
        refine cared_upd h t _ rfl fun u hu => ?_
        rw [hk]
        by_cases e : u = v
        · subst e
          simp only [upd_same] at hu
          exact absurd hu hz
        · simp only [upd_ne _ _ e] at hu
          exact ⟨.inl hu, fun e => .inl e, fun e' => absurd (of_decide_eq_true e').symm e⟩
      | run v q =>
        rw [hk] at hs
        cases q with
        | done =>
          simp only [goStep, Option.some.injEq] at hs
          subst hs
          refine cared_upd h t _ rfl fun u hu => ?_
          rw [hk]
          exact ⟨.inl hu, fun e => .inl e, fun e => by simp [wants] at e⟩
        | post w m k =>
          have hmm : (alg d ε : Alg PR ℚ Unit E).merge m v (s.inbox w) = merge ε m (s.inbox w) := rfl
          simp only [goStep] at hs
          rw [hmm] at hs
          split at hs
          · simp only [Option.some.injEq] at hs
            subst hs
            refine cared_upd h t (.cas v w k) rfl fun u hu => ?_
            rw [hk]
            refine ⟨?_, fun e => .inl e, fun e => by simp [wants] at e⟩
            by_cases e : u = w
            · exact .inr ⟨ht, by simp [wants, e]⟩
            · left; simpa only [upd_ne _ _ e] using hu
          · next hr =>
            simp only [Option.some.injEq] at hs
            subst hs
            refine cared_upd h t _ rfl fun u hu => ?_
            rw [hk]
            refine ⟨.inl ?_, fun e => .inl e, fun e => by simp [wants] at e⟩
            by_cases e : u = w
            · subst e
              simp only [upd_same] at hu
              exact merge_over (hne u) hu (by simpa using hr)
            · simpa only [upd_ne _ _ e] using hu
        | send w m k =>
          have := huniq t
          rw [hk] at this
          exact this.elim
      | cas v w k =>
        rw [hk] at hs
        simp only [goStep] at hs
        split at hs
        · simp only [Option.some.injEq] at hs
          subst hs
          refine cared_upd h t _ rfl fun u hu => ?_
          rw [hk]
          refine ⟨.inl hu, fun e => .inl ?_, fun e => .inl ?_⟩
          · by_cases e' : u = w
            · subst e'; simp only [upd_same]
            · simpa only [upd_ne _ _ e'] using e
          · rw [← of_decide_eq_true e]; simp only [upd_same]
        · next hn =>
          simp only [Option.some.injEq] at hs
          subst hs
          refine cared_upd h t _ rfl fun u hu => ?_
          rw [hk]
          refine ⟨.inl hu, fun e => .inl e, fun e => .inl ?_⟩
          rw [← of_decide_eq_true e]
          exact (hact w).resolve_left hn
      | put v w m k =>
        rw [hk] at hs
        simp only [goStep] at hs
        split at hs
        · simp only [Option.some.injEq] at hs
          subst hs
          refine cared_upd h t _ rfl fun u hu => ?_
          rw [hk]
          exact ⟨.inl hu, fun e => .inl e, fun e => by simp [wants] at e⟩
        · cases hs
    · cases hs

/-- `Q` holds in every state a synchronous run passes. -/
def AlwaysSync (a : Alg PR ℚ Unit E) (c : Sync.Cfg ℚ) (Q : Sync.St PR ℚ Unit E → Prop) (s : Sync.St PR ℚ Unit E) (xs : List Act) : Prop :=
  ∀ ys zs s', xs = ys ++ zs → Sync.run a c s ys = some s' → Q s'

theorem cared_run (hu : ∀ v p es n i m, ((alg d ε : Alg PR ℚ Unit E).onUpdate v p es n i m).2.Unique) (hc : c.Ok) (hε : 0 ≤ ε) : ∀ (xs : List Act) (s : Sync.St PR ℚ Unit E),
    AlwaysSync (alg d ε) c (fun s => ∀ v, |s.inbox v| ≠ ε) s xs → Inv c s → Cared ε c s → run (alg d ε) c s xs = some s' → Inv c s' ∧ Cared ε c s'
  | [], s, _, hi, h, hr => by simp only [run, Option.some.injEq] at hr; subst hr; exact ⟨hi, h⟩
  | x :: xs, s, ha, hi, h, hr => by
    simp only [run] at hr
    obtain ⟨s1, hs, hr⟩ := Option.bind_eq_some_iff.1 hr
    refine cared_run hu hc hε xs s1 ?_ (inv_step hu hc hi hs) (cared_step hε hi.act hi.uniq (ha [] (x :: xs) s rfl rfl) h hs) hr
    intro ys zs s2 he hr2
    exact ha (x :: ys) zs s2 (by rw [he]; rfl) (by simp only [run]; rw [hs]; exact hr2)

theorem unique_shareAll : ∀ l, (shareAll l).Unique
  | [] => trivial
  | (_, _) :: l => fun _ => unique_shareAll l

theorem alg_unique (d ε : ℚ) : ∀ v p es n i m, ((alg d ε : Alg PR ℚ Unit E).onUpdate v p es n i m).2.Unique := by
  intro v p es n i m
  simp only [alg, onUpdate]
  split
  · simp only
    split
    · exact unique_shareAll _
    · trivial
  · trivial

end Verif.PageRank
