import Verif.SyncLive

/-!
# How long a run can go on, from the start

As `work_bound`, for runs in which vertices are also given their initial mail.
-/

namespace Verif.Async

open Finset
open Verif.Sync (Plain uninited uninited_upd)

variable {P M N E : Type}

theorem inited_stays {a : Alg P M N E} {c : Cfg M N} {s s' : St P M N E} {x : Act E} (hx : x.work = true) (h : step a c s x = some s') :
    s'.inited = s.inited := by
  cases x with
  | init _ _ => cases hx
  | add _ _ _ => cases hx
  | del _ _ _ => cases hx
  | recv t v i =>
    simp only [step] at h
    repeat' split at h
    all_goals cases h
    rfl
  | go t =>
    simp only [step] at h
    unfold goStep at h
    simp only at h
    repeat' split at h
    all_goals cases h
    all_goals rfl

/-- What initialising a vertex does to the measure. -/
theorem work_init {a : Alg P M N E} {B n : Nat} {c : Cfg M N} {s s' : St P M N E} {t v : Nat} (hv : v < n)
    (h : step a c s (.init t v) = some s') :
    work B n c s' ≤ work B n c s + (B + 5) ∧ uninited n s'.inited + 1 = uninited n s.inited ∧ s'.edges = s.edges := by
  simp only [step] at h
  split at h
  · next hf =>
    obtain ⟨hfree, hin⟩ := hf
    obtain ⟨ht, -, hk⟩ := (free_iff c s t v).1 hfree
    have hun := uninited_upd hv hin
    have key : ∀ k : Task P M N E, k.cost B ≤ B + 5 → s'.pend = s.pend → s'.task = upd s.task t k → work B n c s' ≤ work B n c s + (B + 5) := by
      intro k hc h1 h2
      have hw := work_task (B := B) (n := n) ht h1 h2
      rw [hk, show (Task.idle : Task P M N E).cost B = 0 from rfl] at hw
      omega
    have same : s'.pend = s.pend → s'.task = s.task → work B n c s' ≤ work B n c s + (B + 5) := by
      intro h1 h2
      unfold work
      rw [h1, h2]
      exact Nat.le_add_right _ _
    repeat' split at h
    all_goals simp only [Option.some.injEq] at h
    · exact ⟨key (.load v fun p es m => a.onUpdate v p es a.noNote 0 m) (by simp only [Task.cost]; omega) (by rw [← h]) (by rw [← h]), by rw [← h]; exact hun, by rw [← h]⟩
    · exact ⟨same (by rw [← h]) (by rw [← h]), by rw [← h]; exact hun, by rw [← h]⟩
    · next n _ _ => exact ⟨key (.put v v n .done) (by simp only [Task.cost, Prog.len]; omega) (by rw [← h]) (by rw [← h]), by rw [← h]; exact hun, by rw [← h]⟩
    · exact ⟨same (by rw [← h]) (by rw [← h]), by rw [← h]; exact hun, by rw [← h]⟩
  · cases h

/-- A run ends if a natural number `R` goes down with every step that creates a notification, and never
goes up. -/
theorem plain_bound {a : Alg P M N E} {c : Cfg M N} {n B : Nat} (ha : Local a n) (I : St P M N E → Prop) (R : St P M N E → Nat)
    (hB : ∀ s, I s → Loads B s)
    (hI : ∀ s s' x, I s → Supp n s → Plain x → x.below n = true → step a c s x = some s' →
      I s' ∧ R s' + (if charged a s x = true then 1 else 0) ≤ R s) :
    ∀ {ys : List (Act E)} {s s' : St P M N E}, I s → Supp n s → (∀ y ∈ ys, Plain y ∧ y.below n = true) → run a c s ys = some s' →
      ys.length ≤ work B n c s + (B + 5) * R s + (B + 6) * uninited n s.inited
  | [], s, s', _, _, _, _ => Nat.zero_le _
  | y :: ys, s, s', hi, hs, hy, h => by
    simp only [run] at h
    obtain ⟨s1, h1, h2⟩ := Option.bind_eq_some_iff.1 h
    obtain ⟨hp, hb⟩ := hy y (by simp)
    obtain ⟨hi1, hR⟩ := hI s s1 y hi hs hp hb h1
    have ih := plain_bound ha I R hB hI hi1 (supp_step ha hb hs h1) (fun z hz => hy z (by simp [hz])) h2
    simp only [List.length_cons]
    have hwork : y.work = true → ys.length + 1 ≤ work B n c s + (B + 5) * R s + (B + 6) * uninited n s.inited := by
      intro hw
      have h3 := work_step hs (hB s hi) hw h1
      rw [inited_stays hw h1] at ih
      split at h3
      · next hc =>
        rw [if_pos hc] at hR
        have := Nat.mul_le_mul_left (B + 5) hR
        rw [Nat.mul_add] at this
        omega
      · next hc =>
        rw [if_neg hc] at hR
        have : (B + 5) * R s1 ≤ (B + 5) * R s := Nat.mul_le_mul_left _ (by omega)
        omega
    cases y with
    | add => exact hp.elim
    | del => exact hp.elim
    | recv => exact hwork rfl
    | go => exact hwork rfl
    | init t v =>
      obtain ⟨h3, h4, h5⟩ := work_init (B := B) (of_decide_eq_true hb : v < n) h1
      have : (B + 5) * R s1 ≤ (B + 5) * R s := Nat.mul_le_mul_left _ (by omega)
      rw [← h4, Nat.mul_add]
      omega

end Verif.Async
