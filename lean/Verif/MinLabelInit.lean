import Verif.MinLabelConv
import Verif.SyncLive

/-!
# Least labels from the start

The bound of `Verif/MinLabelConv.lean` for a run from the start, in which vertices are given their initial mail
at any time.
-/

namespace Verif.MinLabel

open Verif.Async Finset
open Verif.Sync (Plain uninited uninited_upd)

variable {L E : Type} [LinearOrder L] [OrderTop L]

theorem room_min {F : Finset L} {n v : Nat} {s s' : St L L Unit E} {m : L} (hb : s'.inbox = upd s.inbox v (min (s.inbox v) m)) :
    room F n s' ≤ room F n s := by
  unfold room
  rw [hb]
  refine sum_le_sum fun u _ => rank_mono F ?_
  by_cases e : u = v
  · rw [e, upd_same]; exact min_le_left _ _
  · rw [upd_ne _ _ e]

/-- What giving a vertex its initial mail does to the measures. -/
theorem init_step {f : E → L → L} {g : Bool} {c : Cfg L Unit} (hn : ∀ v, c.initNote v = none) {n B : Nat} {F : Finset L} {s s' : St L L Unit E}
    {t v : Nat} (hv : v < n) (h : step (minAlg f g) c s (.init t v) = some s') :
    work B n c s' ≤ work B n c s + (B + 2) ∧ room F n s' ≤ room F n s ∧ uninited n s'.inited + 1 = uninited n s.inited ∧ s'.edges = s.edges := by
  simp only [step] at h
  split at h
  · next hf =>
    obtain ⟨hfree, hin⟩ := hf
    obtain ⟨ht, -, hk⟩ := (free_iff c s t v).1 hfree
    have hun := uninited_upd hv hin
    cases hm : c.initMail v with
    | none =>
      rw [hm, hn v] at h
      simp only [Option.some.injEq] at h
      subst h
      exact ⟨Nat.le_add_right _ _, Nat.le_refl _, hun, rfl⟩
    | some m =>
      rw [hm, hn v] at h
      have hmg : ∀ x, (minAlg f g).merge m v x = (min x m, decide (m < x)) := fun _ => rfl
      simp only [hmg] at h
      split at h
      · simp only [Option.some.injEq] at h
        have hw := work_task (B := B) (n := n) (c := c) (s := s) (s' := s') ht (by rw [← h]) (by rw [← h])
        rw [hk] at hw
        simp only [Task.cost] at hw
        refine ⟨by omega, room_min (m := m) (v := v) (by rw [← h]), by rw [← h]; exact hun, by rw [← h]⟩
      · simp only [Option.some.injEq] at h
        refine ⟨?_, room_min (m := m) (v := v) (by rw [← h]), by rw [← h]; exact hun, by rw [← h]⟩
        subst h
        exact Nat.le_add_right _ _
  · cases h

/-- **The bound from the start**, on a graph loaded before where no edge lowers a label. -/
theorem converge_start (f : E → L → L) (g : Bool) (htop : ∀ e, f e ⊤ = ⊤) (c : Cfg L Unit) (hn : ∀ v, c.initNote v = none) (n : Nat)
    {es0 : Nat → List (Edge E)} (hown : ∀ v, es0 v ≠ [] → c.own v < c.T) (h1 : ∀ v, n ≤ v → es0 v = []) (h2 : ∀ v e, e ∈ es0 v → e.dst < n)
    (hinf : ∀ u e, e ∈ es0 u → ∀ x, x ≤ f e.data x) :
    ∃ B, ∀ ys s', (∀ y ∈ ys, Plain y ∧ Act.below n y = true) → run (minAlg f g) c (start (minAlg f g) es0) ys = some s' → ys.length ≤ B := by
  have hloc := minAlg_local f g n
  have hfin : (Values f es0 (fun v => if v < n then c.initMail v else none)).Finite := by
    refine values_finite f es0 _ (n := n) ?_ h2
    intro v x hv
    by_contra hnv
    simp [hnv] at hv
  let F := hfin.toFinset
  let B := 2 * ∑ u ∈ range n, (es0 u).length
  let I : St L L Unit E → Prop := fun r => MInv f c r ∧ TInv f c r ∧ OneEach c r ∧ Supp n r ∧ r.edges = es0
  have main : ∀ (ys : List (Act E)) (s s' : St L L Unit E), I s → (∀ y ∈ ys, Plain y ∧ Act.below n y = true) → run (minAlg f g) c s ys = some s' →
      ys.length ≤ work B n c s + (B + 5) * room F n s + (B + 3) * uninited n s.inited := by
    intro ys
    induction ys with
    | nil => intro s s' _ _ _; exact Nat.zero_le _
    | cons y ys ih =>
      intro s s' hI hy hr
      obtain ⟨hm, hi, ho, hs, he⟩ := hI
      simp only [run] at hr
      obtain ⟨s1, hs1, hr1⟩ := Option.bind_eq_some_iff.1 hr
      obtain ⟨hpl, hbe⟩ := hy y (by simp)
      have hadd : AddOnly y := by
        cases y with
        | add => trivial
        | del => exact hpl.elim
        | _ => trivial
      have hnext : s1.edges = s.edges → I s1 := fun hes =>
        ⟨mInv_step htop hadd hm hs1, tInv_step htop hadd (by rw [he]; exact hinf) hm hi hs1, oneEach_step (minAlg_uniqueAlg f g c hn) ho hs1,
          supp_step hloc hbe hs hs1, hes.trans he⟩
      have hlen := len_bound hs
      rw [he] at hlen
      have hwork : y.work = true → (y :: ys).length ≤ work B n c s + (B + 5) * room F n s + (B + 3) * uninited n s.inited := by
        intro hw
        have h3 := ih s1 s' (hnext (edges_work hw hs1)) (fun z hz => hy z (by simp [hz])) hr1
        have h4 := work_step (B := B) hs (fun t v k hk p m => by
          have := hi.short t
          rw [hk] at this
          have h5 := this p (s.edges v) m
          have := hlen v
          rw [he] at h5 ⊢
          omega) hw hs1
        have h6 := room_step (F := F) (n := n) (fun v y p hp => by
          refine hfin.mem_toFinset.2 ⟨v, p, hp.mono (by rw [he]; exact fun _ _ h => h) ?_⟩
          intro u x hu
          unfold seeds at hu
          by_cases hun : u < n
          · rw [if_pos hun]
            split at hu
            · exact hu
            · cases hu
          · rw [hs.inited u (Nat.le_of_not_lt hun)] at hu
            cases hu) hs hi ho hw hs1
        rw [inited_work hw hs1] at h3
        rw [List.length_cons]
        split at h4
        · next hc =>
          rw [if_pos hc] at h6
          have := Nat.mul_le_mul_left (B + 5) h6
          rw [Nat.mul_add] at this
          omega
        · next hc =>
          rw [if_neg hc] at h6
          have := Nat.mul_le_mul_left (B + 5) (show room F n s1 ≤ room F n s by omega)
          omega
      cases y with
      | add => exact hpl.elim
      | del => exact hpl.elim
      | recv => exact hwork rfl
      | go => exact hwork rfl
      | init t v =>
        obtain ⟨h3, h4, h5, h6⟩ := init_step (F := F) (B := B) hn (of_decide_eq_true hbe : v < n) hs1
        have h7 := ih s1 s' (hnext h6) (fun z hz => hy z (by simp [hz])) hr1
        have h8 := Nat.mul_le_mul_left (B + 5) h4
        rw [← h5, Nat.mul_add, List.length_cons]
        omega
  exact ⟨_, fun ys s' hy hr => main ys _ s' ⟨mInv_start f htop g c es0 hown, tInv_start f g c es0, oneEach_start _ c es0, supp_loaded _ n es0 h1 h2, rfl⟩ hy hr⟩

end Verif.MinLabel
