import Verif.ColouringMsgInv
import Verif.ColouringConv

/-!
# Message-passing colouring: how long a run can go on

Only notes from vertices with priority can make a vertex give up its colour.
-/

namespace Verif.ColouringMsg

open Verif.Colouring (firstUnused prior prior_irrefl rank rank_lt)

/-- What giving up a colour can set off, for a vertex of rank `i`. -/
def renew (B : Nat) : Nat → Nat
  | 0 => 5 * B
  | i + 1 => (5 + renew B i) * B

theorem renew_mono (B : Nat) (i : Nat) : renew B i ≤ renew B (i + 1) := by
  induction i with
  | zero =>
    simp only [renew, Nat.add_mul]
    omega
  | succ i ih =>
    show (5 + renew B i) * B ≤ (5 + renew B (i + 1)) * B
    exact Nat.mul_le_mul_right B (by omega)

theorem renew_le (B : Nat) {i j : Nat} (h : i ≤ j) : renew B i ≤ renew B j := by
  induction h with
  | refl => exact Nat.le_refl _
  | step _ ih => exact ih.trans (renew_mono B _)

/-- Steps a note to `v` can set off. -/
def noteLeft (c : Cfg) (v : Nat) (n : Note) : Nat := 3 + if n.prio = true then renew c.es.length (rank c.n v) else 0

def listLeft (c : Cfg) (l : List (Nat × Note)) : Nat := (l.map fun x => 2 + noteLeft c x.1 x.2).sum

def taskLeft (c : Cfg) : Task → Nat
  | .idle => 0
  | .visit v n _ => noteLeft c v n - 1
  | .run _ l => 1 + listLeft c l
  | .put _ w n l => 2 + noteLeft c w n + listLeft c l

def vertexLeft (c : Cfg) (v : Nat) (colour : Nat) (q : List Note) : Nat :=
  (if colour = EMPTY then renew c.es.length (rank c.n v) else 0) + (q.map (noteLeft c v)).sum

/-- A bound on the steps left. -/
def stepsLeft (c : Cfg) (s : St) : Nat :=
  ∑ v ∈ Finset.range c.n, vertexLeft c v (s.vp v).colour (s.queue v) + ∑ t ∈ Finset.range c.T, taskLeft c (s.task t)

theorem sum_change {n v : Nat} (hv : v < n) (f g : Nat → Nat) (h : ∀ w, w ≠ v → g w = f w) : (∑ w ∈ Finset.range n, g w) + f v = (∑ w ∈ Finset.range n, f w) + g v := by
  have hm : v ∈ Finset.range n := Finset.mem_range.2 hv
  rw [← Finset.add_sum_erase _ _ hm, ← Finset.add_sum_erase (Finset.range n) f hm]
  have : (∑ w ∈ (Finset.range n).erase v, g w) = ∑ w ∈ (Finset.range n).erase v, f w := Finset.sum_congr rfl fun w hw => h w (Finset.ne_of_mem_erase hw)
  omega

theorem left_of {c : Cfg} {s s' : St} {t v : Nat} {k : Task} (ht : t < c.T) (hk : s'.task = upd s.task t k) (hv : v < c.n)
    (hoth : ∀ w, w ≠ v → (s'.vp w).colour = (s.vp w).colour ∧ s'.queue w = s.queue w)
    (hle : vertexLeft c v (s'.vp v).colour (s'.queue v) + taskLeft c k + 1 ≤ vertexLeft c v (s.vp v).colour (s.queue v) + taskLeft c (s.task t)) : stepsLeft c s' + 1 ≤ stepsLeft c s := by
  have h1 := sum_change hv (fun w => vertexLeft c w (s.vp w).colour (s.queue w)) (fun w => vertexLeft c w (s'.vp w).colour (s'.queue w)) fun w hw => by
    rw [(hoth w hw).1, (hoth w hw).2]
  have h2 := sum_change ht (fun t => taskLeft c (s.task t)) (fun t => taskLeft c (s'.task t)) fun w hw => by
    rw [hk, upd_ne _ _ hw]
  rw [hk, upd_same, ← hk] at h2
  unfold stepsLeft
  omega

theorem listLeft_le {c : Cfg} {X : Nat} : ∀ {l : List (Nat × Note)}, (∀ x ∈ l, 2 + noteLeft c x.1 x.2 ≤ X) → listLeft c l ≤ X * l.length
  | [], _ => Nat.le_refl _
  | x :: l, h => by
    have h1 := listLeft_le (l := l) fun y hy => h y (List.mem_cons_of_mem _ hy)
    have h2 := h x List.mem_cons_self
    unfold listLeft at *
    simp only [List.map_cons, List.sum_cons, List.length_cons, Nat.mul_add, Nat.mul_one]
    omega

/-- Taking a colour sets off no more than giving one up stands for. -/
theorem news_left {c : Cfg} (hg : Good c) (v col : Nat) : listLeft c (news c v col) ≤ renew c.es.length (rank c.n v) := by
  have hlen : (news c v col).length ≤ c.es.length := by
    unfold news
    rw [edges_eq hg, List.length_map, List.length_map]
    unfold links
    rw [List.length_map]
    exact List.length_filter_le _ _
  cases hr : rank c.n v with
  | zero =>
    have := listLeft_le (c := c) (X := 5) (l := news c v col) fun x hx => by
      obtain ⟨w, n⟩ := x
      obtain ⟨h1, h2, h3⟩ := (mem_news hg).1 hx
      unfold noteLeft
      rw [if_neg]
      intro hp
      rw [h3, not_prior (hg.loop _ h1)] at hp
      have := rank_lt (hg.vert _ h1).2 hp
      dsimp only at this
      omega
    exact this.trans (Nat.mul_le_mul_left 5 hlen)
  | succ i =>
    have := listLeft_le (c := c) (X := 5 + renew c.es.length i) (l := news c v col) fun x hx => by
      obtain ⟨w, n⟩ := x
      obtain ⟨h1, h2, h3⟩ := (mem_news hg).1 hx
      dsimp only
      unfold noteLeft
      split
      · next hp =>
        rw [h3, not_prior (hg.loop _ h1)] at hp
        have := rank_lt (hg.vert _ h1).2 hp
        dsimp only at this
        have := renew_le c.es.length (show rank c.n w ≤ i by omega)
        omega
      · omega
    exact this.trans (Nat.mul_le_mul_left _ hlen)

theorem left_step {c : Cfg} (hg : Good c) {s s' : St} (hi : Inv c s) (h : Step c s s') : stepsLeft c s' + 1 ≤ stepsLeft c s := by
  cases h with
  | @recv t v n q ht ho hk hq =>
    have hv := (hi.legit v n (by rw [hq]; exact List.mem_cons_self)).1
    refine left_of ht rfl hv (fun w hw => ⟨rfl, upd_ne _ _ hw⟩) ?_
    dsimp only
    rw [upd_same, hk, hq]
    simp only [vertexLeft, taskLeft, List.map_cons, List.sum_cons, noteLeft]
    omega
  | @visit t v n left p p' l ht hk hp hn hc =>
    have htk := hi.task t
    rw [hk] at htk
    refine left_of ht rfl htk.1 (fun w hw => ⟨by dsimp only; rw [upd_ne _ _ hw], rfl⟩) ?_
    dsimp only
    rw [upd_same, hk]
    simp only [vertexLeft, taskLeft, noteLeft]
    cases hc with
    | rest _ =>
      have : listLeft c [] = 0 := rfl
      rcases hn.col with h | h
      · rw [if_pos h.1, if_pos h.2]
        omega
      · rw [h]; omega
    | new he _ _ =>
      have h1 := news_left hg v (firstUnused (used p.scratch))
      have hne : firstUnused (used p.scratch) ≠ EMPTY := by
        have h1 := best_le p.scratch
        have h2 := hg.small v
        rw [hn.len, hi.len] at h1
        simp only [MAGIC, EMPTY] at *
        omega
      dsimp only
      rw [if_neg hne]
      rcases hn.col with h | h
      · rw [if_pos h.2]; omega
      · rw [if_pos (h.symm.trans he)]; omega
  | @fin t v ht hk =>
    have htk := hi.task t
    rw [hk] at htk
    refine left_of ht rfl htk.1 (fun w hw => ⟨rfl, rfl⟩) ?_
    dsimp only
    rw [hk]
    simp only [taskLeft]
    omega
  | @count t v w n l ht hk =>
    have htk := hi.task t
    rw [hk] at htk
    refine left_of ht rfl htk.1 (fun w hw => ⟨rfl, rfl⟩) ?_
    dsimp only
    rw [hk]
    simp only [taskLeft, listLeft, List.map_cons, List.sum_cons]
    omega
  | @put t v w n l ht hk =>
    have htk := hi.task t
    rw [hk] at htk
    have hw := (hg.vert _ (sending_mem hg htk List.mem_cons_self).1).2
    refine left_of ht rfl hw (fun x hx => ⟨rfl, upd_ne _ _ hx⟩) ?_
    dsimp only
    rw [hk, upd_same]
    simp only [vertexLeft, taskLeft, List.map_append, List.sum_append, List.map_cons, List.map_nil, List.sum_cons, List.sum_nil]
    omega

theorem left_run {c : Cfg} (hg : Good c) : ∀ (xs : List Act) (s s' : St), Inv c s → run c s xs = some s' → xs.length ≤ stepsLeft c s
  | [], s, s', hi, h => Nat.zero_le _
  | x :: xs, s, s', hi, h => by
    simp only [run, Option.bind_eq_some_iff] at h
    obtain ⟨s1, h1, h2⟩ := h
    have hs := step_cases hg hi h1
    have := left_run hg xs s1 s' (inv_of_step hg hi hs) h2
    have := left_step hg hi hs
    simp only [List.length_cons]
    omega

end Verif.ColouringMsg
