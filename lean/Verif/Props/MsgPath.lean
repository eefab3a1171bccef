import Verif.MsgPathInv
import Verif.Props.MinLabel

/-!
# Message-passing shortest paths (C43)

For every graph, every order of edge additions, every number of threads, every schedule and every order in
which a thread takes its notifications.
-/

namespace Verif.Props.MsgPath

open Verif Verif.Async Verif.MinLabel Verif.MsgPath Verif.Props.MinLabel

/-- **C43.** Once nothing is outstanding, a vertex holds distance `d` exactly if `d` is the least weight
of a walk from the source to it, and `EMPTY_VAL` exactly if there is no walk. -/
theorem C43_exact (c : Cfg Unit Dist) (src : Nat) (hc : ∀ v, c.initNote v = if v = src then some 0 else none) (hm : ∀ v, c.initMail v = none)
    {es0 : Nat → List (Edge ℚ)} (hes : ∀ v, es0 v ≠ [] → c.own v < c.T)
    (xs : List (Act ℚ)) (hx : NoDeletes xs) (s : St (VP Dist) Unit Dist ℚ) (h : run ssspm c (start ssspm es0) xs = some s) (hq : Quiet c s) (hsrc : s.inited src = true) (v : Nat) :
    ((s.prop v).value = ⊤ ↔ ¬ ∃ d, Walk s.edges src v d) ∧ ∀ d : ℚ, (s.prop v).value = (d : Dist) ↔ IsLeast {x | Walk s.edges src v x} d := by
  rw [ssspm_eq] at h
  obtain ⟨h1, h2⟩ := quiet_leastN hm (fun e a b hab => by exact add_le_add_left hab _) (fun e => by exact WithTop.top_add _) hes hx.addOnly h hq v
  refine least_walk ?_ ?_ h1 h2
  · intro v x hv
    unfold seedsN at hv
    split at hv
    · rw [hc] at hv
      split at hv
      · next e => exact ⟨e, by cases hv; rfl⟩
      · cases hv
    · cases hv
  · unfold seedsN
    rw [if_pos hsrc, hc, if_pos rfl]

/-- **C43.** Both versions end with the same distances, whatever the two schedules, thread counts and
orders of edges, as long as they end with the same edges. -/
theorem C43_agrees (c : Cfg Unit Dist) (c' : Cfg Dist Unit) (src : Nat)
    (hc : ∀ v, c.initNote v = if v = src then some 0 else none) (hm : ∀ v, c.initMail v = none) (hc' : ∀ v, c'.initMail v = if v = src then some 0 else none)
    {es0 es1 : Nat → List (Edge ℚ)} (hes : ∀ v, es0 v ≠ [] → c.own v < c.T) (hes' : ∀ v, es1 v ≠ [] → c'.own v < c'.T)
    (xs ys : List (Act ℚ)) (hx : NoDeletes xs) (hy : NoDeletes ys) (s : St (VP Dist) Unit Dist ℚ) (s' : St Dist Dist Unit ℚ)
    (h : run ssspm c (start ssspm es0) xs = some s) (h' : run sssp c' (start sssp es1) ys = some s') (hq : Quiet c s) (hq' : Quiet c' s')
    (hsrc : s.inited src = true) (hsrc' : s'.inited src = true) (he : ∀ v e, e ∈ s.edges v ↔ e ∈ s'.edges v) (v : Nat) :
    (s.prop v).value = s'.prop v := by
  have hw : ∀ v d, Walk s.edges src v d ↔ Walk s'.edges src v d := by
    intro v d
    constructor
    · intro hw
      induction hw with
      | here => exact .here _
      | step v d e _ hm ih => exact .step _ _ _ _ ih ((he _ _).1 hm)
    · intro hw
      induction hw with
      | here => exact .here _
      | step v d e _ hm ih => exact .step _ _ _ _ ih ((he _ _).2 hm)
  obtain ⟨a1, a2⟩ := C43_exact c src hc hm hes xs hx s h hq hsrc v
  obtain ⟨b1, b2⟩ := C31_exact c' src hc' hes' ys hy s' h' hq' hsrc' v
  simp only [hw] at a1 a2
  rcases hv : (s.prop v).value with _ | d
  · exact (b1.2 (a1.1 hv)).symm
  · exact ((b2 d).2 ((a2 d).1 hv)).symm

/-- **C43.** When nothing is outstanding, nothing is deferred: no vertex holds back an improvement. -/
theorem C43_nothing_deferred (c : Cfg Unit Dist) (hm : ∀ v, c.initMail v = none)
    {es0 : Nat → List (Edge ℚ)} (hes : ∀ v, es0 v ≠ [] → c.own v < c.T)
    (xs : List (Act ℚ)) (hx : NoDeletes xs) (s : St (VP Dist) Unit Dist ℚ) (h : run ssspm c (start ssspm es0) xs = some s) (hq : Quiet c s) (v : Nat) (hv : c.own v < c.T) :
    (s.prop v).willUpdate = false := by
  rw [ssspm_eq] at h
  exact quiet_will hm (fun e => by exact WithTop.top_add _) hes hx.addOnly h hq v hv

/-! ## Cases -/

theorem below_sendAll (n : Nat) : ∀ l : List (Nat × Dist), (∀ q ∈ l, q.1 < n) → (sendAll l : Prog Unit Dist).Below n
  | [], _ => trivial
  | (w, x) :: l, h => ⟨h (w, x) (by simp), below_sendAll n l (fun q hq => h q (by simp [hq]))⟩

theorem ssspm_local (n : Nat) : Local ssspm n := by
  refine ⟨?_, ?_, ?_⟩
  · intro v p es x i m hes
    simp only [ssspm, updateM]
    generalize (if p.value > x then ({ value := x, willUpdate := true } : VP Dist) else p) = q
    split
    · trivial
    · split
      · trivial
      · apply below_sendAll
        intro q hq
        obtain ⟨e, he, rfl⟩ := List.mem_map.1 hq
        exact hes e he
  · intro v p es i m hes
    simp only [ssspm, addM]
    split
    · trivial
    · apply below_sendAll
      intro q hq
      obtain ⟨e, he, rfl⟩ := List.mem_map.1 hq
      exact hes e (List.mem_of_mem_drop he)
  · intros; trivial

/-- Two threads, source 1. -/
def c43 : Cfg Unit Dist := { T := 2, own := fun v => v % 2, initMail := fun _ => none, initNote := fun v => if v = 1 then some 0 else none }

/-- 1→2 with weight 5 and weight 2, both sent before 2 looks (it takes the later one first and waits for the
other); then 2→0 (1). -/
def s43 : List (Act ℚ) :=
  [.init 1 1, .go 1, .go 1, .add 1 1 [⟨2, 5⟩, ⟨2, 2⟩], .go 1, .go 1, .recv 1 1 0, .go 1, .go 1, .go 1, .go 1, .go 1, .go 1,
   .recv 0 2 1, .go 0, .go 0, .add 0 2 [⟨0, 1⟩], .go 0, .go 0, .go 0, .go 0, .recv 0 2 0, .go 0, .go 0, .recv 0 0 0, .go 0, .go 0]

example : (run ssspm c43 (start ssspm) s43).map (fun s => ((s.prop 0).value, (s.prop 1).value, (s.prop 2).value)) =
    some (((3 : ℚ) : Dist), ((0 : ℚ) : Dist), ((2 : ℚ) : Dist)) := by decide +kernel

/-- Between the two receptions vertex 2 holds back its improvement; adding an edge releases it. -/
example : ((run ssspm c43 (start ssspm) (s43.take 16)).map (fun s => ((s.prop 2).willUpdate, s.act 2)),
    (run ssspm c43 (start ssspm) (s43.take 19)).map (fun s => (s.prop 2).willUpdate)) = (some (true, 1), some false) := by decide +kernel

/-- The hypotheses of `C43_exact` are met by this run. -/
example : ∃ s, run ssspm c43 (start ssspm) s43 = some s ∧ Quiet c43 s ∧ s.inited 1 = true ∧ NoDeletes s43 := by
  obtain ⟨s, h1, h2, -, h3⟩ := exists_quiet (c := c43) (n := 4) (ssspm_local 4) (xs := s43) (by decide) (fun s => s.inited 1) (by decide +kernel)
  exact ⟨s, h1, h2, h3, by simp [NoDeletes, s43]⟩

end Verif.Props.MsgPath
