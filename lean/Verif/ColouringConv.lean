import Verif.Downhill
import Verif.MinLabelConv
import Verif.ColouringInv
import Verif.PageRankInv

/-!
# Colouring: how long a run can go on

Mail is news only to vertices of lower priority, so `Verif/Downhill.lean` applies to graphs without self loops.
-/

namespace Verif.Colouring

open Verif.Async Verif.MinLabel

abbrev St' := St Nat Mail Unit Nat

/-- Mail names the mailbox it is for. -/
def Addressed (w : Nat) (m : Mail) : Prop := m.box = w

theorem prior_trans {u v w : Nat} (h1 : prior u v = true) (h2 : prior v w = true) : prior u w = true := by
  unfold prior comparePriority at *
  simp only [Bool.or_eq_true, Bool.and_eq_true, decide_eq_true_eq] at *
  omega

/-- The number of vertices that a vertex has priority over. -/
def rank (n v : Nat) : Nat := ((Finset.range n).filter fun w => prior v w = true).card

theorem rank_lt {n v w : Nat} (hw : w < n) (h : prior v w = true) : rank n w < rank n v := by
  apply Finset.card_lt_card
  refine ⟨fun x hx => ?_, fun hs => ?_⟩
  · rw [Finset.mem_filter] at hx ⊢
    exact ⟨hx.1, prior_trans h hx.2⟩
  · have := hs (Finset.mem_filter.2 ⟨Finset.mem_range.2 hw, h⟩)
    rw [Finset.mem_filter, prior_irrefl] at this
    exact absurd this.2 (by decide)

/-- News goes to lower priority, or to the sender. -/
theorem news_down {n v w : Nat} {m x : Mail} (hw : w < n) (hm : Addressed w m) (h : (colouring.merge m v x).2 = true) : w = v ∨ rank n w < rank n v := by
  by_cases e : w = v
  · exact .inl e
  · refine .inr (rank_lt hw ?_)
    have hb : m.box = w := hm
    have hp : prior w v = false := by
      simp only [colouring, merge, hb] at h
      rw [if_neg (Ne.symm e)] at h
      unfold prior
      cases hc : comparePriority (hash w) (hash v) w v with
      | false => rfl
      | true =>
        rw [hc] at h
        simp only [Bool.not_true, Bool.true_eq_false, if_false] at h
        split at h
        · cases h
        · split at h <;> cases h
    exact (prior_or e).resolve_left (by rw [hp]; decide)

theorem fits_postAll {Good : Nat → Mail → Prop} {k : Bool → Prog Mail Unit} (hk : ∀ b, (k b).Fits Good) : ∀ (ws : List (Nat × Mail)) (sent : Bool), (∀ w ∈ ws, Good w.1 w.2) → (postAll ws sent k).Fits Good
  | [], sent, _ => hk sent
  | w :: ws, sent, h => ⟨h w (by simp), fun b => fits_postAll hk ws _ fun x hx => h x (by simp [hx])⟩

theorem avoids_postAll {v : Nat} {k : Bool → Prog Mail Unit} (hk : ∀ b, (k b).Avoids v) : ∀ (ws : List (Nat × Mail)) (sent : Bool), (∀ w ∈ ws, w.1 ≠ v) → (postAll ws sent k).Avoids v
  | [], sent, _ => hk sent
  | w :: ws, sent, h => ⟨h w (by simp), fun b => avoids_postAll hk ws _ fun x hx => h x (by simp [hx])⟩

theorem tell_addressed (col : Nat) (es : List (Edge Nat)) : ∀ w ∈ es.map (tell col), Addressed w.1 w.2 := by
  intro w hw
  obtain ⟨e, -, rfl⟩ := List.mem_map.1 hw
  rfl

theorem fits_update (p : Nat) (es : List (Edge Nat)) (m : Mail) {k : Bool → Prog Mail Unit} (hk : ∀ b, (k b).Fits Addressed) : (update p es m k).2.Fits Addressed := by
  unfold update
  dsimp only
  split
  · exact hk false
  · exact fits_postAll hk _ _ (tell_addressed _ _)

theorem len_update (p : Nat) (es : List (Edge Nat)) (m : Mail) {k : Bool → Prog Mail Unit} {b : Nat} (hk : ∀ x, (k x).len ≤ b) : (update p es m k).2.len ≤ es.length + b := by
  unfold update
  dsimp only
  split
  · exact le_trans (hk false) (Nat.le_add_left _ _)
  · have := len_postAll hk (es.map (tell (firstUnused (used m.scratch)))) false
    rwa [List.length_map] at this

theorem avoids_update (v p : Nat) (es : List (Edge Nat)) (hes : ∀ e ∈ es, e.dst ≠ v) (m : Mail) {k : Bool → Prog Mail Unit} (hk : ∀ b, (k b).Avoids v) : (update p es m k).2.Avoids v := by
  unfold update
  dsimp only
  split
  · exact hk false
  · refine avoids_postAll hk _ _ fun w hw => ?_
    obtain ⟨e, he, rfl⟩ := List.mem_map.1 hw
    exact hes e he

/-- What holds of every state of a run, for some `B`. -/
structure Even (c : Cfg Mail Unit) (B : Nat) (s : St') : Prop where
  task : ∀ t, (s.task t).Fits Addressed B s.edges
  own : ∀ t v h, s.task t = .load v h → c.own v = t
  len : ∀ v, (s.edges v).length ≤ B

theorem Even.slope {c : Cfg Mail Unit} {B : Nat} {s : St'} (h : Even c B s) (hl : ∀ v, ∀ e ∈ s.edges v, e.dst ≠ v) : Slope colouring Addressed B s := by
  refine ⟨h.task, fun v p y i m => ⟨fits_update p _ m fun _ => trivial, ?_, avoids_update v p _ (hl v) m fun _ => trivial⟩⟩
  have := len_update p (s.edges v) m (k := fun _ => .done) (b := 0) (fun _ => le_refl _)
  exact le_trans this (h.len v)

theorem fits_mono {B B' : Nat} (hB : B ≤ B') {edges : Nat → List (Edge Nat)} {k : Task Nat Mail Unit Nat} (h : k.Fits Addressed B edges) : k.Fits Addressed B' edges := by
  cases k with
  | load v f => exact fun p m => ⟨(h p m).1, le_trans (h p m).2 hB⟩
  | _ => exact h

/-- A thread moves on, perhaps after changing edges of one of its vertices. -/
theorem even_upd {c : Cfg Mail Unit} {B B' : Nat} (hB : B ≤ B') {s s' : St'} (hi : Even c B s) (t : Nat) (k : Task Nat Mail Unit Nat) (hk : s'.task = upd s.task t k)
    (he : ∀ v, c.own v ≠ t → s'.edges v = s.edges v) (hl : ∀ v, (s'.edges v).length ≤ B') (hf : k.Fits Addressed B' s'.edges)
    (hload : ∀ v h, k = .load v h → c.own v = t) : Even c B' s' := by
  refine ⟨fun u => ?_, fun u v h => ?_, hl⟩
  · rw [hk]
    by_cases e : u = t
    · rw [e, upd_same]; exact hf
    · rw [upd_ne _ _ e]
      have h1 := hi.task u
      cases hu : s.task u with
      | load v f =>
        rw [hu] at h1
        have : s'.edges v = s.edges v := he v fun e' => e (by rw [← hi.own u v f hu, e'])
        intro p m
        rw [this]
        exact ⟨(h1 p m).1, le_trans (h1 p m).2 hB⟩
      | _ => rw [hu] at h1; exact h1
  · rw [hk]
    by_cases e : u = t
    · rw [e, upd_same]; exact hload v h
    · rw [upd_ne _ _ e]; exact hi.own u v h

theorem even_start {c : Cfg Mail Unit} (es0 : Nat → List (Edge Nat)) (B : Nat) (hB : ∀ v, (es0 v).length ≤ B) : Even c B (start colouring es0) :=
  ⟨fun _ => trivial, fun _ _ _ e => (by cases e), hB⟩

theorem fits_onUpdate {B : Nat} {edges : Nat → List (Edge Nat)} (hl : ∀ v, (edges v).length ≤ B) (v : Nat) (y : Unit) (i : Int) :
    (Task.load v fun p es m => colouring.onUpdate v p es y i m : Task Nat Mail Unit Nat).Fits Addressed B edges := by
  intro p m
  refine ⟨fits_update p _ m fun _ => trivial, le_trans (len_update p (edges v) m (k := fun _ => .done) (b := 0) (fun _ => le_refl _)) (hl v)⟩

theorem even_step {c : Cfg Mail Unit} (hn : ∀ v, c.initNote v = none) {B : Nat} {s s' : St'} {x : Act Nat} (hi : Even c B s) (h : step colouring c s x = some s') : ∃ B', Even c B' s' := by
  cases x with
  | init t v =>
    simp only [step] at h
    split at h
    · next hf =>
      obtain ⟨ht, ho, hk⟩ := (free_iff c s t v).1 hf.1
      rw [hn v] at h
      repeat' split at h
      all_goals simp only [Option.some.injEq] at h
      · refine ⟨B, even_upd (le_refl _) hi t (.load v fun p es m => colouring.onUpdate v p es () 0 m) (by rw [← h]) (fun w _ => by rw [← h]) (by rw [← h]; exact hi.len)
          (by rw [← h]; exact fits_onUpdate hi.len v _ _) ?_⟩
        intro w k e
        injection e with e1 e2
        rw [← e1]; exact ho
      all_goals try (next hh => cases hh; done)
      all_goals exact ⟨B, by rw [← h]; exact hi.task, by rw [← h]; exact hi.own, by rw [← h]; exact hi.len⟩
    · cases h
  | recv t v i =>
    simp only [step] at h
    split at h
    · next hf =>
      obtain ⟨ht, ho, hk⟩ := (free_iff c s t v).1 hf
      split at h
      · cases h
      · next y hp =>
        simp only [Option.some.injEq] at h
        refine ⟨B, even_upd (le_refl _) hi t (.load v fun p es m => colouring.onUpdate v p es y (s.act v - 1) m) (by rw [← h]) (fun w _ => by rw [← h]) (by rw [← h]; exact hi.len)
          (by rw [← h]; exact fits_onUpdate hi.len v _ _) ?_⟩
        intro w k e
        injection e with e1 e2
        rw [← e1]; exact ho
    · cases h
  | add t v es =>
    simp only [step] at h
    split at h
    · next hf =>
      obtain ⟨ht, ho, hk⟩ := (free_iff c s t v).1 hf.1
      simp only [Option.some.injEq] at h
      have hlen : ∀ w, (s'.edges w).length ≤ 2 * (B + es.length) := by
        intro w
        rw [← h]
        by_cases e : w = v
        · simp only [e, upd_same, List.length_append]
          have := hi.len v
          omega
        · simp only [upd_ne _ _ e]
          have := hi.len w
          omega
      refine ⟨2 * (B + es.length), even_upd (by omega) hi t (.load v fun p es m => colouring.onEdgeAdd v p es (s.edges v).length m) (by rw [← h]) ?_ hlen ?_ ?_⟩
      · intro w hw
        rw [← h]
        exact upd_ne _ _ fun e => hw (by rw [e]; exact ho)
      · intro p m
        have he : s'.edges v = s.edges v ++ es := by rw [← h]; exact upd_same _ _ _
        rw [he]
        have hl2 : (s.edges v ++ es).length ≤ B + es.length := by
          have := hi.len v
          rw [List.length_append]; omega
        constructor
        · refine fits_update p _ m fun b => ?_
          split
          · trivial
          · exact fits_postAll (k := fun _ => .done) (fun _ => trivial) _ _ (tell_addressed _ _)
        · refine le_trans (len_update p _ m (b := (s.edges v ++ es).length) fun b => ?_) (by omega)
          split
          · exact Nat.zero_le _
          · refine le_trans (len_postAll (k := fun _ => .done) (b := 0) (fun _ => le_refl _) _ _) ?_
            rw [List.length_map, Nat.add_zero]
            exact le_trans (List.length_filter_le _ _) (by rw [List.length_drop]; omega)
      · intro w k e
        injection e with e1 e2
        rw [← e1]; exact ho
    · cases h
  | del t v keep =>
    simp only [step] at h
    split at h
    · next hf =>
      obtain ⟨ht, ho, hk⟩ := (free_iff c s t v).1 hf
      simp only [Option.some.injEq] at h
      have hsel := PageRank.length_select keep (s.edges v)
      have hlen : ∀ w, (s'.edges w).length ≤ B := by
        intro w
        have := hi.len w
        have := hi.len v
        rw [← h]
        by_cases e : w = v
        · simp only [e, upd_same]; omega
        · simp only [upd_ne _ _ e]; omega
      refine ⟨B, even_upd (le_refl _) hi t (.load v fun p es m => colouring.onEdgeDel v p es (select keep (s.edges v)).2 m) (by rw [← h]) ?_ hlen ?_ ?_⟩
      · intro w hw
        rw [← h]
        exact upd_ne _ _ fun e => hw (by rw [e]; exact ho)
      · intro p m
        have he : s'.edges v = (select keep (s.edges v)).1 := by rw [← h]; exact upd_same _ _ _
        rw [he]
        have := hi.len v
        constructor
        · exact fits_update p _ m fun b => fits_postAll (k := fun _ => .done) (fun _ => trivial) _ _ (tell_addressed _ _)
        · refine le_trans (len_update p _ m (b := (select keep (s.edges v)).2.length) fun b => ?_) (by omega)
          refine le_trans (len_postAll (k := fun _ => .done) (b := 0) (fun _ => le_refl _) _ _) ?_
          rw [List.length_map, Nat.add_zero]
      · intro w k e
        injection e with e1 e2
        rw [← e1]; exact ho
    · cases h
  | go t =>
    have hgo : ∀ k : Task Nat Mail Unit Nat, s'.edges = s.edges → s'.task = upd s.task t k → k.Fits Addressed B s.edges → (∀ v h, k = .load v h → c.own v = t) → ∃ B', Even c B' s' := by
      intro k h1 h2 h3 h4
      exact ⟨B, even_upd (le_refl _) hi t k h2 (fun w _ => by rw [h1]) (by rw [h1]; exact hi.len) (by rw [h1]; exact h3) h4⟩
    simp only [step] at h
    split at h
    · have hf := hi.task t
      cases hk : s.task t with
      | idle => rw [hk] at h; cases h
      | load v f =>
        rw [hk] at h hf
        simp only [goStep, Option.some.injEq] at h
        exact hgo (.run v (f (s.prop v) (s.edges v) (colouring.retrieve (s.inbox v) (s.prop v)).2).2) (by rw [← h]) (by rw [← h]) (hf _ _).1 (fun _ _ e => by cases e)
      | run v q =>
        rw [hk] at h hf
        cases q with
        | done =>
          simp only [goStep, Option.some.injEq] at h
          exact hgo .idle (by rw [← h]) (by rw [← h]) trivial (fun _ _ e => by cases e)
        | post w m k =>
          simp only [goStep] at h
          split at h
          all_goals simp only [Option.some.injEq] at h
          · exact hgo (.cas v w k) (by rw [← h]) (by rw [← h]) hf.2 (fun _ _ e => by cases e)
          · exact hgo (.run v (k false)) (by rw [← h]) (by rw [← h]) (hf.2 false) (fun _ _ e => by cases e)
        | send w y k => exact hf.elim
      | cas v w k =>
        rw [hk] at h hf
        simp only [goStep] at h
        split at h
        all_goals simp only [Option.some.injEq] at h
        · exact hgo (.put v w () (k true)) (by rw [← h]) (by rw [← h]) (hf true) (fun _ _ e => by cases e)
        · exact hgo (.run v (k false)) (by rw [← h]) (by rw [← h]) (hf false) (fun _ _ e => by cases e)
      | put v w y k =>
        rw [hk] at h hf
        simp only [goStep, Option.some.injEq] at h
        exact hgo (.run v k) (by rw [← h]) (by rw [← h]) hf (fun _ _ e => by cases e)
    · cases h

theorem even_run {c : Cfg Mail Unit} (hn : ∀ v, c.initNote v = none) : ∀ {xs : List (Act Nat)} {s s' : St'} {B : Nat}, Even c B s → run colouring c s xs = some s' → ∃ B', Even c B' s'
  | [], s, s', B, hi, h => by simp only [run, Option.some.injEq] at h; subst h; exact ⟨B, hi⟩
  | x :: xs, s, s', B, hi, h => by
    simp only [run] at h
    obtain ⟨s1, h2, h3⟩ := Option.bind_eq_some_iff.1 h
    obtain ⟨B', hi'⟩ := even_step hn hi h2
    exact even_run hn hi' h3

end Verif.Colouring
