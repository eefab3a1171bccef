import Verif.MsgPath
import Verif.MinLabelInv

/-!
# Invariants of message-passing shortest paths
-/

namespace Verif.MsgPath

open Verif.Async Verif.MinLabel

variable {L E : Type} [LinearOrder L] [OrderTop L]

abbrev S (L E : Type) := St (VP L) Unit L E

/-- The program sends at most `x` to `w`. -/
def Sends (w : Nat) (x : L) : Prog Unit L → Prop
  | .done => False
  | .post _ _ _ => False
  | .send w' n k => (w' = w ∧ n ≤ x) ∨ Sends w x k

/-- The program posts no mail, and all notes satisfy `Q`. -/
def Fine (Q : Nat → L → Prop) : Prog Unit L → Prop
  | .done => True
  | .post _ _ _ => False
  | .send w n k => Q w n ∧ Fine Q k

theorem sends_mem {w : Nat} {x : L} : ∀ ws : List (Nat × L), (∃ m, (w, m) ∈ ws ∧ m ≤ x) → Sends w x (sendAll ws)
  | [], h => by simp at h
  | (w', m') :: ws, ⟨m, hm, hx⟩ => by
    rcases List.mem_cons.1 hm with e | hm
    · cases e; exact .inl ⟨rfl, hx⟩
    · exact .inr (sends_mem ws ⟨m, hm, hx⟩)

theorem fine_sendAll {Q : Nat → L → Prop} : ∀ ws : List (Nat × L), (∀ p ∈ ws, Q p.1 p.2) → Fine Q (sendAll ws)
  | [], _ => trivial
  | p :: ws, h => ⟨h p (by simp), fine_sendAll ws fun q hq => h q (by simp [hq])⟩

/-- The new value after a visit. -/
theorem hUpd_value (f : E → L → L) (n : L) (i : Int) (p : VP L) (es : List (Edge E)) (m : Unit) : (hUpd f n i p es m).1.value = min p.value n := by
  unfold hUpd
  by_cases h : p.value > n
  · rw [if_pos h]
    have : min p.value n = n := min_eq_right (le_of_lt h)
    simp only
    split <;> (try split) <;> exact this.symm
  · rw [if_neg h]
    have : min p.value n = p.value := min_eq_left (not_lt.1 h)
    simp only
    split <;> (try split) <;> exact this.symm

theorem hAdd_value (f : E → L → L) (st : Nat) (p : VP L) (es : List (Edge E)) (m : Unit) : (hAdd f st p es m).1.value = p.value := by
  unfold hAdd
  split <;> rfl

/-- After a visit nothing is deferred unless notifications are outstanding. -/
theorem hUpd_will (f : E → L → L) (n : L) (i : Int) (p : VP L) (es : List (Edge E)) (m : Unit) (hi : ¬ i > 0) : (hUpd f n i p es m).1.willUpdate = false := by
  unfold hUpd
  simp only
  rw [if_neg hi]
  generalize (if p.value > n then ({ value := n, willUpdate := true } : VP L) else p) = q
  split
  · next h => exact h
  · rfl

/-- If the visit leaves nothing deferred but something was, or the value improved, all edges are served. -/
theorem hUpd_serves (f : E → L → L) (n : L) (i : Int) (p : VP L) (es : List (Edge E)) (m : Unit) (hw : p.willUpdate = true ∨ n < p.value) (e : Edge E) (he : e ∈ es) :
    (hUpd f n i p es m).1.willUpdate = true ∨ Sends e.dst (f e.data (hUpd f n i p es m).1.value) (hUpd f n i p es m).2 := by
  have h1 : (if p.value > n then ({ value := n, willUpdate := true } : VP L) else p).willUpdate = true := by
    split
    · rfl
    · next h => rcases hw with hw | hw
                · exact hw
                · exact absurd hw h
  unfold hUpd
  simp only
  by_cases hi : i > 0
  · rw [if_pos hi]; exact .inl h1
  · rw [if_neg hi, if_neg (by rw [h1]; simp)]
    right
    exact sends_mem _ ⟨_, List.mem_map.2 ⟨e, he, rfl⟩, le_refl _⟩

/-- A visit that does not improve the value and had nothing deferred changes nothing. -/
theorem hUpd_same (f : E → L → L) (n : L) (i : Int) (p : VP L) (es : List (Edge E)) (m : Unit) (hw : p.willUpdate = false) (hn : ¬ n < p.value) : hUpd f n i p es m = (p, .done) := by
  unfold hUpd
  rw [if_neg hn]
  simp only
  split
  · rfl
  · rfl

theorem hAdd_serves (f : E → L → L) (st : Nat) (p : VP L) (es : List (Edge E)) (m : Unit) (hp : p.value ≠ ⊤) (e : Edge E)
    (he : e ∈ es ∧ p.willUpdate = true ∨ e ∈ es.drop st) : Sends e.dst (f e.data p.value) (hAdd f st p es m).2 := by
  unfold hAdd
  rw [if_neg hp]
  simp only
  refine sends_mem _ ⟨_, List.mem_map.2 ⟨e, ?_, rfl⟩, le_refl _⟩
  rcases he with ⟨he, hw⟩ | he
  · rw [if_pos hw]; exact he
  · split
    · exact List.mem_of_mem_drop he
    · exact he

theorem hUpd_fine (f : E → L → L) (n : L) (i : Int) (p : VP L) (es : List (Edge E)) (m : Unit) (Q : Nat → L → Prop) (hQ : ∀ e ∈ es, Q e.dst (f e.data (min p.value n))) :
    Fine Q (hUpd f n i p es m).2 := by
  have hv := hUpd_value f n i p es m
  unfold hUpd at *
  simp only at *
  generalize (if p.value > n then ({ value := n, willUpdate := true } : VP L) else p) = q at *
  split
  · trivial
  · next h1 =>
    rw [if_neg h1] at hv
    split
    · trivial
    · next h2 =>
      rw [if_neg h2] at hv
      refine fine_sendAll _ ?_
      intro q hq
      obtain ⟨e, he, rfl⟩ := List.mem_map.1 hq
      have := hQ e he
      rw [← hv] at this
      exact this

theorem hAdd_fine (f : E → L → L) (st : Nat) (p : VP L) (es : List (Edge E)) (m : Unit) (Q : Nat → L → Prop) (hQ : ∀ e ∈ es, Q e.dst (f e.data p.value)) :
    Fine Q (hAdd f st p es m).2 := by
  unfold hAdd
  split
  · trivial
  · refine fine_sendAll _ ?_
    intro q hq
    obtain ⟨e, he, rfl⟩ := List.mem_map.1 hq
    exact hQ e (List.mem_of_mem_drop he)

/-- A value at most `x` has reached `w` or is on its way. -/
def Heard (c : Cfg Unit L) (f : E → L → L) (s : S L E) (w : Nat) (x : L) : Prop :=
  (s.prop w).value ≤ x ∨ (∃ n ∈ s.pend w, n ≤ x) ∨ (∃ t, t < c.T ∧ ∃ v n k, s.task t = .put v w n k ∧ n ≤ x) ∨
    ∃ t, t < c.T ∧ ∃ n i, s.task t = .load w (hUpd f n i) ∧ n ≤ x

/-- What threads may be doing. -/
def TOK (c : Cfg Unit L) (f : E → L → L) (s : S L E) (t : Nat) : Task (VP L) Unit L E → Prop
  | .idle => True
  | .load v h => c.own v = t ∧ ((∃ n i, h = hUpd f n i ∧ i ≤ s.act v) ∨ ∃ st, h = hAdd f st)
  | .run v q => c.own v = t ∧ Fine (fun _ _ => True) q
  | .cas _ _ _ => False
  | .put v _ _ k => c.own v = t ∧ Fine (fun _ _ => True) k

/-- The owner's task will send `f e (value v)` along edge `e` of `v`. -/
def Due (f : E → L → L) (s : S L E) (v : Nat) (e : Edge E) : Task (VP L) Unit L E → Prop
  | .idle => False
  | .load v' h => v' = v ∧ ((s.prop v).value = ⊤ ∨ Sends e.dst (f e.data (s.prop v).value) (h (s.prop v) (s.edges v) ()).2)
  | .run v' q => v' = v ∧ Sends e.dst (f e.data (s.prop v).value) q
  | .cas _ _ _ => False
  | .put v' _ _ k => v' = v ∧ Sends e.dst (f e.data (s.prop v).value) k

structure GInv (f : E → L → L) (c : Cfg Unit L) (s : S L E) : Prop where
  counts : Counts c s
  tasks : ∀ t, t < c.T → TOK c f s t (s.task t)
  will : ∀ v, (s.prop v).willUpdate = true → 0 < s.act v ∨ ∃ n i, s.task (c.own v) = .load v (hUpd f n i) ∧ ¬ i > 0
  offer : ∀ v e, e ∈ s.edges v → Heard c f s e.dst (f e.data (s.prop v).value) ∨ (s.prop v).willUpdate = true ∨ Due f s v e (s.task (c.own v))
  init : ∀ v n, s.inited v = true → c.initNote v = some n → Heard c f s v n
  owned : ∀ v, s.edges v ≠ [] → c.own v < c.T
  top : ∀ v, (s.prop v).willUpdate = true → (s.prop v).value ≠ ⊤

theorem gInv_start (f : E → L → L) (htop : ∀ e, f e ⊤ = ⊤) (c : Cfg Unit L) (es0 : Nat → List (Edge E)) (hes : ∀ v, es0 v ≠ [] → c.own v < c.T) : GInv f c (start (msgAlg f) es0) :=
  { counts := counts_start _ c es0
    tasks := fun _ _ => trivial
    will := fun v h => by simp [start, msgAlg] at h
    offer := fun v e he => .inl (.inl (by simp [start, msgAlg, htop]))
    init := fun v n h _ => by simp [start] at h
    owned := hes
    top := fun v h => by simp [start, msgAlg] at h }

/-- `Heard` survives a step that gives thread `t` the task `y`. -/
theorem heard_upd {c : Cfg Unit L} {f : E → L → L} {s s' : S L E} {w : Nat} {x : L} (h : Heard c f s w x) (t : Nat) (y : Task (VP L) Unit L E) (hk : s'.task = upd s.task t y)
    (hv : (s'.prop w).value ≤ (s.prop w).value)
    (hp : ∀ n ∈ s.pend w, n ∈ s'.pend w ∨ (t < c.T ∧ ∃ i, y = .load w (hUpd f n i)))
    (hput : ∀ v n k, s.task t = .put v w n k → n ∈ s'.pend w)
    (hload : ∀ n i, s.task t = .load w (hUpd f n i) → (s'.prop w).value ≤ n) : Heard c f s' w x := by
  rcases h with h | ⟨n, hn, hx⟩ | ⟨u, hu, v, n, k, h, hx⟩ | ⟨u, hu, n, i, h, hx⟩
  · exact .inl (le_trans hv h)
  · rcases hp n hn with h | ⟨ht, i, h⟩
    · exact .inr (.inl ⟨n, h, hx⟩)
    · exact .inr (.inr (.inr ⟨t, ht, n, i, by rw [hk, upd_same, h], hx⟩))
  · by_cases e : u = t
    · subst e; exact .inr (.inl ⟨n, hput v n k h, hx⟩)
    · exact .inr (.inr (.inl ⟨u, hu, v, n, k, by rw [hk, upd_ne _ _ e, h], hx⟩))
  · by_cases e : u = t
    · subst e; exact .inl (le_trans (hload n i h) hx)
    · exact .inr (.inr (.inr ⟨u, hu, n, i, by rw [hk, upd_ne _ _ e, h], hx⟩))

/-- Steps of thread `t` other than taking a notification, loading or changing edges. -/
theorem gInv_plain {f : E → L → L} {c : Cfg Unit L} {s s' : S L E} {t : Nat} {y : Task (VP L) Unit L E} (hi : GInv f c s) (ht : t < c.T)
    (hc : Counts c s') (hk : s'.task = upd s.task t y) (hprop : s'.prop = s.prop) (hedges : s'.edges = s.edges)
    (hact : ∀ v, s.act v ≤ s'.act v) (hpend : ∀ w, ∀ n ∈ s.pend w, n ∈ s'.pend w)
    (hput : ∀ v w n k, s.task t = .put v w n k → n ∈ s'.pend w) (hnl : ∀ v h, s.task t ≠ .load v h)
    (hok : TOK c f s' t y)
    (hdue : ∀ v e, c.own v = t → Due f s v e (s.task t) → Heard c f s' e.dst (f e.data (s.prop v).value) ∨ Due f s' v e y)
    (hini : ∀ v n, s'.inited v = true → c.initNote v = some n → s.inited v = true ∨ Heard c f s' v n) : GInv f c s' := by
  have hheard : ∀ w x, Heard c f s w x → Heard c f s' w x := by
    intro w x h
    refine heard_upd h t y hk (by rw [hprop]) (fun n hn => .inl (hpend w n hn)) (fun v n k e => hput v w n k e) (fun n i e => absurd e (hnl _ _))
  refine ⟨hc, ?_, ?_, ?_, ?_, ?_, ?_⟩
  · intro u hu
    rw [hk]
    by_cases e : u = t
    · rw [e, upd_same]; exact hok
    · rw [upd_ne _ _ e]
      have := hi.tasks u hu
      cases hq : s.task u with
      | idle => trivial
      | load v h =>
        rw [hq] at this
        refine ⟨this.1, ?_⟩
        rcases this.2 with ⟨n, i, h1, h2⟩ | h
        · exact .inl ⟨n, i, h1, le_trans h2 (hact v)⟩
        · exact .inr h
      | run v q => rw [hq] at this; exact this
      | cas _ _ _ => rw [hq] at this; exact this
      | put v w n k => rw [hq] at this; exact this
  · intro v hv
    rw [hprop] at hv
    rcases hi.will v hv with h | ⟨n, i, h, hh⟩
    · exact .inl (lt_of_lt_of_le h (hact v))
    · by_cases e : c.own v = t
      · rw [e] at h; exact absurd h (hnl _ _)
      · exact .inr ⟨n, i, by rw [hk, upd_ne _ _ e, h], hh⟩
  · intro v e he
    rw [hedges] at he
    rw [hprop]
    rcases hi.offer v e he with h | h | h
    · exact .inl (hheard _ _ h)
    · exact .inr (.inl h)
    · by_cases eo : c.own v = t
      · rw [eo] at h
        rcases hdue v e eo h with h | h
        · exact .inl h
        · right; right; rw [eo, hk, upd_same]; exact h
      · right; right
        rw [hk, upd_ne _ _ eo]
        cases hq : s.task (c.own v) with
        | idle => rw [hq] at h; exact h
        | load _ _ => rw [hq] at h; exact ⟨h.1, by rw [hedges, hprop]; exact h.2⟩
        | run _ _ => rw [hq] at h; exact ⟨h.1, by rw [hprop]; exact h.2⟩
        | cas _ _ _ => rw [hq] at h; exact h
        | put _ _ _ _ => rw [hq] at h; exact ⟨h.1, by rw [hprop]; exact h.2⟩
  · intro v n hv hn
    rcases hini v n hv hn with h | h
    · exact hheard _ _ (hi.init v n h hn)
    · exact h
  · intro v hv; rw [hedges] at hv; exact hi.owned v hv
  · intro v hv; rw [hprop] at hv ⊢; exact hi.top v hv

theorem fine_true {Q : Nat → L → Prop} : ∀ q : Prog Unit L, Fine Q q → Fine (fun _ _ => True) q
  | .done, _ => trivial
  | .post _ _ _, h => h
  | .send _ _ k, h => ⟨trivial, fine_true k h.2⟩

theorem gInv_load {f : E → L → L} {c : Cfg Unit L} (htop : ∀ e, f e ⊤ = ⊤) {s s' : S L E} {t v : Nat} {hd : VP L → List (Edge E) → Unit → VP L × Prog Unit L}
    (hi : GInv f c s) (ht : t < c.T) (hk : s.task t = .load v hd) (h : goStep (msgAlg f) s t (.load v hd) = some s') : GInv f c s' := by
  have hc : Counts c s' := counts_go hi.counts ht (by rw [hk]; exact h)
  have hok := hi.tasks t ht
  rw [hk] at hok
  obtain ⟨hown, hform⟩ := hok
  simp only [goStep, Option.some.injEq] at h
  have hval : (hd (s.prop v) (s.edges v) ()).1.value ≤ (s.prop v).value := by
    rcases hform with ⟨n, i, rfl, -⟩ | ⟨st, rfl⟩
    · rw [hUpd_value]; exact min_le_left _ _
    · rw [hAdd_value]
  have hheard : ∀ w x, Heard c f s w x → Heard c f s' w x := by
    intro w x hh
    refine heard_upd hh t (.run v (hd (s.prop v) (s.edges v) ()).2) (by rw [← h]) ?_ (fun n hn => .inl (by rw [← h]; exact hn)) (fun v n k e => by rw [hk] at e; cases e) ?_
    · rw [← h]
      show (upd s.prop v _ w).value ≤ _
      by_cases e : w = v
      · rw [e, upd_same]; exact hval
      · rw [upd_ne _ _ e]
    · intro n i e
      rw [hk] at e
      injection e with e1 e2
      subst e1
      rw [← h]
      show (upd s.prop v _ v).value ≤ n
      rw [upd_same, e2]
      show (hUpd f n i (s.prop v) (s.edges v) _).1.value ≤ n
      rw [hUpd_value]; exact min_le_right _ _
  have hfine : Fine (fun _ _ => True) (hd (s.prop v) (s.edges v) ()).2 := by
    rcases hform with ⟨n, i, rfl, -⟩ | ⟨st, rfl⟩
    · exact hUpd_fine f n i _ _ _ _ (fun _ _ => trivial)
    · exact hAdd_fine f st _ _ _ _ (fun _ _ => trivial)
  have htask : s'.task = upd s.task t (.run v (hd (s.prop v) (s.edges v) ()).2) := by rw [← h]
  have hprop : s'.prop = upd s.prop v (hd (s.prop v) (s.edges v) ()).1 := by rw [← h]
  have hedges : s'.edges = s.edges := by rw [← h]
  have hact : s'.act = s.act := by rw [← h]
  have hinited : s'.inited = s.inited := by rw [← h]
  clear h
  refine ⟨hc, ?_, ?_, ?_, ?_, ?_, ?_⟩
  · intro u hu
    rw [htask]
    by_cases e : u = t
    · rw [e, upd_same]; exact ⟨hown, hfine⟩
    · rw [upd_ne _ _ e]
      have := hi.tasks u hu
      cases hq : s.task u with
      | idle => trivial
      | load v' h' => rw [hq] at this; simp only [TOK] at this ⊢; rw [hact]; exact this
      | run v' q => rw [hq] at this; exact this
      | cas _ _ _ => rw [hq] at this; exact this
      | put _ _ _ _ => rw [hq] at this; exact this
  · intro u hu
    rw [hprop] at hu
    rw [hact]
    by_cases e : u = v
    · subst e
      rw [upd_same] at hu
      rcases hform with ⟨n, i, rfl, hle⟩ | ⟨st, rfl⟩
      · by_cases hi0 : i > 0
        · left; omega
        · rw [hUpd_will f n i _ _ _ hi0] at hu; cases hu
      · left
        have hp : (s.prop u).willUpdate = true := by
          unfold hAdd at hu
          split at hu
          · exact hu
          · cases hu
        rcases hi.will u hp with h | ⟨n, i, h, hh⟩
        · exact h
        · exfalso
          have ht' := hi.top u hp
          unfold hAdd at hu
          rw [if_neg ht'] at hu
          cases hu
    · rw [upd_ne _ _ e] at hu
      rcases hi.will u hu with h | ⟨n, i, h, hh⟩
      · exact .inl h
      · by_cases eo : c.own u = t
        · rw [eo, hk] at h; injection h with e1 e2; exact absurd e1.symm e
        · exact .inr ⟨n, i, by rw [htask, upd_ne _ _ eo, h], hh⟩
  · intro u e he
    rw [hedges] at he
    by_cases eu : u = v
    · subst eu
      rw [hown, htask, upd_same, hprop, upd_same]
      have hdue : Sends e.dst (f e.data (hd (s.prop u) (s.edges u) ()).1.value) (hd (s.prop u) (s.edges u) ()).2 → Due f s' u e (.run u (hd (s.prop u) (s.edges u) ()).2) := by
        intro hh
        refine ⟨rfl, ?_⟩
        rw [hprop, upd_same]; exact hh
      rcases hform with ⟨n, i, rfl, hle⟩ | ⟨st, rfl⟩
      · by_cases hcase : (s.prop u).willUpdate = true ∨ n < (s.prop u).value
        · rcases hUpd_serves f n i (s.prop u) (s.edges u) () hcase e he with h | h
          · exact .inr (.inl h)
          · exact .inr (.inr (hdue h))
        · have h1 : (s.prop u).willUpdate = false := by
            cases hb : (s.prop u).willUpdate with
            | false => rfl
            | true => exact absurd (.inl hb) hcase
          have h2 : ¬ n < (s.prop u).value := fun h => hcase (.inr h)
          rw [hUpd_same f n i _ _ _ h1 h2]
          left
          rcases hi.offer u e he with h | h | h
          · exact hheard _ _ h
          · rw [h1] at h; cases h
          · rw [hown, hk] at h
            rcases h.2 with h3 | h3
            · left; rw [h3, htop]; exact le_top
            · rw [hUpd_same f n i _ _ _ h1 h2] at h3; exact h3.elim
      · rw [hAdd_value] at hdue ⊢
        by_cases hv : (s.prop u).value = ⊤
        · left; left; rw [hv, htop]; exact le_top
        · rcases hi.offer u e he with h | h | h
          · exact .inl (hheard _ _ h)
          · exact .inr (.inr (hdue (hAdd_serves f st _ _ _ hv e (.inl ⟨he, h⟩))))
          · rw [hown, hk] at h
            rcases h.2 with h3 | h3
            · exact absurd h3 hv
            · exact .inr (.inr (hdue h3))
    · have hpu : s'.prop u = s.prop u := by rw [hprop, upd_ne _ _ eu]
      rw [hpu]
      rcases hi.offer u e he with h | h | h
      · exact .inl (hheard _ _ h)
      · exact .inr (.inl h)
      · right; right
        by_cases eo : c.own u = t
        · rw [eo, hk] at h; exact absurd h.1.symm eu
        · rw [htask, upd_ne _ _ eo]
          cases hq : s.task (c.own u) with
          | idle => rw [hq] at h; exact h
          | load _ _ => rw [hq] at h; exact ⟨h.1, by rw [hedges, hpu]; exact h.2⟩
          | run _ _ => rw [hq] at h; exact ⟨h.1, by rw [hpu]; exact h.2⟩
          | cas _ _ _ => rw [hq] at h; exact h
          | put _ _ _ _ => rw [hq] at h; exact ⟨h.1, by rw [hpu]; exact h.2⟩
  · intro u n hu hn
    rw [hinited] at hu
    exact hheard _ _ (hi.init u n hu hn)
  · intro u hu; rw [hedges] at hu; exact hi.owned u hu
  · intro u hu
    rw [hprop] at hu ⊢
    by_cases eu : u = v
    · subst eu
      rw [upd_same] at hu ⊢
      rcases hform with ⟨n, i, rfl, -⟩ | ⟨st, rfl⟩
      · rw [hUpd_value]
        by_cases hn : n < (s.prop u).value
        · rw [min_eq_right (le_of_lt hn)]; exact ne_top_of_lt hn
        · rw [min_eq_left (not_lt.1 hn)]
          apply hi.top
          cases hb : (s.prop u).willUpdate with
          | true => rfl
          | false => rw [hUpd_same f n i _ _ _ hb hn, hb] at hu; cases hu
      · rw [hAdd_value]
        apply hi.top
        unfold hAdd at hu
        split at hu
        · exact hu
        · cases hu
    · rw [upd_ne _ _ eu] at hu ⊢; exact hi.top u hu

theorem gInv_go {f : E → L → L} {c : Cfg Unit L} (htop : ∀ e, f e ⊤ = ⊤) {s s' : S L E} {t : Nat}
    (hi : GInv f c s) (ht : t < c.T) (h : goStep (msgAlg f) s t (s.task t) = some s') : GInv f c s' := by
  have hc : Counts c s' := counts_go hi.counts ht h
  have hok := hi.tasks t ht
  cases hk : s.task t with
  | idle => rw [hk] at h; cases h
  | load v hd => rw [hk] at h; exact gInv_load htop hi ht hk h
  | run v q =>
    rw [hk] at h hok
    cases q with
    | done =>
      simp only [goStep, Option.some.injEq] at h
      subst h
      exact gInv_plain hi ht hc rfl rfl rfl (fun _ => le_refl _) (fun _ _ h => h) (fun _ _ _ _ e => by rw [hk] at e; cases e) (fun _ _ e => by rw [hk] at e; cases e) trivial
        (fun v e _ hd => by rw [hk] at hd; exact hd.2.elim) (fun _ _ h _ => .inl h)
    | post w m k => exact absurd hok.2 id
    | send w n k =>
      simp only [goStep, Option.some.injEq] at h
      subst h
      refine gInv_plain hi ht hc rfl rfl rfl ?_ (fun _ _ h => h) (fun _ _ _ _ e => by rw [hk] at e; cases e) (fun _ _ e => by rw [hk] at e; cases e) ⟨hok.1, hok.2.2⟩
        ?_ (fun _ _ h _ => .inl h)
      · intro u
        show s.act u ≤ upd s.act w _ u
        by_cases e : u = w
        · rw [e, upd_same]; omega
        · rw [upd_ne _ _ e]
      · intro u e _ hd
        rw [hk] at hd
        obtain ⟨rfl, hd⟩ := hd
        rcases hd with ⟨hw, hx⟩ | hd
        · left
          right; right; left
          exact ⟨t, ht, v, n, k, by show upd s.task t _ t = _; rw [upd_same, hw], hx⟩
        · exact .inr ⟨rfl, hd⟩
  | cas v w k => rw [hk] at hok; exact absurd hok id
  | put v w n k =>
    rw [hk] at h hok
    simp only [goStep, Option.some.injEq] at h
    subst h
    refine gInv_plain hi ht hc rfl rfl rfl (fun _ => le_refl _) ?_ ?_ (fun _ _ e => by rw [hk] at e; cases e) hok ?_ (fun _ _ h _ => .inl h)
    · intro u x hx
      show x ∈ upd s.pend w _ u
      by_cases e : u = w
      · rw [e] at hx ⊢; rw [upd_same]; exact List.mem_append_left _ hx
      · rw [upd_ne _ _ e]; exact hx
    · intro v' w' n' k' e
      rw [hk] at e
      cases e
      show n ∈ upd s.pend w _ w
      rw [upd_same]; simp
    · intro u e _ hd
      rw [hk] at hd
      exact .inr hd

theorem gInv_step {f : E → L → L} {c : Cfg Unit L} (hnm : ∀ v, c.initMail v = none) (htop : ∀ e, f e ⊤ = ⊤) {s s' : S L E} {x : Act E} (hx : AddOnly x)
    (hi : GInv f c s) (h : step (msgAlg f) c s x = some s') : GInv f c s' := by
  have hc : Counts c s' := counts_step hi.counts h
  cases x with
  | init t v =>
    simp only [step] at h
    split at h
    · next hf =>
      obtain ⟨ht, hown, hk⟩ := (free_iff c s t v).1 hf.1
      split at h
      · next m hm => rw [hnm] at hm; cases hm
      · next n hm hn =>
        simp only [Option.some.injEq] at h; subst h
        refine gInv_plain hi ht hc rfl rfl rfl ?_ (fun _ _ h => h) (fun _ _ _ _ e => by rw [hk] at e; cases e) (fun _ _ e => by rw [hk] at e; cases e) ⟨hown, trivial⟩
          (fun u e _ hd => by rw [hk] at hd; exact hd.elim) ?_
        · intro u
          show s.act u ≤ upd s.act v _ u
          by_cases e : u = v
          · rw [e, upd_same]; omega
          · rw [upd_ne _ _ e]
        · intro u x hu hx1
          by_cases e : u = v
          · subst e
            rw [hn] at hx1; cases hx1
            exact .inr (.inr (.inr (.inl ⟨t, ht, u, n, .done, by show upd s.task t _ t = _; rw [upd_same], le_refl _⟩)))
          · left
            have : upd s.inited v true u = true := hu
            rwa [upd_ne _ _ e] at this
      · next hm hn =>
        simp only [Option.some.injEq] at h; subst h
        refine ⟨hc, hi.tasks, hi.will, hi.offer, ?_, hi.owned, hi.top⟩
        intro u x hu hx1
        have hne : u ≠ v := by rintro rfl; rw [hn] at hx1; cases hx1
        have : upd s.inited v true u = true := hu
        rw [upd_ne _ _ hne] at this
        exact hi.init u x this hx1
    · cases h
  | recv t v i =>
    simp only [step] at h
    split at h
    · next hf =>
      obtain ⟨ht, hown, hk⟩ := (free_iff c s t v).1 hf
      cases hp : (s.pend v)[i]? with
      | none => rw [hp] at h; cases h
      | some n =>
        rw [hp] at h
        simp only [Option.some.injEq] at h
        have htask : s'.task = upd s.task t (.load v (hUpd f n (s.act v - 1))) := by rw [← h]; rfl
        have hprop : s'.prop = s.prop := by rw [← h]
        have hedges : s'.edges = s.edges := by rw [← h]
        have hact : s'.act = upd s.act v (s.act v - 1) := by rw [← h]
        have hpend : s'.pend = upd s.pend v ((s.pend v).eraseIdx i) := by rw [← h]
        have hinited : s'.inited = s.inited := by rw [← h]
        clear h
        have hheard : ∀ w x, Heard c f s w x → Heard c f s' w x := by
          intro w x hh
          refine heard_upd hh t _ htask (by rw [hprop]) ?_ (fun v n k e => by rw [hk] at e; cases e) (fun n i e => by rw [hk] at e; cases e)
          intro y hy
          rw [hpend]
          by_cases e : w = v
          · subst e
            rw [upd_same]
            have hlt := (List.getElem?_eq_some_iff.1 hp).1
            by_cases hyn : y = n
            · right; exact ⟨ht, _, by rw [hyn]⟩
            · left
              obtain ⟨j, hj, hjy⟩ := List.getElem_of_mem hy
              have hji : j ≠ i := by
                rintro rfl
                have := (List.getElem?_eq_some_iff.1 hp).2
                exact hyn (by rw [← hjy, this])
              exact List.mem_eraseIdx_iff_getElem.2 ⟨j, hj, hji, hjy⟩
          · left; rw [upd_ne _ _ e]; exact hy
        refine ⟨hc, ?_, ?_, ?_, ?_, ?_, ?_⟩
        · intro u hu
          rw [htask]
          by_cases e : u = t
          · rw [e, upd_same]
            exact ⟨hown, .inl ⟨n, _, rfl, by rw [hact, upd_same]⟩⟩
          · rw [upd_ne _ _ e]
            have := hi.tasks u hu
            cases hq : s.task u with
            | idle => trivial
            | load v' h' =>
              rw [hq] at this
              have hne : v' ≠ v := by rintro rfl; exact e (by rw [← this.1, hown])
              refine ⟨this.1, ?_⟩
              rw [hact, upd_ne _ _ hne]; exact this.2
            | run v' q => rw [hq] at this; exact this
            | cas _ _ _ => rw [hq] at this; exact this
            | put _ _ _ _ => rw [hq] at this; exact this
        · intro u hu
          rw [hprop] at hu
          rw [hact, htask]
          by_cases e : u = v
          · subst e
            rw [upd_same, hown, upd_same]
            by_cases h0 : s.act u - 1 > 0
            · exact .inl h0
            · exact .inr ⟨n, _, rfl, h0⟩
          · rw [upd_ne _ _ e]
            rcases hi.will u hu with h | ⟨n', i', h, hh⟩
            · exact .inl h
            · have eo : c.own u ≠ t := by intro eo; rw [eo, hk] at h; cases h
              exact .inr ⟨n', i', by rw [upd_ne _ _ eo]; exact h, hh⟩
        · intro u e he
          rw [hedges] at he
          rw [hprop]
          rcases hi.offer u e he with h | h | h
          · exact .inl (hheard _ _ h)
          · exact .inr (.inl h)
          · right; right
            have eo : c.own u ≠ t := by intro eo; rw [eo, hk] at h; exact h
            rw [htask, upd_ne _ _ eo]
            cases hq : s.task (c.own u) with
            | idle => rw [hq] at h; exact h
            | load _ _ => rw [hq] at h; exact ⟨h.1, by rw [hedges, hprop]; exact h.2⟩
            | run _ _ => rw [hq] at h; exact ⟨h.1, by rw [hprop]; exact h.2⟩
            | cas _ _ _ => rw [hq] at h; exact h
            | put _ _ _ _ => rw [hq] at h; exact ⟨h.1, by rw [hprop]; exact h.2⟩
        · intro u x hu hx
          rw [hinited] at hu
          exact hheard _ _ (hi.init u x hu hx)
        · intro u hu; rw [hedges] at hu; exact hi.owned u hu
        · intro u hu; rw [hprop] at hu ⊢; exact hi.top u hu
    · cases h
  | add t v es =>
    simp only [step] at h
    split at h
    · next hf =>
      obtain ⟨ht, hown, hk⟩ := (free_iff c s t v).1 hf.1
      simp only [Option.some.injEq] at h
      have htask : s'.task = upd s.task t (.load v (hAdd f (s.edges v).length)) := by rw [← h]; rfl
      have hprop : s'.prop = s.prop := by rw [← h]
      have hedges : s'.edges = upd s.edges v (s.edges v ++ es) := by rw [← h]
      have hact : s'.act = s.act := by rw [← h]
      have hpend : s'.pend = s.pend := by rw [← h]
      have hinited : s'.inited = s.inited := by rw [← h]
      clear h
      have hheard : ∀ w x, Heard c f s w x → Heard c f s' w x := by
        intro w x hh
        exact heard_upd hh t _ htask (by rw [hprop]) (fun n hn => .inl (by rw [hpend]; exact hn)) (fun v n k e => by rw [hk] at e; cases e) (fun n i e => by rw [hk] at e; cases e)
      refine ⟨hc, ?_, ?_, ?_, ?_, ?_, ?_⟩
      · intro u hu
        rw [htask]
        by_cases e : u = t
        · rw [e, upd_same]; exact ⟨hown, .inr ⟨_, rfl⟩⟩
        · rw [upd_ne _ _ e]
          have := hi.tasks u hu
          cases hq : s.task u with
          | idle => trivial
          | load v' h' => rw [hq] at this; simp only [TOK] at this ⊢; rw [hact]; exact this
          | run v' q => rw [hq] at this; exact this
          | cas _ _ _ => rw [hq] at this; exact this
          | put _ _ _ _ => rw [hq] at this; exact this
      · intro u hu
        rw [hprop] at hu
        rw [hact]
        rcases hi.will u hu with h | ⟨n, i, h, hh⟩
        · exact .inl h
        · have eo : c.own u ≠ t := by intro eo; rw [eo, hk] at h; cases h
          exact .inr ⟨n, i, by rw [htask, upd_ne _ _ eo, h], hh⟩
      · intro u e he
        rw [hprop]
        by_cases eu : u = v
        · subst eu
          rw [hedges, upd_same] at he
          rcases List.mem_append.1 he with he | he
          · rcases hi.offer u e he with h | h | h
            · exact .inl (hheard _ _ h)
            · exact .inr (.inl h)
            · rw [hown, hk] at h; exact h.elim
          · right; right
            rw [hown, htask, upd_same]
            refine ⟨rfl, ?_⟩
            rw [hprop, hedges, upd_same]
            by_cases hv : (s.prop u).value = ⊤
            · exact .inl hv
            · right
              exact hAdd_serves f _ _ _ _ hv e (.inr (by rw [List.drop_left]; exact he))
        · rw [hedges, upd_ne _ _ eu] at he
          rcases hi.offer u e he with h | h | h
          · exact .inl (hheard _ _ h)
          · exact .inr (.inl h)
          · right; right
            have eo : c.own u ≠ t := by intro eo; rw [eo, hk] at h; exact h
            rw [htask, upd_ne _ _ eo]
            cases hq : s.task (c.own u) with
            | idle => rw [hq] at h; exact h
            | load _ _ => rw [hq] at h; exact ⟨h.1, by rw [hedges, hprop, upd_ne _ _ eu]; exact h.2⟩
            | run _ _ => rw [hq] at h; exact ⟨h.1, by rw [hprop]; exact h.2⟩
            | cas _ _ _ => rw [hq] at h; exact h
            | put _ _ _ _ => rw [hq] at h; exact ⟨h.1, by rw [hprop]; exact h.2⟩
      · intro u x hu hx
        rw [hinited] at hu
        exact hheard _ _ (hi.init u x hu hx)
      · intro u hu
        rw [hedges] at hu
        by_cases eu : u = v
        · rw [eu, hown]; exact ht
        · rw [upd_ne _ _ eu] at hu; exact hi.owned u hu
      · intro u hu; rw [hprop] at hu ⊢; exact hi.top u hu
    · cases h
  | del t v keep => exact absurd hx id
  | go t =>
    simp only [step] at h
    split at h
    · next ht => exact gInv_go htop hi ht h
    · cases h

/-! ## Soundness -/

/-- The initial notes given out so far. -/
def seedsN (c : Cfg Unit L) (s : S L E) (v : Nat) : Option L := if s.inited v = true then c.initNote v else none

def GotN (f : E → L → L) (c : Cfg Unit L) (s : S L E) (v : Nat) (x : L) : Prop := x = ⊤ ∨ Reach f s.edges (seedsN c s) v x

def TS (f : E → L → L) (Q : Nat → L → Prop) : Task (VP L) Unit L E → Prop
  | .idle => True
  | .load v h => (∃ n i, h = hUpd f n i ∧ Q v n) ∨ ∃ st, h = hAdd f st
  | .run _ q => Fine Q q
  | .cas _ _ _ => False
  | .put _ w n k => Q w n ∧ Fine Q k

structure NInv (f : E → L → L) (c : Cfg Unit L) (s : S L E) : Prop where
  prop : ∀ v, GotN f c s v (s.prop v).value
  pend : ∀ v, ∀ n ∈ s.pend v, GotN f c s v n
  task : ∀ t, t < c.T → TS f (GotN f c s) (s.task t)

theorem gotN_mono {f : E → L → L} {c : Cfg Unit L} {s s' : S L E} (he : ∀ u e, e ∈ s.edges u → e ∈ s'.edges u) (hin : ∀ v, s.inited v = true → s'.inited v = true)
    (v : Nat) (x : L) (h : GotN f c s v x) : GotN f c s' v x := by
  rcases h with h | h
  · exact .inl h
  · refine .inr (h.mono he ?_)
    intro w y hy
    unfold seedsN at *
    split at hy
    · next hw => rw [if_pos (hin w hw)]; exact hy
    · cases hy

theorem fine_mono {Q Q' : Nat → L → Prop} (h : ∀ v x, Q v x → Q' v x) : ∀ q : Prog Unit L, Fine Q q → Fine Q' q
  | .done, _ => trivial
  | .post _ _ _, hq => hq
  | .send _ _ k, hq => ⟨h _ _ hq.1, fine_mono h k hq.2⟩

theorem ts_mono {f : E → L → L} {Q Q' : Nat → L → Prop} (h : ∀ v x, Q v x → Q' v x) (k : Task (VP L) Unit L E) (hk : TS f Q k) : TS f Q' k := by
  cases k with
  | idle => trivial
  | load v g =>
    rcases hk with ⟨n, i, h1, h2⟩ | hk
    · exact .inl ⟨n, i, h1, h _ _ h2⟩
    · exact .inr hk
  | run _ q => exact fine_mono h q hk
  | cas _ _ k => exact hk
  | put _ _ _ k => exact ⟨h _ _ hk.1, fine_mono h _ hk.2⟩

theorem nInv_mk {f : E → L → L} {c : Cfg Unit L} {s s' : S L E} (hi : NInv f c s) (he : ∀ u e, e ∈ s.edges u → e ∈ s'.edges u) (hin : ∀ v, s.inited v = true → s'.inited v = true)
    (hp : ∀ v, (s'.prop v).value = (s.prop v).value ∨ GotN f c s' v (s'.prop v).value) (hpd : ∀ v, ∀ n ∈ s'.pend v, n ∈ s.pend v ∨ GotN f c s' v n)
    (t : Nat) (y : Task (VP L) Unit L E) (hk : s'.task = upd s.task t y) (hy : TS f (GotN f c s') y) : NInv f c s' := by
  refine ⟨?_, ?_, ?_⟩
  · intro v
    rcases hp v with h | h
    · rw [h]; exact gotN_mono he hin _ _ (hi.prop v)
    · exact h
  · intro v n hn
    rcases hpd v n hn with h | h
    · exact gotN_mono he hin _ _ (hi.pend v n h)
    · exact h
  · intro u hu
    rw [hk]
    by_cases e : u = t
    · rw [e, upd_same]; exact hy
    · rw [upd_ne _ _ e]; exact ts_mono (gotN_mono he hin) _ (hi.task u hu)

theorem nInv_step {f : E → L → L} {c : Cfg Unit L} (hnm : ∀ v, c.initMail v = none) (htop : ∀ e, f e ⊤ = ⊤) {s s' : S L E} {x : Act E} (hx : AddOnly x)
    (hi : NInv f c s) (h : step (msgAlg f) c s x = some s') : NInv f c s' := by
  cases x with
  | init t v =>
    simp only [step] at h
    split at h
    · have hin : ∀ u, s.inited u = true → upd s.inited v true u = true := by
        intro u hu; by_cases e : u = v
        · rw [e, upd_same]
        · rw [upd_ne _ _ e]; exact hu
      split at h
      · next m hm => rw [hnm] at hm; cases hm
      · next n hm hn =>
        simp only [Option.some.injEq] at h; subst h
        refine nInv_mk hi (fun _ _ h => h) hin (fun _ => .inl rfl) (fun _ _ h => .inl h) t _ rfl ⟨.inr (.init v n ?_), trivial⟩
        unfold seedsN
        show (if upd s.inited v true v = true then _ else _) = _
        rw [upd_same, if_pos rfl, hn]
      · next hm hn =>
        simp only [Option.some.injEq] at h; subst h
        have hm' := gotN_mono (f := f) (c := c) (s := s) (s' := { s with inited := upd s.inited v true }) (fun _ _ h => h) hin
        exact ⟨fun u => hm' _ _ (hi.prop u), fun u n hn => hm' _ _ (hi.pend u n hn), fun u hu => ts_mono hm' _ (hi.task u hu)⟩
    · cases h
  | recv t v i =>
    simp only [step] at h
    split at h
    · cases hp : (s.pend v)[i]? with
      | none => rw [hp] at h; cases h
      | some n =>
        rw [hp] at h
        simp only [Option.some.injEq] at h; subst h
        refine nInv_mk hi (fun _ _ h => h) (fun _ h => h) (fun _ => .inl rfl) ?_ t _ rfl (.inl ⟨n, _, rfl, hi.pend v n (List.mem_of_getElem? hp)⟩)
        intro u x hx
        left
        have hx' : x ∈ upd s.pend v ((s.pend v).eraseIdx i) u := hx
        by_cases e : u = v
        · rw [e] at hx' ⊢; rw [upd_same] at hx'; exact List.mem_of_mem_eraseIdx hx'
        · rw [upd_ne _ _ e] at hx'; exact hx'
    · cases h
  | add t v es =>
    simp only [step] at h
    split at h
    · simp only [Option.some.injEq] at h; subst h
      refine nInv_mk hi ?_ (fun _ h => h) (fun _ => .inl rfl) (fun _ _ h => .inl h) t _ rfl (.inr ⟨_, rfl⟩)
      intro u e he
      show e ∈ upd s.edges v _ u
      by_cases ev : u = v
      · rw [ev] at he ⊢; rw [upd_same]; exact List.mem_append_left _ he
      · rw [upd_ne _ _ ev]; exact he
    · cases h
  | del t v keep => exact absurd hx id
  | go t =>
    simp only [step] at h
    split at h
    · next ht =>
      have hsd := hi.task t ht
      cases hk : s.task t with
      | idle => rw [hk] at h; cases h
      | load v hd =>
        rw [hk] at h hsd
        simp only [goStep, Option.some.injEq] at h
        have hr : ∀ a b, (msgAlg f).retrieve a b = ((), ()) := fun _ _ => rfl
        subst h
        have hval : GotN f c s v (hd (s.prop v) (s.edges v) ()).1.value ∧ Fine (GotN f c s) (hd (s.prop v) (s.edges v) ()).2 := by
          have hedge : ∀ x, GotN f c s v x → ∀ e ∈ s.edges v, GotN f c s e.dst (f e.data x) := by
            intro x hx e he
            rcases hx with h | h
            · left; rw [h, htop]
            · right; exact .edge v _ e h he
          rcases hsd with ⟨n, i, rfl, hn⟩ | ⟨st, rfl⟩
          · have hm : GotN f c s v (min (s.prop v).value n) := by
              rcases le_total (s.prop v).value n with h | h
              · rw [min_eq_left h]; exact hi.prop v
              · rw [min_eq_right h]; exact hn
            exact ⟨by rw [hUpd_value]; exact hm, hUpd_fine f n i _ _ _ _ (hedge _ hm)⟩
          · exact ⟨by rw [hAdd_value]; exact hi.prop v, hAdd_fine f st _ _ _ _ (hedge _ (hi.prop v))⟩
        refine nInv_mk hi (fun _ _ h => h) (fun _ h => h) ?_ (fun _ _ h => .inl h) t _ rfl hval.2
        intro u
        show (upd s.prop v _ u).value = _ ∨ GotN f c s u (upd s.prop v _ u).value
        by_cases e : u = v
        · right; rw [e, upd_same]; exact hval.1
        · left; rw [upd_ne _ _ e]
      | run v q =>
        rw [hk] at h hsd
        cases q with
        | done =>
          simp only [goStep, Option.some.injEq] at h; subst h
          exact nInv_mk hi (fun _ _ h => h) (fun _ h => h) (fun _ => .inl rfl) (fun _ _ h => .inl h) t _ rfl trivial
        | post w m k => exact absurd hsd id
        | send w n k =>
          simp only [goStep, Option.some.injEq] at h; subst h
          exact nInv_mk hi (fun _ _ h => h) (fun _ h => h) (fun _ => .inl rfl) (fun _ _ h => .inl h) t _ rfl hsd
      | cas v w k => rw [hk] at hsd; exact absurd hsd id
      | put v w n k =>
        rw [hk] at h hsd
        simp only [goStep, Option.some.injEq] at h; subst h
        refine nInv_mk hi (fun _ _ h => h) (fun _ h => h) (fun _ => .inl rfl) ?_ t _ rfl hsd.2
        intro u x hx
        have hx' : x ∈ upd s.pend w (s.pend w ++ [n]) u := hx
        by_cases e : u = w
        · rw [e, upd_same] at hx'
          rw [e]
          rcases List.mem_append.1 hx' with h | h
          · exact .inl h
          · rw [List.mem_singleton.1 h]; exact .inr hsd.1
        · rw [upd_ne _ _ e] at hx'; exact .inl hx'
    · cases h

theorem nInv_start (f : E → L → L) (c : Cfg Unit L) (es0 : Nat → List (Edge E)) : NInv f c (start (msgAlg f) es0) :=
  ⟨fun _ => .inl rfl, fun v n h => by simp [start] at h, fun _ _ => trivial⟩

theorem inv_run {f : E → L → L} {c : Cfg Unit L} (hnm : ∀ v, c.initMail v = none) (htop : ∀ e, f e ⊤ = ⊤) {xs : List (Act E)} {s s' : S L E} (hx : ∀ x ∈ xs, AddOnly x)
    (hi : GInv f c s ∧ NInv f c s) (h : run (msgAlg f) c s xs = some s') : GInv f c s' ∧ NInv f c s' := by
  induction xs generalizing s with
  | nil => simp only [run, Option.some.injEq] at h; exact h ▸ hi
  | cons x xs ih =>
    simp only [run] at h
    obtain ⟨s1, h1, h2⟩ := Option.bind_eq_some_iff.1 h
    exact ih (fun y hy => hx y (by simp [hy])) ⟨gInv_step hnm htop (hx x (by simp)) hi.1 h1, nInv_step hnm htop (hx x (by simp)) hi.2 h1⟩ h2

theorem quiet_will {f : E → L → L} {c : Cfg Unit L} (hnm : ∀ v, c.initMail v = none) (htop : ∀ e, f e ⊤ = ⊤)
    {es0 : Nat → List (Edge E)} (hes : ∀ v, es0 v ≠ [] → c.own v < c.T)
    {xs : List (Act E)} {s : S L E} (hx : ∀ x ∈ xs, AddOnly x) (h : run (msgAlg f) c (start (msgAlg f) es0) xs = some s) (hq : Quiet c s) (u : Nat) (ho : c.own u < c.T) :
    (s.prop u).willUpdate = false := by
  have hI := inv_run hnm htop hx ⟨gInv_start f htop c es0 hes, nInv_start f c es0⟩ h
  cases h1 : (s.prop u).willUpdate with
  | false => rfl
  | true =>
    exfalso
    rcases hI.1.will u h1 with h2 | ⟨_, _, h2, -⟩
    · have h3 := hI.1.counts u
      have h4 : puts c s u = 0 := by
        unfold puts
        rw [List.countP_eq_zero]
        intro t ht
        rw [hq.1 t (List.mem_range.1 ht)]; simp [inPut]
      rw [hq.2 u, h4] at h3
      simp at h3
      omega
    · rw [hq.1 _ ho] at h2; cases h2

theorem quiet_leastN {f : E → L → L} {c : Cfg Unit L} (hnm : ∀ v, c.initMail v = none) (hmono : ∀ e, Monotone (f e)) (htop : ∀ e, f e ⊤ = ⊤)
    {es0 : Nat → List (Edge E)} (hes : ∀ v, es0 v ≠ [] → c.own v < c.T)
    {xs : List (Act E)} {s : S L E} (hx : ∀ x ∈ xs, AddOnly x) (h : run (msgAlg f) c (start (msgAlg f) es0) xs = some s) (hq : Quiet c s) (v : Nat) :
    ((s.prop v).value = ⊤ ∨ Reach f s.edges (seedsN c s) v (s.prop v).value) ∧ ∀ x, Reach f s.edges (seedsN c s) v x → (s.prop v).value ≤ x := by
  have hI := inv_run hnm htop hx ⟨gInv_start f htop c es0 hes, nInv_start f c es0⟩ h
  have hheard : ∀ w x, Heard c f s w x → (s.prop w).value ≤ x := by
    intro w x hh
    rcases hh with hh | ⟨n, hn, -⟩ | ⟨t, ht, _, _, _, hk, -⟩ | ⟨t, ht, _, _, hk, -⟩
    · exact hh
    · rw [hq.2 w] at hn; simp at hn
    · rw [hq.1 t ht] at hk; cases hk
    · rw [hq.1 t ht] at hk; cases hk
  refine ⟨hI.2.prop v, ?_⟩
  intro x hr
  induction hr with
  | init u x hu =>
    unfold seedsN at hu
    split at hu
    · next hin => exact hheard _ _ (hI.1.init u x hin hu)
    · cases hu
  | edge u x e _ he ih =>
    have ho := hI.1.owned u (by intro e0; rw [e0] at he; simp at he)
    rcases hI.1.offer u e he with h1 | h1 | h1
    · exact le_trans (hheard _ _ h1) (hmono _ ih)
    · rw [quiet_will hnm htop hes hx h hq u ho] at h1; cases h1
    · rw [hq.1 _ ho] at h1; exact h1.elim

end Verif.MsgPath
