import Verif.MinLabel
import Verif.AsyncInv

/-!
# Invariants of the least-label algorithm
-/

namespace Verif.MinLabel

open Verif.Async

variable {L E : Type} [LinearOrder L] [OrderTop L]

/-- Whatever the outcome of earlier sends, the program will post at most `x` to `w`. -/
def Covers (w : Nat) (x : L) : Prog L Unit → Prop
  | .done => False
  | .post w' m k => (w' = w ∧ m ≤ x) ∨ ∀ b, Covers w x (k b)
  | .send _ _ k => Covers w x k

/-- Everything the program may post satisfies `Q`. -/
def AllPosts (Q : Nat → L → Prop) : Prog L Unit → Prop
  | .done => True
  | .post w m k => Q w m ∧ ∀ b, AllPosts Q (k b)
  | .send _ _ k => AllPosts Q k

theorem covers_mem {w : Nat} {x : L} {k : Bool → Prog L Unit} : ∀ (ws : List (Nat × L)) (b : Bool), (∃ m, (w, m) ∈ ws ∧ m ≤ x) → Covers w x (postAll ws b k)
  | [], _, h => by simp at h
  | (w', m') :: ws, b, ⟨m, hm, hx⟩ => by
    rcases List.mem_cons.1 hm with e | hm
    · cases e; exact .inl ⟨rfl, hx⟩
    · exact .inr fun b' => covers_mem ws _ ⟨m, hm, hx⟩

theorem allPosts_postAll {Q : Nat → L → Prop} {k : Bool → Prog L Unit} (hk : ∀ b, AllPosts Q (k b)) :
    ∀ (ws : List (Nat × L)) (b : Bool), (∀ p ∈ ws, Q p.1 p.2) → AllPosts Q (postAll ws b k)
  | [], b, _ => hk b
  | p :: ws, b, h => ⟨h p (by simp), fun b' => allPosts_postAll hk ws _ fun q hq => h q (by simp [hq])⟩

/-- What the handlers of the algorithm do with a label `p` and mail `m`. -/
structure Hd (f : E → L → L) (h : L → List (Edge E) → L → L × Prog L Unit) : Prop where
  fst : ∀ p es m, (h p es m).1 = min p m
  better : ∀ p es m e, m < p → e ∈ es → Covers e.dst (f e.data m) (h p es m).2
  posts : ∀ p es m (Q : Nat → L → Prop), (∀ e ∈ es, Q e.dst (f e.data (min p m))) → AllPosts Q (h p es m).2

theorem hd_update (f : E → L → L) (g : Bool) (v : Nat) (n : Unit) (i : Int) : Hd f (fun p es m => (minAlg f g).onUpdate v p es n i m) := by
  refine ⟨?_, ?_, ?_⟩
  · intro p es m
    simp only [minAlg]
    split
    · next h => exact (min_eq_left h).symm
    · next h => exact (min_eq_right (le_of_lt (not_le.1 h))).symm
  · intro p es m e hm he
    simp only [minAlg]
    rw [if_neg (not_le.2 hm)]
    exact covers_mem _ _ ⟨f e.data m, List.mem_map.2 ⟨e, he, rfl⟩, le_refl _⟩
  · intro p es m Q hQ
    simp only [minAlg]
    split
    · trivial
    · next h =>
      refine allPosts_postAll (by intro _; trivial) _ _ ?_
      intro q hq
      obtain ⟨e, he, rfl⟩ := List.mem_map.1 hq
      have := hQ e he
      rwa [min_eq_right (le_of_lt (not_le.1 h))] at this

theorem hd_add (f : E → L → L) (g : Bool) (v i : Nat) : Hd f (fun p es m => (minAlg f g).onEdgeAdd v p es i m) := by
  refine ⟨?_, ?_, ?_⟩
  · intro p es m
    simp only [minAlg]
    split
    · next h => exact (min_eq_left h).symm
    · next h => exact (min_eq_right (le_of_lt (not_le.1 h))).symm
  · intro p es m e hm he
    simp only [minAlg]
    rw [if_neg (not_le.2 hm)]
    exact covers_mem _ _ ⟨f e.data m, List.mem_map.2 ⟨e, he, rfl⟩, le_refl _⟩
  · intro p es m Q hQ
    have hmin : (if p ≤ m then p else m) = min p m := by
      split
      · next h => exact (min_eq_left h).symm
      · next h => exact (min_eq_right (le_of_lt (not_le.1 h))).symm
    have hk : ∀ b : Bool, AllPosts Q (if b = true then .done else if g = true → (if p ≤ m then p else m) < ⊤ then
        postAll ((es.drop i).map fun e => (e.dst, f e.data (if p ≤ m then p else m))) false (fun _ => (.done : Prog L Unit)) else .done) := by
      intro b
      by_cases hb : b = true
      · rw [if_pos hb]; trivial
      · rw [if_neg hb]
        by_cases hg : g = true → (if p ≤ m then p else m) < ⊤
        · rw [if_pos hg]
          refine allPosts_postAll (by intro _; trivial) _ _ ?_
          intro q hq
          obtain ⟨e, he, rfl⟩ := List.mem_map.1 hq
          rw [hmin]
          exact hQ e (List.mem_of_mem_drop he)
        · rw [if_neg hg]; trivial
    simp only [minAlg]
    split
    · next h => have := hk false; rw [if_pos h] at this; exact this
    · next h =>
      simp only [if_neg h] at hk
      refine allPosts_postAll hk _ _ ?_
      intro q hq
      obtain ⟨e, he, rfl⟩ := List.mem_map.1 hq
      have := hQ e he
      rwa [min_eq_right (le_of_lt (not_le.1 h))] at this

/-- Not a delete. -/
def AddOnly : Act E → Prop
  | .del _ _ _ => False
  | _ => True

/-- The vertex a task works for, and what handlers are about to run. -/
def TaskOK (c : Cfg L Unit) (f : E → L → L) (t : Nat) : Task L L Unit E → Prop
  | .idle => True
  | .load v h => c.own v = t ∧ Hd f h
  | .run v _ => c.own v = t
  | .cas v _ _ => c.own v = t
  | .put v _ _ _ => c.own v = t

/-- The task of the owner of `v` will offer label `f e (prop v)` along edge `e` of `v`. -/
def Owes (f : E → L → L) (s : St L L Unit E) (v : Nat) (e : Edge E) : Task L L Unit E → Prop
  | .idle => False
  | .load v' h => v' = v ∧ ∀ m, s.prop v ≤ m → s.prop v = ⊤ ∨ Covers e.dst (f e.data (s.prop v)) (h (s.prop v) (s.edges v) m).2
  | .run v' q => v' = v ∧ Covers e.dst (f e.data (s.prop v)) q
  | .cas v' _ k => v' = v ∧ ∀ b, Covers e.dst (f e.data (s.prop v)) (k b)
  | .put v' _ _ k => v' = v ∧ Covers e.dst (f e.data (s.prop v)) k

structure MInv (f : E → L → L) (c : Cfg L Unit) (s : St L L Unit E) : Prop where
  tasks : ∀ t, t < c.T → TaskOK c f t (s.task t)
  seen : ∀ v, ¬ Unseen v s.log → s.prop v ≤ s.inbox v
  offer : ∀ v e, c.own v < c.T → e ∈ s.edges v → s.inbox e.dst ≤ f e.data (s.prop v) ∨ Owes f s v e (s.task (c.own v))
  init : ∀ v m, s.inited v = true → c.initMail v = some m → s.inbox v ≤ m
  owned : ∀ v, s.edges v ≠ [] → c.own v < c.T

theorem mInv_start (f : E → L → L) (htop : ∀ e, f e ⊤ = ⊤) (g : Bool) (c : Cfg L Unit) (es0 : Nat → List (Edge E)) (hes : ∀ v, es0 v ≠ [] → c.own v < c.T) : MInv f c (start (minAlg f g) es0) :=
  { tasks := fun _ _ => trivial
    seen := fun _ _ => le_refl _
    offer := fun v e _ he => .inl (by simp [start, minAlg, htop])
    init := fun v m h _ => by simp [start] at h
    owned := hes }

theorem tasks_upd {f : E → L → L} {c : Cfg L Unit} {s s' : St L L Unit E} (hi : ∀ t, t < c.T → TaskOK c f t (s.task t)) (t : Nat) (x : Task L L Unit E)
    (h : s'.task = upd s.task t x) (hx : TaskOK c f t x) : ∀ u, u < c.T → TaskOK c f u (s'.task u) := by
  intro u hu
  rw [h]
  by_cases e : u = t
  · rw [e, upd_same]; exact hx
  · rw [upd_ne _ _ e]; exact hi u hu

theorem owes_idle {f : E → L → L} {s : St L L Unit E} {v : Nat} {e : Edge E} {k : Task L L Unit E} (h : Owes f s v e k) : k ≠ .idle := by
  rintro rfl; exact h

/-- Offers survive a step of thread `t` on behalf of another vertex, if mailboxes only go down. -/
theorem offer_keep {f : E → L → L} {c : Cfg L Unit} {s s' : St L L Unit E} {v : Nat} {e : Edge E}
    (h : s.inbox e.dst ≤ f e.data (s.prop v) ∨ Owes f s v e (s.task (c.own v)))
    (hin : s'.inbox e.dst ≤ s.inbox e.dst) (hp : s'.prop v = s.prop v) (hes : s'.edges v = s.edges v)
    (hk : Owes f s v e (s.task (c.own v)) → s'.inbox e.dst ≤ f e.data (s.prop v) ∨ Owes f s v e (s'.task (c.own v))) :
    s'.inbox e.dst ≤ f e.data (s'.prop v) ∨ Owes f s' v e (s'.task (c.own v)) := by
  have hcongr : ∀ k, Owes f s v e k → Owes f s' v e k := by
    intro k h
    cases k with
    | idle => exact h
    | load v' g => refine ⟨h.1, ?_⟩; rw [hp, hes]; exact h.2
    | run v' q => refine ⟨h.1, ?_⟩; rw [hp]; exact h.2
    | cas v' w q => refine ⟨h.1, ?_⟩; rw [hp]; exact h.2
    | put v' w n q => refine ⟨h.1, ?_⟩; rw [hp]; exact h.2
  rcases h with h | h
  · left; rw [hp]; exact le_trans hin h
  · rcases hk h with h | h
    · left; rw [hp]; exact h
    · exact .inr (hcongr _ h)

theorem mInv_go {f : E → L → L} {g : Bool} {c : Cfg L Unit} (htop : ∀ e, f e ⊤ = ⊤) {s s' : St L L Unit E} {t : Nat}
    (hi : MInv f c s) (ht : t < c.T) (h : goStep (minAlg f g) s t (s.task t) = some s') : MInv f c s' := by
  have hok := hi.tasks t ht
  cases hk : s.task t with
  | idle => rw [hk] at h; cases h
  | load v hd =>
    rw [hk] at h hok
    obtain ⟨hown, hhd⟩ := hok
    simp only [goStep, Option.some.injEq] at h
    have hm : (minAlg f g).retrieve (s.inbox v) (s.prop v) = (s.inbox v, s.inbox v) := rfl
    rw [hm] at h
    simp only at h
    have hinb : upd s.inbox v (s.inbox v) = s.inbox := by
      funext u; by_cases e : u = v
      · rw [e, upd_same]
      · rw [upd_ne _ _ e]
    subst h
    refine ⟨tasks_upd hi.tasks t _ rfl hown, ?_, ?_, ?_, hi.owned⟩
    · intro u hu
      show upd s.prop v _ u ≤ upd s.inbox v _ u
      rw [hinb]
      by_cases e : u = v
      · rw [e, upd_same, hhd.fst]; exact min_le_right _ _
      · rw [upd_ne _ _ e]
        exact hi.seen u fun hn => hu ((unseen_obs _ _ _).2 ⟨fun x => e x.symm, hn⟩)
    · intro u e hu he
      by_cases ev : u = v
      · subst ev
        have hpu : (upd s.prop u (hd (s.prop u) (s.edges u) (s.inbox u)).1) u = min (s.prop u) (s.inbox u) := by rw [upd_same, hhd.fst]
        have htk : (upd s.task t (Task.run u (hd (s.prop u) (s.edges u) (s.inbox u)).2)) (c.own u) = .run u (hd (s.prop u) (s.edges u) (s.inbox u)).2 := by
          rw [hown, upd_same]
        show upd s.inbox u _ e.dst ≤ f e.data ((upd s.prop u _) u) ∨ Owes f _ u e ((upd s.task t _) (c.own u))
        rw [htk, hpu, hinb]
        by_cases hlt : s.inbox u < s.prop u
        · right
          refine ⟨rfl, ?_⟩
          show Covers e.dst (f e.data ((upd s.prop u _) u)) _
          rw [hpu, min_eq_right (le_of_lt hlt)]
          exact hhd.better _ _ _ e hlt he
        · have hle := not_lt.1 hlt
          rw [min_eq_left hle]
          rcases hi.offer u e hu he with h | h
          · exact .inl h
          · rw [hown, hk] at h
            rcases h.2 _ hle with h | h
            · left; rw [h, htop]; exact le_top
            · right
              refine ⟨rfl, ?_⟩
              show Covers e.dst (f e.data ((upd s.prop u _) u)) _
              rw [hpu, min_eq_left hle]
              exact h
      · refine offer_keep (hi.offer u e hu he) ?_ ?_ rfl ?_
        · show upd s.inbox v _ e.dst ≤ _
          rw [hinb]
        · exact upd_ne _ _ ev
        · intro ho
          right
          by_cases eo : c.own u = t
          · rw [eo, hk] at ho; exact absurd ho.1.symm ev
          · show Owes f s u e (upd s.task t _ (c.own u))
            rw [upd_ne _ _ eo]; exact ho
    · intro u m hu hmm
      show upd s.inbox v _ u ≤ m
      rw [hinb]; exact hi.init u m hu hmm
  | run v q =>
    rw [hk] at h hok
    cases q with
    | done =>
      simp only [goStep, Option.some.injEq] at h
      subst h
      refine ⟨tasks_upd hi.tasks t _ rfl trivial, hi.seen, ?_, hi.init, hi.owned⟩
      intro u e hu he
      refine offer_keep (hi.offer u e hu he) (le_refl _) rfl rfl ?_
      intro ho
      by_cases eo : c.own u = t
      · rw [eo, hk] at ho; exact absurd ho.2 id
      · right
        show Owes f s u e (upd s.task t _ (c.own u))
        rw [upd_ne _ _ eo]; exact ho
    | post w m k =>
      have hm : (minAlg f g).merge m v (s.inbox w) = (min (s.inbox w) m, decide (m < s.inbox w)) := rfl
      have hdown : ∀ u, upd s.inbox w (min (s.inbox w) m) u ≤ s.inbox u := by
        intro u; by_cases e : u = w
        · rw [e, upd_same]; exact min_le_left _ _
        · rw [upd_ne _ _ e]
      have howes : ∀ u e (x : Task L L Unit E), (∀ b, Owes f s u e (.run v (k b)) → Owes f s u e x ∨ True) → True := fun _ _ _ _ => trivial
      simp only [goStep] at h
      rw [hm] at h
      simp only [decide_eq_true_eq] at h
      split at h
      · simp only [Option.some.injEq] at h; subst h
        refine ⟨tasks_upd hi.tasks t _ rfl hok, ?_, ?_, ?_, hi.owned⟩
        · intro u hu
          have hne : u ≠ w := by rintro rfl; exact hu ((unseen_dep _ _ _).2 (.inl rfl))
          show s.prop u ≤ upd s.inbox w _ u
          rw [upd_ne _ _ hne]
          exact hi.seen u fun hn => hu ((unseen_dep _ _ _).2 (.inr hn))
        · intro u e hu he
          refine offer_keep (hi.offer u e hu he) (hdown _) rfl rfl ?_
          intro ho
          by_cases eo : c.own u = t
          · rw [eo, hk] at ho
            obtain ⟨rfl, ho⟩ := ho
            rcases ho with ⟨hw, hx⟩ | ho
            · left
              show upd s.inbox w _ e.dst ≤ _
              rw [hw, upd_same]
              exact le_trans (min_le_right _ _) hx
            · right
              show Owes f s v e (upd s.task t _ (c.own v))
              rw [eo, upd_same]
              exact ⟨rfl, ho⟩
          · right
            show Owes f s u e (upd s.task t _ (c.own u))
            rw [upd_ne _ _ eo]; exact ho
        · intro u m' hu hmm
          exact le_trans (hdown u) (hi.init u m' hu hmm)
      · next hnew =>
        have hmin : min (s.inbox w) m = s.inbox w := min_eq_left (not_lt.1 hnew)
        have hinb : upd s.inbox w (min (s.inbox w) m) = s.inbox := by
          funext u; by_cases e : u = w
          · rw [e, upd_same, hmin]
          · rw [upd_ne _ _ e]
        rw [hinb] at h
        simp only [Option.some.injEq] at h; subst h
        refine ⟨tasks_upd hi.tasks t _ rfl hok, hi.seen, ?_, hi.init, hi.owned⟩
        intro u e hu he
        refine offer_keep (hi.offer u e hu he) (le_refl _) rfl rfl ?_
        intro ho
        by_cases eo : c.own u = t
        · rw [eo, hk] at ho
          obtain ⟨rfl, ho⟩ := ho
          rcases ho with ⟨hw, hx⟩ | ho
          · left
            show s.inbox e.dst ≤ _
            rw [← hw]
            exact le_trans (not_lt.1 hnew) hx
          · right
            show Owes f s v e (upd s.task t _ (c.own v))
            rw [eo, upd_same]
            exact ⟨rfl, ho false⟩
        · right
          show Owes f s u e (upd s.task t _ (c.own u))
          rw [upd_ne _ _ eo]; exact ho
    | send w n k =>
      simp only [goStep, Option.some.injEq] at h
      subst h
      refine ⟨tasks_upd hi.tasks t _ rfl hok, hi.seen, ?_, hi.init, hi.owned⟩
      intro u e hu he
      refine offer_keep (hi.offer u e hu he) (le_refl _) rfl rfl ?_
      intro ho
      right
      by_cases eo : c.own u = t
      · rw [eo, hk] at ho
        show Owes f s u e (upd s.task t _ (c.own u))
        rw [eo, upd_same]; exact ho
      · show Owes f s u e (upd s.task t _ (c.own u))
        rw [upd_ne _ _ eo]; exact ho
  | cas v w k =>
    rw [hk] at h hok
    simp only [goStep] at h
    split at h <;>
    · simp only [Option.some.injEq] at h
      subst h
      refine ⟨tasks_upd hi.tasks t _ rfl hok, hi.seen, ?_, hi.init, hi.owned⟩
      intro u e hu he
      refine offer_keep (hi.offer u e hu he) (le_refl _) rfl rfl ?_
      intro ho
      right
      by_cases eo : c.own u = t
      · rw [eo, hk] at ho
        show Owes f s u e (upd s.task t _ (c.own u))
        rw [eo, upd_same]; exact ⟨ho.1, ho.2 _⟩
      · show Owes f s u e (upd s.task t _ (c.own u))
        rw [upd_ne _ _ eo]; exact ho
  | put v w n k =>
    rw [hk] at h hok
    simp only [goStep, Option.some.injEq] at h
    subst h
    refine ⟨tasks_upd hi.tasks t _ rfl hok, hi.seen, ?_, hi.init, hi.owned⟩
    intro u e hu he
    refine offer_keep (hi.offer u e hu he) (le_refl _) rfl rfl ?_
    intro ho
    right
    by_cases eo : c.own u = t
    · rw [eo, hk] at ho
      show Owes f s u e (upd s.task t _ (c.own u))
      rw [eo, upd_same]; exact ho
    · show Owes f s u e (upd s.task t _ (c.own u))
      rw [upd_ne _ _ eo]; exact ho

theorem add_owes (f : E → L → L) (g : Bool) (v : Nat) (p m : L) (es new : List (Edge E)) (e : Edge E) (he : e ∈ new) (hp : p ≤ m) :
    p = ⊤ ∨ Covers e.dst (f e.data p) ((minAlg f g).onEdgeAdd v p (es ++ new) es.length m).2 := by
  by_cases ht : p = ⊤
  · exact .inl ht
  · right
    have hlt : p < ⊤ := lt_top_iff_ne_top.2 ht
    simp only [minAlg, if_pos hp, Bool.false_eq_true, if_false]
    rw [if_pos (fun _ => hlt), List.drop_left]
    exact covers_mem _ _ ⟨f e.data p, List.mem_map.2 ⟨e, he, rfl⟩, le_refl _⟩

theorem mInv_step {f : E → L → L} {g : Bool} {c : Cfg L Unit} (htop : ∀ e, f e ⊤ = ⊤) {s s' : St L L Unit E} {x : Act E} (hx : AddOnly x)
    (hi : MInv f c s) (h : step (minAlg f g) c s x = some s') : MInv f c s' := by
  cases x with
  | init t v =>
    simp only [step] at h
    split at h
    · next hf =>
      obtain ⟨ht, hown, hk⟩ := (free_iff c s t v).1 hf.1
      have hno : ∀ u e, c.own u = t → ¬ Owes f s u e (s.task (c.own u)) := by
        intro u e eo ho; rw [eo, hk] at ho; exact ho
      split at h
      · next m hm =>
        have hmg : ∀ x, (minAlg f g).merge m v x = (min x m, decide (m < x)) := fun _ => rfl
        rw [hmg] at h
        simp only [decide_eq_true_eq] at h
        have hdown : ∀ u, upd s.inbox v (min (s.inbox v) m) u ≤ s.inbox u := by
          intro u; by_cases e : u = v
          · rw [e, upd_same]; exact min_le_left _ _
          · rw [upd_ne _ _ e]
        have hini : ∀ u m', upd s.inited v true u = true → c.initMail u = some m' → upd s.inbox v (min (s.inbox v) m) u ≤ m' := by
          intro u m' hu hmm
          by_cases e : u = v
          · subst e
            rw [hm] at hmm; cases hmm
            rw [upd_same]; exact min_le_right _ _
          · rw [upd_ne _ _ e] at hu
            exact le_trans (hdown u) (hi.init u m' hu hmm)
        split at h
        · simp only [Option.some.injEq] at h; subst h
          refine ⟨tasks_upd hi.tasks t _ rfl ⟨hown, hd_update f g v _ _⟩, ?_, ?_, hini, hi.owned⟩
          · intro u hu
            have hne : u ≠ v := by rintro rfl; exact hu ((unseen_dep _ _ _).2 (.inl rfl))
            show s.prop u ≤ upd s.inbox v _ u
            rw [upd_ne _ _ hne]
            exact hi.seen u fun hn => hu ((unseen_dep _ _ _).2 (.inr hn))
          · intro u e hu he
            refine offer_keep (hi.offer u e hu he) (hdown _) rfl rfl ?_
            intro ho
            right
            have eo : c.own u ≠ t := fun eo => hno u e eo ho
            show Owes f s u e (upd s.task t _ (c.own u))
            rw [upd_ne _ _ eo]; exact ho
        · next hnew =>
          have hmin : min (s.inbox v) m = s.inbox v := min_eq_left (not_lt.1 hnew)
          simp only [Option.some.injEq] at h; subst h
          refine ⟨hi.tasks, ?_, ?_, hini, hi.owned⟩
          · intro u hu
            show s.prop u ≤ upd s.inbox v _ u
            by_cases e : u = v
            · subst e; rw [upd_same, hmin]; exact hi.seen _ hu
            · rw [upd_ne _ _ e]; exact hi.seen u hu
          · intro u e hu he
            exact offer_keep (hi.offer u e hu he) (hdown _) rfl rfl (fun ho => .inr ho)
      · next n hm hn =>
        simp only [Option.some.injEq] at h; subst h
        refine ⟨tasks_upd hi.tasks t _ rfl hown, hi.seen, ?_, ?_, hi.owned⟩
        · intro u e hu he
          refine offer_keep (hi.offer u e hu he) (le_refl _) rfl rfl ?_
          intro ho
          right
          have eo : c.own u ≠ t := fun eo => hno u e eo ho
          show Owes f s u e (upd s.task t _ (c.own u))
          rw [upd_ne _ _ eo]; exact ho
        · intro u m' hu hmm
          have hne : u ≠ v := by rintro rfl; rw [hm] at hmm; cases hmm
          have hu' : upd s.inited v true u = true := hu
          rw [upd_ne _ _ hne] at hu'
          exact hi.init u m' hu' hmm
      · next hm hn =>
        simp only [Option.some.injEq] at h; subst h
        refine ⟨hi.tasks, hi.seen, hi.offer, ?_, hi.owned⟩
        intro u m' hu hmm
        have hne : u ≠ v := by rintro rfl; rw [hm] at hmm; cases hmm
        have hu' : upd s.inited v true u = true := hu
        rw [upd_ne _ _ hne] at hu'
        exact hi.init u m' hu' hmm
    · cases h
  | recv t v i =>
    simp only [step] at h
    split at h
    · next hf =>
      obtain ⟨ht, hown, hk⟩ := (free_iff c s t v).1 hf
      cases hp : (s.pend v)[i]? with
      | none => rw [hp] at h; cases h
      | some n =>
        rw [hp] at h
        simp only [Option.some.injEq] at h; subst h
        refine ⟨tasks_upd hi.tasks t _ rfl ⟨hown, hd_update f g v _ _⟩, hi.seen, ?_, hi.init, hi.owned⟩
        intro u e hu he
        refine offer_keep (hi.offer u e hu he) (le_refl _) rfl rfl ?_
        intro ho
        right
        have eo : c.own u ≠ t := by intro eo; rw [eo, hk] at ho; exact ho
        show Owes f s u e (upd s.task t _ (c.own u))
        rw [upd_ne _ _ eo]; exact ho
    · cases h
  | add t v es =>
    simp only [step] at h
    split at h
    · next hf =>
      obtain ⟨ht, hown, hk⟩ := (free_iff c s t v).1 hf.1
      simp only [Option.some.injEq] at h; subst h
      refine ⟨tasks_upd hi.tasks t _ rfl ⟨hown, hd_add f g v _⟩, hi.seen, ?_, hi.init, ?_⟩
      · intro u e hu he
        by_cases ev : u = v
        · subst ev
          have he' : e ∈ s.edges u ++ es := by
            have : e ∈ upd s.edges u (s.edges u ++ es) u := he
            rwa [upd_same] at this
          rcases List.mem_append.1 he' with he' | he'
          · rcases hi.offer u e hu he' with h | h
            · exact .inl h
            · rw [hown, hk] at h; exact h.elim
          · right
            show Owes f _ u e (upd s.task t _ (c.own u))
            rw [hown, upd_same]
            refine ⟨rfl, ?_⟩
            intro m hm
            show s.prop u = ⊤ ∨ Covers e.dst (f e.data (s.prop u)) ((minAlg f g).onEdgeAdd u (s.prop u) (upd s.edges u _ u) _ m).2
            rw [upd_same]
            exact add_owes f g u (s.prop u) m (s.edges u) es e he' hm
        · have he' : e ∈ s.edges u := by
            have : e ∈ upd s.edges v (s.edges v ++ es) u := he
            rwa [upd_ne _ _ ev] at this
          refine offer_keep (hi.offer u e hu he') (le_refl _) rfl (upd_ne _ _ ev) ?_
          intro ho
          right
          have eo : c.own u ≠ t := by intro eo; rw [eo, hk] at ho; exact ho
          show Owes f s u e (upd s.task t _ (c.own u))
          rw [upd_ne _ _ eo]; exact ho
      · intro u hu
        by_cases ev : u = v
        · rw [ev, hown]; exact ht
        · have : upd s.edges v (s.edges v ++ es) u ≠ [] := hu
          rw [upd_ne _ _ ev] at this
          exact hi.owned u this
    · cases h
  | del t v keep => exact absurd hx id
  | go t =>
    simp only [step] at h
    split at h
    · next ht => exact mInv_go htop hi ht h
    · cases h

/-! ## Soundness: labels come from somewhere -/

/-- Labels obtained from initial labels along edges. -/
inductive Reach (f : E → L → L) (edges : Nat → List (Edge E)) (init : Nat → Option L) : Nat → L → Prop where
  | init (v : Nat) (x : L) : init v = some x → Reach f edges init v x
  | edge (u : Nat) (x : L) (e : Edge E) : Reach f edges init u x → e ∈ edges u → Reach f edges init e.dst (f e.data x)

theorem Reach.mono {f : E → L → L} {edges edges' : Nat → List (Edge E)} {init init' : Nat → Option L}
    (he : ∀ u e, e ∈ edges u → e ∈ edges' u) (hin : ∀ v x, init v = some x → init' v = some x) {v : Nat} {x : L} (h : Reach f edges init v x) :
    Reach f edges' init' v x := by
  induction h with
  | init v x h => exact .init v x (hin v x h)
  | edge u x e _ h2 ih => exact .edge u x e ih (he u e h2)

/-- The initial labels given out so far. -/
def seeds (c : Cfg L Unit) (s : St L L Unit E) (v : Nat) : Option L := if s.inited v = true then c.initMail v else none

/-- A label that is `⊤` or was obtained. -/
def Got (f : E → L → L) (c : Cfg L Unit) (s : St L L Unit E) (v : Nat) (x : L) : Prop := x = ⊤ ∨ Reach f s.edges (seeds c s) v x

def TaskSound (Q : Nat → L → Prop) : Task L L Unit E → Prop
  | .idle => True
  | .load _ _ => True
  | .run _ q => AllPosts Q q
  | .cas _ _ k => ∀ b, AllPosts Q (k b)
  | .put _ _ _ k => AllPosts Q k

structure SInv (f : E → L → L) (c : Cfg L Unit) (s : St L L Unit E) : Prop where
  prop : ∀ v, Got f c s v (s.prop v)
  inbox : ∀ v, Got f c s v (s.inbox v)
  task : ∀ t, t < c.T → TaskSound (Got f c s) (s.task t)

theorem allPosts_mono {Q Q' : Nat → L → Prop} (h : ∀ v x, Q v x → Q' v x) : ∀ q : Prog L Unit, AllPosts Q q → AllPosts Q' q
  | .done, _ => trivial
  | .post w m k, hq => ⟨h _ _ hq.1, fun b => allPosts_mono h (k b) (hq.2 b)⟩
  | .send _ _ k, hq => allPosts_mono h k hq

theorem taskSound_mono {Q Q' : Nat → L → Prop} (h : ∀ v x, Q v x → Q' v x) (k : Task L L Unit E) (hk : TaskSound Q k) : TaskSound Q' k := by
  cases k with
  | idle => trivial
  | load _ _ => trivial
  | run _ q => exact allPosts_mono h q hk
  | cas _ _ k => exact fun b => allPosts_mono h _ (hk b)
  | put _ _ _ k => exact allPosts_mono h _ hk

/-- `SInv` after a step that changes at most one property, one mailbox and one task. -/
theorem sInv_mk {f : E → L → L} {c : Cfg L Unit} {s s' : St L L Unit E} (hi : SInv f c s) (hmono : ∀ v x, Got f c s v x → Got f c s' v x)
    (hp : ∀ v, s'.prop v = s.prop v ∨ Got f c s' v (s'.prop v)) (hin : ∀ v, s'.inbox v = s.inbox v ∨ Got f c s' v (s'.inbox v))
    (hk : ∀ t, t < c.T → s'.task t = s.task t ∨ TaskSound (Got f c s') (s'.task t)) : SInv f c s' := by
  refine ⟨?_, ?_, ?_⟩
  · intro v
    rcases hp v with h | h
    · rw [h]; exact hmono _ _ (hi.prop v)
    · exact h
  · intro v
    rcases hin v with h | h
    · rw [h]; exact hmono _ _ (hi.inbox v)
    · exact h
  · intro t ht
    rcases hk t ht with h | h
    · rw [h]; exact taskSound_mono hmono _ (hi.task t ht)
    · exact h

theorem upd_or {α : Type} (g : Nat → α) (t : Nat) (x : α) (Q : Nat → α → Prop) (hx : Q t x) : ∀ u, upd g t x u = g u ∨ Q u (upd g t x u) := by
  intro u
  by_cases e : u = t
  · right; rw [e, upd_same]; exact hx
  · left; rw [upd_ne _ _ e]

theorem task_or {c : Cfg L Unit} {s s' : St L L Unit E} {t : Nat} {x : Task L L Unit E} {Q : Nat → L → Prop} (h : s'.task = upd s.task t x) (hx : TaskSound Q x) :
    ∀ u, u < c.T → s'.task u = s.task u ∨ TaskSound Q (s'.task u) := by
  intro u _
  rw [h]
  exact upd_or s.task t x (fun _ k => TaskSound Q k) hx u

theorem got_min {f : E → L → L} {c : Cfg L Unit} {s : St L L Unit E} {v : Nat} {x y : L} (hx : Got f c s v x) (hy : Got f c s v y) : Got f c s v (min x y) := by
  rcases le_total x y with h | h
  · rwa [min_eq_left h]
  · rwa [min_eq_right h]

theorem sInv_go {f : E → L → L} {g : Bool} {c : Cfg L Unit} (htop : ∀ e, f e ⊤ = ⊤) {s s' : St L L Unit E} {t : Nat}
    (hm : MInv f c s) (hi : SInv f c s) (ht : t < c.T) (h : goStep (minAlg f g) s t (s.task t) = some s') : SInv f c s' := by
  have hok := hm.tasks t ht
  have hsd := hi.task t ht
  cases hk : s.task t with
  | idle => rw [hk] at h; cases h
  | load v hd =>
    rw [hk] at h hok
    obtain ⟨hown, hhd⟩ := hok
    simp only [goStep, Option.some.injEq] at h
    subst h
    have hr : (minAlg f g).retrieve (s.inbox v) (s.prop v) = (s.inbox v, s.inbox v) := rfl
    have hg : Got f c s v (min (s.prop v) (s.inbox v)) := got_min (hi.prop v) (hi.inbox v)
    refine sInv_mk hi (fun _ _ h => h) ?_ ?_ ?_
    · refine upd_or s.prop v _ (Got f c s) ?_
      rw [hhd.fst, hr]; exact hg
    · refine upd_or s.inbox v _ (Got f c s) ?_
      rw [hr]; exact hi.inbox v
    · intro u _
      refine upd_or s.task t _ (fun _ k => TaskSound (Got f c s) k) ?_ u
      refine hhd.posts _ _ _ (Got f c s) ?_
      intro e he
      rw [hr]
      rcases hg with h | h
      · left; rw [h, htop]
      · right; exact .edge v _ e h he
  | run v q =>
    rw [hk] at h hsd
    cases q with
    | done =>
      simp only [goStep, Option.some.injEq] at h; subst h
      refine sInv_mk hi ?_ ?_ ?_ ?_
      exacts [(fun _ _ h => h), (fun _ => .inl rfl), (fun _ => .inl rfl), task_or rfl (by exact trivial)]
    | post w m k =>
      have hmg : (minAlg f g).merge m v (s.inbox w) = (min (s.inbox w) m, decide (m < s.inbox w)) := rfl
      have hg : Got f c s w (min (s.inbox w) m) := got_min (hi.inbox w) hsd.1
      simp only [goStep] at h
      rw [hmg] at h
      simp only at h
      split at h
      · simp only [Option.some.injEq] at h; subst h
        refine sInv_mk hi ?_ ?_ ?_ ?_
        exacts [(fun _ _ h => h), (fun _ => .inl rfl), (upd_or s.inbox w _ (Got f c s) hg), task_or rfl (by exact hsd.2)]
      · simp only [Option.some.injEq] at h; subst h
        refine sInv_mk hi ?_ ?_ ?_ ?_
        exacts [(fun _ _ h => h), (fun _ => .inl rfl), (upd_or s.inbox w _ (Got f c s) hg), task_or rfl (by exact (hsd.2 false))]
    | send w n k =>
      simp only [goStep, Option.some.injEq] at h; subst h
      refine sInv_mk hi ?_ ?_ ?_ ?_
      exacts [(fun _ _ h => h), (fun _ => .inl rfl), (fun _ => .inl rfl), task_or rfl (by exact hsd)]
  | cas v w k =>
    rw [hk] at h hsd
    simp only [goStep] at h
    split at h
    · simp only [Option.some.injEq] at h; subst h
      refine sInv_mk hi ?_ ?_ ?_ ?_
      exacts [(fun _ _ h => h), (fun _ => .inl rfl), (fun _ => .inl rfl), task_or rfl (by exact (hsd true))]
    · simp only [Option.some.injEq] at h; subst h
      refine sInv_mk hi ?_ ?_ ?_ ?_
      exacts [(fun _ _ h => h), (fun _ => .inl rfl), (fun _ => .inl rfl), task_or rfl (by exact (hsd false))]
  | put v w n k =>
    rw [hk] at h hsd
    simp only [goStep, Option.some.injEq] at h; subst h
    refine sInv_mk hi ?_ ?_ ?_ ?_
    exacts [(fun _ _ h => h), (fun _ => .inl rfl), (fun _ => .inl rfl), task_or rfl (by exact hsd)]

theorem got_mono {f : E → L → L} {c : Cfg L Unit} {s s' : St L L Unit E} (he : ∀ u e, e ∈ s.edges u → e ∈ s'.edges u) (hin : ∀ v, s.inited v = true → s'.inited v = true)
    (v : Nat) (x : L) (h : Got f c s v x) : Got f c s' v x := by
  rcases h with h | h
  · exact .inl h
  · refine .inr (h.mono he ?_)
    intro w y hy
    unfold seeds at *
    split at hy
    · next hw => rw [if_pos (hin w hw)]; exact hy
    · cases hy

theorem sInv_step {f : E → L → L} {g : Bool} {c : Cfg L Unit} (htop : ∀ e, f e ⊤ = ⊤) {s s' : St L L Unit E} {x : Act E} (hx : AddOnly x)
    (hm : MInv f c s) (hi : SInv f c s) (h : step (minAlg f g) c s x = some s') : SInv f c s' := by
  cases x with
  | init t v =>
    simp only [step] at h
    split at h
    · have hin : ∀ u, s.inited u = true → upd s.inited v true u = true := by
        intro u hu; by_cases e : u = v
        · rw [e, upd_same]
        · rw [upd_ne _ _ e]; exact hu
      split at h
      · next m hm' =>
        have hmg : ∀ x, (minAlg f g).merge m v x = (min x m, decide (m < x)) := fun _ => rfl
        rw [hmg] at h
        have hseed : ∀ s'' : St L L Unit E, s''.inited = upd s.inited v true → s''.edges = s.edges → Got f c s'' v (min (s.inbox v) m) := by
          intro s'' h1 h2
          refine got_min ?_ ?_
          · exact got_mono (by rw [h2]; exact fun _ _ h => h) (by rw [h1]; exact hin) _ _ (hi.inbox v)
          · refine .inr (.init v m ?_)
            unfold seeds
            rw [h1, upd_same, if_pos rfl, hm']
        split at h
        · simp only [Option.some.injEq] at h; subst h
          refine sInv_mk hi ?_ ?_ ?_ ?_
          exacts [(got_mono (fun _ _ h => h) hin), (fun _ => .inl rfl), (upd_or s.inbox v _ (Got f c _) (hseed _ rfl rfl)), task_or rfl (by exact trivial)]
        · simp only [Option.some.injEq] at h; subst h
          refine sInv_mk hi ?_ ?_ ?_ ?_
          exacts [(got_mono (fun _ _ h => h) hin), (fun _ => .inl rfl), (upd_or s.inbox v _ (Got f c _) (hseed _ rfl rfl)), (fun _ _ => .inl rfl)]
      · simp only [Option.some.injEq] at h; subst h
        refine sInv_mk hi ?_ ?_ ?_ ?_
        exacts [(got_mono (fun _ _ h => h) hin), (fun _ => .inl rfl), (fun _ => .inl rfl), task_or rfl (by exact trivial)]
      · simp only [Option.some.injEq] at h; subst h
        refine sInv_mk hi ?_ ?_ ?_ ?_
        exacts [(got_mono (fun _ _ h => h) hin), (fun _ => .inl rfl), (fun _ => .inl rfl), (fun _ _ => .inl rfl)]
    · cases h
  | recv t v i =>
    simp only [step] at h
    split at h
    · cases hp : (s.pend v)[i]? with
      | none => rw [hp] at h; cases h
      | some n =>
        rw [hp] at h
        simp only [Option.some.injEq] at h; subst h
        refine sInv_mk hi ?_ ?_ ?_ ?_
        exacts [(fun _ _ h => h), (fun _ => .inl rfl), (fun _ => .inl rfl), task_or rfl (by exact trivial)]
    · cases h
  | add t v es =>
    simp only [step] at h
    split at h
    · simp only [Option.some.injEq] at h; subst h
      refine sInv_mk hi (got_mono ?_ (fun _ h => h)) (fun _ => .inl rfl) (fun _ => .inl rfl) (task_or rfl (by exact trivial))
      intro u e he
      show e ∈ upd s.edges v _ u
      by_cases ev : u = v
      · rw [ev] at he ⊢; rw [upd_same]; exact List.mem_append_left _ he
      · rw [upd_ne _ _ ev]; exact he
    · cases h
  | del t v keep => exact absurd hx id
  | go t =>
    simp only [step] at h
    split at h
    · next ht => exact sInv_go htop hm hi ht h
    · cases h

theorem sInv_start (f : E → L → L) (g : Bool) (c : Cfg L Unit) (es0 : Nat → List (Edge E)) : SInv f c (start (minAlg f g) es0) :=
  ⟨fun _ => .inl rfl, fun _ => .inl rfl, fun _ _ => trivial⟩

/-- Invariants along runs without deletes. -/
theorem run_addOnly {a : Alg L L Unit E} {c : Cfg L Unit} {I : St L L Unit E → Prop} (hstep : ∀ s s' x, AddOnly x → I s → step a c s x = some s' → I s') :
    ∀ {xs : List (Act E)} {s s' : St L L Unit E}, (∀ x ∈ xs, AddOnly x) → I s → run a c s xs = some s' → I s'
  | [], s, s', _, hi, h => by simp only [run, Option.some.injEq] at h; exact h ▸ hi
  | x :: xs, s, s', hx, hi, h => by
    simp only [run] at h
    obtain ⟨s1, h1, h2⟩ := Option.bind_eq_some_iff.1 h
    exact run_addOnly hstep (fun y hy => hx y (by simp [hy])) (hstep s s1 x (hx x (by simp)) hi h1) h2

/-- At quiescence: the label is `⊤` or obtained, and no obtained label is smaller. -/
theorem quiet_least {f : E → L → L} (g : Bool) {c : Cfg L Unit} (hmono : ∀ e, Monotone (f e)) (htop : ∀ e, f e ⊤ = ⊤)
    {es0 : Nat → List (Edge E)} (hes : ∀ v, es0 v ≠ [] → c.own v < c.T)
    {xs : List (Act E)} {s : St L L Unit E} (hx : ∀ x ∈ xs, AddOnly x) (h : run (minAlg f g) c (start (minAlg f g) es0) xs = some s) (hq : Quiet c s) (v : Nat) :
    (s.prop v = ⊤ ∨ Reach f s.edges (seeds c s) v (s.prop v)) ∧ ∀ x, Reach f s.edges (seeds c s) v x → s.prop v ≤ x := by
  have hI := run_addOnly (I := fun s => MInv f c s ∧ SInv f c s) (fun s s' x hx hi h => ⟨mInv_step htop hx hi.1 h, sInv_step htop hx hi.1 hi.2 h⟩)
    hx ⟨mInv_start f htop g c es0 hes, sInv_start f g c es0⟩ h
  have hn := noticed_run h
  have hseen : ∀ u, s.prop u ≤ s.inbox u := by
    intro u
    refine hI.1.seen u ?_
    intro hu
    rcases hn u hu with h1 | ⟨t, ht, h1⟩
    · exact h1 (hq.2 u)
    · rw [hq.1 t ht] at h1; exact h1
  refine ⟨hI.2.prop v, ?_⟩
  intro x hr
  induction hr with
  | init u x hu =>
    unfold seeds at hu
    split at hu
    · next hin => exact le_trans (hseen u) (hI.1.init u x hin hu)
    · cases hu
  | edge u x e _ he ih =>
    have ho := hI.1.owned u (by intro e0; rw [e0] at he; simp at he)
    rcases hI.1.offer u e ho he with h1 | h1
    · exact le_trans (hseen _) (le_trans h1 (hmono _ ih))
    · rw [hq.1 _ ho] at h1; exact h1.elim

end Verif.MinLabel
