import Verif.ColouringMsg
import Verif.ColouringInv
import Verif.AsyncInv

/-!
# Invariants of message-passing colouring
-/

namespace Verif.ColouringMsg

open Verif.Colouring (comparePriority hash firstUnused firstUnused_spec firstUnused_le prior prior_or prior_asymm prior_irrefl)

/-- A loaded undirected graph without self loops. -/
structure Good (c : Cfg) : Prop where
  nd : (c.es.map Prod.snd).Nodup
  pos : ∀ a ∈ c.es, a.2.2 < inDeg c a.2.1
  small : ∀ v, inDeg c v < MAGIC
  deg : ∀ v, (links c v).length = inDeg c v
  loop : ∀ a ∈ c.es, a.1 ≠ a.2.1
  vert : ∀ a ∈ c.es, a.1 < c.n ∧ a.2.1 < c.n
  owned : ∀ v, v < c.n → c.own v < c.T

theorem Good.src {c : Cfg} (h : Good c) {u u' w p : Nat} (h1 : (u, w, p) ∈ c.es) (h2 : (u', w, p) ∈ c.es) : u = u' :=
  congrArg Prod.fst (List.inj_on_of_nodup_map h.nd h1 h2 rfl)

theorem mem_links {c : Cfg} {v : Nat} {e : Nat × Nat} : e ∈ links c v ↔ (v, e.1, e.2) ∈ c.es := by
  unfold links
  rw [List.mem_map]
  constructor
  · rintro ⟨a, ha, rfl⟩
    obtain ⟨h1, h2⟩ := List.mem_filter.1 ha
    have h2 : a.1 = v := of_decide_eq_true h2
    subst h2; exact h1
  · intro h
    exact ⟨_, List.mem_filter.2 ⟨h, decide_eq_true rfl⟩, rfl⟩

theorem edges_eq {c : Cfg} (h : Good c) (v : Nat) : edges c v = (links c v).map fun e => ⟨e.1, e.2, prior e.1 v⟩ := by
  unfold edges
  apply List.ext_getElem?
  intro i
  rw [List.getElem?_mapIdx, List.getElem?_map]
  cases hl : (links c v)[i]? with
  | none => rfl
  | some e =>
    have := (List.getElem?_eq_some_iff.1 hl).1
    rw [h.deg v] at this
    simp [this, prior]

/-- The notes `v` sends when it takes a colour. -/
def news (c : Cfg) (v colour : Nat) : List (Nat × Note) := (edges c v).map (tell colour)

theorem mem_news {c : Cfg} (h : Good c) {v col w : Nat} {n : Note} : (w, n) ∈ news c v col ↔ (v, w, n.pos) ∈ c.es ∧ n.colour = col ∧ n.prio = !prior w v := by
  unfold news
  rw [edges_eq h, List.map_map, List.mem_map]
  constructor
  · rintro ⟨e, he, e2⟩
    simp only [Function.comp_apply, tell, Prod.mk.injEq] at e2
    obtain ⟨rfl, rfl⟩ := e2
    exact ⟨mem_links.1 he, rfl, rfl⟩
  · rintro ⟨h1, h2, h3⟩
    refine ⟨(w, n.pos), mem_links.2 h1, ?_⟩
    simp only [Function.comp_apply, tell, Prod.mk.injEq, true_and]
    cases n
    simp_all

/-- Notes a task has still to put into queues. -/
def outs : Task → List (Nat × Note)
  | .run _ l => l
  | .put _ w n l => (w, n) :: l
  | _ => []

/-- Of these, those to `w`. -/
def toV (w : Nat) (l : List (Nat × Note)) : List Note := l.filterMap fun x => if x.1 = w then some x.2 else none

/-- The note its owner has taken for `v`. -/
def heads (w : Nat) : Task → List Note
  | .visit v n _ => if v = w then [n] else []
  | _ => []

/-- The entry `p` after some notes have been stored. -/
def after (p : Nat) (l : List Note) (x : Nat) : Nat := l.foldl (fun x n => if n.pos = p then n.colour else x) x

/-- The entry for in-edge `p` of `w`, from `u`, once all that is on its way has arrived. -/
def seen (c : Cfg) (s : St) (u w p : Nat) : Nat :=
  after p (heads w (s.task (c.own w)) ++ s.queue w ++ toV w (outs (s.task (c.own u)))) ((s.vp w).scratch.getD p EMPTY)

theorem after_append (p : Nat) (l l' : List Note) (x : Nat) : after p (l ++ l') x = after p l' (after p l x) := List.foldl_append

theorem after_cons (p : Nat) (n : Note) (l : List Note) (x : Nat) : after p (n :: l) x = after p l (if n.pos = p then n.colour else x) := rfl

theorem after_none {p : Nat} : ∀ {l : List Note}, (∀ n ∈ l, n.pos ≠ p) → ∀ x, after p l x = x
  | [], _, _ => rfl
  | n :: l, h, x => by
    rw [after_cons, if_neg (h n List.mem_cons_self)]
    exact after_none (fun m hm => h m (List.mem_cons_of_mem _ hm)) x

theorem after_same {p col : Nat} : ∀ {l : List Note}, (∀ n ∈ l, n.colour = col) → ∀ {x : Nat}, x = col → after p l x = col
  | [], _, _, hx => hx
  | n :: l, h, x, hx => by
    rw [after_cons]
    apply after_same fun m hm => h m (List.mem_cons_of_mem _ hm)
    split
    · exact h n List.mem_cons_self
    · exact hx

theorem after_all {p col : Nat} : ∀ {l : List Note}, (∀ n ∈ l, n.colour = col) → (∃ n ∈ l, n.pos = p) → ∀ x, after p l x = col
  | [], _, h, _ => by obtain ⟨n, hn, -⟩ := h; cases hn
  | n :: l, h, ⟨m, hm, hp⟩, x => by
    rw [after_cons]
    have hl : ∀ k ∈ l, k.colour = col := fun k hk => h k (List.mem_cons_of_mem _ hk)
    by_cases hn : n.pos = p
    · rw [if_pos hn]
      exact after_same hl (h n List.mem_cons_self)
    · refine after_all hl ⟨m, ?_, hp⟩ _
      rcases List.mem_cons.1 hm with rfl | hm
      · exact absurd hp hn
      · exact hm

theorem mem_to {w : Nat} {l : List (Nat × Note)} {n : Note} : n ∈ toV w l ↔ (w, n) ∈ l := by
  unfold toV
  rw [List.mem_filterMap]
  constructor
  · rintro ⟨x, hx, h⟩
    split at h
    · next e => cases h; rw [← e]; exact hx
    · cases h
  · intro h
    exact ⟨_, h, by rw [if_pos rfl]⟩

theorem to_cons_same (w : Nat) (n : Note) (l : List (Nat × Note)) : toV w ((w, n) :: l) = n :: toV w l := by
  unfold toV; rw [List.filterMap_cons_some (b := n)]; rw [if_pos rfl]

theorem to_cons_ne {w w' : Nat} (h : w' ≠ w) (n : Note) (l : List (Nat × Note)) : toV w ((w', n) :: l) = toV w l := by
  unfold toV; rw [List.filterMap_cons_none]; rw [if_neg h]

/-- A note that a vertex can receive. -/
def Legit (c : Cfg) (v : Nat) (n : Note) : Prop :=
  (n.pos = EMPTY ∧ n.prio = false) ∨ ∃ u, (u, v, n.pos) ∈ c.es ∧ n.prio = prior u v ∧ n.colour < MAGIC

/-- The visit of `v` with `l` left to send. -/
def Sending (c : Cfg) (s : St) (t v : Nat) (l : List (Nat × Note)) : Prop :=
  v < c.n ∧ c.own v = t ∧ (l = [] ∨ ((s.vp v).colour < MAGIC ∧ l <:+ news c v (s.vp v).colour))

def TaskOk (c : Cfg) (s : St) (t : Nat) : Task → Prop
  | .idle => True
  | .visit v n left => v < c.n ∧ c.own v = t ∧ Legit c v n ∧ left ≤ s.act v
  | .run v l => Sending c s t v l
  | .put v w n l => Sending c s t v ((w, n) :: l)

/-- The task is about to put a notification of `v` into the queue. -/
def inPut (v : Nat) : Task → Bool
  | .put _ w _ _ => decide (w = v)
  | _ => false

def puts (c : Cfg) (s : St) (v : Nat) : Nat := (List.range c.T).countP fun t => inPut v (s.task t)

structure Inv (c : Cfg) (s : St) : Prop where
  ok : s.crashed = false
  len : ∀ v, (s.vp v).scratch.length = inDeg c v
  col : ∀ v, (s.vp v).colour = EMPTY ∨ (s.vp v).colour ≤ inDeg c v
  task : ∀ t, TaskOk c s t (s.task t)
  legit : ∀ v, ∀ n ∈ s.queue v, v < c.n ∧ Legit c v n
  sees : ∀ a ∈ c.es, (s.vp a.1).colour ≠ EMPTY → seen c s a.1 a.2.1 a.2.2 = (s.vp a.1).colour
  differs : ∀ a ∈ c.es, prior a.1 a.2.1 = true → (s.vp a.2.1).colour ≠ EMPTY → (s.vp a.2.1).scratch.getD a.2.2 EMPTY ≠ (s.vp a.2.1).colour
  todo : ∀ v, v < c.n → (s.vp v).colour = EMPTY → 0 < s.act v ∨ (∃ n left, s.task (c.own v) = .visit v n left) ∨ (c.wait = true ∧ 0 < (s.vp v).wait)
  counts : ∀ v, s.act v = ((s.queue v).length + puts c s v : Nat)

/-! ## The start -/

theorem inv_start {c : Cfg} (h : Good c) : Inv c (start c) := by
  have hl : ∀ v, looked c v = links c v := fun v => List.take_of_length_le (by rw [h.deg])
  refine ⟨?_, fun v => ?_, fun v => .inl rfl, fun t => trivial, fun v n hn => ?_, fun a _ hc => absurd rfl hc, fun a _ _ hc => absurd rfl hc, fun v hv _ => .inl ?_, fun v => ?_⟩
  · show (List.range c.n).any (basePanics c) = false
    rw [List.any_eq_false]
    intro v _
    unfold basePanics
    rw [h.deg]; simp
  · show ((looked c v).map _).length = _
    rw [List.length_map, hl, h.deg]
  · unfold start at hn
    dsimp only at hn
    split at hn
    · next hv =>
      rw [List.mem_singleton.1 hn]
      exact ⟨hv, .inl ⟨rfl, rfl⟩⟩
    · cases hn
  · show (0 : Int) < if v < c.n then 1 else 0
    rw [if_pos hv]; decide
  · have : puts c (start c) v = 0 := by
      unfold puts
      rw [List.countP_eq_zero]
      intro t _
      simp [start, inPut]
    rw [this]
    show (if v < c.n then (1 : Int) else 0) = _
    unfold start
    dsimp only
    split <;> simp

/-! ## Receiving and the end of a visit -/

theorem puts_upd {c : Cfg} {s s' : St} {t : Nat} {x : Task} (ht : t < c.T) (h : s'.task = upd s.task t x) (v : Nat) :
    puts c s' v + (if inPut v (s.task t) = true then 1 else 0) = puts c s v + (if inPut v x = true then 1 else 0) := by
  unfold puts
  rw [h]
  exact Async.countP_upd (inPut v) s.task t x c.T ht

theorem taskOk_mono {c : Cfg} {s s' : St} {t : Nat} {k : Task} (h : TaskOk c s t k) (hv : s'.vp = s.vp) (ha : ∀ v, c.own v = t → s.act v ≤ s'.act v) : TaskOk c s' t k := by
  cases k with
  | idle => trivial
  | visit v n left => exact ⟨h.1, h.2.1, h.2.2.1, h.2.2.2.trans (ha v h.2.1)⟩
  | run v l => unfold TaskOk Sending at *; rw [hv]; exact h
  | put v w n l => unfold TaskOk Sending at *; rw [hv]; exact h

theorem inv_recv {c : Cfg} {s : St} (hi : Inv c s) {t v : Nat} {n : Note} {q : List Note} (ht : t < c.T) (ho : c.own v = t) (hk : s.task t = .idle) (hq : s.queue v = n :: q) :
    Inv c { s with queue := upd s.queue v q, act := upd s.act v (s.act v - 1), task := upd s.task t (.visit v n (s.act v - 1)) } := by
  have hn := hi.legit v n (by rw [hq]; exact List.mem_cons_self)
  refine ⟨hi.ok, hi.len, hi.col, fun t' => ?_, fun w m hm => ?_, fun a ha hc => ?_, hi.differs, fun w hw hc => ?_, fun w => ?_⟩
  · dsimp only
    by_cases e : t' = t
    · subst e
      rw [upd_same]
      exact ⟨hn.1, ho, hn.2, by dsimp only; rw [upd_same]⟩
    · rw [upd_ne _ _ e]
      refine taskOk_mono (hi.task t') rfl fun w hw => ?_
      dsimp only
      rw [upd_ne _ _ (by rintro rfl; exact e (hw.symm.trans ho))]
  · dsimp only at hm
    by_cases e : w = v
    · subst e
      rw [upd_same] at hm
      exact hi.legit w m (by rw [hq]; exact List.mem_cons_of_mem _ hm)
    · rw [upd_ne _ _ e] at hm
      exact hi.legit w m hm
  · have h0 := hi.sees a ha hc
    refine Eq.trans ?_ h0
    unfold seen
    dsimp only
    have h1 : outs (upd s.task t (.visit v n (s.act v - 1)) (c.own a.1)) = outs (s.task (c.own a.1)) := by
      by_cases e : c.own a.1 = t
      · rw [e, upd_same, hk]; rfl
      · rw [upd_ne _ _ e]
    have h2 : heads a.2.1 (upd s.task t (.visit v n (s.act v - 1)) (c.own a.2.1)) ++ upd s.queue v q a.2.1 = heads a.2.1 (s.task (c.own a.2.1)) ++ s.queue a.2.1 := by
      by_cases e : a.2.1 = v
      · rw [e, ho, upd_same, upd_same, hk, hq]; simp [heads]
      · rw [upd_ne s.queue _ e]
        by_cases e2 : c.own a.2.1 = t
        · rw [e2, upd_same, hk]; simp [heads, Ne.symm e]
        · rw [upd_ne _ _ e2]
    rw [h1, h2]
  · dsimp only at hc ⊢
    by_cases e : w = v
    · subst e
      exact .inr (.inl ⟨n, s.act w - 1, by rw [ho, upd_same]⟩)
    · rw [upd_ne _ _ e]
      rcases hi.todo w hw hc with h | ⟨m, left, h⟩ | h
      · exact .inl h
      · refine .inr (.inl ⟨m, left, ?_⟩)
        by_cases e2 : c.own w = t
        · rw [e2, hk] at h; cases h
        · rw [upd_ne _ _ e2]; exact h
      · exact .inr (.inr h)
  · dsimp only
    have h1 := puts_upd (s' := { s with queue := upd s.queue v q, act := upd s.act v (s.act v - 1), task := upd s.task t (.visit v n (s.act v - 1)) }) ht rfl w
    rw [hk] at h1
    simp only [inPut, Bool.false_eq_true, if_false, Nat.add_zero] at h1
    rw [h1]
    have h2 := hi.counts w
    by_cases e : w = v
    · subst e
      rw [upd_same, upd_same, h2, hq]
      simp only [List.length_cons]; omega
    · rw [upd_ne _ _ e, upd_ne _ _ e]; exact h2

theorem inv_end {c : Cfg} {s : St} (hi : Inv c s) {t v : Nat} (ht : t < c.T) (hk : s.task t = .run v []) : Inv c { s with task := upd s.task t .idle } := by
  refine ⟨hi.ok, hi.len, hi.col, fun t' => ?_, hi.legit, fun a ha hc => ?_, hi.differs, fun w hw hc => ?_, fun w => ?_⟩
  · dsimp only
    by_cases e : t' = t
    · subst e; rw [upd_same]; trivial
    · rw [upd_ne _ _ e]; exact taskOk_mono (hi.task t') rfl fun w hw => Int.le_refl _
  · refine Eq.trans ?_ (hi.sees a ha hc)
    unfold seen
    dsimp only
    have h1 : outs (upd s.task t .idle (c.own a.1)) = outs (s.task (c.own a.1)) := by
      by_cases e : c.own a.1 = t
      · rw [e, upd_same, hk]; rfl
      · rw [upd_ne _ _ e]
    have h2 : heads a.2.1 (upd s.task t .idle (c.own a.2.1)) = heads a.2.1 (s.task (c.own a.2.1)) := by
      by_cases e : c.own a.2.1 = t
      · rw [e, upd_same, hk]; rfl
      · rw [upd_ne _ _ e]
    rw [h1, h2]
  · rcases hi.todo w hw hc with h | ⟨m, left, h⟩ | h
    · exact .inl h
    · refine .inr (.inl ⟨m, left, ?_⟩)
      dsimp only
      by_cases e2 : c.own w = t
      · rw [e2, hk] at h; cases h
      · rw [upd_ne _ _ e2]; exact h
    · exact .inr (.inr h)
  · have h1 := puts_upd (s' := { s with task := upd s.task t .idle }) ht rfl w
    rw [hk] at h1
    simp only [inPut, Bool.false_eq_true, if_false, Nat.add_zero] at h1
    dsimp only
    rw [h1]; exact hi.counts w

/-! ## Sending -/

theorem inv_count {c : Cfg} {s : St} (hi : Inv c s) {t v w : Nat} {n : Note} {l : List (Nat × Note)} (ht : t < c.T) (hk : s.task t = .run v ((w, n) :: l)) :
    Inv c { s with act := upd s.act w (s.act w + 1), task := upd s.task t (.put v w n l) } := by
  have hge : ∀ x, s.act x ≤ upd s.act w (s.act w + 1) x := by
    intro x
    by_cases e : x = w
    · subst e; rw [upd_same]; omega
    · rw [upd_ne _ _ e]
  have htk := hi.task t
  rw [hk] at htk
  refine ⟨hi.ok, hi.len, hi.col, fun t' => ?_, hi.legit, fun a ha hc => ?_, hi.differs, fun x hx hc => ?_, fun x => ?_⟩
  · dsimp only
    by_cases e : t' = t
    · subst e; rw [upd_same]; exact htk
    · rw [upd_ne _ _ e]; exact taskOk_mono (hi.task t') rfl fun w _ => hge w
  · refine Eq.trans ?_ (hi.sees a ha hc)
    unfold seen
    dsimp only
    have h1 : outs (upd s.task t (.put v w n l) (c.own a.1)) = outs (s.task (c.own a.1)) := by
      by_cases e : c.own a.1 = t
      · rw [e, upd_same, hk]; rfl
      · rw [upd_ne _ _ e]
    have h2 : heads a.2.1 (upd s.task t (.put v w n l) (c.own a.2.1)) = heads a.2.1 (s.task (c.own a.2.1)) := by
      by_cases e : c.own a.2.1 = t
      · rw [e, upd_same, hk]; rfl
      · rw [upd_ne _ _ e]
    rw [h1, h2]
  · rcases hi.todo x hx hc with h | ⟨m, left, h⟩ | h
    · exact .inl (lt_of_lt_of_le h (hge x))
    · refine .inr (.inl ⟨m, left, ?_⟩)
      dsimp only
      by_cases e2 : c.own x = t
      · rw [e2, hk] at h; cases h
      · rw [upd_ne _ _ e2]; exact h
    · exact .inr (.inr h)
  · have h1 := puts_upd (s' := { s with act := upd s.act w (s.act w + 1), task := upd s.task t (.put v w n l) }) ht rfl x
    rw [hk] at h1
    simp only [inPut, Bool.false_eq_true, if_false, Nat.add_zero, decide_eq_true_eq] at h1
    dsimp only
    rw [h1]
    have h2 := hi.counts x
    by_cases e : x = w
    · subst e; rw [upd_same, if_pos rfl, h2]; omega
    · rw [upd_ne _ _ e, if_neg (Ne.symm e), h2]; rfl

theorem suffix_tail {α : Type} {a : α} {l m : List α} (h : a :: l <:+ m) : l <:+ m := (List.suffix_cons a l).trans h

theorem sending_tail {c : Cfg} {s : St} {t v : Nat} {x : Nat × Note} {l : List (Nat × Note)} (h : Sending c s t v (x :: l)) : Sending c s t v l := by
  refine ⟨h.1, h.2.1, .inr ?_⟩
  rcases h.2.2 with h | h
  · cases h
  · exact ⟨h.1, suffix_tail h.2⟩

theorem sending_mem {c : Cfg} (hg : Good c) {s : St} {t v w : Nat} {n : Note} {l : List (Nat × Note)} (h : Sending c s t v l) (hm : (w, n) ∈ l) :
    (v, w, n.pos) ∈ c.es ∧ n.colour = (s.vp v).colour ∧ n.prio = !prior w v ∧ (s.vp v).colour < MAGIC := by
  rcases h.2.2 with h | h
  · rw [h] at hm; cases hm
  · have := (mem_news hg).1 (h.2.subset hm)
    exact ⟨this.1, this.2.1, this.2.2, h.1⟩

theorem not_prior {u w : Nat} (h : u ≠ w) : (!prior w u) = prior u w := by
  rcases prior_or h with h | h
  · rw [h, prior_asymm h]; rfl
  · rw [h, prior_asymm h]; rfl

theorem inv_put {c : Cfg} (hg : Good c) {s : St} (hi : Inv c s) {t v w : Nat} {n : Note} {l : List (Nat × Note)} (ht : t < c.T) (hk : s.task t = .put v w n l) :
    Inv c { s with queue := upd s.queue w (s.queue w ++ [n]), task := upd s.task t (.run v l) } := by
  have htk := hi.task t
  rw [hk] at htk
  obtain ⟨hm1, hm2, hm3, hm4⟩ := sending_mem hg htk List.mem_cons_self
  refine ⟨hi.ok, hi.len, hi.col, fun t' => ?_, fun x m hm => ?_, fun a ha hc => ?_, hi.differs, fun x hx hc => ?_, fun x => ?_⟩
  · dsimp only
    by_cases e : t' = t
    · subst e; rw [upd_same]; exact sending_tail htk
    · rw [upd_ne _ _ e]; exact taskOk_mono (hi.task t') rfl fun w _ => Int.le_refl _
  · dsimp only at hm
    by_cases e : x = w
    · subst e
      rw [upd_same, List.mem_append, List.mem_singleton] at hm
      rcases hm with hm | rfl
      · exact hi.legit _ _ hm
      · refine ⟨(hg.vert _ hm1).2, .inr ⟨v, hm1, ?_, by rw [hm2]; exact hm4⟩⟩
        rw [hm3, not_prior (hg.loop _ hm1)]
    · rw [upd_ne _ _ e] at hm; exact hi.legit _ _ hm
  · refine Eq.trans ?_ (hi.sees a ha hc)
    unfold seen
    dsimp only
    have h2 : heads a.2.1 (upd s.task t (.run v l) (c.own a.2.1)) = heads a.2.1 (s.task (c.own a.2.1)) := by
      by_cases e : c.own a.2.1 = t
      · rw [e, upd_same, hk]; rfl
      · rw [upd_ne _ _ e]
    rw [h2]
    by_cases e : c.own a.1 = t
    · rw [e, upd_same, hk]
      simp only [outs]
      by_cases ew : a.2.1 = w
      · rw [ew, upd_same, to_cons_same]; simp only [List.append_assoc, List.cons_append, List.nil_append]
      · rw [upd_ne _ _ ew, to_cons_ne (Ne.symm ew)]
    · rw [upd_ne _ _ e]
      by_cases ew : a.2.1 = w
      · rw [ew, upd_same]
        simp only [after_append]
        have : n.pos ≠ a.2.2 := by
          intro ep
          have ha' : (a.1, w, n.pos) ∈ c.es := by rw [ep, ← ew]; exact ha
          have := hg.src ha' hm1
          exact e (by rw [this]; exact htk.2.1)
        congr 1
        exact after_none (fun m hm => by rw [List.mem_singleton.1 hm]; exact this) _
      · rw [upd_ne _ _ ew]
  · rcases hi.todo x hx hc with h | ⟨m, left, h⟩ | h
    · exact .inl h
    · refine .inr (.inl ⟨m, left, ?_⟩)
      dsimp only
      by_cases e2 : c.own x = t
      · rw [e2, hk] at h; cases h
      · rw [upd_ne _ _ e2]; exact h
    · exact .inr (.inr h)
  · have h1 := puts_upd (s' := { s with queue := upd s.queue w (s.queue w ++ [n]), task := upd s.task t (.run v l) }) ht rfl x
    rw [hk] at h1
    simp only [inPut, Bool.false_eq_true, if_false, Nat.add_zero, decide_eq_true_eq] at h1
    dsimp only
    have h2 := hi.counts x
    by_cases e : x = w
    · subst e
      rw [if_pos rfl] at h1
      rw [upd_same, h2, List.length_append, List.length_singleton]; omega
    · rw [if_neg (Ne.symm e)] at h1
      rw [upd_ne _ _ e, h2]; omega

/-! ## The visit -/

theorem best_le (ns : List Nat) : firstUnused (used ns) ≤ ns.length := by
  have := firstUnused_le (l := used ns) (l' := used ns) (fun _ h => h)
  exact this.trans (List.length_filter_le _ _)

theorem best_not {ns : List Nat} {p : Nat} (hs : ns.length < MAGIC) : ns.getD p EMPTY ≠ firstUnused (used ns) := by
  intro e
  have hb := best_le ns
  rw [List.getD_eq_getElem?_getD] at e
  cases h : ns[p]? with
  | none =>
    rw [h] at e
    have : EMPTY = firstUnused (used ns) := e
    simp only [EMPTY, MAGIC] at *
    omega
  | some x =>
    rw [h] at e
    have e : x = firstUnused (used ns) := e
    apply (firstUnused_spec (used ns)).1
    rw [← e]
    exact List.mem_filter.2 ⟨List.mem_of_getElem? h, decide_eq_true (by omega)⟩

/-- What the first part of a visit does. -/
structure Noted (c : Cfg) (p p' : VP) (n : Note) : Prop where
  len : p'.scratch.length = p.scratch.length
  ent : ∀ q, q ≠ EMPTY → p'.scratch.getD q EMPTY = if n.pos = q then n.colour else p.scratch.getD q EMPTY
  col : (p'.colour = EMPTY ∧ n.prio = true) ∨ p'.colour = p.colour
  hit : n.prio = true → p'.colour ≠ EMPTY → p'.colour ≠ n.colour
  wait : p'.wait ≤ p.wait

theorem noted {c : Cfg} {p : VP} {n : Note} (h : n.pos = EMPTY ∧ n.prio = false ∨ n.pos < p.scratch.length ∧ n.pos ≠ EMPTY) : ∃ p', note c.wait p n = some p' ∧ Noted c p p' n := by
  unfold note
  rcases h with ⟨hp, hq⟩ | ⟨hl, hp⟩
  · rw [if_pos hp]
    refine ⟨p, rfl, rfl, fun q hq => by rw [if_neg (by rw [hp]; exact Ne.symm hq)], .inr rfl, ?_, Int.le_refl _⟩
    intro h1
    rw [hq] at h1; cases h1
  · rw [if_neg hp, List.getElem?_eq_getElem hl]
    dsimp only
    have hent : ∀ q, q ≠ EMPTY → (p.scratch.set n.pos n.colour).getD q EMPTY = if n.pos = q then n.colour else p.scratch.getD q EMPTY := by
      intro q _
      simp only [List.getD_eq_getElem?_getD, List.getElem?_set]
      split
      · next e => subst e; simp
      · rfl
    by_cases hpr : n.prio = true
    · rw [if_pos hpr]
      by_cases hc : n.colour = p.colour
      · rw [if_pos hc]
        refine ⟨_, rfl, ?_, ?_, ?_, ?_, ?_⟩ <;> split <;> simp_all
      · rw [if_neg hc]
        refine ⟨_, rfl, ?_, ?_, ?_, ?_, ?_⟩ <;> split <;> simp_all [Ne.symm]
    · rw [if_neg hpr]
      exact ⟨_, rfl, by simp, hent, .inr rfl, fun h => absurd h hpr, Int.le_refl _⟩

/-- What the second part of a visit does. -/
inductive Coloured (c : Cfg) (v : Nat) (p : VP) (left : Int) : VP → List (Nat × Note) → Prop
  | rest : (p.colour = EMPTY → 0 < left ∨ (c.wait = true ∧ 0 < p.wait)) → Coloured c v p left p []
  | new : p.colour = EMPTY → ¬ 0 < left → ¬ (c.wait = true ∧ 0 < p.wait) →
      Coloured c v p left { p with colour := firstUnused (used p.scratch) } (news c v (firstUnused (used p.scratch)))

theorem coloured (c : Cfg) (v : Nat) (p : VP) (left : Int) : Coloured c v p left (colour c.wait p (edges c v) left).1 (colour c.wait p (edges c v) left).2 := by
  unfold colour
  split
  · next h => exact .rest fun _ => h
  · next h =>
    rw [not_or] at h
    split
    · next he => exact .new he h.1 h.2
    · next he => exact .rest fun e => absurd e he

theorem legit_pos {c : Cfg} (hg : Good c) {s : St} (hi : Inv c s) {v : Nat} {n : Note} (h : Legit c v n) : n.pos = EMPTY ∧ n.prio = false ∨ n.pos < (s.vp v).scratch.length ∧ n.pos ≠ EMPTY := by
  rcases h with h | ⟨u, hu, -⟩
  · exact .inl h
  · have h1 := hg.pos _ hu
    have h2 := hg.small v
    dsimp only at h1
    rw [hi.len]
    simp only [MAGIC, EMPTY] at *
    exact .inr (by omega)

theorem pos_ne {c : Cfg} (hg : Good c) {a : Nat × Nat × Nat} (ha : a ∈ c.es) : a.2.2 ≠ EMPTY := by
  have h1 := hg.pos _ ha
  have h2 := hg.small a.2.1
  simp only [MAGIC, EMPTY] at *
  omega

theorem inv_visit {c : Cfg} (hg : Good c) {s : St} (hi : Inv c s) {t v : Nat} {n : Note} {left : Int} (ht : t < c.T) (hk : s.task t = .visit v n left) {p p' : VP} {l : List (Nat × Note)}
    (hn : Noted c (s.vp v) p n) (hc : Coloured c v p left p' l) : Inv c { s with vp := upd s.vp v p', task := upd s.task t (.run v l) } := by
  have htk := hi.task t
  rw [hk] at htk
  obtain ⟨hv, ho, hleg, hleft⟩ := htk
  have hs' : p'.scratch = p.scratch := by cases hc <;> rfl
  have hb := best_le p.scratch
  have hlen : p.scratch.length = inDeg c v := hn.len.trans (hi.len v)
  have hsm := hg.small v
  have hcol : p'.colour = EMPTY ∨ p'.colour ≤ inDeg c v := by
    cases hc with
    | rest _ =>
      rcases hn.col with h | h
      · exact .inl h.1
      · rw [h]; exact hi.col v
    | new => exact .inr (by dsimp only; omega)
  refine ⟨hi.ok, fun x => ?_, fun x => ?_, fun t' => ?_, hi.legit, fun a ha hca => ?_, fun a ha hp hca => ?_, fun x hx hcx => ?_, fun x => ?_⟩
  · dsimp only
    by_cases e : x = v
    · subst e; rw [upd_same, hs']; exact hlen
    · rw [upd_ne _ _ e]; exact hi.len x
  · dsimp only
    by_cases e : x = v
    · subst e; rw [upd_same]; exact hcol
    · rw [upd_ne _ _ e]; exact hi.col x
  · dsimp only
    by_cases e : t' = t
    · subst e; rw [upd_same]
      refine ⟨hv, ho, ?_⟩
      dsimp only
      rw [upd_same]
      cases hc with
      | rest _ => exact .inl rfl
      | new => exact .inr ⟨by dsimp only; omega, List.suffix_rfl⟩
    · rw [upd_ne _ _ e]
      have h0 := hi.task t'
      cases hk' : s.task t' with
      | idle => trivial
      | visit v' n' left' => rw [hk'] at h0; exact h0
      | run v' l' =>
        rw [hk'] at h0
        have e2 : v' ≠ v := by rintro rfl; exact e (h0.2.1.symm.trans ho)
        unfold TaskOk Sending at *
        dsimp only
        rw [upd_ne _ _ e2]; exact h0
      | put v' w n' l' =>
        rw [hk'] at h0
        have e2 : v' ≠ v := by rintro rfl; exact e (h0.2.1.symm.trans ho)
        unfold TaskOk Sending at *
        dsimp only
        rw [upd_ne _ _ e2]; exact h0
  · obtain ⟨u, w, q⟩ := a
    dsimp only at hca ⊢
    -- the part of the view that does not come from `u`
    have hview : after q (heads w (upd s.task t (.run v l) (c.own w)) ++ s.queue w) ((upd s.vp v p' w).scratch.getD q EMPTY) =
        after q (heads w (s.task (c.own w)) ++ s.queue w) ((s.vp w).scratch.getD q EMPTY) := by
      by_cases e : w = v
      · subst e
        rw [ho, upd_same, upd_same, hk, hs', hn.ent q (pos_ne hg ha)]
        simp [heads, after_cons]
      · rw [upd_ne s.vp _ e]
        by_cases e2 : c.own w = t
        · rw [e2, upd_same, hk]; simp [heads, Ne.symm e]
        · rw [upd_ne _ _ e2]
    unfold seen
    dsimp only
    rw [after_append, hview]
    by_cases e : u = v
    · subst e
      rw [upd_same] at hca ⊢
      rw [ho, upd_same]
      simp only [outs]
      cases hc with
      | rest _ =>
        rcases hn.col with h | h
        · exact absurd h.1 hca
        · rw [h] at hca ⊢
          have := hi.sees _ ha hca
          unfold seen at this
          dsimp only at this
          rw [ho, hk, after_append] at this
          exact this
      | new =>
        dsimp only
        apply after_all
        · intro m hm
          exact ((mem_news hg).1 (mem_to.1 hm)).2.1
        · exact ⟨⟨q, _, !prior w u⟩, mem_to.2 ((mem_news hg).2 ⟨ha, rfl, rfl⟩), rfl⟩
    · rw [upd_ne _ _ e] at hca ⊢
      have h0 := hi.sees _ ha hca
      unfold seen at h0
      dsimp only at h0
      rw [after_append] at h0
      by_cases e2 : c.own u = t
      · rw [e2, upd_same]
        rw [e2, hk] at h0
        simp only [outs] at h0 ⊢
        refine Eq.trans (after_none ?_ _) h0
        intro m hm
        have hm := mem_to.1 hm
        cases hc with
        | rest _ => cases hm
        | new =>
          intro ep
          have := ((mem_news hg).1 hm).1
          rw [ep] at this
          exact e (hg.src ha this)
      · rw [upd_ne _ _ e2]; exact h0
  · obtain ⟨u, w, q⟩ := a
    dsimp only at hp hca ⊢
    by_cases e : w = v
    · subst e
      rw [upd_same] at hca ⊢
      cases hc with
      | rest _ =>
        rw [hn.ent q (pos_ne hg ha)]
        split
        · next ep =>
          refine fun e => hn.hit ?_ hca e.symm
          rcases hleg with h | ⟨u', hu', h1, -⟩
          · exact absurd (ep.symm.trans h.1) (pos_ne hg ha)
          · rw [ep] at hu'
            rw [h1, ← hg.src ha hu']; exact hp
        · rcases hn.col with h | h
          · exact absurd h.1 hca
          · rw [h] at hca ⊢
            exact hi.differs _ ha hp hca
      | new => exact best_not (by dsimp only; omega)
    · rw [upd_ne _ _ e] at hca ⊢
      exact hi.differs _ ha hp hca
  · dsimp only at hcx ⊢
    by_cases e : x = v
    · subst e
      rw [upd_same] at hcx ⊢
      cases hc with
      | rest h =>
        rcases h hcx with h | h
        · exact .inl (by omega)
        · exact .inr (.inr h)
      | new =>
        dsimp only at hcx
        simp only [MAGIC, EMPTY] at *
        omega
    · rw [upd_ne _ _ e] at hcx ⊢
      rcases hi.todo x hx hcx with h | ⟨m, left', h⟩ | h
      · exact .inl h
      · refine .inr (.inl ⟨m, left', ?_⟩)
        by_cases e2 : c.own x = t
        · rw [e2, hk] at h; injection h with h; exact absurd h.symm e
        · rw [upd_ne _ _ e2]; exact h
      · exact .inr (.inr h)
  · have h1 := puts_upd (s' := { s with vp := upd s.vp v p', task := upd s.task t (.run v l) }) ht rfl x
    rw [hk] at h1
    simp only [inPut, Bool.false_eq_true, if_false, Nat.add_zero] at h1
    dsimp only
    rw [h1]; exact hi.counts x

/-! ## Runs -/

/-- A step, seen from the vertices. -/
inductive Step (c : Cfg) (s : St) : St → Prop
  | recv {t v n q} : t < c.T → c.own v = t → s.task t = .idle → s.queue v = n :: q →
      Step c s { s with queue := upd s.queue v q, act := upd s.act v (s.act v - 1), task := upd s.task t (.visit v n (s.act v - 1)) }
  | visit {t v n left p p' l} : t < c.T → s.task t = .visit v n left → note c.wait (s.vp v) n = some p → Noted c (s.vp v) p n → Coloured c v p left p' l →
      Step c s { s with vp := upd s.vp v p', task := upd s.task t (.run v l) }
  | fin {t v} : t < c.T → s.task t = .run v [] → Step c s { s with task := upd s.task t .idle }
  | count {t v w n l} : t < c.T → s.task t = .run v ((w, n) :: l) →
      Step c s { s with act := upd s.act w (s.act w + 1), task := upd s.task t (.put v w n l) }
  | put {t v w n l} : t < c.T → s.task t = .put v w n l →
      Step c s { s with queue := upd s.queue w (s.queue w ++ [n]), task := upd s.task t (.run v l) }

theorem step_cases {c : Cfg} (hg : Good c) {s s' : St} (hi : Inv c s) {x : Act} (h : step c s x = some s') : Step c s s' := by
  cases x with
  | recv t v =>
    simp only [step] at h
    split at h
    · next hf =>
      split at h
      · cases h
      · next n q hq =>
        simp only [Option.some.injEq] at h
        subst h
        exact .recv hf.2.1 hf.2.2.1 hf.2.2.2 hq
    · cases h
  | go t =>
    simp only [step] at h
    split at h
    · next hf =>
      cases hk : s.task t with
      | idle => rw [hk] at h; cases h
      | visit v n left =>
        have htk := hi.task t
        rw [hk] at htk
        obtain ⟨p, hp, hn⟩ := noted (c := c) (legit_pos hg hi htk.2.2.1)
        rw [hk] at h
        simp only [goStep, hp, Option.some.injEq] at h
        subst h
        exact .visit hf.2 hk hp hn (coloured c v p left)
      | run v l =>
        rw [hk] at h
        cases l with
        | nil =>
          simp only [goStep, Option.some.injEq] at h
          subst h
          exact .fin hf.2 hk
        | cons x l =>
          simp only [goStep, Option.some.injEq] at h
          subst h
          exact .count hf.2 hk
      | put v w n l =>
        rw [hk] at h
        simp only [goStep, Option.some.injEq] at h
        subst h
        exact .put hf.2 hk
    · cases h

theorem inv_of_step {c : Cfg} (hg : Good c) {s s' : St} (hi : Inv c s) (h : Step c s s') : Inv c s' := by
  cases h with
  | recv h1 h2 h3 h4 => exact inv_recv hi h1 h2 h3 h4
  | visit h1 h2 _ h3 h4 => exact inv_visit hg hi h1 h2 h3 h4
  | fin h1 h2 => exact inv_end hi h1 h2
  | count h1 h2 => exact inv_count hi h1 h2
  | put h1 h2 => exact inv_put hg hi h1 h2

theorem inv_run {c : Cfg} (hg : Good c) : ∀ (xs : List Act) (s s' : St), Inv c s → run c s xs = some s' → Inv c s'
  | [], s, s', hi, h => by cases h; exact hi
  | x :: xs, s, s', hi, h => by
    simp only [run, Option.bind_eq_some_iff] at h
    obtain ⟨s1, h1, h2⟩ := h
    exact inv_run hg xs s1 s' (inv_of_step hg hi (step_cases hg hi h1)) h2

/-! ## At rest -/

theorem quiet_act {c : Cfg} {s : St} (hi : Inv c s) (hq : Quiet c s) (v : Nat) : s.act v = 0 := by
  rw [hi.counts v, hq.2 v]
  have : puts c s v = 0 := by
    unfold puts
    rw [List.countP_eq_zero]
    intro t ht
    rw [hq.1 t (List.mem_range.1 ht)]
    simp [inPut]
  rw [this]; rfl

theorem quiet_seen {c : Cfg} (hg : Good c) {s : St} (hi : Inv c s) (hq : Quiet c s) {a : Nat × Nat × Nat} (ha : a ∈ c.es) (hc : (s.vp a.1).colour ≠ EMPTY) :
    (s.vp a.2.1).scratch.getD a.2.2 EMPTY = (s.vp a.1).colour := by
  have h := hi.sees a ha hc
  unfold seen at h
  rw [hq.1 _ (hg.owned _ (hg.vert a ha).1), hq.1 _ (hg.owned _ (hg.vert a ha).2), hq.2] at h
  exact h

/-- Neighbours that have a colour have different ones. -/
theorem quiet_proper {c : Cfg} (hg : Good c) {s : St} (hi : Inv c s) (hq : Quiet c s) {a : Nat × Nat × Nat} (ha : a ∈ c.es) (hrev : ∃ q, (a.2.1, a.1, q) ∈ c.es)
    (hc : (s.vp a.1).colour ≠ EMPTY) (hc' : (s.vp a.2.1).colour ≠ EMPTY) : (s.vp a.1).colour ≠ (s.vp a.2.1).colour := by
  intro e
  obtain ⟨q, hq'⟩ := hrev
  rcases prior_or (hg.loop a ha) with h | h
  · exact hi.differs a ha h hc' ((quiet_seen hg hi hq ha hc).trans e)
  · exact hi.differs _ hq' h hc ((quiet_seen hg hi hq hq' hc').trans e.symm)

theorem quiet_coloured {c : Cfg} (hg : Good c) {s : St} (hi : Inv c s) (hq : Quiet c s) {v : Nat} (hv : v < c.n) (hc : (s.vp v).colour = EMPTY) : c.wait = true ∧ 0 < (s.vp v).wait := by
  rcases hi.todo v hv hc with h | ⟨n, left, h⟩ | h
  · rw [quiet_act hi hq] at h; exact absurd h (Int.lt_irrefl 0)
  · rw [hq.1 _ (hg.owned v hv)] at h; cases h
  · exact h

end Verif.ColouringMsg
