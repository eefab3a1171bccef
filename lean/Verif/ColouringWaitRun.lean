import Verif.ColouringWaitInv
import Verif.WorkInit

/-!
# Runs of graph colouring with wait counts
-/

namespace Verif.ColouringWait

open Verif.Async Verif.MinLabel
open Verif.Colouring (EMPTY MASK MSB hash comparePriority used mark firstUnused prior Added load0 Keyed)
open scoped Classical

/-! ## Programs -/

/-- What a program posts. -/
def left : Prog Mail Unit → List (Nat × Mail)
  | .done => []
  | .post w m k => (w, m) :: left (k false)
  | .send _ _ k => left k

/-- The program only posts, and the same whatever is sent. -/
def Flat : Prog Mail Unit → Prop
  | .done => True
  | .post _ _ k => (∀ b, left (k b) = left (k false)) ∧ ∀ b, Flat (k b)
  | .send _ _ _ => False

theorem left_postAll : ∀ (l : List (Nat × Mail)) (b : Bool), left (postAll l b fun _ => .done) = l
  | [], _ => rfl
  | (w, m) :: l, b => by
    show (w, m) :: left (postAll l (b || false) fun _ => .done) = _
    rw [left_postAll l]

theorem flat_postAll : ∀ (l : List (Nat × Mail)) (b : Bool), Flat (postAll l b fun _ => .done)
  | [], _ => trivial
  | (w, m) :: l, b => ⟨fun b' => by rw [left_postAll, left_postAll], fun b' => flat_postAll l _⟩

/-- The vertex a task is about. -/
def about : Task Nat Mail Unit Nat → Option Nat
  | .idle => none
  | .load u _ => some u
  | .run u _ => some u
  | .cas u _ _ => some u
  | .put u _ _ _ => some u

/-- What a task will post. -/
def tail : Task Nat Mail Unit Nat → List (Nat × Mail)
  | .idle => []
  | .load _ _ => []
  | .run _ q => left q
  | .cas _ _ k => left (k false)
  | .put _ _ _ k => left k

/-- What a vertex has still to send. -/
def rest (U : Added) (col : Nat → Nat) (own : Nat → Nat) (s : S) (u : Nat) : List (Nat × Mail) :=
  if s.prop u = EMPTY then posts U col u else if about (s.task (own u)) = some u then tail (s.task (own u)) else []

/-- Accesses outstanding. -/
def Out (U : Added) (col : Nat → Nat) (own : Nat → Nat) (s : S) (op : Op) (a : Nat × Nat × Nat) : Prop := note col op a ∈ rest U col own s a.1

/-- The mailboxes. -/
def box (U : Added) (s : S) (w : Nat) : Mail := opened U w (s.inbox w)

/-- Nothing is waited for, and somebody has posted. -/
def Ready (U : Added) (col : Nat → Nat) (own : Nat → Nat) (s : S) (w : Nat) : Prop := rem U (Out U col own s) w = 0 ∧ (s.inbox w).made = true

def TaskOk (U : Added) (col : Nat → Nat) (own : Nat → Nat) (s : S) : Task Nat Mail Unit Nat → Prop
  | .idle => True
  | .load u h => (∀ p es m, h p es m = update u p es m fun _ => .done) ∧ Ready U col own s u
  | .run u q => Flat q ∧ s.prop u ≠ EMPTY ∧ left q <:+ posts U col u
  | .cas u w k => (∀ b, Flat (k b)) ∧ (∀ b, left (k b) = left (k false)) ∧ s.prop u ≠ EMPTY ∧ left (k false) <:+ posts U col u ∧ Ready U col own s w
  | .put u w _ k => Flat k ∧ s.prop u ≠ EMPTY ∧ left k <:+ posts U col u ∧ Ready U col own s w

structure Inv (U : Added) (col : Nat → Nat) (own : Nat → Nat) (s : S) : Prop where
  edges : s.edges = load0 U
  thread : ∀ t u, about (s.task t) = some u → own u = t
  task : ∀ t, TaskOk U col own s (s.task t)
  prop : ∀ u, s.prop u ≠ EMPTY → s.prop u = col u ∧ col u < EMPTY ∧ Ready U col own s u
  pend : ∀ u, s.pend u ≠ [] → Ready U col own s u
  mem : Mem U col (Out U col own s) (box U s)
  max : ∀ w, (box U s w).count = MAX → Note.dep w ∈ s.log
  zero : ∀ w, s.inited w = true → waits U w = 0 → Note.dep w ∈ s.log
  seen : ∀ w, Note.obs w ∈ s.log → s.prop w ≠ EMPTY

theorem suffix_rest {U : Added} {col : Nat → Nat} {own : Nat → Nat} {s : S} (ht : ∀ t, TaskOk U col own s (s.task t)) (u : Nat) : rest U col own s u <:+ posts U col u := by
  unfold rest
  split
  · exact List.suffix_refl _
  · split
    · next h =>
      have := ht (own u)
      cases hk : s.task (own u) with
      | idle => exact List.nil_suffix
      | load v h => exact List.nil_suffix
      | run v q => rw [hk] at this h; cases h; exact this.2.2
      | cas v w k => rw [hk] at this h; cases h; exact this.2.2.2.1
      | put v w n k => rw [hk] at this h; cases h; exact this.2.2.1
    · exact List.nil_suffix

theorem opened_opened {U : Added} {w : Nat} {m : Mail} : opened U w (opened U w m) = opened U w m := by
  by_cases h : m.made = true
  · rw [made_opened h, made_opened h]
  · have : opened U w m = base U w := if_neg h
    rw [this]
    rfl

/-! ## The colour -/

theorem enc_colour {col : Nat → Nat} {a : Nat × Nat × Nat} (h : col a.1 < EMPTY) : enc col a &&& MASK = col a.1 := by
  have hlt : col a.1 < 2147483648 := Nat.lt_trans h (by decide)
  unfold enc
  split
  · exact Colouring.enc_mask hlt
  · exact Colouring.mask_of_lt hlt

/-- When nothing is waited for, the least unused colour is the one it should be. -/
theorem best_eq {U : Added} {col : Nat → Nat} (hs : Setup U col) {O : Op → Nat × Nat × Nat → Prop} {X : Nat → Mail} (hm : Mem U col O X) (hcol : ∀ a ∈ U, a.1 ≠ a.2.1 → ¬ O .store a → col a.1 < EMPTY)
    (hnext : ∀ a ∈ U, prior a.1 a.2.1 = true → O .store a → O .sub a) {w : Nat} (hr : rem U O w = 0) :
    firstUnused (used (X w).scratch) = col w ∧ col w < EMPTY := by
  have hle := Colouring.best_le (X w).scratch
  have hlen := hm.len w
  have hEM : EMPTY &&& MASK = EMPTY := by decide
  have key : firstUnused (used (X w).scratch) = col w := by
    rcases Nat.lt_trichotomy (firstUnused (used (X w).scratch)) (col w) with h | h | h
    · exfalso
      obtain ⟨u, ⟨p, hu⟩, hp, he⟩ := (hs.greedy w).2 _ h
      have hne : u ≠ w := by
        rintro rfl
        rw [Colouring.prior_irrefl] at hp
        cases hp
      have hst : ¬ O .store (u, w, p) := fun h1 => (rem_zero.1 hr) (u, w, p) hu rfl hp (hnext (u, w, p) hu hp h1)
      have := hm.told (u, w, p) hu hne hst
      exact Colouring.best_not this ((enc_colour (hcol (u, w, p) hu hne hst)).trans he)
    · exact h
    · exfalso
      have hmem := (Colouring.firstUnused_spec (used (X w).scratch)).2 _ h
      unfold used at hmem
      obtain ⟨hmem, -⟩ := List.mem_filter.1 hmem
      obtain ⟨x, hx, hxe⟩ := List.mem_map.1 hmem
      obtain ⟨p, hp⟩ := List.mem_iff_getElem?.1 hx
      rcases hm.entry w p x hp with rfl | ⟨a, ha, h1, h2, h3, rfl⟩
      · rw [hEM] at hxe; omega
      · rw [enc_colour (hcol a ha (by rw [h1]; exact h2) h3)] at hxe
        have hlk : Linked U a.1 w := ⟨a.2.2, by rw [← h1]; exact ha⟩
        rcases Colouring.prior_or h2 with hp | hp
        · exact (hs.greedy w).1 a.1 hlk hp hxe
        · refine (hs.greedy a.1).1 w ?_ hp hxe.symm
          have hin : (w, a.1) ∈ U.map fun a => (a.2.1, a.1) := List.mem_map.2 ⟨a, ha, by rw [h1]⟩
          obtain ⟨b, hb, hb'⟩ := List.mem_map.1 (hs.rev.mem_iff.2 hin)
          simp only [Prod.mk.injEq] at hb'
          exact ⟨b.2.2, by rw [← hb'.1, ← hb'.2]; exact hb⟩
  exact ⟨key, by omega⟩

theorem mark_empty (ns : List Nat) : mark ns EMPTY = EMPTY := by
  unfold mark; split <;> rfl

theorem mark_best (ns : List Nat) : mark ns (firstUnused (used ns)) = firstUnused (used ns) := by
  unfold mark
  rw [if_neg]
  intro h
  obtain ⟨x, hx, h⟩ := List.any_eq_true.1 h
  simp only [Bool.and_eq_true, decide_eq_true_eq] at h
  obtain ⟨p, hp⟩ := List.mem_iff_getElem?.1 hx
  exact Colouring.best_not hp h.2

/-! ## The start -/

theorem inv_start {U : Added} {col : Nat → Nat} (hs : Setup U col) (own : Nat → Nat) : Inv U col own (start (waiting U) (load0 U)) := by
  have hr : ∀ u, rest U col own (start (waiting U) (load0 U)) u = posts U col u := fun u => if_pos rfl
  have hout : ∀ op a, a ∈ U → Fits op a → Out U col own (start (waiting U) (load0 U)) op a := by
    intro op a ha hf
    unfold Out
    rw [hr]
    exact mem_posts.2 ⟨op, a, ha, rfl, hf, rfl⟩
  have hbox : ∀ w, box U (start (waiting U) (load0 U)) w = base U w := fun w => rfl
  have hrem : ∀ w, rem U (Out U col own (start (waiting U) (load0 U))) w = waits U w := by
    intro w
    rw [waits_eq hs]
    refine List.countP_congr ?_
    intro a ha
    simp only [decide_eq_true_eq]
    constructor
    · rintro ⟨h1, h2, -⟩; exact ⟨h1, h2⟩
    · rintro ⟨h1, h2⟩; exact ⟨h1, h2, hout .sub a ha (fits_of_prior (by rw [h1]; exact h2) (by simp))⟩
  have hstore : ∀ a ∈ U, a.1 ≠ a.2.1 → Out U col own (start (waiting U) (load0 U)) .store a := by
    intro a ha hne
    refine hout .store a ha ?_
    unfold Fits
    rw [if_neg hne]
    split
    · rfl
    · simp
  have hinit : ∀ w, inDeg U w < EMPTY := count_le hs.keyed
  refine ⟨rfl, (fun t u h => by cases h), fun t => trivial, fun u h => absurd rfl h, fun u h => absurd rfl h, ⟨?_, ?_, ?_, ?_, ?_, ?_, ?_, ?_⟩, ?_, ?_, ?_⟩
  · intro w; rfl
  · intro w; rw [hbox]; show (List.replicate _ _).length < _; rw [List.length_replicate]; exact hinit w
  · intro a ha hne h; exact absurd (hstore a ha hne) h
  · intro w p x h
    left
    rw [hbox] at h
    have h : (List.replicate (inDeg U w) EMPTY)[p]? = some x := h
    rw [List.getElem?_replicate] at h
    split at h
    · exact (Option.some.inj h).symm
    · cases h
  · intro a ha hp h _; exact absurd (hout .test a ha (fits_of_prior hp (by simp))) h
  · intro w h; rw [hrem, hbox]; exact ⟨rfl, rfl⟩
  · intro w h h0; rw [hbox]; exact ⟨h0, rfl⟩
  · intro w h h0; rw [hrem] at h; omega
  · intro w h
    rw [hbox] at h
    have h : waits U w = MAX := h
    have h1 := hrem w
    have h2 := rem_le hs.keyed (Out U col own (start (waiting U) (load0 U))) w
    have : EMPTY < MAX := by decide
    omega
  · intro w h; cases h
  · intro w h; exact absurd h (by simp [start])

/-! ## Steps that post nothing -/

theorem taskOk_congr {U : Added} {col : Nat → Nat} {own : Nat → Nat} {s s' : S} {k : Task Nat Mail Unit Nat} (h : TaskOk U col own s k) (hp : ∀ u, s.prop u ≠ EMPTY → s'.prop u ≠ EMPTY)
    (hr : ∀ u, Ready U col own s u → Ready U col own s' u) : TaskOk U col own s' k := by
  cases k with
  | idle => trivial
  | load u f => exact ⟨h.1, hr _ h.2⟩
  | run u q => exact ⟨h.1, hp _ h.2.1, h.2.2⟩
  | cas u w f => exact ⟨h.1, h.2.1, hp _ h.2.2.1, h.2.2.2.1, hr _ h.2.2.2.2⟩
  | put u w n f => exact ⟨h.1, hp _ h.2.1, h.2.2.1, hr _ h.2.2.2⟩

/-- A step after which the same is outstanding. -/
theorem inv_move {U : Added} {col : Nat → Nat} {own : Nat → Nat} {s s' : S} (hi : Inv U col own s) (t : Nat) (x : Task Nat Mail Unit Nat) (he : s'.edges = s.edges)
    (hk : s'.task = upd s.task t x) (hrest : ∀ u, rest U col own s' u = rest U col own s u) (hbox : ∀ w, box U s' w = box U s w) (hmade : ∀ w, (s.inbox w).made = true → (s'.inbox w).made = true)
    (hown : ∀ u, about x = some u → own u = t) (hx : TaskOk U col own s' x)
    (hp : ∀ u, s'.prop u ≠ EMPTY → s'.prop u = col u ∧ col u < EMPTY ∧ Ready U col own s u) (hp' : ∀ u, s.prop u ≠ EMPTY → s'.prop u ≠ EMPTY)
    (hpend : ∀ u, s'.pend u ≠ [] → Ready U col own s u) (hlog : ∀ w, Note.dep w ∈ s.log → Note.dep w ∈ s'.log)
    (hz : ∀ w, s'.inited w = true → waits U w = 0 → Note.dep w ∈ s'.log) (hseen : ∀ w, Note.obs w ∈ s'.log → s'.prop w ≠ EMPTY) : Inv U col own s' := by
  have hO : Out U col own s' = Out U col own s := by funext op a; unfold Out; rw [hrest]
  have hb : box U s' = box U s := funext hbox
  have hR : ∀ u, Ready U col own s u → Ready U col own s' u := by intro u h; unfold Ready at *; rw [hO]; exact ⟨h.1, hmade u h.2⟩
  refine ⟨by rw [he]; exact hi.edges, ?_, ?_, fun u h => ⟨(hp u h).1, (hp u h).2.1, hR u (hp u h).2.2⟩, fun u h => hR u (hpend u h), by rw [hO, hb]; exact hi.mem, fun w h => ?_, hz, hseen⟩
  · intro i u h
    rw [hk] at h
    by_cases e : i = t
    · rw [e, upd_same] at h; rw [e]; exact hown u h
    · rw [upd_ne _ _ e] at h; exact hi.thread i u h
  · intro i
    rw [hk]
    by_cases e : i = t
    · rw [e, upd_same]; exact hx
    · rw [upd_ne _ _ e]; exact taskOk_congr (hi.task i) hp' hR
  · rw [hb] at h
    exact hlog w (hi.max w h)

/-- The rest is the same if the thread's task posts the same. -/
theorem rest_move {U : Added} {col : Nat → Nat} {own : Nat → Nat} {s s' : S} (t : Nat) (x : Task Nat Mail Unit Nat) (hk : s'.task = upd s.task t x) (hp : s'.prop = s.prop)
    (hx : ∀ u, own u = t → (if about x = some u then tail x else []) = if about (s.task t) = some u then tail (s.task t) else []) (u : Nat) : rest U col own s' u = rest U col own s u := by
  unfold rest
  rw [hp, hk]
  by_cases e : own u = t
  · have := hx u e
    rw [e, upd_same]
    rw [this]
  · rw [upd_ne _ _ e]

/-- Outstanding accesses of an edge are those from some point on. -/
theorem out_next {U : Added} {col : Nat → Nat} {own : Nat → Nat} {s : S} (hU : Keyed U) (hi : Inv U col own s) {a : Nat × Nat × Nat} (ha : a ∈ U) {op op' : Op} (hf : Fits op' a) (hn : op.num < op'.num)
    (h : Out U col own s op a) : Out U col own s op' a := suffix_mono hU (suffix_rest hi.task a.1) ha rfl hf hn h

theorem out_colour {U : Added} {col : Nat → Nat} (hs : Setup U col) {own : Nat → Nat} {s : S} (hi : Inv U col own s) {w : Nat} (hr : Ready U col own s w) :
    firstUnused (used (box U s w).scratch) = col w ∧ col w < EMPTY := by
  refine best_eq hs hi.mem ?_ ?_ hr.1
  · intro a ha hne h
    refine (hi.prop a.1 ?_).2.1
    intro he
    apply h
    unfold Out rest
    rw [if_pos he]
    refine mem_posts.2 ⟨.store, a, ha, rfl, ?_, rfl⟩
    unfold Fits
    rw [if_neg hne]
    split
    · rfl
    · simp
  · intro a ha hp h
    exact out_next hs.keyed hi ha (fits_of_prior hp (by simp)) (by decide) h

/-! ## Steps -/

theorem free_idle {c : Cfg Mail Unit} {s : S} {t v : Nat} (h : free c s t v = true) : t < c.T ∧ c.own v = t ∧ s.task t = .idle := (free_iff c s t v).1 h

/-- A post: the access is the first of those outstanding. -/
theorem inv_post {U : Added} {col : Nat → Nat} (hs : Setup U col) {own : Nat → Nat} {s s' : S} (hi : Inv U col own s) {t u w : Nat} {m : Mail} {k : Bool → Prog Mail Unit} (ht : s.task t = .run u (.post w m k))
    (x : Task Nat Mail Unit Nat) (he : s'.edges = s.edges) (hk : s'.task = upd s.task t x) (hp : s'.prop = s.prop) (hpend : s'.pend = s.pend) (hin : s'.inited = s.inited)
    (hb : s'.inbox = upd s.inbox w (merge U m u (s.inbox w)).1)
    (hx : (x = .run u (k false) ∧ (merge U m u (s.inbox w)).2 = false ∧ s'.log = s.log) ∨ (x = .cas u w k ∧ (merge U m u (s.inbox w)).2 = true ∧ s'.log = s.log ++ [.dep w])) :
    Inv U col own s' ∧ (∀ v, rest U col own s' v = upd (rest U col own s) u (left (k false)) v) ∧ rest U col own s u = (w, m) :: left (k false) := by
  have hU := hs.keyed
  have hok := hi.task t
  rw [ht] at hok
  obtain ⟨hflat, hpu, hsuf⟩ := hok
  have hown : own u = t := hi.thread t u (by rw [ht]; rfl)
  have hr : rest U col own s u = (w, m) :: left (k false) := by
    unfold rest
    rw [if_neg hpu, hown, ht]
    exact if_pos rfl
  have hax : about x = some u := by rcases hx with ⟨rfl, -⟩ | ⟨rfl, -⟩ <;> rfl
  have htx : tail x = left (k false) := by rcases hx with ⟨rfl, -⟩ | ⟨rfl, -⟩ <;> rfl
  have hr' : ∀ v, rest U col own s' v = upd (rest U col own s) u (left (k false)) v := by
    intro v
    by_cases e : v = u
    · rw [e, upd_same]
      unfold rest
      rw [hp, if_neg hpu, hown, hk, upd_same, hax, if_pos rfl, htx]
    · rw [upd_ne _ _ e]
      unfold rest
      rw [hp, hk]
      by_cases e' : own v = t
      · have hne : ¬ some u = some v := fun h => e (Option.some.inj h).symm
        rw [e', upd_same, hax, ht, show about (.run u (.post w m k)) = some u from rfl, if_neg hne, if_neg hne]
      · rw [upd_ne _ _ e']
  refine ⟨?_, hr', hr⟩
  -- the access
  have hm0 : (w, m) ∈ posts U col u := by
    have := suffix_rest hi.task (U := U) (col := col) u
    rw [hr] at this
    exact this.mem List.mem_cons_self
  obtain ⟨o, a0, ha, hau, hf, hwm⟩ := mem_posts.1 hm0
  have hw : w = a0.2.1 := congrArg Prod.fst hwm
  have hm : m = (note col o a0).2 := congrArg Prod.snd hwm
  have hsuf' : note col o a0 :: left (k false) <:+ posts U col u := by rw [← hwm]; exact hsuf
  have hO : Out U col own s' = Less (Out U col own s) o a0 := by
    funext op a
    refine propext ?_
    unfold Less Out
    rw [hr']
    by_cases e : a.1 = u
    · rw [e, upd_same, hr, hwm]
      constructor
      · intro h
        refine ⟨List.mem_cons_of_mem _ h, ?_⟩
        rintro ⟨rfl, rfl⟩
        exact suffix_head hU hsuf' h
      · rintro ⟨h, hn⟩
        rcases List.mem_cons.1 h with h | h
        · exfalso
          obtain ⟨h1, h2⟩ := note_inj h
          exact hn ⟨h1, Prod.ext (e.trans hau.symm) h2⟩
        · exact h
    · rw [upd_ne _ _ e]
      constructor
      · intro h
        refine ⟨h, ?_⟩
        rintro ⟨rfl, rfl⟩
        exact e hau
      · exact And.left
  have hmo : (merge U m u (s.inbox w)) = merge U (note col o a0).2 a0.1 (box U s a0.2.1) := by
    rw [hm, hau, hw]
    unfold merge box
    simp only [show (note col o a0).2.box = a0.2.1 from rfl, opened_opened]
  have hout0 : Out U col own s o a0 := by
    unfold Out
    rw [hau, hr, hwm]
    exact List.mem_cons_self
  have hfirst : ∀ op : Op, op.num < o.num → ¬ Out U col own s op a0 := by
    intro op hn h
    unfold Out at h
    rw [hau, hr, hwm] at h
    exact suffix_first hU hsuf' hn h
  obtain ⟨hmem, hnews0, hmax0⟩ := mem_post hs hi.mem ha hf hout0 hfirst fun op op' h1 h2 h3 => out_next hU hi ha h1 h2 h3
  have hmade : (merge U (note col o a0).2 a0.1 (box U s a0.2.1)).1.made = true := by
    have := hmem.made a0.2.1
    rwa [upd_same] at this
  have hbox : box U s' = upd (box U s) a0.2.1 (merge U (note col o a0).2 a0.1 (box U s a0.2.1)).1 := by
    funext i
    by_cases e : i = a0.2.1
    · rw [e, upd_same, ← hmo]
      unfold box
      rw [hb, hw, upd_same]
      refine made_opened ?_
      rw [hw] at hmo
      rw [hmo]
      exact hmade
    · rw [upd_ne _ _ e]
      unfold box
      rw [hb, hw, upd_ne _ _ e]
  have hnews : (merge U m u (s.inbox w)).2 = true → rem U (Out U col own s) w = 0 := by
    intro h
    rw [hmo] at h
    rw [hw]
    exact hnews0 h
  have hrm : ∀ v, rem U (Out U col own s') v ≤ rem U (Out U col own s) v := fun v => rem_mono (fun a _ h => by rw [hO] at h; exact h.1) v
  have hmw : (s'.inbox w).made = true := by
    rw [hb, upd_same, hmo]
    exact hmade
  have hmade' : ∀ v, (s.inbox v).made = true → (s'.inbox v).made = true := by
    intro v h
    by_cases e : v = w
    · rw [e]; exact hmw
    · rw [hb, upd_ne _ _ e]; exact h
  have hR : ∀ v, Ready U col own s v → Ready U col own s' v := by
    intro v h
    unfold Ready at *
    exact ⟨by have := hrm v; omega, hmade' v h.2⟩
  have hpp : ∀ v, s.prop v ≠ EMPTY → s'.prop v ≠ EMPTY := by rw [hp]; exact fun _ h => h
  have hlog : ∀ n, n ∈ s.log → n ∈ s'.log := by
    intro n hn
    rcases hx with ⟨-, -, h⟩ | ⟨-, -, h⟩
    · rw [h]; exact hn
    · rw [h]; exact List.mem_append_left _ hn
  refine ⟨by rw [he]; exact hi.edges, ?_, ?_, ?_, ?_, by rw [hO, hbox]; exact hmem, ?_, ?_, ?_⟩
  · intro i v h
    rw [hk] at h
    by_cases e : i = t
    · rw [e, upd_same, hax] at h; rw [e, ← Option.some.inj h]; exact hown
    · rw [upd_ne _ _ e] at h; exact hi.thread i v h
  · intro i
    rw [hk]
    by_cases e : i = t
    · rw [e, upd_same]
      have hsuf2 : left (k false) <:+ posts U col u := List.IsSuffix.trans (List.suffix_cons _ _) hsuf
      rcases hx with ⟨rfl, -, -⟩ | ⟨rfl, h, -⟩
      · exact ⟨hflat.2 false, hpp u hpu, hsuf2⟩
      · exact ⟨hflat.2, hflat.1, hpp u hpu, hsuf2, by have := hrm w; have := hnews h; omega, hmw⟩
    · rw [upd_ne _ _ e]; exact taskOk_congr (hi.task i) hpp hR
  · intro v h
    rw [hp] at h ⊢
    obtain ⟨h1, h2, h3⟩ := hi.prop v h
    exact ⟨h1, h2, hR v h3⟩
  · intro v h
    rw [hpend] at h
    exact hR v (hi.pend v h)
  · intro v h
    rw [hbox] at h
    by_cases e : v = a0.2.1
    · rw [e, upd_same] at h
      rcases hmax0 h with h1 | h1
      · rw [e]; exact hlog _ (hi.max _ h1)
      · rw [← hmo] at h1
        rcases hx with ⟨-, h2, -⟩ | ⟨-, -, h2⟩
        · rw [h1] at h2; cases h2
        · rw [h2, e, ← hw]; exact List.mem_append_right _ (by simp)
    · rw [upd_ne _ _ e] at h
      exact hlog _ (hi.max v h)
  · intro v h h0
    rw [hin] at h
    exact hlog _ (hi.zero v h h0)
  · intro v h
    apply hpp
    apply hi.seen
    rcases hx with ⟨-, -, h1⟩ | ⟨-, -, h1⟩
    · rw [h1] at h; exact h
    · rw [h1] at h
      rcases List.mem_append.1 h with h | h
      · exact h
      · simp at h

/-- Thread `t` takes up a visit of its vertex `v`. -/
theorem inv_take {U : Added} {col : Nat → Nat} {own : Nat → Nat} {s s' : S} (hi : Inv U col own s) {t v : Nat} (hidle : s.task t = .idle) (hv : own v = t) (x : Task Nat Mail Unit Nat)
    (hx : x = .idle ∨ (∃ h, x = .load v h ∧ (∀ p es m, h p es m = update v p es m fun _ => .done) ∧ rem U (Out U col own s) v = 0 ∧ (s'.inbox v).made = true))
    (he : s'.edges = s.edges) (hk : s'.task = upd s.task t x) (hp : s'.prop = s.prop) (hpend : ∀ u, s'.pend u ≠ [] → Ready U col own s u) (hbox : ∀ w, box U s' w = box U s w) (hmade : ∀ w, (s.inbox w).made = true → (s'.inbox w).made = true)
    (hlog : ∀ w, Note.dep w ∈ s.log → Note.dep w ∈ s'.log) (hz : ∀ w, s'.inited w = true → waits U w = 0 → Note.dep w ∈ s'.log) (hobs : ∀ w, Note.obs w ∈ s'.log → Note.obs w ∈ s.log) :
    Inv U col own s' ∧ ∀ u, rest U col own s' u = rest U col own s u := by
  have hrest : ∀ u, rest U col own s' u = rest U col own s u := by
    refine rest_move t x hk hp ?_
    intro u _
    have h1 : tail x = [] := by rcases hx with rfl | ⟨h, rfl, -⟩ <;> rfl
    have h2 : tail (s.task t) = [] := by rw [hidle]; rfl
    rw [h1, h2, ite_self, ite_self]
  have hO : Out U col own s' = Out U col own s := by funext op a; unfold Out; rw [hrest]
  refine ⟨inv_move hi t x he hk hrest hbox hmade ?_ ?_ (by rw [hp]; exact hi.prop) (by rw [hp]; exact fun _ h => h) hpend hlog hz (fun w h => by rw [hp]; exact hi.seen w (hobs w h)), hrest⟩
  · intro u h
    rcases hx with rfl | ⟨f, rfl, -⟩
    · cases h
    · cases h; exact hv
  · rcases hx with rfl | ⟨f, rfl, h1, h2⟩
    · trivial
    · refine ⟨h1, ?_⟩
      unfold Ready
      rw [hO]
      exact h2

/-- A visit. -/
theorem inv_load {U : Added} {col : Nat → Nat} (hs : Setup U col) {own : Nat → Nat} {s : S} (hi : Inv U col own s) {t v : Nat} {h : Nat → List (Edge Nat) → Mail → Nat × Prog Mail Unit}
    (ht : s.task t = .load v h) :
    Inv U col own { s with inbox := upd s.inbox v (s.inbox v), prop := upd s.prop v (h (s.prop v) (s.edges v) (s.inbox v)).1, task := upd s.task t (.run v (h (s.prop v) (s.edges v) (s.inbox v)).2), log := s.log ++ [.obs v] } ∧
      ∀ u, rest U col own { s with inbox := upd s.inbox v (s.inbox v), prop := upd s.prop v (h (s.prop v) (s.edges v) (s.inbox v)).1, task := upd s.task t (.run v (h (s.prop v) (s.edges v) (s.inbox v)).2), log := s.log ++ [.obs v] } u = rest U col own s u := by
  have hok := hi.task t
  rw [ht] at hok
  obtain ⟨hh, hr⟩ := hok
  have hown : own v = t := hi.thread t v (by rw [ht]; rfl)
  obtain ⟨hbest, hlt⟩ := out_colour hs hi hr
  have hboxv : box U s v = s.inbox v := made_opened hr.2
  rw [hboxv] at hbest
  -- the new colour, and what is sent
  have hres : (h (s.prop v) (s.edges v) (s.inbox v)).1 = col v ∧ Flat (h (s.prop v) (s.edges v) (s.inbox v)).2 ∧
      left (h (s.prop v) (s.edges v) (s.inbox v)).2 = rest U col own s v := by
    rw [hh]
    by_cases hp : s.prop v = EMPTY
    · have hne : ¬ mark (s.inbox v).scratch (s.prop v) = firstUnused (used (s.inbox v).scratch) := by rw [hp, mark_empty, hbest]; omega
      have hu : update v (s.prop v) (s.edges v) (s.inbox v) (fun _ => .done) = (col v, postAll (posts U col v) false fun _ => .done) := by
        unfold update posts
        simp only [if_neg hne]
        rw [hbest, hi.edges]
      rw [hu]
      refine ⟨rfl, flat_postAll _ _, ?_⟩
      rw [left_postAll]
      unfold rest
      rw [if_pos hp]
    · have heq : mark (s.inbox v).scratch (s.prop v) = firstUnused (used (s.inbox v).scratch) := by rw [(hi.prop v hp).1, ← hbest, mark_best]
      have hu : update v (s.prop v) (s.edges v) (s.inbox v) (fun _ => .done) = (col v, .done) := by
        unfold update
        simp only [if_pos heq]
        rw [hbest]
      rw [hu]
      refine ⟨rfl, trivial, ?_⟩
      unfold rest
      rw [if_neg hp, hown, ht]
      show [] = _
      rw [show tail (.load v h) = [] from rfl, ite_self]
  generalize h (s.prop v) (s.edges v) (s.inbox v) = q at *
  obtain ⟨h1, h2, h3⟩ := hres
  have hne : col v ≠ EMPTY := by omega
  have hinb : upd s.inbox v (s.inbox v) = s.inbox := by funext i; by_cases e : i = v <;> simp [upd, e]
  rw [hinb, h1]
  have hrest : ∀ u, rest U col own { s with inbox := s.inbox, prop := upd s.prop v (col v), task := upd s.task t (.run v q.2), log := s.log ++ [.obs v] } u = rest U col own s u := by
    intro u
    by_cases e : u = v
    · rw [e, ← h3]
      show (if upd s.prop v (col v) v = EMPTY then _ else if about (upd s.task t (.run v q.2) (own v)) = some v then tail (upd s.task t (.run v q.2) (own v)) else []) = _
      rw [upd_same, if_neg hne, hown, upd_same]
      exact if_pos rfl
    · show (if upd s.prop v (col v) u = EMPTY then _ else if about (upd s.task t (.run v q.2) (own u)) = some u then tail (upd s.task t (.run v q.2) (own u)) else []) = _
      rw [upd_ne _ _ e]
      unfold rest
      by_cases e' : own u = t
      · have hn : ¬ some v = some u := fun h => e (Option.some.inj h).symm
        rw [e', upd_same, ht, show about (.run v q.2) = some v from rfl, show about (.load v h) = some v from rfl, if_neg hn, if_neg hn]
      · rw [upd_ne _ _ e']
  refine ⟨inv_move hi t (.run v q.2) rfl rfl hrest (fun _ => rfl) (fun _ h => h) (fun u h => by cases h; exact hown) ⟨h2, ?_, ?_⟩ ?_ ?_ hi.pend (fun w h => List.mem_append_left _ h) (fun w h h0 => List.mem_append_left _ (hi.zero w h h0)) ?_, hrest⟩
  · show upd s.prop v (col v) v ≠ EMPTY
    rw [upd_same]; exact hne
  · rw [h3]; exact suffix_rest hi.task v
  · intro u hu
    have hu : upd s.prop v (col v) u ≠ EMPTY := hu
    show upd s.prop v (col v) u = col u ∧ _
    by_cases e : u = v
    · rw [e, upd_same]; exact ⟨rfl, hlt, hr⟩
    · rw [upd_ne _ _ e] at hu ⊢; exact hi.prop u hu
  · intro u hu
    show upd s.prop v (col v) u ≠ EMPTY
    by_cases e : u = v
    · rw [e, upd_same]; exact hne
    · rw [upd_ne _ _ e]; exact hu
  · intro w hw
    show upd s.prop v (col v) w ≠ EMPTY
    by_cases e : w = v
    · rw [e, upd_same]; exact hne
    · rw [upd_ne _ _ e]
      apply hi.seen
      rcases List.mem_append.1 hw with h | h
      · exact h
      · simp only [List.mem_singleton, Note.obs.injEq] at h; exact absurd h e

/-- **The invariant is inductive**, and what is outstanding is either the same or loses the first access of a vertex. -/
theorem inv_step {U : Added} {col : Nat → Nat} (hs : Setup U col) {T : Nat} {own : Nat → Nat} {s s' : S} (hi : Inv U col own s) {x : Act Nat} (hx : Sync.Plain x)
    (h : step (waiting U) (cfg T own) s x = some s') :
    Inv U col own s' ∧ (((∀ u, rest U col own s' u = rest U col own s u) ∧ charged (waiting U) s x = false) ∨ ∃ u y l, rest U col own s u = y :: l ∧ ∀ v, rest U col own s' v = upd (rest U col own s) u l v) := by
  cases x with
  | add t v es => exact hx.elim
  | del t v keep => exact hx.elim
  | init t v =>
    simp only [step, cfg] at h
    split at h
    · next hf =>
      obtain ⟨hfree, hin⟩ := hf
      obtain ⟨-, hv, hidle⟩ := free_idle hfree
      have hv : own v = t := hv
      have hm : (waiting U).merge { op := .self, box := v } v (s.inbox v) = (opened U v (s.inbox v), decide ((opened U v (s.inbox v)).count = 0)) := rfl
      rw [hm] at h
      have hmade0 : (opened U v (s.inbox v)).made = true := hi.mem.made v
      have hbox : ∀ w, opened U w (upd s.inbox v (opened U v (s.inbox v)) w) = box U s w := by
        intro w
        by_cases e : w = v
        · rw [e, upd_same, opened_opened]; rfl
        · rw [upd_ne _ _ e]; rfl
      have hmade : ∀ w, (s.inbox w).made = true → (upd s.inbox v (opened U v (s.inbox v)) w).made = true := by
        intro w hw
        by_cases e : w = v
        · rw [e, upd_same]; exact hmade0
        · rw [upd_ne _ _ e]; exact hw
      split at h
      · next hc =>
        have hc : (box U s v).count = 0 := of_decide_eq_true hc
        have hr : rem U (Out U col own s) v = 0 := by
          by_contra hn
          have := (hi.mem.more v (Nat.pos_of_ne_zero hn)).1
          omega
        simp only [Option.some.injEq] at h
        refine (fun r => ⟨r.1, .inl ⟨r.2, rfl⟩⟩) (inv_take (s' := s') hi hidle hv (.load v fun p es m => (waiting U).onUpdate v p es () 0 m) (.inr ⟨_, rfl, fun _ _ _ => rfl, hr, by rw [← h]; show (upd s.inbox v _ v).made = true; rw [upd_same]; exact hmade0⟩)
          (by rw [← h]) (by rw [← h]) (by rw [← h]) (by rw [← h]; exact hi.pend) (by rw [← h]; exact hbox) (by rw [← h]; exact hmade) (fun w hw => by rw [← h]; exact List.mem_append_left _ hw) ?_ ?_)
        · intro w hw h0
          rw [← h] at hw ⊢
          by_cases e : w = v
          · rw [e]; exact List.mem_append_right _ (by simp)
          · have hw : upd s.inited v true w = true := hw
            rw [upd_ne _ _ e] at hw
            exact List.mem_append_left _ (hi.zero w hw h0)
        · intro w hw
          rw [← h] at hw
          rcases List.mem_append.1 hw with h | h
          · exact h
          · simp at h
      · next hc =>
        have hc : ¬ (box U s v).count = 0 := fun hn => hc (decide_eq_true hn)
        simp only [Option.some.injEq] at h
        refine (fun r => ⟨r.1, .inl ⟨r.2, rfl⟩⟩) (inv_take (s' := s') hi hidle hv .idle (.inl rfl)
          (by rw [← h]) (by rw [← h, ← hidle]; funext i; by_cases e : i = t <;> simp [upd, e]) (by rw [← h]) (by rw [← h]; exact hi.pend) (by rw [← h]; exact hbox) (by rw [← h]; exact hmade) (fun w hw => by rw [← h]; exact hw) ?_
          (by rw [← h]; exact fun _ h => h))
        · intro w hw h0
          rw [← h] at hw ⊢
          by_cases e : w = v
          · rw [e] at h0
            have := rem_waits hs (Out U col own s) v
            exact absurd (hi.mem.free v (by omega) h0).1 hc
          · have hw : upd s.inited v true w = true := hw
            rw [upd_ne _ _ e] at hw
            exact hi.zero w hw h0
    · cases h
  | recv t v i =>
    simp only [step] at h
    split at h
    · next hfree =>
      obtain ⟨-, hv, hidle⟩ := free_idle hfree
      have hv : own v = t := hv
      cases hp : (s.pend v)[i]? with
      | none => rw [hp] at h; cases h
      | some m =>
        rw [hp] at h
        simp only [Option.some.injEq] at h
        have hne : s.pend v ≠ [] := by intro e; rw [e] at hp; simp at hp
        obtain ⟨hr, hmd⟩ := hi.pend v hne
        refine (fun r => ⟨r.1, .inl ⟨r.2, rfl⟩⟩) (inv_take (s' := s') hi hidle hv (.load v fun p es m' => (waiting U).onUpdate v p es m (s.act v - 1) m') (.inr ⟨_, rfl, fun _ _ _ => rfl, hr, by rw [← h]; exact hmd⟩)
          (by rw [← h]) (by rw [← h]) (by rw [← h]) ?_ (by rw [← h]; exact fun _ => rfl) (by rw [← h]; exact fun _ h => h) (fun w hw => by rw [← h]; exact hw) (by rw [← h]; exact hi.zero) (by rw [← h]; exact fun _ h => h))
        · intro u hu
          rw [← h] at hu
          by_cases e : u = v
          · rw [e]; exact hi.pend v hne
          · have hu : upd s.pend v ((s.pend v).eraseIdx i) u ≠ [] := hu
            rw [upd_ne _ _ e] at hu
            exact hi.pend u hu
    · cases h
  | go t =>
    simp only [step] at h
    split at h
    · have hok := hi.task t
      cases hk : s.task t with
      | idle => rw [hk] at h; cases h
      | load v f =>
        rw [hk] at h
        simp only [goStep, Option.some.injEq] at h
        obtain ⟨h1, h2⟩ := inv_load hs hi hk
        rw [← h]
        exact ⟨h1, .inl ⟨h2, by simp only [charged, hk]⟩⟩
      | run v q =>
        rw [hk] at h hok
        have hv : own v = t := hi.thread t v (by rw [hk]; rfl)
        cases q with
        | done =>
          simp only [goStep, Option.some.injEq] at h
          have hrest : ∀ u, rest U col own s' u = rest U col own s u := by
            refine rest_move t .idle (by rw [← h]) (by rw [← h]) ?_
            intro u _
            rw [hk, show tail (.run v .done) = [] from rfl, show tail .idle = [] from rfl, ite_self, ite_self]
          refine ⟨inv_move hi t .idle (by rw [← h]) (by rw [← h]) hrest (by rw [← h]; exact fun _ => rfl) (by rw [← h]; exact fun _ h => h) (fun u h => by cases h) trivial (by rw [← h]; exact hi.prop) (by rw [← h]; exact fun _ h => h)
            (by rw [← h]; exact hi.pend) (by rw [← h]; exact fun _ h => h) (by rw [← h]; exact hi.zero) (by rw [← h]; exact hi.seen), .inl ⟨hrest, by simp only [charged, hk]⟩⟩
        | post w m k =>
          simp only [goStep] at h
          split at h
          · next hn =>
            simp only [Option.some.injEq] at h
            obtain ⟨h1, h2, h3⟩ := inv_post (s' := s') hs hi hk (.cas v w k) (by rw [← h]) (by rw [← h]) (by rw [← h]) (by rw [← h]) (by rw [← h]) (by rw [← h]; rfl) (.inr ⟨rfl, hn, by rw [← h]⟩)
            exact ⟨h1, .inr ⟨v, _, _, h3, h2⟩⟩
          · next hn =>
            simp only [Option.some.injEq] at h
            obtain ⟨h1, h2, h3⟩ := inv_post (s' := s') hs hi hk (.run v (k false)) (by rw [← h]) (by rw [← h]) (by rw [← h]) (by rw [← h]) (by rw [← h]) (by rw [← h]; rfl) (.inl ⟨rfl, Bool.eq_false_iff.2 hn, by rw [← h]⟩)
            exact ⟨h1, .inr ⟨v, _, _, h3, h2⟩⟩
        | send w m k => exact hok.1.elim
      | cas v w k =>
        rw [hk] at h hok
        obtain ⟨hf, hl, hpv, hsuf, hrd⟩ := hok
        have hv : own v = t := hi.thread t v (by rw [hk]; rfl)
        simp only [goStep] at h
        have key : ∀ x : Task Nat Mail Unit Nat, about x = some v → tail x = left (k false) → s'.task = upd s.task t x → s'.prop = s.prop → ∀ u, rest U col own s' u = rest U col own s u := by
          intro x ha hx h1 h2
          refine rest_move t x h1 h2 ?_
          intro u _
          rw [hk, ha, hx]
          rfl
        split at h
        · simp only [Option.some.injEq] at h
          have hrest := key (.put v w () (k true)) rfl (hl true) (by rw [← h]) (by rw [← h])
          have hR : Ready U col own s' w := by
            have hO : Out U col own s' = Out U col own s := by funext op a; unfold Out; rw [hrest]
            unfold Ready
            rw [hO, ← h]
            exact hrd
          refine ⟨inv_move hi t (.put v w () (k true)) (by rw [← h]) (by rw [← h]) hrest (by rw [← h]; exact fun _ => rfl) (by rw [← h]; exact fun _ h => h) (fun u h => by cases h; exact hv)
            ⟨hf true, by rw [← h]; exact hpv, by rw [hl]; exact hsuf, hR⟩ (by rw [← h]; exact hi.prop) (by rw [← h]; exact fun _ h => h)
            (by rw [← h]; exact hi.pend) (by rw [← h]; exact fun _ h => h) (by rw [← h]; exact hi.zero) (by rw [← h]; exact hi.seen), .inl ⟨hrest, by simp only [charged, hk]⟩⟩
        · simp only [Option.some.injEq] at h
          have hrest := key (.run v (k false)) rfl rfl (by rw [← h]) (by rw [← h])
          refine ⟨inv_move hi t (.run v (k false)) (by rw [← h]) (by rw [← h]) hrest (by rw [← h]; exact fun _ => rfl) (by rw [← h]; exact fun _ h => h) (fun u h => by cases h; exact hv)
            ⟨hf false, by rw [← h]; exact hpv, hsuf⟩ (by rw [← h]; exact hi.prop) (by rw [← h]; exact fun _ h => h)
            (by rw [← h]; exact hi.pend) (by rw [← h]; exact fun _ h => h) (by rw [← h]; exact hi.zero) (by rw [← h]; exact hi.seen), .inl ⟨hrest, by simp only [charged, hk]⟩⟩
      | put v w n k =>
        rw [hk] at h hok
        obtain ⟨hf, hpv, hsuf, hrd⟩ := hok
        have hv : own v = t := hi.thread t v (by rw [hk]; rfl)
        simp only [goStep, Option.some.injEq] at h
        have hrest : ∀ u, rest U col own s' u = rest U col own s u := by
          refine rest_move t (.run v k) (by rw [← h]) (by rw [← h]) ?_
          intro u _
          rw [hk]
          rfl
        refine ⟨inv_move hi t (.run v k) (by rw [← h]) (by rw [← h]) hrest (by rw [← h]; exact fun _ => rfl) (by rw [← h]; exact fun _ h => h) (fun u h => by cases h; exact hv)
          ⟨hf, by rw [← h]; exact hpv, hsuf⟩ (by rw [← h]; exact hi.prop) (by rw [← h]; exact fun _ h => h)
          ?_ (by rw [← h]; exact fun _ h => h) (by rw [← h]; exact hi.zero) (by rw [← h]; exact hi.seen), .inl ⟨hrest, by simp only [charged, hk]⟩⟩
        intro u hu
        rw [← h] at hu
        by_cases e : u = w
        · rw [e]; exact hrd
        · have hu : upd s.pend w (s.pend w ++ [n]) u ≠ [] := hu
          rw [upd_ne _ _ e] at hu
          exact hi.pend u hu
    · cases h

theorem inv_run {U : Added} {col : Nat → Nat} (hs : Setup U col) {T : Nat} {own : Nat → Nat} : ∀ (xs : List (Act Nat)) (s s' : S), (∀ x ∈ xs, Sync.Plain x) → Inv U col own s →
    run (waiting U) (cfg T own) s xs = some s' → Inv U col own s'
  | [], s, s', _, hi, h => by simp only [run, Option.some.injEq] at h; exact h ▸ hi
  | x :: xs, s, s', hx, hi, h => by
    simp only [run] at h
    obtain ⟨s1, h1, h2⟩ := Option.bind_eq_some_iff.1 h
    exact inv_run hs xs s1 s' (fun y hy => hx y (by simp [hy])) (inv_step hs hi (hx x (by simp)) h1).1 h2

end Verif.ColouringWait
