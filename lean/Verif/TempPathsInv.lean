import Verif.TempPathsMail
import Verif.AsyncInv
import Mathlib.Data.List.Nodup

/-!
# Temporal paths: the invariant of runs

When the edges into a vertex have positions in order of time, and the edges out of a vertex are in order of time,
the entry at the far end of every edge is what its source offers it, except while a callback of the source is
about to make it so, and the windows of a vertex cover what is in its mailbox, except while mail is unseen.
-/

namespace Verif.TempPaths

open Verif Verif.Async Verif.MinLabel

/-- Edges added: source, destination, position at the destination, timestamp. -/
abbrev Added := List (Nat × Nat × Nat × Nat)

/-- Start and stop of entry `p` of the mailbox of `w`. -/
def slot (s : S) (w p : Nat) : Nat × Nat := key ((s.inbox w).scratch.getD p noPath)

/-! ## Mail -/

theorem merge_slot (m : Mail) (u : Nat) (x : Mail) (hm : m.pos ≠ SELF) (p : Nat) :
    key ((merge m u x).1.scratch.getD p noPath) = if p = m.pos then key m.newPath else key (x.scratch.getD p noPath) := by
  unfold merge
  rw [if_neg hm]
  split
  · next h =>
    simp only [List.getD_eq_getElem?_getD, List.getElem?_set, List.length_append, List.length_replicate]
    by_cases e : p = m.pos
    · rw [if_pos e.symm, if_pos (by omega), if_pos e]; rfl
    · rw [if_neg (fun h => e h.symm), if_neg e]
      by_cases hl : p < x.scratch.length
      · rw [List.getElem?_append_left hl]
      · rw [List.getElem?_append_right (by omega), List.getElem?_eq_none (l := x.scratch) (by omega)]
        by_cases h2 : p - x.scratch.length < m.pos + 1 - x.scratch.length
        · rw [List.getElem?_replicate, if_pos h2]; rfl
        · rw [List.getElem?_replicate, if_neg h2]
  · next h =>
    dsimp only
    split
    · simp only [List.getD_eq_getElem?_getD, List.getElem?_set]
      by_cases e : p = m.pos
      · rw [if_pos e.symm, if_pos (by omega), if_pos e]; rfl
      · rw [if_neg (fun h => e h.symm), if_neg e]
    · next h2 =>
      by_cases e : p = m.pos
      · rw [if_pos e, e]
        unfold key
        rw [not_or, not_not, not_not] at h2
        rw [h2.1, h2.2]
      · rw [if_neg e]

theorem merge_quiet (m : Mail) (u : Nat) (x : Mail) (h : (merge m u x).2 = false) : (merge m u x).1 = x := by
  unfold merge at *
  split at h
  · cases h
  · next h1 =>
    rw [if_neg h1]
    split at h
    · cases h
    · next h2 =>
      rw [if_neg h2]
      dsimp only at h ⊢
      split at h
      · cases h
      · next h3 => rw [if_neg h3]

theorem merge_newPath (m : Mail) (u : Nat) (x : Mail) (hm : m.pos ≠ SELF) : (merge m u x).1.newPath = x.newPath := by
  unfold merge
  rw [if_neg hm]
  split
  · rfl
  · dsimp only
    split <;> rfl

/-! ## Programs -/

/-- Entry `p` of the mailbox of `w`, now `cur`, will be `g` when the program has run. -/
def Ends (w p : Nat) : Prog Mail Unit → Nat × Nat → Nat × Nat → Prop
  | .done, cur, g => cur = g
  | .post w' m k, cur, g => ∀ b, Ends w p (k b) (if w' = w ∧ m.pos = p then key m.newPath else cur) g
  | .send _ _ k, cur, g => Ends w p k cur g

/-- The program posts along the edges `es`, what the windows `ws` offer. -/
def Along (es : List (Edge Link)) (ws : List Path) : Prog Mail Unit → Prop
  | .done => True
  | .post w m k => (∃ e ∈ es, e.dst = w ∧ e.data.pos = m.pos ∧ key m.newPath = offered ws e.data) ∧ ∀ b, Along es ws (k b)
  | .send _ _ _ => False

/-- The entry after posting a list. -/
def after (w p : Nat) : List (Nat × Mail) → Nat × Nat → Nat × Nat
  | [], cur => cur
  | (w', m) :: l, cur => after w p l (if w' = w ∧ m.pos = p then key m.newPath else cur)

theorem ends_postAll {w p : Nat} {g : Nat × Nat} (k : Bool → Prog Mail Unit) : ∀ (l : List (Nat × Mail)) (sent : Bool) (cur : Nat × Nat),
    (∀ b, Ends w p (k b) (after w p l cur) g) → Ends w p (postAll l sent k) cur g
  | [], sent, _, h => h sent
  | (_, _) :: l, sent, _, h => fun b => ends_postAll k l (sent || b) _ h

theorem along_postAll {es : List (Edge Link)} {ws : List Path} (k : Bool → Prog Mail Unit) (hk : ∀ b, Along es ws (k b)) : ∀ (l : List (Nat × Mail)) (sent : Bool),
    (∀ x ∈ l, ∃ e ∈ es, e.dst = x.1 ∧ e.data.pos = x.2.pos ∧ key x.2.newPath = offered ws e.data) → Along es ws (postAll l sent k)
  | [], sent, _ => hk sent
  | (w', m) :: l, sent, h => ⟨h (w', m) (by simp), fun b => along_postAll k hk l _ (fun x hx => h x (by simp [hx]))⟩

theorem after_same {w p : Nat} {g : Nat × Nat} : ∀ (l : List (Nat × Mail)), (∀ x ∈ l, x.1 = w ∧ x.2.pos = p → key x.2.newPath = g) → after w p l g = g
  | [], _ => rfl
  | (w', m) :: l, h => by
    have ih := after_same l (fun x hx => h x (by simp [hx]))
    unfold after
    split
    · next e => rw [h (w', m) (by simp) e]; exact ih
    · exact ih

theorem after_hit {w p : Nat} {g : Nat × Nat} : ∀ (l : List (Nat × Mail)) (cur : Nat × Nat), (∀ x ∈ l, x.1 = w ∧ x.2.pos = p → key x.2.newPath = g) →
    (∃ x ∈ l, x.1 = w ∧ x.2.pos = p) → after w p l cur = g
  | [], _, _, h => by obtain ⟨x, h, -⟩ := h; cases h
  | (w', m) :: l, cur, h, hx => by
    have hl : ∀ x ∈ l, x.1 = w ∧ x.2.pos = p → key x.2.newPath = g := fun x hx => h x (by simp [hx])
    unfold after
    split
    · next e => rw [h (w', m) (by simp) e]; exact after_same l hl
    · next e =>
      obtain ⟨x, hx, hm⟩ := hx
      rcases List.mem_cons.1 hx with rfl | hx
      · exact absurd hm e
      · exact after_hit l cur hl ⟨x, hx, hm⟩

theorem mails_mem {ws : List Path} : ∀ {es : List (Edge Link)} {l : List (Nat × Mail)}, Mails ws es l → ∀ x ∈ l, ∃ e ∈ es, e.dst = x.1 ∧ e.data.pos = x.2.pos ∧ key x.2.newPath = offered ws e.data
  | [], l, h, x, hx => by rw [show l = [] from h] at hx; cases hx
  | e :: es, l, h, x, hx => by
    obtain ⟨o, l', rfl, ho, hl⟩ := h
    rcases List.mem_cons.1 hx with rfl | hx
    · exact ⟨e, by simp, rfl, rfl, ho⟩
    · obtain ⟨e', he, h'⟩ := mails_mem hl x hx
      exact ⟨e', by simp [he], h'⟩

theorem mails_cover {ws : List Path} : ∀ {es : List (Edge Link)} {l : List (Nat × Mail)}, Mails ws es l → ∀ e ∈ es, ∃ x ∈ l, x.1 = e.dst ∧ x.2.pos = e.data.pos
  | [], _, _, e, he => by cases he
  | e0 :: es, l, h, e, he => by
    obtain ⟨o, l', rfl, ho, hl⟩ := h
    rcases List.mem_cons.1 he with rfl | he
    · exact ⟨mailFor e o, by simp, rfl, rfl⟩
    · obtain ⟨x, hx, h'⟩ := mails_cover hl e he
      exact ⟨x, by simp [hx], h'⟩

/-! ## Callbacks -/

/-- Destination and position. -/
def ekey (e : Edge Link) : Nat × Nat := (e.dst, e.data.pos)

theorem inSome_map {k t : Nat} {l l' : List Path} (h : l.map key = l'.map key) : InSome k l t ↔ InSome k l' t := by
  have : ∀ l : List Path, InSome k l t ↔ ∃ x ∈ l.map key, In k x t := by
    intro l
    unfold InSome
    simp
  rw [this, this, h]

/-- What a callback has done when it has read the mailbox `m`. -/
structure Post (p : VP) (es : List (Edge Link)) (cur : Nat → Nat → Nat × Nat) (m : Mail) (r : VP × Prog Mail Unit) : Prop where
  pan : r.1.panicked = false
  ord : Ord r.1.windows
  apart : Apart r.1.windows
  src : isSource m = true → r.1.windows = [always] ∧ (r.1.next = [] ∨ r.1.next = [always])
  win : isSource m = false → ∀ k t, k ≤ 1 → (InSome k r.1.windows t ↔ ∃ x ∈ m.scratch, x.start ≠ INF ∧ In k (key x) t)
  dark : isSource m = false → p.windows = [] → p.next = [] → (∀ x ∈ m.scratch, x.start = INF) → r.1.windows = [] ∧ r.1.next = []
  along : Along es r.1.windows r.2
  ends : ∀ e ∈ es, Ends e.dst e.data.pos r.2 (cur e.dst e.data.pos) (offered r.1.windows e.data)

/-- The windows of a source. -/
structure SrcOk (p : VP) : Prop where
  windows : p.windows = [] ∨ p.windows = [always]
  next : p.next = [] ∨ p.next = [always]

theorem collect_none : ∀ (l : List Path), (∀ x ∈ l, x.start = INF) → l.foldl collect [] = []
  | [], _ => rfl
  | x :: l, h => by
    rw [List.foldl_cons]
    have : collect [] x = [] := by unfold collect; rw [if_pos (h x (by simp))]
    rw [this]
    exact collect_none l (fun y hy => h y (by simp [hy]))

/-- Edges: distinct positions, in order of time. -/
structure EdgesOk (es : List (Edge Link)) : Prop where
  nd : (es.map ekey).Nodup
  tord : es.Pairwise fun a b => a.data.ts ≤ b.data.ts
  ts : ∀ e ∈ es, e.data.ts < INF

theorem EdgesOk.inj {es : List (Edge Link)} (h : EdgesOk es) {e e' : Edge Link} (he : e ∈ es) (he' : e' ∈ es) (hd : e.dst = e'.dst) (hp : e.data.pos = e'.data.pos) : e = e' :=
  List.inj_on_of_nodup_map h.nd he he' (by unfold ekey; rw [hd, hp])

/-- Posting what windows offer, to all edges or to some. -/
theorem mails_after {es ds : List (Edge Link)} {ws : List Path} {l : List (Nat × Mail)} (hes : EdgesOk es) (hds : ∀ e ∈ ds, e ∈ es) (hm : Mails ws ds l) {e : Edge Link} (he : e ∈ es)
    (cur : Nat × Nat) (hc : e ∈ ds ∨ cur = offered ws e.data) : after e.dst e.data.pos l cur = offered ws e.data := by
  have hall : ∀ x ∈ l, x.1 = e.dst ∧ x.2.pos = e.data.pos → key x.2.newPath = offered ws e.data := by
    rintro x hx ⟨h1, h2⟩
    obtain ⟨e', he', h3, h4, h5⟩ := mails_mem hm x hx
    rw [h5, hes.inj he (hds e' he') (h1.symm.trans h3.symm) (h2.symm.trans h4.symm)]
  rcases hc with hc | hc
  · exact after_hit l cur hall (mails_cover hm e hc)
  · rw [hc]; exact after_same l hall

theorem offered_map {ws ws' : List Path} {e : Link} (h : ws.map key = ws'.map key) : offered ws e = offered ws' e := by
  have := inSome_map (k := 1) (t := e.ts) h
  unfold offered
  by_cases hi : InSome 1 ws e.ts
  · rw [if_pos hi, if_pos (this.1 hi)]
  · rw [if_neg hi, if_neg (fun h => hi (this.2 h))]

theorem visit_ok {p : VP} {es ds : List (Edge Link)} {cur : Nat → Nat → Nat × Nat} {m : Mail} {more : List Path → Option (List (Nat × Mail))} (hpan : p.panicked = false) (hord : Ord p.windows)
    (hap : Apart p.windows) (hes : EdgesOk es) (hds : ∀ e ∈ ds, e ∈ es) (hmore : ∀ ws, Ord ws → ∃ l, more ws = some l ∧ Mails ws ds l)
    (hcur : ∀ e ∈ es, e ∈ ds ∨ cur e.dst e.data.pos = offered p.windows e.data) (ht : Timed m.scratch) (hsrc : isSource m = true → m.newPath = always ∧ SrcOk p) :
    Post p es cur m (visit p es m more) := by
  have hnil : ∀ ws l l', Mails ws es l → Mails ws ds l' → (Along es ws (postAll l false fun sent => if sent then .done else postAll l' false fun _ => .done)) ∧
      ∀ e ∈ es, ∀ c, Ends e.dst e.data.pos (postAll l false fun sent => if sent then .done else postAll l' false fun _ => .done) c (offered ws e.data) := by
    intro ws l l' h1 h2
    constructor
    · refine along_postAll _ ?_ l false (mails_mem h1)
      intro b
      cases b
      · refine along_postAll (fun _ => .done) (fun _ => trivial) l' false ?_
        intro x hx
        obtain ⟨e, he, h⟩ := mails_mem h2 x hx
        exact ⟨e, hds e he, h⟩
      · trivial
    · intro e he c
      apply ends_postAll
      intro b
      have h3 := mails_after hes (fun _ h => h) h1 he c (.inl he)
      cases b
      · show Ends _ _ (postAll l' false fun _ => .done) _ _
        apply ends_postAll
        intro _
        rw [h3]
        exact mails_after hes hds h2 he _ (.inr rfl)
      · exact h3
  unfold visit
  rw [if_neg (by simp [hpan])]
  unfold retrieve
  by_cases hs : isSource m = true
  · obtain ⟨hnp, hso⟩ := hsrc hs
    have hnext : (if p.next.length = 0 then [m.newPath] else p.next) = [always] := by
      rcases hso.next with h | h
      · rw [h, hnp]; rfl
      · rw [h]; rfl
    rw [if_pos hs, hnext]
    simp only [update, if_true]
    have ho : Ord [always] := by simp [Ord]
    obtain ⟨l, hl, hml⟩ := offers_ok ho es 0 hes.tord hes.ts (by simp)
    obtain ⟨l', hl', hml'⟩ := hmore [always] ho
    rw [hl, hl']
    obtain ⟨a1, a2⟩ := hnil _ l l' hml hml'
    exact ⟨hpan, ho, trivial, fun _ => ⟨rfl, hso.windows⟩, fun h => absurd hs (by simp [h]), fun h => absurd hs (by simp [h]), a1, fun e he => a2 e he _⟩
  · rw [if_neg hs]
    obtain ⟨r, hr, h1, h2, h3, h4⟩ := windowsOf_ok (old := p.windows) ht
    rw [hr]
    simp only [Option.map_some, update]
    have hdark : p.windows = [] → (∀ x ∈ m.scratch, x.start = INF) → r = ([], false) := by
      intro hw hx
      unfold windowsOf at hr
      rw [collect_none _ hx, hw] at hr
      simpa using hr.symm
    by_cases hch : r.2 = true
    · rw [if_pos hch]
      obtain ⟨l, hl, hml⟩ := offers_ok h1 es 0 hes.tord hes.ts (by simp)
      obtain ⟨l', hl', hml'⟩ := hmore r.1 h1
      rw [hl, hl']
      obtain ⟨a1, a2⟩ := hnil _ l l' hml hml'
      refine ⟨hpan, h1, h2, fun h => absurd h hs, fun _ => h3, ?_, a1, fun e he => a2 e he _⟩
      intro _ hw hn hx
      rw [hdark hw hx] at hch
      cases hch
    · rw [if_neg hch]
      have hk := h4 (by simpa using hch)
      obtain ⟨l', hl', hml'⟩ := hmore p.windows hord
      rw [hl']
      refine ⟨hpan, hord, hap, fun h => absurd h hs, ?_, ?_, ?_, ?_⟩
      · intro _ k t hkk
        rw [← h3 k t hkk]
        exact inSome_map hk.symm
      · intro _ hw hn hx
        refine ⟨hw, ?_⟩
        show r.1 = []
        rw [hdark hw hx]
      · refine along_postAll (fun _ => .done) (fun _ => trivial) l' false ?_
        intro x hx
        obtain ⟨e, he, h⟩ := mails_mem hml' x hx
        exact ⟨e, hds e he, h⟩
      · intro e he
        apply ends_postAll
        intro _
        exact mails_after hes hds hml' he _ (hcur e he)

/-! ## The invariant -/

/-- The vertex a task is about. -/
def about : Task VP Mail Unit Link → Option Nat
  | .idle => none
  | .load u _ => some u
  | .run u _ => some u
  | .cas u _ _ => some u
  | .put u _ _ _ => some u

/-- The rest of a callback of `u` is right. -/
structure RunOk (s : S) (u : Nat) (q : Prog Mail Unit) : Prop where
  along : Along (s.edges u) (s.prop u).windows q
  ends : ∀ e ∈ s.edges u, Ends e.dst e.data.pos q (slot s e.dst e.data.pos) (offered (s.prop u).windows e.data)

/-- A callback about to read the mailbox is right. -/
def LoadOk (p : VP) (es : List (Edge Link)) (cur : Nat → Nat → Nat × Nat) (h : VP → List (Edge Link) → Mail → VP × Prog Mail Unit) : Prop :=
  ∀ m, Timed m.scratch → (isSource m = true → m.newPath = always ∧ SrcOk p) → Post p es cur m (h p es m)

def TaskOk (s : S) : Task VP Mail Unit Link → Prop
  | .idle => True
  | .load u h => LoadOk (s.prop u) (s.edges u) (slot s) h
  | .run u q => RunOk s u q
  | .cas u _ k => ∀ b, RunOk s u (k b)
  | .put u _ _ k => RunOk s u k

/-- The windows of `v` are those of its mailbox. -/
def Fresh (s : S) (v : Nat) : Prop :=
  ((s.inbox v).newPath = always → (s.prop v).windows = [always]) ∧
  ((s.inbox v).newPath = noPath → ∀ k t, k ≤ 1 → (InSome k (s.prop v).windows t ↔ ∃ p, (slot s v p).1 ≠ INF ∧ In k (slot s v p) t))

structure Inv (U : Added) (c : Cfg Mail Unit) (src : Nat) (s : S) : Prop where
  lies : ∀ u, ∀ e ∈ s.edges u, (u, e.dst, e.data.pos, e.data.ts) ∈ U
  all : ∀ a ∈ U, ∃ e ∈ s.edges a.1, e.dst = a.2.1 ∧ e.data.pos = a.2.2.1 ∧ e.data.ts = a.2.2.2
  edges : ∀ u, EdgesOk (s.edges u)
  own : ∀ t u, about (s.task t) = some u → c.own u = t
  task : ∀ t, TaskOk s (s.task t)
  rest : ∀ u, about (s.task (c.own u)) ≠ some u → ∀ e ∈ s.edges u, slot s e.dst e.data.pos = offered (s.prop u).windows e.data
  scr : ∀ v p, slot s v p = (INF, 0) ∨ ∃ u, (u, v, p, (slot s v p).1) ∈ U
  pan : ∀ v, (s.prop v).panicked = false
  ord : ∀ v, Ord (s.prop v).windows
  apart : ∀ v, Apart (s.prop v).windows
  box : ∀ v, (s.inbox v).newPath = noPath ∨ ((s.inbox v).newPath = always ∧ v = src ∧ SrcOk (s.prop v))
  fresh : ∀ v, Unseen v s.log ∨ Fresh s v
  dark : s.inited src = false → ∀ v, (s.prop v).windows = [] ∧ (s.prop v).next = [] ∧ (s.inbox v).newPath = noPath ∧ ∀ p, slot s v p = (INF, 0)
  init : s.inited src = true → (s.inbox src).newPath = always

/-- What the stream has to guarantee: positions at a destination are distinct and in order of time, edges out of a
vertex come in order of time, and times are not `INFINITY`. -/
structure Keyed (U : Added) : Prop where
  nd : (U.map fun a => (a.2.1, a.2.2.1)).Nodup
  time : ∀ a ∈ U, ∀ b ∈ U, a.2.1 = b.2.1 → a.2.2.1 < b.2.2.1 → a.2.2.2 ≤ b.2.2.2
  ord : U.Pairwise fun a b => a.1 = b.1 → a.2.2.2 ≤ b.2.2.2
  pos : ∀ a ∈ U, a.2.2.1 < SELF
  ts : ∀ a ∈ U, a.2.2.2 < INF

theorem Keyed.inj {U : Added} (h : Keyed U) {a b : Nat × Nat × Nat × Nat} (ha : a ∈ U) (hb : b ∈ U) (h1 : a.2.1 = b.2.1) (h2 : a.2.2.1 = b.2.2.1) : a = b :=
  List.inj_on_of_nodup_map h.nd ha hb (by simp only [h1, h2])

theorem Keyed.left {U V : Added} (h : Keyed (U ++ V)) : Keyed U :=
  ⟨by have := h.nd; rw [List.map_append, List.nodup_append] at this; exact this.1,
   fun a ha b hb => h.time a (List.mem_append_left _ ha) b (List.mem_append_left _ hb),
   (List.pairwise_append.1 h.ord).1, fun a ha => h.pos a (List.mem_append_left _ ha), fun a ha => h.ts a (List.mem_append_left _ ha)⟩

/-- Entries of a mailbox are in order of time. -/
theorem timed_of {U : Added} (hU : Keyed U) {c : Cfg Mail Unit} {src : Nat} {s : S} (hi : Inv U c src s) (v : Nat) : Timed (s.inbox v).scratch := by
  unfold Timed
  rw [List.pairwise_iff_getElem]
  intro i j hi' hj' hij h1 h2
  have hsl : ∀ k (hk : k < (s.inbox v).scratch.length), slot s v k = key (s.inbox v).scratch[k] := by
    intro k hk
    unfold slot
    rw [List.getD_eq_getElem?_getD, List.getElem?_eq_getElem hk]; rfl
  have hk : ∀ k (hk : k < (s.inbox v).scratch.length), ((s.inbox v).scratch[k]).start ≠ INF → ∃ u, (u, v, k, ((s.inbox v).scratch[k]).start) ∈ U := by
    intro k hk hne
    rcases hi.scr v k with h | ⟨u, h⟩
    · rw [hsl k hk] at h
      exact absurd (congrArg Prod.fst h) hne
    · rw [hsl k hk] at h
      exact ⟨u, h⟩
  obtain ⟨u1, m1⟩ := hk i hi' h1
  obtain ⟨u2, m2⟩ := hk j hj' h2
  exact hU.time _ m1 _ m2 rfl hij

theorem slot_ex {s : S} {v : Nat} (P : Nat × Nat → Prop) : (∃ x ∈ (s.inbox v).scratch, x.start ≠ INF ∧ P (key x)) ↔ ∃ p, (slot s v p).1 ≠ INF ∧ P (slot s v p) := by
  constructor
  · rintro ⟨x, hx, h1, h2⟩
    obtain ⟨p, hp⟩ := List.getElem?_of_mem hx
    refine ⟨p, ?_⟩
    have : slot s v p = key x := by unfold slot; rw [List.getD_eq_getElem?_getD, hp]; rfl
    rw [this]
    exact ⟨h1, h2⟩
  · rintro ⟨p, h1, h2⟩
    cases hp : (s.inbox v).scratch[p]? with
    | none =>
      have : slot s v p = key noPath := by unfold slot; rw [List.getD_eq_getElem?_getD, hp]; rfl
      rw [this] at h1
      exact absurd rfl h1
    | some x =>
      have : slot s v p = key x := by unfold slot; rw [List.getD_eq_getElem?_getD, hp]; rfl
      rw [this] at h1 h2
      exact ⟨x, List.mem_of_getElem? hp, h1, h2⟩

theorem runOk_congr {s s' : S} {u : Nat} {q : Prog Mail Unit} (h : RunOk s u q) (he : s'.edges u = s.edges u) (hp : s'.prop u = s.prop u)
    (hs : ∀ e ∈ s.edges u, slot s' e.dst e.data.pos = slot s e.dst e.data.pos) : RunOk s' u q := by
  refine ⟨by rw [he, hp]; exact h.along, ?_⟩
  intro e hm
  rw [he] at hm
  rw [hp, hs e hm]
  exact h.ends e hm

theorem loadOk_congr {p : VP} {es : List (Edge Link)} {cur cur' : Nat → Nat → Nat × Nat} {h : VP → List (Edge Link) → Mail → VP × Prog Mail Unit}
    (hl : LoadOk p es cur h) (hs : ∀ e ∈ es, cur' e.dst e.data.pos = cur e.dst e.data.pos) : LoadOk p es cur' h := by
  intro m h1 h2
  obtain ⟨a1, a2, a3, a4, a5, a6, a7, a8⟩ := hl m h1 h2
  exact ⟨a1, a2, a3, a4, a5, a6, a7, fun e he => by rw [hs e he]; exact a8 e he⟩

theorem taskOk_congr {s s' : S} {k : Task VP Mail Unit Link} (h : TaskOk s k)
    (hs : ∀ u, about k = some u → s'.edges u = s.edges u ∧ s'.prop u = s.prop u ∧ ∀ e ∈ s.edges u, slot s' e.dst e.data.pos = slot s e.dst e.data.pos) : TaskOk s' k := by
  cases k with
  | idle => trivial
  | load u f =>
    obtain ⟨h1, h2, h3⟩ := hs u rfl
    show LoadOk (s'.prop u) (s'.edges u) (slot s') f
    rw [h1, h2]
    exact loadOk_congr h h3
  | run u q => obtain ⟨h1, h2, h3⟩ := hs u rfl; exact runOk_congr h h1 h2 h3
  | cas u w f => obtain ⟨h1, h2, h3⟩ := hs u rfl; exact fun b => runOk_congr (h b) h1 h2 h3
  | put u w n f => obtain ⟨h1, h2, h3⟩ := hs u rfl; exact runOk_congr h h1 h2 h3

theorem unseen_dep_mono {v w : Nat} {l : List Note} (h : Unseen v l) : Unseen v (l ++ [.dep w]) := (unseen_dep v w l).2 (.inr h)

theorem fresh_congr {s s' : S} {v : Nat} (hp : (s'.prop v).windows = (s.prop v).windows) (hb : s'.inbox v = s.inbox v) (h : Fresh s v) : Fresh s' v := by
  unfold Fresh slot at *
  rw [hp, hb]
  exact h

/-- A step of thread `t` that leaves the shared state alone: its task changes. -/
theorem inv_move {U : Added} {c : Cfg Mail Unit} {src : Nat} {s s' : S} (hi : Inv U c src s) (t : Nat) (x : Task VP Mail Unit Link) (hk : s'.task = upd s.task t x)
    (hp : s'.prop = s.prop) (he : s'.edges = s.edges) (hb : s'.inbox = s.inbox) (hlog : s'.log = s.log) (hin : s'.inited = s.inited)
    (hown : ∀ u, about x = some u → c.own u = t) (hx : TaskOk s x)
    (hdone : ∀ u, c.own u = t → about x ≠ some u → about (s.task t) = some u → ∀ e ∈ s.edges u, slot s e.dst e.data.pos = offered (s.prop u).windows e.data) : Inv U c src s' := by
  have hsl : ∀ v p, slot s' v p = slot s v p := by intro v p; unfold slot; rw [hb]
  have hok : ∀ k, TaskOk s k → TaskOk s' k := fun k h => taskOk_congr h (fun u _ => ⟨by rw [he], by rw [hp], fun e _ => hsl _ _⟩)
  refine ⟨by rw [he]; exact hi.lies, by rw [he]; exact hi.all, by rw [he]; exact hi.edges, ?_, ?_, ?_, ?_, by rw [hp]; exact hi.pan, by rw [hp]; exact hi.ord, by rw [hp]; exact hi.apart,
    by rw [hp, hb]; exact hi.box, ?_, ?_, by rw [hin, hb]; exact hi.init⟩
  · intro i u h
    rw [hk] at h
    by_cases e : i = t
    · rw [e, upd_same] at h; rw [e]; exact hown u h
    · rw [upd_ne _ _ e] at h; exact hi.own i u h
  · intro i
    rw [hk]
    by_cases e : i = t
    · rw [e, upd_same]; exact hok _ hx
    · rw [upd_ne _ _ e]; exact hok _ (hi.task i)
  · intro u h e hm
    rw [hsl, hp]
    rw [he] at hm
    rw [hk] at h
    by_cases e' : c.own u = t
    · rw [e', upd_same] at h
      by_cases ha : about (s.task t) = some u
      · exact hdone u e' h ha e hm
      · exact hi.rest u (by rw [e']; exact ha) e hm
    · rw [upd_ne _ _ e'] at h
      exact hi.rest u h e hm
  · intro v p
    rw [hsl]
    exact hi.scr v p
  · intro v
    rw [hlog]
    rcases hi.fresh v with h | h
    · exact .inl h
    · exact .inr (fresh_congr (by rw [hp]) (by rw [hb]) h)
  · intro h v
    rw [hin] at h
    obtain ⟨h1, h2, h3, h4⟩ := hi.dark h v
    rw [hp, hb]
    exact ⟨h1, h2, h3, fun p => by rw [hsl]; exact h4 p⟩

theorem run_post {U : Added} (hU : Keyed U) {c : Cfg Mail Unit} {src : Nat} {s s' : S} (hi : Inv U c src s) {t u w : Nat} {m : Mail} {k : Bool → Prog Mail Unit} (ht : s.task t = .run u (.post w m k))
    (x : Task VP Mail Unit Link) (hk : s'.task = upd s.task t x) (hp : s'.prop = s.prop) (he : s'.edges = s.edges) (hb : s'.inbox = upd s.inbox w (merge m u (s.inbox w)).1) (hin : s'.inited = s.inited)
    (hx : x = .run u (k false) ∨ x = .cas u w k)
    (hlog : ∀ v, Unseen v s.log → Unseen v s'.log) (hnews : (merge m u (s.inbox w)).2 = true → Unseen w s'.log) : Inv U c src s' := by
  have hok : RunOk s u (.post w m k) := by have := hi.task t; rw [ht] at this; exact this
  obtain ⟨⟨e0, he0, hd0, hp0, hk0⟩, hal⟩ := hok.along
  have hkey := hi.lies u e0 he0
  have hne : m.pos ≠ SELF := by
    have := hU.pos _ hkey
    simp only [hp0] at this
    omega
  have hown := hi.own t u (by rw [ht]; rfl)
  have hab : about x = some u := by rcases hx with rfl | rfl <;> rfl
  -- entries
  have hsl : ∀ v p, slot s' v p = if w = v ∧ m.pos = p then key m.newPath else slot s v p := by
    intro v p
    unfold slot
    rw [hb]
    by_cases e : v = w
    · subst e
      rw [upd_same, merge_slot m u _ hne]
      by_cases e' : p = m.pos
      · rw [if_pos e', if_pos ⟨rfl, e'.symm⟩]
      · rw [if_neg e', if_neg (fun h => e' h.2.symm)]
    · rw [upd_ne _ _ e, if_neg (fun h => e h.1.symm)]
  have hnp : ∀ v, (s'.inbox v).newPath = (s.inbox v).newPath := by
    intro v
    rw [hb]
    by_cases e : v = w
    · rw [e, upd_same, merge_newPath m u _ hne]
    · rw [upd_ne _ _ e]
  have hoth : ∀ u', u' ≠ u → ∀ e ∈ s.edges u', slot s' e.dst e.data.pos = slot s e.dst e.data.pos := by
    intro u' hu' e hm
    rw [hsl, if_neg]
    rintro ⟨h1, h2⟩
    exact hu' (congrArg Prod.fst (hU.inj (hi.lies u' e hm) hkey (h1.symm.trans hd0.symm) (h2.symm.trans hp0.symm)))
  have hrun : ∀ b, RunOk s' u (k b) := by
    intro b
    refine ⟨by rw [he, hp]; exact hal b, ?_⟩
    intro e hm
    rw [he] at hm
    rw [hp, hsl]
    exact hok.ends e hm b
  refine ⟨by rw [he]; exact hi.lies, by rw [he]; exact hi.all, by rw [he]; exact hi.edges, ?_, ?_, ?_, ?_, by rw [hp]; exact hi.pan, by rw [hp]; exact hi.ord, by rw [hp]; exact hi.apart,
    ?_, ?_, ?_, by rw [hin, hnp]; exact hi.init⟩
  · intro i v h
    rw [hk] at h
    by_cases e : i = t
    · rw [e, upd_same, hab] at h
      injection h with h
      rw [e, ← h]; exact hown
    · rw [upd_ne _ _ e] at h; exact hi.own i v h
  · intro i
    rw [hk]
    by_cases e : i = t
    · rw [e, upd_same]
      rcases hx with rfl | rfl
      · exact hrun false
      · exact hrun
    · rw [upd_ne _ _ e]
      refine taskOk_congr (hi.task i) ?_
      intro v hv
      refine ⟨by rw [he], by rw [hp], hoth v ?_⟩
      rintro rfl
      exact e ((hi.own i v hv).symm.trans hown)
  · intro v h e hm
    rw [he] at hm
    rw [hp]
    have hvu : v ≠ u := by
      rintro rfl
      rw [hown, hk, upd_same, hab] at h
      exact h rfl
    rw [hoth v hvu e hm]
    refine hi.rest v ?_ e hm
    intro h'
    by_cases e : c.own v = t
    · rw [e, ht] at h'
      injection h' with h'
      exact hvu h'.symm
    · apply h
      rw [hk, upd_ne _ _ e]; exact h'
  · intro v p
    rw [hsl]
    split
    · next h =>
      rw [hk0]
      unfold offered
      split
      · right
        refine ⟨u, ?_⟩
        rw [← h.1, ← h.2, ← hd0, ← hp0]
        exact hkey
      · exact .inl rfl
    · exact hi.scr v p
  · intro v
    rw [hnp, hp]
    exact hi.box v
  · intro v
    by_cases hn : (merge m u (s.inbox w)).2 = true
    · by_cases e : v = w
      · rw [e]; exact .inl (hnews hn)
      · rcases hi.fresh v with h | h
        · exact .inl (hlog v h)
        · exact .inr (fresh_congr (by rw [hp]) (by rw [hb, upd_ne _ _ e]) h)
    · have hq := merge_quiet m u (s.inbox w) (by simpa using hn)
      rcases hi.fresh v with h | h
      · exact .inl (hlog v h)
      · refine .inr (fresh_congr (by rw [hp]) ?_ h)
        rw [hb, hq]
        by_cases e : v = w
        · rw [e, upd_same]
        · rw [upd_ne _ _ e]
  · intro h v
    rw [hin] at h
    obtain ⟨h1, h2, h3, h4⟩ := hi.dark h v
    rw [hp, hnp]
    refine ⟨h1, h2, h3, ?_⟩
    intro p
    rw [hsl]
    split
    · rw [hk0, (hi.dark h u).1]
      unfold offered
      rw [if_neg (inSome_nil _ _)]
    · exact h4 p

/-- Reading the mailbox and computing the new windows. -/
theorem load_inv {U : Added} (hU : Keyed U) {c : Cfg Mail Unit} {src : Nat} {s s' : S} (hi : Inv U c src s) {t u : Nat} {h : VP → List (Edge Link) → Mail → VP × Prog Mail Unit} (ht : s.task t = .load u h)
    (hk : s'.task = upd s.task t (.run u (h (s.prop u) (s.edges u) (s.inbox u)).2)) (hp : s'.prop = upd s.prop u (h (s.prop u) (s.edges u) (s.inbox u)).1)
    (he : s'.edges = s.edges) (hb : s'.inbox = s.inbox) (hlog : s'.log = s.log ++ [.obs u]) (hin : s'.inited = s.inited) : Inv U c src s' := by
  have hok : LoadOk (s.prop u) (s.edges u) (slot s) h := by have := hi.task t; rw [ht] at this; exact this
  have hno : isSource (s.inbox u) = true → (s.inbox u).newPath = always ∧ SrcOk (s.prop u) := by
    intro h
    rcases hi.box u with h' | ⟨h', -, h''⟩
    · unfold isSource at h
      rw [h'] at h
      exact absurd h (by decide)
    · exact ⟨h', h''⟩
  have hyes : (s.inbox u).newPath = always → isSource (s.inbox u) = true := by
    intro h'
    unfold isSource
    rw [h']; decide
  have hnot : (s.inbox u).newPath = noPath → isSource (s.inbox u) = false := by
    intro h'
    unfold isSource
    rw [h']; decide
  have hpost := hok (s.inbox u) (timed_of hU hi u) hno
  have hown := hi.own t u (by rw [ht]; rfl)
  have hsl : ∀ v p, slot s' v p = slot s v p := by intro v p; unfold slot; rw [hb]
  have hpu : s'.prop u = (h (s.prop u) (s.edges u) (s.inbox u)).1 := by rw [hp, upd_same]
  have hpo : ∀ v, v ≠ u → s'.prop v = s.prop v := by intro v hv; rw [hp, upd_ne _ _ hv]
  refine ⟨by rw [he]; exact hi.lies, by rw [he]; exact hi.all, by rw [he]; exact hi.edges, ?_, ?_, ?_, ?_, ?_, ?_, ?_, ?_, ?_, ?_, by rw [hin, hb]; exact hi.init⟩
  · intro i v h'
    rw [hk] at h'
    by_cases e : i = t
    · rw [e, upd_same] at h'
      injection h' with h'
      rw [e, ← h']; exact hown
    · rw [upd_ne _ _ e] at h'; exact hi.own i v h'
  · intro i
    rw [hk]
    by_cases e : i = t
    · rw [e, upd_same]
      refine ⟨by rw [he, hpu]; exact hpost.along, ?_⟩
      intro e hm
      rw [he] at hm
      rw [hsl, hpu]
      exact hpost.ends e hm
    · rw [upd_ne _ _ e]
      refine taskOk_congr (hi.task i) ?_
      intro v hv
      refine ⟨by rw [he], hpo v ?_, fun e _ => hsl _ _⟩
      rintro rfl
      exact e ((hi.own i v hv).symm.trans hown)
  · intro v h' e hm
    have hvu : v ≠ u := by
      rintro rfl
      rw [hown, hk, upd_same] at h'
      exact h' rfl
    rw [he] at hm
    rw [hsl, hpo v hvu]
    refine hi.rest v ?_ e hm
    intro h''
    by_cases e : c.own v = t
    · rw [e, ht] at h''
      injection h'' with h''
      exact hvu h''.symm
    · apply h'
      rw [hk, upd_ne _ _ e]; exact h''
  · intro v p
    rw [hsl]
    exact hi.scr v p
  · intro v
    by_cases e : v = u
    · rw [e, hpu]; exact hpost.pan
    · rw [hpo v e]; exact hi.pan v
  · intro v
    by_cases e : v = u
    · rw [e, hpu]; exact hpost.ord
    · rw [hpo v e]; exact hi.ord v
  · intro v
    by_cases e : v = u
    · rw [e, hpu]; exact hpost.apart
    · rw [hpo v e]; exact hi.apart v
  · intro v
    rw [hb]
    by_cases e : v = u
    · subst e
      rcases hi.box v with h' | ⟨h', h2, h3⟩
      · exact .inl h'
      · refine .inr ⟨h', h2, ?_⟩
        obtain ⟨h4, h5⟩ := hpost.src (hyes h')
        rw [hpu]
        exact ⟨.inr h4, h5⟩
    · rw [hpo v e]; exact hi.box v
  · intro v
    by_cases e : v = u
    · subst e
      right
      refine ⟨?_, ?_⟩
      · intro h'
        rw [hb] at h'
        rw [hpu]
        exact (hpost.src (hyes h')).1
      · intro h' k t' hk'
        rw [hb] at h'
        rw [hpu, hpost.win (hnot h') k t' hk', slot_ex (fun x => In k x t')]
        simp only [hsl]
    · rcases hi.fresh v with h' | h'
      · left
        rw [hlog]
        exact (unseen_obs v u s.log).2 ⟨fun h => e h.symm, h'⟩
      · exact .inr (fresh_congr (by rw [hpo v e]) (by rw [hb]) h')
  · intro h' v
    rw [hin] at h'
    have hd := hi.dark h'
    rw [hb]
    by_cases e : v = u
    · subst e
      obtain ⟨h1, h2, h3, h4⟩ := hd v
      have := hpost.dark (hnot h3) h1 h2 (by
        intro x hx
        obtain ⟨p, hp'⟩ := List.getElem?_of_mem hx
        have h5 := h4 p
        unfold slot at h5
        rw [List.getD_eq_getElem?_getD, hp'] at h5
        exact congrArg Prod.fst h5)
      rw [hpu]
      exact ⟨this.1, this.2, h3, fun p => by rw [hsl]; exact h4 p⟩
    · obtain ⟨h1, h2, h3, h4⟩ := hd v
      rw [hpo v e]
      exact ⟨h1, h2, h3, fun p => by rw [hsl]; exact h4 p⟩

theorem inv_go {U : Added} (hU : Keyed U) {c : Cfg Mail Unit} {src : Nat} {s s' : S} {t : Nat} (hi : Inv U c src s) (h : goStep tp s t (s.task t) = some s') : Inv U c src s' := by
  cases hk : s.task t with
  | idle => rw [hk] at h; cases h
  | load u f =>
    rw [hk] at h
    simp only [goStep, Option.some.injEq] at h
    subst h
    refine load_inv hU hi hk rfl rfl rfl ?_ rfl rfl
    show upd s.inbox u (s.inbox u) = s.inbox
    funext v
    by_cases e : v = u
    · rw [e, upd_same]
    · rw [upd_ne _ _ e]
  | run u q =>
    rw [hk] at h
    have hok : RunOk s u q := by have := hi.task t; rw [hk] at this; exact this
    cases q with
    | done =>
      simp only [goStep, Option.some.injEq] at h
      subst h
      refine inv_move hi t .idle rfl rfl rfl rfl rfl rfl (by intro _ h; cases h) trivial ?_
      intro v _ _ ha e hm
      rw [hk] at ha
      injection ha with ha
      subst ha
      exact hok.ends e hm
    | post w m k =>
      simp only [goStep] at h
      split at h
      · simp only [Option.some.injEq] at h; subst h
        exact run_post hU hi hk _ rfl rfl rfl rfl rfl (.inr rfl) (fun _ h => unseen_dep_mono h) (fun _ => (unseen_dep _ _ _).2 (.inl rfl))
      · next hn =>
        simp only [Option.some.injEq] at h; subst h
        exact run_post hU hi hk _ rfl rfl rfl rfl rfl (.inl rfl) (fun _ h => h) (fun h => absurd h hn)
    | send w n k => exact absurd hok.along id
  | cas u w k =>
    rw [hk] at h
    have hok : ∀ b, RunOk s u (k b) := by have := hi.task t; rw [hk] at this; exact this
    have hown := hi.own t u (by rw [hk]; rfl)
    have hab : ∀ v, about (s.task t) = some v → v = u := by intro v h; rw [hk] at h; injection h with h; exact h.symm
    simp only [goStep] at h
    split at h <;> (simp only [Option.some.injEq] at h; subst h)
    · exact inv_move hi t _ rfl rfl rfl rfl rfl rfl (by intro _ h; injection h with h; rw [← h]; exact hown) (hok true)
        (fun v _ hne ha => absurd (by rw [hab v ha]; rfl) hne)
    · exact inv_move hi t _ rfl rfl rfl rfl rfl rfl (by intro _ h; injection h with h; rw [← h]; exact hown) (hok false)
        (fun v _ hne ha => absurd (by rw [hab v ha]; rfl) hne)
  | put u w n k =>
    rw [hk] at h
    have hok : RunOk s u k := by have := hi.task t; rw [hk] at this; exact this
    have hown := hi.own t u (by rw [hk]; rfl)
    have hab : ∀ v, about (s.task t) = some v → v = u := by intro v h; rw [hk] at h; injection h with h; exact h.symm
    simp only [goStep, Option.some.injEq] at h
    subst h
    exact inv_move hi t _ rfl rfl rfl rfl rfl rfl (by intro _ h; injection h with h; rw [← h]; exact hown) hok
      (fun v _ hne ha => absurd (by rw [hab v ha]; rfl) hne)

/-- Changing the edges of `v` and starting its callback. -/
theorem inv_edges {U U' V : Added} (hV : U' = U ++ V) {c : Cfg Mail Unit} {src : Nat} {s s' : S} (hi : Inv U c src s) {t v : Nat} (ht : s.task t = .idle) (hown : c.own v = t) (es : List (Edge Link))
    (h : VP → List (Edge Link) → Mail → VP × Prog Mail Unit) (hk : s'.task = upd s.task t (.load v h)) (hp : s'.prop = s.prop) (he : s'.edges = upd s.edges v es)
    (hb : s'.inbox = s.inbox) (hlog : s'.log = s.log) (hin : s'.inited = s.inited) (hsrc : ∀ e ∈ es, (v, e.dst, e.data.pos, e.data.ts) ∈ U')
    (hall : ∀ a ∈ U', a.1 = v → ∃ e ∈ es, e.dst = a.2.1 ∧ e.data.pos = a.2.2.1 ∧ e.data.ts = a.2.2.2) (hVv : ∀ a ∈ V, a.1 = v) (hes : EdgesOk es) (hload : LoadOk (s.prop v) es (slot s) h) :
    Inv U' c src s' := by
  have hm : ∀ a ∈ U, a ∈ U' := by intro a ha; rw [hV]; exact List.mem_append_left _ ha
  have hsl : ∀ v p, slot s' v p = slot s v p := by intro v p; unfold slot; rw [hb]
  have heo : ∀ w, w ≠ v → s'.edges w = s.edges w := by intro w hw; rw [he, upd_ne _ _ hw]
  have hev : s'.edges v = es := by rw [he, upd_same]
  refine ⟨?_, ?_, ?_, ?_, ?_, ?_, ?_, by rw [hp]; exact hi.pan, by rw [hp]; exact hi.ord, by rw [hp]; exact hi.apart, by rw [hp, hb]; exact hi.box, ?_, ?_, by rw [hin, hb]; exact hi.init⟩
  · intro u e h'
    by_cases e' : u = v
    · subst e'; rw [hev] at h'; exact hsrc e h'
    · rw [heo u e'] at h'; exact hm _ (hi.lies u e h')
  · intro a ha
    by_cases e' : a.1 = v
    · rw [e', hev]; exact hall a ha e'
    · rw [heo _ e']
      rw [hV] at ha
      rcases List.mem_append.1 ha with ha | ha
      · exact hi.all a ha
      · exact absurd (hVv a ha) e'
  · intro u
    by_cases e' : u = v
    · subst e'; rw [hev]; exact hes
    · rw [heo u e']; exact hi.edges u
  · intro i u h'
    rw [hk] at h'
    by_cases e : i = t
    · rw [e, upd_same] at h'
      injection h' with h'
      rw [e, ← h']; exact hown
    · rw [upd_ne _ _ e] at h'; exact hi.own i u h'
  · intro i
    rw [hk]
    by_cases e : i = t
    · rw [e, upd_same]
      show LoadOk (s'.prop v) (s'.edges v) (slot s') h
      rw [hp, hev]
      exact loadOk_congr hload (fun e _ => hsl _ _)
    · rw [upd_ne _ _ e]
      refine taskOk_congr (hi.task i) ?_
      intro u hu
      refine ⟨heo u ?_, by rw [hp], fun e _ => hsl _ _⟩
      rintro rfl
      exact e ((hi.own i u hu).symm.trans hown)
  · intro u h' e hm'
    have huv : u ≠ v := by
      rintro rfl
      rw [hown, hk, upd_same] at h'
      exact h' rfl
    rw [heo u huv] at hm'
    rw [hsl, hp]
    refine hi.rest u ?_ e hm'
    intro h''
    by_cases e : c.own u = t
    · rw [e, ht] at h''; cases h''
    · apply h'
      rw [hk, upd_ne _ _ e]; exact h''
  · intro w p
    rw [hsl]
    rcases hi.scr w p with h' | ⟨u, h'⟩
    · exact .inl h'
    · exact .inr ⟨u, hm _ h'⟩
  · intro w
    rw [hlog]
    rcases hi.fresh w with h' | h'
    · exact .inl h'
    · exact .inr (fresh_congr (by rw [hp]) (by rw [hb]) h')
  · intro h' w
    rw [hin] at h'
    obtain ⟨h1, h2, h3, h4⟩ := hi.dark h' w
    rw [hp, hb]
    exact ⟨h1, h2, h3, fun p => by rw [hsl]; exact h4 p⟩

/-! ## Ending edges -/

theorem endAll_ok : ∀ {ds : List (Nat × Nat)} {es : List (Edge Link)} {r : List (Edge Link) × List (Edge Link)}, endAll ds es = some r →
    r.1.map (fun e => (e.dst, e.data.pos, e.data.ts)) = es.map (fun e => (e.dst, e.data.pos, e.data.ts)) ∧ (∀ e ∈ es, e.data.te ≠ 0 → e ∈ r.1) ∧ (∀ e ∈ r.2, e ∈ r.1) ∧ ∀ e ∈ r.1, e ∈ r.2 ∨ e ∈ es
  | [], es, r, h => by
    simp only [endAll, Option.some.injEq] at h
    subst h
    exact ⟨rfl, fun e he _ => he, fun e he => (by cases he), fun e he => .inr he⟩
  | (i, t) :: ds, es, r, h => by
    unfold endAll at h
    cases hi : es[i]? with
    | none => rw [hi] at h; cases h
    | some e0 =>
      rw [hi] at h
      simp only at h
      split at h
      · next hc =>
        rw [Option.map_eq_some_iff] at h
        obtain ⟨r', hr, rfl⟩ := h
        obtain ⟨a1, a2, a3, a4⟩ := endAll_ok hr
        obtain ⟨hlt, hi'⟩ := List.getElem?_eq_some_iff.1 hi
        have hmem : (⟨e0.dst, { e0.data with te := t }⟩ : Edge Link) ∈ es.set i ⟨e0.dst, { e0.data with te := t }⟩ := by
          rw [List.mem_iff_getElem]
          exact ⟨i, by simpa using hlt, by simp⟩
        refine ⟨?_, ?_, ?_, ?_⟩
        · simp only
          rw [a1, List.map_set]
          apply List.ext_getElem?
          intro j
          rw [List.getElem?_set]
          split
          · next e => subst e; simp [hlt, hi']
          · rfl
        · intro e he hne
          apply a2 e _ hne
          obtain ⟨j, hj, rfl⟩ := List.mem_iff_getElem.1 he
          have : i ≠ j := by
            rintro rfl
            rw [hi'] at hne
            exact hne hc.1
          rw [List.mem_iff_getElem]
          exact ⟨j, by simpa using hj, by rw [List.getElem_set_ne this]⟩
        · intro e he
          rcases List.mem_cons.1 he with rfl | he
          · exact a2 _ hmem hc.2
          · exact a3 e he
        · intro e he
          rcases a4 e he with h | h
          · exact .inl (List.mem_cons_of_mem _ h)
          · rcases List.mem_or_eq_of_mem_set h with h | h
            · exact .inr h
            · exact .inl (by rw [h]; simp)
      · cases h

/-! ## Steps -/

/-- Edges added by an action. -/
def addsOf : TAct → Added
  | .add _ v es => es.map fun e => (v, e.dst, e.data.pos, e.data.ts)
  | _ => []

theorem loadOk_update {U : Added} {c : Cfg Mail Unit} {src : Nat} {s : S} (hi : Inv U c src s) {v : Nat} (hn : about (s.task (c.own v)) ≠ some v) (n : Unit) (i : Int) :
    LoadOk (s.prop v) (s.edges v) (slot s) fun p es m => tp.onUpdate v p es n i m := by
  intro m ht hs
  exact visit_ok (ds := []) (hi.pan v) (hi.ord v) (hi.apart v) (hi.edges v) (fun e he => by cases he) (fun ws _ => ⟨[], rfl, rfl⟩) (fun e he => .inr (hi.rest v hn e he)) ht hs

theorem edges_sub {es es' : List (Edge Link)} (h : EdgesOk es) (hs : es'.Sublist es) : EdgesOk es' :=
  ⟨(hs.map ekey).nodup h.nd, h.tord.sublist hs, fun e he => h.ts e (hs.subset he)⟩

theorem inv_step {U : Added} {T : Nat} {own : Nat → Nat} {src : Nat} {s s' : S} {x : TAct} (hU : Keyed (U ++ addsOf x)) (hi : Inv U (cfg T own src) src s) (h : tstep (cfg T own src) s x = some s') :
    Inv (U ++ addsOf x) (cfg T own src) src s' := by
  cases x with
  | init t v =>
    simp only [addsOf, List.append_nil] at hU ⊢
    simp only [tstep, step] at h
    split at h
    · next hf =>
      obtain ⟨ht, hown, hk⟩ := (free_iff _ s t v).1 hf.1
      simp only [cfg] at h
      by_cases hv : v = src
      · subst hv
        rw [if_pos rfl] at h
        have hm : tp.merge { newPath := noPath, scratch := [], pos := SELF } v (s.inbox v) = ({ s.inbox v with newPath := always }, true) := by
          show merge { newPath := noPath, scratch := [], pos := SELF } v (s.inbox v) = _
          unfold merge; rw [if_pos rfl]
        simp only [hm, if_true, Option.some.injEq] at h
        subst h
        have hd := hi.dark hf.2
        have hnv : about (s.task ((cfg T own v).own v)) ≠ some v := by rw [hown, hk]; simp [about]
        have hsl : ∀ w p, key ((upd s.inbox v { s.inbox v with newPath := always } w).scratch.getD p noPath) = slot s w p := by
          intro w p
          unfold slot
          by_cases e : w = v
          · rw [e, upd_same]
          · rw [upd_ne _ _ e]
        refine ⟨hi.lies, hi.all, hi.edges, ?_, ?_, ?_, ?_, hi.pan, hi.ord, hi.apart, ?_, ?_, ?_, ?_⟩
        · intro i u h'
          simp only at h'
          by_cases e : i = t
          · rw [e, upd_same] at h'
            injection h' with h'
            rw [e, ← h']; exact hown
          · rw [upd_ne _ _ e] at h'; exact hi.own i u h'
        · intro i
          simp only
          by_cases e : i = t
          · rw [e, upd_same]
            exact loadOk_congr (loadOk_update hi hnv () 0) (fun e _ => hsl _ _)
          · rw [upd_ne _ _ e]
            exact taskOk_congr (hi.task i) (fun u _ => ⟨rfl, rfl, fun e _ => hsl _ _⟩)
        · intro u h' e hm'
          refine (hsl _ _).trans (hi.rest u ?_ e hm')
          simp only at h'
          intro h''
          by_cases e : (cfg T own v).own u = t
          · rw [e, hk] at h''; cases h''
          · apply h'
            rw [upd_ne _ _ e]; exact h''
        · intro w p
          have := hi.scr w p
          unfold slot at this ⊢
          simp only
          rw [show key ((upd s.inbox v { s.inbox v with newPath := always } w).scratch.getD p noPath) = key ((s.inbox w).scratch.getD p noPath) from hsl w p]
          exact this
        · intro w
          simp only
          by_cases e : w = v
          · subst e
            rw [upd_same]
            exact .inr ⟨rfl, rfl, .inl (hd w).1, .inl (hd w).2.1⟩
          · rw [upd_ne _ _ e]
            rcases hi.box w with h' | ⟨-, h', -⟩
            · exact .inl h'
            · exact absurd h' e
        · intro w
          by_cases e : w = v
          · subst e
            exact .inl ((unseen_dep _ _ _).2 (.inl rfl))
          · rcases hi.fresh w with h' | h'
            · exact .inl (unseen_dep_mono h')
            · exact .inr (fresh_congr (s := s) rfl (upd_ne _ _ e) h')
        · intro h'
          simp only at h'
          rw [upd_same] at h'
          cases h'
        · intro _
          simp only
          rw [upd_same]
      · rw [if_neg hv] at h
        simp only [Option.some.injEq] at h
        subst h
        have hin : upd s.inited v true src = s.inited src := upd_ne _ _ (fun e => hv e.symm)
        refine ⟨hi.lies, hi.all, hi.edges, hi.own, ?_, hi.rest, hi.scr, hi.pan, hi.ord, hi.apart, hi.box, hi.fresh, ?_, ?_⟩
        · intro i
          exact taskOk_congr (hi.task i) (fun u _ => ⟨rfl, rfl, fun e _ => rfl⟩)
        · intro h'
          exact hi.dark (hin ▸ h')
        · intro h'
          exact hi.init (hin ▸ h')
    · cases h
  | recv t v i =>
    simp only [addsOf, List.append_nil] at hU ⊢
    simp only [tstep, step] at h
    split at h
    · next hf =>
      obtain ⟨ht, hown, hk⟩ := (free_iff _ s t v).1 hf
      cases hp : (s.pend v)[i]? with
      | none => rw [hp] at h; cases h
      | some m =>
        rw [hp] at h
        simp only [Option.some.injEq] at h; subst h
        refine inv_move hi t _ rfl rfl rfl rfl rfl rfl (by intro u hu; injection hu with hu; rw [← hu]; exact hown) ?_ ?_
        · exact loadOk_update hi (by rw [hown, hk]; simp [about]) _ _
        · intro u _ _ ha; rw [hk] at ha; cases ha
    · cases h
  | add t v es =>
    simp only [tstep, step] at h
    split at h
    · next hf =>
      obtain ⟨ht, hown, hk⟩ := (free_iff _ s t v).1 hf.1
      simp only [Option.some.injEq] at h; subst h
      have hnv : about (s.task ((cfg T own src).own v)) ≠ some v := by rw [hown, hk]; simp [about]
      have hsrc : ∀ e ∈ s.edges v ++ es, (v, e.dst, e.data.pos, e.data.ts) ∈ U ++ addsOf (.add t v es) := by
        intro e he
        rcases List.mem_append.1 he with he | he
        · exact List.mem_append_left _ (hi.lies v e he)
        · exact List.mem_append_right _ (List.mem_map.2 ⟨e, he, rfl⟩)
      have hok : EdgesOk (s.edges v ++ es) := by
        refine ⟨?_, ?_, fun e he => hU.ts _ (hsrc e he)⟩
        · have hnd := hU.nd
          rw [List.map_append, List.nodup_append] at hnd
          obtain ⟨-, h2, h3⟩ := hnd
          rw [List.map_append, List.nodup_append]
          refine ⟨(hi.edges v).nd, ?_, ?_⟩
          · have : (addsOf (.add t v es)).map (fun a => (a.2.1, a.2.2.1)) = es.map ekey := by
              simp only [addsOf, List.map_map]; rfl
            rw [this] at h2
            exact h2
          · intro a ha b hb
            obtain ⟨ea, hea, rfl⟩ := List.mem_map.1 ha
            obtain ⟨eb, heb, rfl⟩ := List.mem_map.1 hb
            exact h3 _ (List.mem_map.2 ⟨_, hi.lies v ea hea, rfl⟩) _ (List.mem_map.2 ⟨(v, eb.dst, eb.data.pos, eb.data.ts), List.mem_map.2 ⟨eb, heb, rfl⟩, rfl⟩)
        · rw [List.pairwise_append]
          obtain ⟨-, h2, h3⟩ := List.pairwise_append.1 hU.ord
          refine ⟨(hi.edges v).tord, ?_, ?_⟩
          · simp only [addsOf, List.pairwise_map] at h2
            exact h2.imp (fun h => h trivial)
          · intro a ha b hb
            exact h3 _ (hi.lies v a ha) (v, b.dst, b.data.pos, b.data.ts) (List.mem_map.2 ⟨b, hb, rfl⟩) rfl
      refine inv_edges rfl hi hk hown (s.edges v ++ es) _ rfl rfl rfl rfl rfl rfl hsrc ?_ ?_ hok ?_
      · intro a ha hav
        rcases List.mem_append.1 ha with ha | ha
        · obtain ⟨e, he, h'⟩ := hi.all a ha
          rw [hav] at he
          exact ⟨e, List.mem_append_left _ he, h'⟩
        · obtain ⟨e, he, rfl⟩ := List.mem_map.1 ha
          exact ⟨e, List.mem_append_right _ he, rfl, rfl, rfl⟩
      · intro a ha
        obtain ⟨e, he, rfl⟩ := List.mem_map.1 ha
        rfl
      · intro m hm hs
        refine visit_ok (ds := (s.edges v ++ es).drop (s.edges v).length) (hi.pan v) (hi.ord v) (hi.apart v) hok (fun e he => List.mem_of_mem_drop he) ?_ ?_ hm hs
        · intro ws ho
          have hsub := edges_sub hok (List.drop_sublist (s.edges v).length (s.edges v ++ es))
          exact offers_ok ho _ 0 hsub.tord hsub.ts (by simp)
        · intro e he
          rw [List.drop_left]
          rcases List.mem_append.1 he with he | he
          · exact .inr (hi.rest v hnv e he)
          · exact .inl he
    · cases h
  | stop t v ds =>
    simp only [addsOf, List.append_nil] at hU ⊢
    simp only [tstep] at h
    split at h
    · next hf =>
      obtain ⟨ht, hown, hk⟩ := (free_iff _ s t v).1 hf
      have hnv : about (s.task ((cfg T own src).own v)) ≠ some v := by rw [hown, hk]; simp [about]
      rw [Option.map_eq_some_iff] at h
      obtain ⟨r, hr, rfl⟩ := h
      obtain ⟨a1, a2, a3, a4⟩ := endAll_ok hr
      -- everything but the end times stays
      have hto : ∀ e ∈ r.1, ∃ e' ∈ s.edges v, e'.dst = e.dst ∧ e'.data.pos = e.data.pos ∧ e'.data.ts = e.data.ts := by
        intro e he
        have : (e.dst, e.data.pos, e.data.ts) ∈ (s.edges v).map fun e => (e.dst, e.data.pos, e.data.ts) := a1 ▸ List.mem_map.2 ⟨e, he, rfl⟩
        obtain ⟨e', he', h'⟩ := List.mem_map.1 this
        simp only [Prod.mk.injEq] at h'
        exact ⟨e', he', h'⟩
      have hfrom : ∀ e ∈ s.edges v, ∃ e' ∈ r.1, e'.dst = e.dst ∧ e'.data.pos = e.data.pos ∧ e'.data.ts = e.data.ts := by
        intro e he
        have : (e.dst, e.data.pos, e.data.ts) ∈ r.1.map fun e => (e.dst, e.data.pos, e.data.ts) := a1 ▸ List.mem_map.2 ⟨e, he, rfl⟩
        obtain ⟨e', he', h'⟩ := List.mem_map.1 this
        simp only [Prod.mk.injEq] at h'
        exact ⟨e', he', h'⟩
      have hok : EdgesOk r.1 := by
        refine ⟨?_, ?_, ?_⟩
        · have h1 : ∀ l : List (Edge Link), l.map ekey = (l.map fun e => (e.dst, e.data.pos, e.data.ts)).map fun a => (a.1, a.2.1) := by
            intro l
            rw [List.map_map]; rfl
          rw [h1, a1, ← h1]
          exact (hi.edges v).nd
        · have h1 : ∀ l : List (Edge Link), (l.Pairwise fun a b => a.data.ts ≤ b.data.ts) ↔ (l.map fun e => (e.dst, e.data.pos, e.data.ts)).Pairwise fun a b => a.2.2 ≤ b.2.2 := by
            intro l
            rw [List.pairwise_map]
          rw [h1, a1, ← h1]
          exact (hi.edges v).tord
        · intro e he
          obtain ⟨e', he', -, -, h'⟩ := hto e he
          rw [← h']
          exact (hi.edges v).ts e' he'
      refine inv_edges (V := []) (List.append_nil U).symm hi hk hown _ _ rfl rfl rfl rfl rfl rfl ?_ ?_ (fun a ha => by cases ha) hok ?_
      · intro e he
        obtain ⟨e', he', h1, h2, h3⟩ := hto e he
        rw [← h1, ← h2, ← h3]
        exact hi.lies v e' he'
      · intro a ha hav
        obtain ⟨e, he, h1, h2, h3⟩ := hi.all a ha
        rw [hav] at he
        obtain ⟨e', he', g1, g2, g3⟩ := hfrom e he
        exact ⟨e', he', g1.trans h1, g2.trans h2, g3.trans h3⟩
      · intro m hm hs
        refine visit_ok (ds := r.2) (hi.pan v) (hi.ord v) (hi.apart v) hok a3 ?_ ?_ hm hs
        · intro ws ho
          exact offersEnded_ok ho r.2 (fun e he => hok.ts e (a3 e he))
        · intro e he
          rcases a4 e he with h' | h'
          · exact .inl h'
          · exact .inr (hi.rest v hnv e h')
    · cases h
  | go t =>
    simp only [addsOf, List.append_nil] at hU ⊢
    simp only [tstep, step] at h
    split at h
    · exact inv_go hU hi h
    · cases h

/-- All edges added in a run. -/
def adds (xs : List TAct) : Added := xs.flatMap addsOf

theorem inv_run {T : Nat} {own : Nat → Nat} {src : Nat} : ∀ (xs : List TAct) (U : Added) (s s' : S), Keyed (U ++ adds xs) → Inv U (cfg T own src) src s → trun (cfg T own src) s xs = some s' →
    Inv (U ++ adds xs) (cfg T own src) src s'
  | [], U, s, s', _, hi, h => by
    simp only [trun, Option.some.injEq] at h
    subst h
    simpa [adds] using hi
  | x :: xs, U, s, s', hU, hi, h => by
    simp only [trun] at h
    obtain ⟨s1, h1, h2⟩ := Option.bind_eq_some_iff.1 h
    have e : U ++ adds (x :: xs) = (U ++ addsOf x) ++ adds xs := by simp [adds]
    rw [e] at hU ⊢
    exact inv_run xs _ s1 s' hU (inv_step hU.left hi h1) h2

/-- What an added edge is known by. -/
def sig (a : Nat × Edge Link) : Nat × Nat × Nat × Nat := (a.1, a.2.dst, a.2.data.pos, a.2.data.ts)

theorem inv_begin {L : List (Nat × Edge Link)} (hU : Keyed (L.map sig)) (c : Cfg Mail Unit) (src : Nat) (slots : Nat → Nat) : Inv (L.map sig) c src (begin L slots) := by
  have hmem : ∀ u, ∀ e ∈ loaded L u, (u, e) ∈ L := by
    intro u e h
    obtain ⟨a, ha, rfl⟩ := List.mem_map.1 h
    obtain ⟨h1, h2⟩ := List.mem_filter.1 ha
    have h2 : a.1 = u := of_decide_eq_true h2
    rw [← h2]; exact h1
  have hsl : ∀ v p, slot (begin L slots) v p = (INF, 0) := by
    intro v p
    show key ((List.replicate (slots v) noPath).getD p noPath) = _
    rw [List.getD_eq_getElem?_getD, List.getElem?_replicate]
    split <;> rfl
  have hoff : ∀ e, offered [] e = (INF, 0) := by
    intro e
    unfold offered
    rw [if_neg (inSome_nil _ _)]
  have hsub : ∀ u, ((L.filter fun a => decide (a.1 = u)).map sig).Sublist (L.map sig) := fun u => List.filter_sublist.map sig
  refine ⟨?_, ?_, ?_, ?_, fun _ => trivial, ?_, fun v p => .inl (hsl v p), fun _ => rfl, fun _ => by simp [begin, start, tp, newVP, Ord], fun _ => trivial, fun _ => .inl rfl, ?_, ?_, ?_⟩
  · intro u e h
    exact List.mem_map.2 ⟨(u, e), hmem u e h, rfl⟩
  · intro a ha
    obtain ⟨⟨u, e⟩, h, rfl⟩ := List.mem_map.1 ha
    exact ⟨e, List.mem_map.2 ⟨(u, e), List.mem_filter.2 ⟨h, by simp [sig]⟩, rfl⟩, rfl, rfl, rfl⟩
  · intro u
    refine ⟨?_, ?_, ?_⟩
    · have h1 : (loaded L u).map ekey = ((L.filter fun a => decide (a.1 = u)).map sig).map fun a => (a.2.1, a.2.2.1) := by
        unfold loaded
        rw [List.map_map, List.map_map]; rfl
      show ((loaded L u).map ekey).Nodup
      rw [h1]
      exact ((hsub u).map _).nodup hU.nd
    · have h1 := hU.ord.sublist (hsub u)
      show (loaded L u).Pairwise _
      unfold loaded
      rw [List.pairwise_map] at h1 ⊢
      refine List.Pairwise.imp_of_mem ?_ h1
      intro a b ha hb h
      apply h
      have ha := of_decide_eq_true (List.mem_filter.1 ha).2
      have hb := of_decide_eq_true (List.mem_filter.1 hb).2
      exact ha.trans hb.symm
    · intro e he
      exact hU.ts _ (List.mem_map.2 ⟨(u, e), hmem u e he, rfl⟩)
  · intro t u h; cases h
  · intro u _ e _
    rw [hsl]
    exact (hoff _).symm
  · intro v
    right
    refine ⟨fun h => absurd h (by show noPath ≠ always; decide), ?_⟩
    intro _ k t _
    constructor
    · intro h; exact absurd h (inSome_nil k t)
    · rintro ⟨p, h, -⟩
      rw [hsl] at h
      exact absurd rfl h
  · intro _ v
    exact ⟨rfl, rfl, rfl, hsl v⟩
  · intro h; cases h

/-! ## Nothing is left unseen -/

theorem counts_tstep {c : Cfg Mail Unit} {s s' : S} {x : TAct} (hi : Counts c s) (h : tstep c s x = some s') : Counts c s' := by
  cases x with
  | init t v => exact counts_step hi (x := .init t v) h
  | recv t v i => exact counts_step hi (x := .recv t v i) h
  | add t v es => exact counts_step hi (x := .add t v es) h
  | go t => exact counts_step hi (x := .go t) h
  | stop t v ds =>
    simp only [tstep] at h
    split at h
    · next hf =>
      obtain ⟨ht, hown, hk⟩ := (free_iff _ s t v).1 hf
      rw [Option.map_eq_some_iff] at h
      obtain ⟨r, -, rfl⟩ := h
      refine counts_upd hi t _ ht rfl ?_
      intro w
      rw [hk]
      simp [held, inPut]
    · cases h

theorem noticed_tstep {c : Cfg Mail Unit} {s s' : S} {x : TAct} (hc : Counts c s) (hi : Noticed c s) (h : tstep c s x = some s') : Noticed c s' := by
  cases x with
  | init t v => exact noticed_step hc hi (x := .init t v) h
  | recv t v i => exact noticed_step hc hi (x := .recv t v i) h
  | add t v es => exact noticed_step hc hi (x := .add t v es) h
  | go t => exact noticed_step hc hi (x := .go t) h
  | stop t v ds =>
    simp only [tstep] at h
    split at h
    · next hf =>
      obtain ⟨ht, hown, hk⟩ := (free_iff _ s t v).1 hf
      rw [Option.map_eq_some_iff] at h
      obtain ⟨r, -, rfl⟩ := h
      intro w hw
      refine token_upd (hi w hw) t _ rfl (fun h => .inl h) ?_
      intro _ hcr
      rw [hk] at hcr
      exact absurd hcr id
    · cases h

theorem noticed_trun {c : Cfg Mail Unit} : ∀ {xs : List TAct} {s s' : S}, Counts c s → Noticed c s → trun c s xs = some s' → Noticed c s'
  | [], s, s', _, hn, h => by simp only [trun, Option.some.injEq] at h; exact h ▸ hn
  | x :: xs, s, s', hc, hn, h => by
    simp only [trun] at h
    obtain ⟨s1, h1, h2⟩ := Option.bind_eq_some_iff.1 h
    exact noticed_trun (counts_tstep hc h1) (noticed_tstep hc hn h1) h2

theorem noticed_of {c : Cfg Mail Unit} {L : List (Nat × Edge Link)} {slots : Nat → Nat} {xs : List TAct} {s : S} (h : trun c (begin L slots) xs = some s) : Noticed c s := by
  refine noticed_trun ?_ (fun v hv => absurd hv (unseen_nil v)) h
  have := counts_start tp c (loaded L)
  exact this

theorem seen_of {c : Cfg Mail Unit} {L : List (Nat × Edge Link)} {slots : Nat → Nat} {xs : List TAct} {s : S} (h : trun c (begin L slots) xs = some s) (hq : Quiet c s) (v : Nat) : ¬ Unseen v s.log := by
  intro hu
  rcases noticed_of h v hu with h' | ⟨t, ht, h'⟩
  · exact h' (hq.2 v)
  · rw [hq.1 t ht] at h'
    exact h'

end Verif.TempPaths
