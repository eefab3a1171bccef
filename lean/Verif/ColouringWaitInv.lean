import Verif.ColouringWait
import Verif.Work

/-!
# Invariants of graph colouring with wait counts

Every vertex sends its colour along each of its edges once. What is in the mailboxes follows from which accesses are
still outstanding.
-/

namespace Verif.ColouringWait

open Verif.Async Verif.MinLabel
open Verif.Colouring (EMPTY MASK MSB hash comparePriority used mark firstUnused prior Added load0 Keyed)

abbrev S := St Nat Mail Unit Nat

/-- There is an edge from `u` to `v`. -/
def Linked (U : Added) (u v : Nat) : Prop := ∃ p, (u, v, p) ∈ U

/-- Each vertex has the least colour that no neighbour with priority has. -/
def Greedy (U : Added) (col : Nat → Nat) : Prop :=
  ∀ v, (∀ u, Linked U u v → prior u v = true → col u ≠ col v) ∧ ∀ k, k < col v → ∃ u, Linked U u v ∧ prior u v = true ∧ col u = k

/-- The graph: positions are distinct, and every edge comes with its reverse. -/
structure Setup (U : Added) (col : Nat → Nat) : Prop where
  keyed : Keyed U
  rev : (U.map fun a => (a.1, a.2.1)).Perm (U.map fun a => (a.2.1, a.1))
  greedy : Greedy U col

/-! ## Accesses -/

/-- An access along an edge. -/
def note (col : Nat → Nat) (op : Op) (a : Nat × Nat × Nat) : Nat × Mail := (a.2.1, { op := op, pos := a.2.2, colour := col a.1, box := a.2.1 })

/-- The accesses there are along an edge. -/
def Fits (op : Op) (a : Nat × Nat × Nat) : Prop := if a.1 = a.2.1 then op = .self else if prior a.2.1 a.1 = true then op = .store else op ≠ .self

/-- Their order. -/
def Op.num : Op → Nat
  | .self => 0
  | .store => 0
  | .test => 1
  | .sub => 2
  | .last => 3

/-- Everything a vertex sends. -/
def posts (U : Added) (col : Nat → Nat) (u : Nat) : List (Nat × Mail) := (load0 U u).flatMap (calls u (col u))

theorem note_inj {col : Nat → Nat} {op op' : Op} {a a' : Nat × Nat × Nat} (h : note col op a = note col op' a') : op = op' ∧ a.2 = a'.2 := by
  unfold note at h
  simp only [Prod.mk.injEq, Mail.mk.injEq] at h
  exact ⟨h.2.1, Prod.ext h.1 h.2.2.1⟩

theorem mem_calls {col : Nat → Nat} {a : Nat × Nat × Nat} {x : Nat × Mail} : x ∈ calls a.1 (col a.1) ⟨a.2.1, a.2.2⟩ ↔ ∃ op, Fits op a ∧ x = note col op a := by
  unfold calls Fits prior note
  simp only
  split
  · simp
  · split
    · simp
    · simp only [List.mem_cons, List.not_mem_nil, or_false]
      constructor
      · rintro (rfl | rfl | rfl | rfl)
        · exact ⟨.store, by simp, rfl⟩
        · exact ⟨.test, by simp, rfl⟩
        · exact ⟨.sub, by simp, rfl⟩
        · exact ⟨.last, by simp, rfl⟩
      · rintro ⟨op, h, rfl⟩
        cases op <;> simp_all

theorem mem_load0 {U : Added} {u : Nat} {e : Edge Nat} : e ∈ load0 U u ↔ (u, e.dst, e.data) ∈ U := by
  unfold load0
  simp only [List.mem_map, List.mem_filter, decide_eq_true_eq]
  constructor
  · rintro ⟨⟨a, b, c⟩, ⟨h, rfl⟩, rfl⟩; exact h
  · intro h; exact ⟨_, ⟨h, rfl⟩, rfl⟩

theorem mem_posts {U : Added} {col : Nat → Nat} {u : Nat} {x : Nat × Mail} : x ∈ posts U col u ↔ ∃ op a, a ∈ U ∧ a.1 = u ∧ Fits op a ∧ x = note col op a := by
  unfold posts
  rw [List.mem_flatMap]
  constructor
  · rintro ⟨e, he, hx⟩
    have := (mem_calls (col := col) (a := (u, e.dst, e.data))).1 hx
    obtain ⟨op, h1, h2⟩ := this
    exact ⟨op, _, mem_load0.1 he, rfl, h1, h2⟩
  · rintro ⟨op, a, ha, rfl, h1, h2⟩
    exact ⟨⟨a.2.1, a.2.2⟩, mem_load0.2 ha, mem_calls.2 ⟨op, h1, h2⟩⟩

/-- Accesses along the same edge are in order. -/
def Before (x y : Nat × Mail) : Prop := x.1 = y.1 → x.2.pos = y.2.pos → x.2.op.num < y.2.op.num

theorem load0_nodup {U : Added} (hU : Keyed U) (u : Nat) : (load0 U u).Nodup := (Colouring.inv_start hU { T := 0, own := fun _ => 0, initMail := fun _ => none, initNote := fun _ => none }).nd u

theorem sorted_posts {U : Added} (hU : Keyed U) (col : Nat → Nat) (u : Nat) : (posts U col u).Pairwise Before := by
  unfold posts
  rw [List.pairwise_flatMap]
  constructor
  · intro e _
    unfold calls
    simp only
    split
    · simp
    · split
      · simp
      · simp [Before, Op.num]
  · refine (load0_nodup hU u).imp_of_mem ?_
    intro e e' he he' hne x hx y hy h1 h2
    exfalso
    obtain ⟨op, -, rfl⟩ := (mem_calls (col := col) (a := (u, e.dst, e.data))).1 hx
    obtain ⟨op', -, rfl⟩ := (mem_calls (col := col) (a := (u, e'.dst, e'.data))).1 hy
    apply hne
    cases e
    cases e'
    simp only [note] at h1 h2
    rw [h1, h2]

/-- In a suffix, later accesses of an edge follow. -/
theorem suffix_mono {U : Added} (hU : Keyed U) {col : Nat → Nat} {u : Nat} {l : List (Nat × Mail)} (hl : l <:+ posts U col u) {a : Nat × Nat × Nat} (ha : a ∈ U) (hu : a.1 = u)
    {op op' : Op} (hf : Fits op' a) (hn : op.num < op'.num) (h : note col op a ∈ l) : note col op' a ∈ l := by
  obtain ⟨pre, hpre⟩ := hl
  have hm : note col op' a ∈ posts U col u := mem_posts.2 ⟨op', a, ha, hu, hf, rfl⟩
  rw [← hpre] at hm
  rcases List.mem_append.1 hm with h' | h'
  · exfalso
    have hs := sorted_posts hU col u
    rw [← hpre, List.pairwise_append] at hs
    have := hs.2.2 _ h' _ h rfl rfl
    simp only [note] at this
    omega
  · exact h'

/-- The first of a suffix does not occur again. -/
theorem suffix_head {U : Added} (hU : Keyed U) {col : Nat → Nat} {u : Nat} {x : Nat × Mail} {l : List (Nat × Mail)} (hl : x :: l <:+ posts U col u) : x ∉ l := by
  intro hx
  have hs := (sorted_posts hU col u).sublist hl.sublist
  have := (List.pairwise_cons.1 hs).1 x hx rfl rfl
  exact absurd this (Nat.lt_irrefl _)

/-- The first of a suffix comes before the other accesses of the edge. -/
theorem suffix_first {U : Added} (hU : Keyed U) {col : Nat → Nat} {u : Nat} {op op' : Op} {a : Nat × Nat × Nat} {l : List (Nat × Mail)} (hl : note col op a :: l <:+ posts U col u)
    (hn : op'.num < op.num) : note col op' a ∉ note col op a :: l := by
  intro hx
  have hs := (sorted_posts hU col u).sublist hl.sublist
  rcases List.mem_cons.1 hx with h | h
  · have := (note_inj h).1
    rw [this] at hn
    exact Nat.lt_irrefl _ hn
  · have := (List.pairwise_cons.1 hs).1 _ h rfl rfl
    simp only [note] at this
    omega

/-! ## Mailboxes -/

/-- What is stored for the colour sent along an edge. -/
def enc (col : Nat → Nat) (a : Nat × Nat × Nat) : Nat := if prior a.2.1 a.1 = false then col a.1 ||| MSB else col a.1

open scoped Classical

/-- Neighbours with priority that have not been subtracted. -/
noncomputable def rem (U : Added) (O : Op → Nat × Nat × Nat → Prop) (w : Nat) : Nat := U.countP fun a => decide (a.2.1 = w ∧ prior a.1 w = true ∧ O .sub a)

/-- The mailboxes, when the accesses in `O` are outstanding. -/
structure Mem (U : Added) (col : Nat → Nat) (O : Op → Nat × Nat × Nat → Prop) (X : Nat → Mail) : Prop where
  made : ∀ w, (X w).made = true
  len : ∀ w, (X w).scratch.length < EMPTY
  told : ∀ a ∈ U, a.1 ≠ a.2.1 → ¬ O .store a → (X a.2.1).scratch[a.2.2]? = some (enc col a)
  entry : ∀ (w p x : Nat), (X w).scratch[p]? = some x → x = EMPTY ∨ ∃ a ∈ U, a.2.1 = w ∧ a.1 ≠ w ∧ ¬ O .store a ∧ x = enc col a
  saw : ∀ a ∈ U, prior a.1 a.2.1 = true → ¬ O .test a → O .sub a → a.2.2 ∈ (X a.2.1).saw
  more : ∀ w, 0 < rem U O w → (X w).count = rem U O w ∧ (X w).hit = []
  free : ∀ w, rem U O w = 0 → waits U w = 0 → (X w).count = 0 ∧ (X w).hit = []
  over : ∀ w, rem U O w = 0 → 0 < waits U w → ∃ a ∈ U, a.2.1 = w ∧ prior a.1 w = true ∧ (X w).hit = [a.2.2] ∧ (O .last a → (X w).count = 0) ∧ (¬ O .last a → (X w).count = MAX)

theorem count_le {U : Added} (hU : Keyed U) (w : Nat) : U.countP (fun a => decide (a.2.1 = w)) < EMPTY := by
  rw [List.countP_eq_length_filter]
  have hnd : ((U.filter fun a => decide (a.2.1 = w)).map fun a => a.2.2).Nodup := by
    have h1 : ((U.filter fun a => decide (a.2.1 = w)).map Prod.snd).Nodup := (List.filter_sublist.map Prod.snd).nodup hU.nd
    have e : (U.filter fun a => decide (a.2.1 = w)).map (fun a => a.2.2) = ((U.filter fun a => decide (a.2.1 = w)).map Prod.snd).map Prod.snd := by rw [List.map_map]; rfl
    rw [e]
    refine List.Nodup.map_on ?_ h1
    rintro ⟨x1, x2⟩ hx ⟨y1, y2⟩ hy h
    obtain ⟨a, ha, ha'⟩ := List.mem_map.1 hx
    obtain ⟨b, hb, hb'⟩ := List.mem_map.1 hy
    have h1 := of_decide_eq_true (List.mem_filter.1 ha).2
    have h2 := of_decide_eq_true (List.mem_filter.1 hb).2
    rw [ha'] at h1
    rw [hb'] at h2
    exact Prod.ext (h1.trans h2.symm) h
  have hs : ((U.filter fun a => decide (a.2.1 = w)).map fun a => a.2.2) ⊆ List.range (EMPTY - 1) := by
    intro p hp
    obtain ⟨a, ha, rfl⟩ := List.mem_map.1 hp
    have := hU.pos a (List.mem_filter.1 ha).1
    exact List.mem_range.2 (by omega)
  have := (hnd.subperm hs).length_le
  rw [List.length_map, List.length_range] at this
  have : 0 < EMPTY := by decide
  omega

theorem rem_le {U : Added} (hU : Keyed U) (O : Op → Nat × Nat × Nat → Prop) (w : Nat) : rem U O w < EMPTY := by
  refine Nat.lt_of_le_of_lt (List.countP_mono_left ?_) (count_le hU w)
  intro a _ h
  exact decide_eq_true (of_decide_eq_true h).1

theorem rem_zero {U : Added} {O : Op → Nat × Nat × Nat → Prop} {w : Nat} : rem U O w = 0 ↔ ∀ a ∈ U, a.2.1 = w → prior a.1 w = true → ¬ O .sub a := by
  unfold rem
  rw [List.countP_eq_zero]
  constructor
  · intro h a ha h1 h2 h3
    exact h a ha (decide_eq_true ⟨h1, h2, h3⟩)
  · intro h a ha hd
    obtain ⟨h1, h2, h3⟩ := of_decide_eq_true hd
    exact h a ha h1 h2 h3

theorem rem_mono {U : Added} {O O' : Op → Nat × Nat × Nat → Prop} (h : ∀ a ∈ U, O' .sub a → O .sub a) (w : Nat) : rem U O' w ≤ rem U O w := by
  refine List.countP_mono_left ?_
  intro a ha hd
  obtain ⟨h1, h2, h3⟩ := of_decide_eq_true hd
  exact decide_eq_true ⟨h1, h2, h a ha h3⟩

theorem rem_congr {U : Added} {O O' : Op → Nat × Nat × Nat → Prop} {w : Nat} (h : ∀ a ∈ U, a.2.1 = w → prior a.1 w = true → (O' .sub a ↔ O .sub a)) : rem U O' w = rem U O w := by
  refine List.countP_congr ?_
  intro a ha
  simp only [decide_eq_true_eq]
  constructor
  · rintro ⟨h1, h2, h3⟩; exact ⟨h1, h2, (h a ha h1 h2).1 h3⟩
  · rintro ⟨h1, h2, h3⟩; exact ⟨h1, h2, (h a ha h1 h2).2 h3⟩

/-- A count goes down by one when the predicate is given up for one element. -/
theorem countP_drop {α : Type} {p q : α → Bool} : ∀ {l : List α} {a : α}, l.Nodup → a ∈ l → p a = true → q a = false → (∀ b ∈ l, b ≠ a → q b = p b) → l.countP q + 1 = l.countP p
  | [], _, _, h, _, _, _ => by simp at h
  | b :: l, a, hnd, h, hp, hq, ho => by
    rw [List.countP_cons, List.countP_cons]
    obtain ⟨hb, hnd⟩ := List.nodup_cons.1 hnd
    by_cases e : b = a
    · subst e
      rw [hp, hq]
      have : l.countP q = l.countP p := by
        refine List.countP_congr ?_
        intro x hx
        rw [ho x (by simp [hx]) (by rintro rfl; exact hb hx)]
      simp [this]
    · have hm : a ∈ l := by
        rcases List.mem_cons.1 h with h | h
        · exact absurd h.symm e
        · exact h
      have := countP_drop hnd hm hp hq (fun c hc => ho c (by simp [hc]))
      rw [ho b (by simp) e]
      omega

theorem keyed_nodup {U : Added} (hU : Keyed U) : U.Nodup := List.Nodup.of_map _ hU.nd

theorem keyed_eq {U : Added} (hU : Keyed U) {a b : Nat × Nat × Nat} (ha : a ∈ U) (hb : b ∈ U) (h : a.2 = b.2) : a = b := List.inj_on_of_nodup_map hU.nd ha hb h

/-- What `BaseVertexMailbox` counts. -/
theorem waits_eq {U : Added} {col : Nat → Nat} (hs : Setup U col) (w : Nat) : waits U w = U.countP fun a => decide (a.2.1 = w ∧ prior a.1 w = true) := by
  have fold : ∀ (l : List (Edge Nat)) (n : Nat), n + l.length < 4294967296 →
      l.foldl (fun n e => if comparePriority (hash e.dst) (hash w) e.dst w = true then (n + 1) % 4294967296 else n) n = n + l.countP fun e => prior e.dst w := by
    intro l
    induction l with
    | nil => intro n _; rfl
    | cons e l ih =>
      intro n hn
      rw [List.foldl_cons, List.countP_cons]
      simp only [List.length_cons] at hn
      by_cases hp : comparePriority (hash e.dst) (hash w) e.dst w = true
      · rw [if_pos hp, Nat.mod_eq_of_lt (by omega), ih _ (by omega), if_pos (show prior e.dst w = true from hp)]
        omega
      · rw [if_neg hp, ih _ (by omega), if_neg (show ¬ prior e.dst w = true from hp)]
        omega
  have hout : U.countP (fun a => decide (a.1 = w)) = U.countP fun a => decide (a.2.1 = w) := by
    have := hs.rev.countP_eq (fun b => decide (b.1 = w))
    rw [List.countP_map, List.countP_map] at this
    exact this
  have hlen : (load0 U w).length < 4294967296 := by
    unfold load0
    rw [List.length_map, ← List.countP_eq_length_filter, hout]
    exact Nat.lt_trans (count_le hs.keyed w) (by decide)
  unfold waits
  rw [fold _ _ (by omega), Nat.zero_add]
  unfold load0
  rw [List.countP_map, List.countP_filter]
  have := hs.rev.countP_eq (fun b => decide (b.1 = w ∧ prior b.2 w = true))
  rw [List.countP_map, List.countP_map] at this
  refine Eq.trans ?_ this
  refine List.countP_congr ?_
  intro a _
  simp [and_comm]

theorem rem_waits {U : Added} {col : Nat → Nat} (hs : Setup U col) (O : Op → Nat × Nat × Nat → Prop) (w : Nat) : rem U O w ≤ waits U w := by
  rw [waits_eq hs]
  refine List.countP_mono_left ?_
  intro a _ h
  obtain ⟨h1, h2, -⟩ := of_decide_eq_true h
  exact decide_eq_true ⟨h1, h2⟩

theorem put_self {ns : List Nat} {p x : Nat} : (put ns p x)[p]? = some x := by
  unfold put
  split
  · rw [List.getElem?_set_self (by simp; omega)]
  · split
    · rw [List.getElem?_set_self (by omega)]
    · next h => simpa using h

theorem put_ne {ns : List Nat} {p x q : Nat} (h : q ≠ p) : (put ns p x)[q]? = ns[q]? ∨ (ns[q]? = none ∧ (put ns p x)[q]? = some EMPTY) := by
  unfold put
  split
  · next hl =>
    rw [List.getElem?_set_ne (by omega)]
    by_cases h1 : q < ns.length
    · rw [List.getElem?_append_left h1]; exact .inl rfl
    · rw [List.getElem?_append_right (by omega), List.getElem?_eq_none (by omega : ns.length ≤ q)]
      by_cases h2 : q - ns.length < p + 1 - ns.length
      · rw [List.getElem?_replicate_of_lt h2]; exact .inr ⟨rfl, rfl⟩
      · rw [List.getElem?_eq_none (by simp; omega)]; exact .inl rfl
  · split
    · rw [List.getElem?_set_ne (by omega)]; exact .inl rfl
    · exact .inl rfl

theorem put_len {ns : List Nat} {p x n : Nat} (h1 : ns.length < n) (h2 : p + 1 < n) : (put ns p x).length < n := by
  unfold put
  split
  · simp only [List.length_set, List.length_append, List.length_replicate]; omega
  · split
    · simp only [List.length_set]; exact h1
    · exact h1

/-! ## One access -/

/-- Accesses outstanding after one has been done. -/
def Less (O : Op → Nat × Nat × Nat → Prop) (o : Op) (a0 : Nat × Nat × Nat) : Op → Nat × Nat × Nat → Prop := fun op a => O op a ∧ ¬ (op = o ∧ a = a0)

theorem less_ne {O : Op → Nat × Nat × Nat → Prop} {o op : Op} {a0 a : Nat × Nat × Nat} (h : op ≠ o ∨ a ≠ a0) : Less O o a0 op a ↔ O op a := by
  unfold Less
  constructor
  · exact And.left
  · intro ho
    refine ⟨ho, ?_⟩
    rintro ⟨rfl, rfl⟩
    rcases h with h | h <;> exact h rfl

theorem less_self {O : Op → Nat × Nat × Nat → Prop} {o : Op} {a0 : Nat × Nat × Nat} : ¬ Less O o a0 o a0 := fun h => h.2 ⟨rfl, rfl⟩

theorem rem_less {U : Added} {O : Op → Nat × Nat × Nat → Prop} {o : Op} {a0 : Nat × Nat × Nat} (h : o ≠ .sub) (w : Nat) : rem U (Less O o a0) w = rem U O w :=
  rem_congr fun _ _ _ _ => less_ne (.inl (Ne.symm h))

theorem fits_prior {o : Op} {a : Nat × Nat × Nat} (h : Fits o a) (h1 : o ≠ .self) (h2 : o ≠ .store) : prior a.1 a.2.1 = true ∧ a.1 ≠ a.2.1 := by
  unfold Fits at h
  split at h
  · exact absurd h h1
  · next hne =>
    split at h
    · exact absurd h h2
    · next hp =>
      refine ⟨?_, hne⟩
      rcases Colouring.prior_or hne with h | h
      · exact h
      · exact absurd h hp

theorem fits_of_prior {o : Op} {a : Nat × Nat × Nat} (hp : prior a.1 a.2.1 = true) (h1 : o ≠ .self) : Fits o a := by
  have hne : a.1 ≠ a.2.1 := by
    intro h
    rw [h, Colouring.prior_irrefl] at hp
    cases hp
  unfold Fits
  rw [if_neg hne, if_neg (by rw [Colouring.prior_asymm hp]; simp)]
  exact h1

theorem made_opened {U : Added} {w : Nat} {m : Mail} (h : m.made = true) : opened U w m = m := by
  unfold opened; rw [if_pos h]

/-- The mailboxes after an access. -/
theorem mem_post {U : Added} {col : Nat → Nat} (hs : Setup U col) {O : Op → Nat × Nat × Nat → Prop} {X : Nat → Mail} (hm : Mem U col O X) {o : Op} {a0 : Nat × Nat × Nat}
    (ha : a0 ∈ U) (hf : Fits o a0) (ho : O o a0) (hfirst : ∀ op, op.num < o.num → ¬ O op a0)
    (hnext : ∀ op op', Fits op' a0 → op.num < op'.num → O op a0 → O op' a0) :
    Mem U col (Less O o a0) (upd X a0.2.1 (merge U (note col o a0).2 a0.1 (X a0.2.1)).1) ∧
      ((merge U (note col o a0).2 a0.1 (X a0.2.1)).2 = true → rem U O a0.2.1 = 0) ∧
      ((merge U (note col o a0).2 a0.1 (X a0.2.1)).1.count = MAX → (X a0.2.1).count = MAX ∨ (merge U (note col o a0).2 a0.1 (X a0.2.1)).2 = true) := by
  have hU := hs.keyed
  have hopen : opened U a0.2.1 (X a0.2.1) = X a0.2.1 := made_opened (hm.made _)
  have hother : ∀ a ∈ U, a ≠ a0 → a.2.1 = a0.2.1 → a.2.2 ≠ a0.2.2 := fun a h1 h2 h3 h4 => h2 (keyed_eq hU h1 ha (Prod.ext h3 h4))
  cases o with
  | self =>
    have e : (merge U (note col .self a0).2 a0.1 (X a0.2.1)) = (X a0.2.1, decide ((X a0.2.1).count = 0)) := by
      simp only [merge, note, hopen]
    rw [e]
    have hX : upd X a0.2.1 (X a0.2.1) = X := by funext i; by_cases h : i = a0.2.1 <;> simp [upd, h]
    dsimp only
    rw [hX]
    have hl : ∀ op a, op ≠ .self → (Less O .self a0 op a ↔ O op a) := fun op a h => less_ne (.inl h)
    refine ⟨⟨hm.made, hm.len, ?_, ?_, ?_, ?_, ?_, ?_⟩, ?_, fun h => .inl h⟩
    · intro a h1 h2 h3; exact hm.told a h1 h2 (by rwa [hl _ _ (by simp)] at h3)
    · intro w p x h
      rcases hm.entry w p x h with h | ⟨a, h1, h2, h3, h4, h5⟩
      · exact .inl h
      · exact .inr ⟨a, h1, h2, h3, by rwa [hl _ _ (by simp)], h5⟩
    · intro a h1 h2 h3 h4
      rw [hl _ _ (by simp)] at h3 h4
      exact hm.saw a h1 h2 h3 h4
    · intro w h; rw [rem_less (by simp)] at h ⊢; exact hm.more w h
    · intro w h; rw [rem_less (by simp)] at h; exact hm.free w h
    · intro w h hw
      rw [rem_less (by simp)] at h
      obtain ⟨a, h1, h2, h3, h4, h5, h6⟩ := hm.over w h hw
      exact ⟨a, h1, h2, h3, h4, by rwa [hl _ _ (by simp)], by rwa [hl _ _ (by simp)]⟩
    · intro h
      have h0 : (X a0.2.1).count = 0 := of_decide_eq_true h
      by_contra hr
      have := (hm.more a0.2.1 (Nat.pos_of_ne_zero hr)).1
      omega
  | store =>
    have hne : a0.1 ≠ a0.2.1 := by
      intro h
      unfold Fits at hf
      rw [if_pos h] at hf
      cases hf
    have e : (merge U (note col .store a0).2 a0.1 (X a0.2.1)) = ({ X a0.2.1 with scratch := put (X a0.2.1).scratch a0.2.2 (enc col a0) }, false) := by
      simp only [merge, note, hopen]
      rfl
    rw [e]
    dsimp only
    have hl : ∀ op a, op ≠ .store → (Less O .store a0 op a ↔ O op a) := fun op a h => less_ne (.inl h)
    have hcnt : ∀ w, (upd X a0.2.1 { X a0.2.1 with scratch := put (X a0.2.1).scratch a0.2.2 (enc col a0) } w).count = (X w).count := by
      intro w; by_cases h : w = a0.2.1 <;> simp [upd, h]
    have hhit : ∀ w, (upd X a0.2.1 { X a0.2.1 with scratch := put (X a0.2.1).scratch a0.2.2 (enc col a0) } w).hit = (X w).hit := by
      intro w; by_cases h : w = a0.2.1 <;> simp [upd, h]
    have hsaw : ∀ w, (upd X a0.2.1 { X a0.2.1 with scratch := put (X a0.2.1).scratch a0.2.2 (enc col a0) } w).saw = (X w).saw := by
      intro w; by_cases h : w = a0.2.1 <;> simp [upd, h]
    refine ⟨⟨?_, ?_, ?_, ?_, ?_, ?_, ?_, ?_⟩, (fun h => by cases h), fun h => .inl h⟩
    · intro w
      by_cases h : w = a0.2.1
      · rw [h, upd_same]; exact hm.made _
      · rw [upd_ne _ _ h]; exact hm.made _
    · intro w
      by_cases h : w = a0.2.1
      · rw [h, upd_same]; exact put_len (hm.len _) (hU.pos a0 ha)
      · rw [upd_ne _ _ h]; exact hm.len _
    · intro a h1 h2 h3
      by_cases h : a.2.1 = a0.2.1
      · rw [h, upd_same]
        by_cases h4 : a = a0
        · rw [h4]; exact put_self
        · rw [less_ne (.inr h4)] at h3
          have h5 := hm.told a h1 h2 h3
          rw [h] at h5
          rcases put_ne (ns := (X a0.2.1).scratch) (x := enc col a0) (hother a h1 h4 h) with h6 | h6
          · exact h6.trans h5
          · rw [h6.1] at h5; cases h5
      · rw [upd_ne _ _ h]
        exact hm.told a h1 h2 (by rwa [less_ne (.inr (fun h4 => h (by rw [h4])))] at h3)
    · intro w p x hx
      by_cases h : w = a0.2.1
      · rw [h, upd_same] at hx
        by_cases hp : p = a0.2.2
        · right
          have hx : (put (X a0.2.1).scratch a0.2.2 (enc col a0))[p]? = some x := hx
          rw [hp, put_self] at hx
          exact ⟨a0, ha, h.symm, by rw [h]; exact hne, less_self, (Option.some.inj hx).symm⟩
        · rcases put_ne (ns := (X a0.2.1).scratch) (x := enc col a0) hp with h6 | h6
          · rcases hm.entry a0.2.1 p x (h6.symm.trans hx) with h7 | ⟨a, h1, h2, h3, h4, h5⟩
            · exact .inl h7
            · right
              exact ⟨a, h1, h2.trans h.symm, by rw [h]; exact h3, fun h8 => h4 h8.1, h5⟩
          · have hx : (put (X a0.2.1).scratch a0.2.2 (enc col a0))[p]? = some x := hx
            rw [h6.2] at hx
            exact .inl (Option.some.inj hx).symm
      · rw [upd_ne _ _ h] at hx
        rcases hm.entry w p x hx with h7 | ⟨a, h1, h2, h3, h4, h5⟩
        · exact .inl h7
        · exact .inr ⟨a, h1, h2, h3, fun h8 => h4 h8.1, h5⟩
    · intro a h1 h2 h3 h4
      rw [hl _ _ (by simp)] at h3 h4
      rw [hsaw]
      exact hm.saw a h1 h2 h3 h4
    · intro w h; rw [rem_less (by simp)] at h ⊢; rw [hcnt, hhit]; exact hm.more w h
    · intro w h; rw [rem_less (by simp)] at h; rw [hcnt, hhit]; exact hm.free w h
    · intro w h hw
      rw [rem_less (by simp)] at h
      obtain ⟨a, h1, h2, h3, h4, h5, h6⟩ := hm.over w h hw
      rw [hcnt, hhit]
      exact ⟨a, h1, h2, h3, h4, by rwa [hl _ _ (by simp)], by rwa [hl _ _ (by simp)]⟩
  | test =>
    obtain ⟨hpr, hne⟩ := fits_prior hf (by simp) (by simp)
    have hsub : O .sub a0 := hnext .test .sub (fits_of_prior hpr (by simp)) (by decide) ho
    have hpos : 0 < rem U O a0.2.1 := by
      by_contra h
      exact (rem_zero.1 (by omega)) a0 ha rfl hpr hsub
    have hc : 0 < (X a0.2.1).count := by rw [(hm.more _ hpos).1]; exact hpos
    have e : (merge U (note col .test a0).2 a0.1 (X a0.2.1)) = ({ X a0.2.1 with saw := a0.2.2 :: (X a0.2.1).saw }, false) := by
      simp only [merge, note, hopen, if_pos hc]
    rw [e]
    dsimp only
    have hl : ∀ op a, op ≠ .test → (Less O .test a0 op a ↔ O op a) := fun op a h => less_ne (.inl h)
    have hcnt : ∀ w, (upd X a0.2.1 { X a0.2.1 with saw := a0.2.2 :: (X a0.2.1).saw } w).count = (X w).count := by
      intro w; by_cases h : w = a0.2.1 <;> simp [upd, h]
    have hhit : ∀ w, (upd X a0.2.1 { X a0.2.1 with saw := a0.2.2 :: (X a0.2.1).saw } w).hit = (X w).hit := by
      intro w; by_cases h : w = a0.2.1 <;> simp [upd, h]
    have hscr : ∀ w, (upd X a0.2.1 { X a0.2.1 with saw := a0.2.2 :: (X a0.2.1).saw } w).scratch = (X w).scratch := by
      intro w; by_cases h : w = a0.2.1 <;> simp [upd, h]
    refine ⟨⟨?_, ?_, ?_, ?_, ?_, ?_, ?_, ?_⟩, (fun h => by cases h), fun h => .inl h⟩
    · intro w
      by_cases h : w = a0.2.1
      · rw [h, upd_same]; exact hm.made _
      · rw [upd_ne _ _ h]; exact hm.made _
    · intro w; rw [hscr]; exact hm.len w
    · intro a h1 h2 h3; rw [hscr]; exact hm.told a h1 h2 (by rwa [hl _ _ (by simp)] at h3)
    · intro w p x h
      rw [hscr] at h
      rcases hm.entry w p x h with h | ⟨a, h1, h2, h3, h4, h5⟩
      · exact .inl h
      · exact .inr ⟨a, h1, h2, h3, by rwa [hl _ _ (by simp)], h5⟩
    · intro a h1 h2 h3 h4
      rw [hl _ _ (by simp)] at h4
      by_cases h5 : a = a0
      · rw [h5, upd_same]; exact List.mem_cons_self
      · rw [less_ne (.inr h5)] at h3
        have h6 := hm.saw a h1 h2 h3 h4
        by_cases h : a.2.1 = a0.2.1
        · rw [h] at h6 ⊢; rw [upd_same]; exact List.mem_cons_of_mem _ h6
        · rw [upd_ne _ _ h]; exact h6
    · intro w h; rw [rem_less (by simp)] at h ⊢; rw [hcnt, hhit]; exact hm.more w h
    · intro w h; rw [rem_less (by simp)] at h; rw [hcnt, hhit]; exact hm.free w h
    · intro w h hw
      rw [rem_less (by simp)] at h
      obtain ⟨a, h1, h2, h3, h4, h5, h6⟩ := hm.over w h hw
      rw [hcnt, hhit]
      exact ⟨a, h1, h2, h3, h4, by rwa [hl _ _ (by simp)], by rwa [hl _ _ (by simp)]⟩
  | sub =>
    obtain ⟨hpr, hne⟩ := fits_prior hf (by simp) (by simp)
    have hpos : 0 < rem U O a0.2.1 := by
      by_contra h
      exact (rem_zero.1 (by omega)) a0 ha rfl hpr ho
    obtain ⟨hc, hh⟩ := hm.more _ hpos
    have hsaw0 := hm.saw a0 ha hpr (hfirst .test (by decide)) ho
    have hdrop : rem U (Less O .sub a0) a0.2.1 + 1 = rem U O a0.2.1 := by
      refine countP_drop (keyed_nodup hU) ha (decide_eq_true ⟨rfl, hpr, ho⟩) (decide_eq_false fun h => less_self h.2.2) ?_
      intro b _ hb
      rw [decide_eq_decide, less_ne (.inr hb)]
    have hsame : ∀ w, w ≠ a0.2.1 → rem U (Less O .sub a0) w = rem U O w := by
      intro w hw
      refine rem_congr fun a _ h1 _ => less_ne (.inr ?_)
      rintro rfl
      exact hw h1.symm
    have hlt := rem_le hU O a0.2.1
    have hnew : ((X a0.2.1).count + MAX) % 4294967296 = rem U (Less O .sub a0) a0.2.1 := by
      rw [hc, ← hdrop]
      have : EMPTY < 4294967296 := by decide
      have e : rem U (Less O .sub a0) a0.2.1 + 1 + MAX = rem U (Less O .sub a0) a0.2.1 + 4294967296 := by unfold MAX; omega
      rw [e, Nat.add_mod_right, Nat.mod_eq_of_lt (by omega)]
    have e : (merge U (note col .sub a0).2 a0.1 (X a0.2.1)) = ({ X a0.2.1 with count := rem U (Less O .sub a0) a0.2.1, hit := if rem U (Less O .sub a0) a0.2.1 = 0 then [a0.2.2] else [] }, false) := by
      simp only [merge, note, hopen, if_pos hsaw0, hnew, hh, List.filter_nil]
    rw [e]
    dsimp only
    have hl : ∀ op a, op ≠ .sub → (Less O .sub a0 op a ↔ O op a) := fun op a h => less_ne (.inl h)
    generalize hY : upd X a0.2.1 { X a0.2.1 with count := rem U (Less O .sub a0) a0.2.1, hit := if rem U (Less O .sub a0) a0.2.1 = 0 then [a0.2.2] else [] } = Y
    have hYs : Y a0.2.1 = { X a0.2.1 with count := rem U (Less O .sub a0) a0.2.1, hit := if rem U (Less O .sub a0) a0.2.1 = 0 then [a0.2.2] else [] } := by rw [← hY, upd_same]
    have hYn : ∀ w, w ≠ a0.2.1 → Y w = X w := fun w h => by rw [← hY, upd_ne _ _ h]
    have hscr : ∀ w, (Y w).scratch = (X w).scratch ∧ (Y w).saw = (X w).saw ∧ (Y w).made = (X w).made := by
      intro w
      by_cases h : w = a0.2.1
      · rw [h, hYs]; exact ⟨rfl, rfl, rfl⟩
      · rw [hYn w h]; exact ⟨rfl, rfl, rfl⟩
    refine ⟨⟨?_, ?_, ?_, ?_, ?_, ?_, ?_, ?_⟩, (fun h => by cases h), ?_⟩
    · intro w; rw [(hscr w).2.2]; exact hm.made w
    · intro w; rw [(hscr w).1]; exact hm.len w
    · intro a h1 h2 h3; rw [(hscr _).1]; exact hm.told a h1 h2 (by rwa [hl _ _ (by simp)] at h3)
    · intro w p x h
      rw [(hscr w).1] at h
      rcases hm.entry w p x h with h | ⟨a, h1, h2, h3, h4, h5⟩
      · exact .inl h
      · exact .inr ⟨a, h1, h2, h3, by rwa [hl _ _ (by simp)], h5⟩
    · intro a h1 h2 h3 h4
      rw [hl _ _ (by simp)] at h3
      rw [(hscr _).2.1]
      exact hm.saw a h1 h2 h3 h4.1
    · intro w h
      by_cases hw : w = a0.2.1
      · rw [hw] at h ⊢
        rw [hYs]
        exact ⟨rfl, if_neg (by omega)⟩
      · rw [hsame w hw] at h ⊢
        rw [hYn w hw]
        exact hm.more w h
    · intro w h h0
      by_cases hw : w = a0.2.1
      · have := rem_waits hs O w
        rw [hw] at this h0
        omega
      · rw [hsame w hw] at h
        rw [hYn w hw]
        exact hm.free w h h0
    · intro w h h0
      by_cases hw : w = a0.2.1
      · rw [hw] at h ⊢
        rw [hYs]
        refine ⟨a0, ha, rfl, hpr, if_pos h, fun _ => h, fun hn => ?_⟩
        rw [hl _ _ (by simp)] at hn
        exact absurd (hnext .sub .last (fits_of_prior hpr (by simp)) (by decide) ho) hn
      · rw [hsame w hw] at h
        obtain ⟨a, h1, h2, h3, h4, h5, h6⟩ := hm.over w h h0
        rw [hYn w hw]
        exact ⟨a, h1, h2, h3, h4, by rwa [hl _ _ (by simp)], by rwa [hl _ _ (by simp)]⟩
    · intro h
      have : EMPTY < MAX := by decide
      omega
  | last =>
    obtain ⟨hpr, hne⟩ := fits_prior hf (by simp) (by simp)
    have hw0 : 0 < waits U a0.2.1 := by
      rw [waits_eq hs, List.countP_pos_iff]
      exact ⟨a0, ha, decide_eq_true ⟨rfl, hpr⟩⟩
    have hl : ∀ op a, op ≠ .last → (Less O .last a0 op a ↔ O op a) := fun op a h => less_ne (.inl h)
    by_cases hh : a0.2.2 ∈ (X a0.2.1).hit
    · have hr : rem U O a0.2.1 = 0 := by
        by_contra h
        rw [(hm.more _ (Nat.pos_of_ne_zero h)).2] at hh
        simp at hh
      have e : (merge U (note col .last a0).2 a0.1 (X a0.2.1)) = ({ X a0.2.1 with count := MAX }, true) := by
        simp only [merge, note, hopen, if_pos hh]
      rw [e]
      dsimp only
      generalize hY : upd X a0.2.1 { X a0.2.1 with count := MAX } = Y
      have hYs : Y a0.2.1 = { X a0.2.1 with count := MAX } := by rw [← hY, upd_same]
      have hYn : ∀ w, w ≠ a0.2.1 → Y w = X w := fun w h => by rw [← hY, upd_ne _ _ h]
      have hscr : ∀ w, (Y w).scratch = (X w).scratch ∧ (Y w).saw = (X w).saw ∧ (Y w).made = (X w).made ∧ (Y w).hit = (X w).hit := by
        intro w
        by_cases h : w = a0.2.1
        · rw [h, hYs]; exact ⟨rfl, rfl, rfl, rfl⟩
        · rw [hYn w h]; exact ⟨rfl, rfl, rfl, rfl⟩
      refine ⟨⟨?_, ?_, ?_, ?_, ?_, ?_, ?_, ?_⟩, fun _ => hr, fun _ => .inr rfl⟩
      · intro w; rw [(hscr w).2.2.1]; exact hm.made w
      · intro w; rw [(hscr w).1]; exact hm.len w
      · intro a h1 h2 h3; rw [(hscr _).1]; exact hm.told a h1 h2 (by rwa [hl _ _ (by simp)] at h3)
      · intro w p x h
        rw [(hscr w).1] at h
        rcases hm.entry w p x h with h | ⟨a, h1, h2, h3, h4, h5⟩
        · exact .inl h
        · exact .inr ⟨a, h1, h2, h3, by rwa [hl _ _ (by simp)], h5⟩
      · intro a h1 h2 h3 h4
        rw [hl _ _ (by simp)] at h3 h4
        rw [(hscr _).2.1]
        exact hm.saw a h1 h2 h3 h4
      · intro w h
        rw [rem_less (by simp)] at h ⊢
        by_cases hw : w = a0.2.1
        · rw [hw] at h; omega
        · rw [hYn w hw]; exact hm.more w h
      · intro w h h0
        rw [rem_less (by simp)] at h
        by_cases hw : w = a0.2.1
        · rw [hw] at h0; omega
        · rw [hYn w hw]; exact hm.free w h h0
      · intro w h h0
        rw [rem_less (by simp)] at h
        obtain ⟨a, h1, h2, h3, h4, h5, h6⟩ := hm.over w h h0
        by_cases hw : w = a0.2.1
        · have haa : a = a0 := by
            refine keyed_eq hU h1 ha (Prod.ext (h2.trans hw) ?_)
            rw [hw] at h4
            rw [h4, List.mem_singleton] at hh
            exact hh.symm
          refine ⟨a, h1, h2, h3, by rw [(hscr w).2.2.2]; exact h4, fun h7 => ?_, fun _ => ?_⟩
          · rw [haa] at h7; exact absurd h7 less_self
          · rw [hw, hYs]
        · rw [hYn w hw]
          have haa : a ≠ a0 := by rintro rfl; exact hw h2.symm
          exact ⟨a, h1, h2, h3, h4, by rwa [less_ne (.inr haa)], by rwa [less_ne (.inr haa)]⟩
    · have e : (merge U (note col .last a0).2 a0.1 (X a0.2.1)) = (X a0.2.1, false) := by
        simp only [merge, note, hopen, if_neg hh]
      rw [e]
      dsimp only
      have hX : upd X a0.2.1 (X a0.2.1) = X := by funext i; by_cases h : i = a0.2.1 <;> simp [upd, h]
      rw [hX]
      refine ⟨⟨hm.made, hm.len, ?_, ?_, ?_, ?_, ?_, ?_⟩, (fun h => by cases h), fun h => .inl h⟩
      · intro a h1 h2 h3; exact hm.told a h1 h2 (by rwa [hl _ _ (by simp)] at h3)
      · intro w p x h
        rcases hm.entry w p x h with h | ⟨a, h1, h2, h3, h4, h5⟩
        · exact .inl h
        · exact .inr ⟨a, h1, h2, h3, by rwa [hl _ _ (by simp)], h5⟩
      · intro a h1 h2 h3 h4
        rw [hl _ _ (by simp)] at h3 h4
        exact hm.saw a h1 h2 h3 h4
      · intro w h; rw [rem_less (by simp)] at h ⊢; exact hm.more w h
      · intro w h; rw [rem_less (by simp)] at h; exact hm.free w h
      · intro w h hw
        rw [rem_less (by simp)] at h
        obtain ⟨a, h1, h2, h3, h4, h5, h6⟩ := hm.over w h hw
        have haa : a ≠ a0 := by
          rintro rfl
          rw [h2] at hh
          rw [h4] at hh
          simp at hh
        exact ⟨a, h1, h2, h3, h4, by rwa [less_ne (.inr haa)], by rwa [less_ne (.inr haa)]⟩

end Verif.ColouringWait
