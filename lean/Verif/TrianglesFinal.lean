import Verif.TrianglesCount
import Mathlib.Data.Finset.Powerset
import Mathlib.Data.Finset.Card
import Mathlib.Data.Finset.Prod
import Mathlib.Data.Finset.Max
import Mathlib.Algebra.BigOperators.Group.Finset.Piecewise
import Mathlib.Algebra.BigOperators.Group.Finset.Sigma

/-!
# The pairs of edges that are counted are the triangles
-/

namespace Verif.Triangles

open scoped BigOperators

/-! ## Flags -/

theorem or_flag {x : Nat} (h : x < 2 ^ 31) : x ||| FLAG = 2 ^ 31 + x := by
  have := Nat.two_pow_add_eq_or_of_lt h 1
  rw [Nat.mul_one] at this
  rw [Nat.or_comm]; simp only [FLAG]; omega

theorem flag_and {x : Nat} (h : x < 2 ^ 31) : (x ||| FLAG) &&& MASK = x := by
  rw [or_flag h]; simp only [MASK]
  rw [Nat.and_two_pow_sub_one_eq_mod]; omega

theorem plain_and {x : Nat} (h : x < 2 ^ 31) : x &&& MASK = x := by
  simp only [MASK]
  rw [Nat.and_two_pow_sub_one_eq_mod]; omega

theorem flag_bit {x : Nat} (h : x < 2 ^ 31) : (x ||| FLAG).testBit 31 = true := by
  rw [or_flag h, Nat.testBit_two_pow_add_eq, Nat.testBit_lt_two_pow h]; rfl

theorem empty_bit : EMPTY.testBit 31 = true := by decide

/-- Ids below `2 ^ 31 - 1`: then the flag can be told from the id, and a flagged id from `EMPTY`. -/
def Small (c : Cfg) : Prop := ∀ e ∈ c.es, e.1 < MASK ∧ e.2 < MASK

theorem dst_small {c : Cfg} (h : Small c) (i : Nat) : dst c i < MASK := by
  have hm : (c.es.getD (i / 2) (0, 0)).1 < MASK ∧ (c.es.getD (i / 2) (0, 0)).2 < MASK := by
    rw [List.getD_eq_getElem?_getD]
    cases he : c.es[i / 2]? with
    | none => simp [MASK]
    | some e => exact h e (List.mem_of_getElem? he)
  simp only [dst]
  split
  · exact hm.2
  · exact hm.1

theorem rawOf_ne {c : Cfg} (h : Small c) (i : Nat) : rawOf c i ≠ EMPTY ↔ First c i := by
  have hd := dst_small h i
  simp only [MASK] at hd
  simp only [rawOf]
  split
  · rename_i hf
    refine ⟨fun _ => hf, fun _ => ?_⟩
    split
    · rw [or_flag (by omega)]; simp only [EMPTY]; omega
    · simp only [EMPTY]; omega
  · rename_i hf
    simp [hf]

theorem rawOf_and {c : Cfg} (h : Small c) {i : Nat} (hf : First c i) : rawOf c i &&& MASK = dst c i := by
  have hd := dst_small h i
  simp only [MASK] at hd
  simp only [rawOf, if_pos hf]
  split
  · exact flag_and (by omega)
  · exact plain_and (by omega)

theorem rawOf_bit {c : Cfg} (h : Small c) (i : Nat) : (rawOf c i).testBit 31 = false ↔ First c i ∧ i % 2 = 1 := by
  have hd := dst_small h i
  simp only [MASK] at hd
  simp only [rawOf]
  split
  · rename_i hf
    split
    · rename_i he
      rw [flag_bit (by omega)]; simp; omega
    · rename_i he
      rw [Nat.testBit_lt_two_pow (by omega)]
      exact ⟨fun _ => ⟨hf, by omega⟩, fun _ => rfl⟩
  · rename_i hf
    simp [empty_bit, hf]

/-! ## The sum over positions is a sum over events -/

noncomputable def one (c : Cfg) (l : List OutEdge) (d : Nat) (o : OutEdge) : Nat :=
  if o.raw.testBit 31 then 0 else if o.dst = d then leadS c d ⟨l, o.pos⟩ else 0

theorem owed_append (c : Cfg) (d : Nat) (l : List OutEdge) (o : OutEdge) :
    owed c (l ++ [o]) (l ++ [o]).length d = owed c l l.length d + one c l d o := by
  simp only [owed]
  rw [List.length_append, List.length_singleton, Finset.sum_range_succ]
  congr 1
  · refine Finset.sum_congr rfl fun p hp => ?_
    have hp := Finset.mem_range.1 hp
    rw [term_append c d l [o] _ p hp]
    simp only [term]
    rw [Nat.min_eq_right (by omega), Nat.min_eq_right (by omega)]
  · simp only [term]
    rw [List.getElem?_append_right (Nat.le_refl _), Nat.sub_self, Nat.min_eq_right (by omega),
      List.take_append_of_le_length (Nat.le_refl _), List.take_length]
    rfl

theorem batch_succ (c : Cfg) (v m : Nat) : batch c v 0 (m + 1) = batch c v 0 m ++ if src c m = v then [m] else [] := by
  simp only [batch, List.range_succ, List.filter_append]
  congr 1
  by_cases h : src c m = v <;> simp [h]

theorem owed_batch (c : Cfg) (d v m : Nat) :
    owed c ((batch c v 0 m).map (stat c)) ((batch c v 0 m).map (stat c)).length d =
      ∑ i ∈ Finset.range m, if src c i = v then one c ((batch c v 0 i).map (stat c)) d (stat c i) else 0 := by
  induction m with
  | zero => simp [batch, owed]
  | succ m ih =>
    rw [batch_succ, Finset.sum_range_succ, ← ih]
    by_cases h : src c m = v
    · rw [if_pos h, if_pos h, List.map_append, List.map_singleton]
      exact owed_append c d _ _
    · rw [if_neg h, if_neg h, List.append_nil]; rfl

/-- A later edge of the same vertex, closed by an edge before it. -/
def Closes (c : Cfg) (i j : Nat) : Prop :=
  src c j = src c i ∧ First c j ∧ ∃ g < i, src c g = dst c j ∧ dst c g = dst c i ∧ First c g

instance (c : Cfg) (i j : Nat) : Decidable (Closes c i j) := by unfold Closes; infer_instance

theorem leadS_eq {c : Cfg} (h : Small c) (i : Nat) :
    leadS c (dst c i) ⟨(batch c (src c i) 0 i).map (stat c), posOf c i⟩ = ((Finset.range i).filter fun j => Closes c i j).card := by
  have h1 : leadS c (dst c i) ⟨(batch c (src c i) 0 i).map (stat c), posOf c i⟩ = ((List.range i).filter fun j => decide (Closes c i j)).length := by
    simp only [leadS, List.countP_map, batch]
    rw [List.countP_eq_length_filter, List.filter_filter]
    congr 1
    refine List.filter_congr fun j _ => ?_
    rw [Bool.eq_iff_iff]
    have e1 : good c (dst c i) (posOf c i) (stat c j) = true ↔
        First c j ∧ ∃ g, src c g = rawOf c j &&& MASK ∧ dst c g = dst c i ∧ First c g ∧ posOf c g < posOf c i := by
      unfold good
      classical
      rw [Bool.and_eq_true, decide_eq_true_iff, decide_eq_true_iff, ← rawOf_ne h]; rfl
    rw [Bool.and_eq_true, decide_eq_true_iff, Function.comp, e1]
    simp only [Nat.zero_le, decide_true, Bool.true_and, decide_eq_true_eq, Closes]
    constructor
    · rintro ⟨⟨hf, g, h1, h2, h3, h4⟩, hs⟩
      refine ⟨hs, hf, g, ?_, ?_, h2, h3⟩
      · rw [← posOf_lt_iff, h2]; exact h4
      · rw [h1, rawOf_and h hf]
    · rintro ⟨hs, hf, g, h1, h2, h3, h4⟩
      refine ⟨⟨hf, g, ?_, h3, h4, ?_⟩, hs⟩
      · rw [h2, rawOf_and h hf]
      · have := (posOf_lt_iff c).2 h1
        rw [h3] at this; exact this
  rw [h1]
  rfl

theorem owed_all {c : Cfg} (h : Small c) (d v m : Nat) :
    owed c ((batch c v 0 m).map (stat c)) ((batch c v 0 m).map (stat c)).length d =
      ∑ i ∈ Finset.range m, if src c i = v ∧ dst c i = d ∧ First c i ∧ i % 2 = 1 then ((Finset.range i).filter fun j => Closes c i j).card else 0 := by
  rw [owed_batch]
  refine Finset.sum_congr rfl fun i _ => ?_
  by_cases hs : src c i = v
  · subst hs
    rw [if_pos rfl]
    simp only [one]
    by_cases hf : First c i ∧ i % 2 = 1
    · have hb : (stat c i).raw.testBit 31 = false := (rawOf_bit h i).2 hf
      rw [hb]
      simp only [Bool.false_eq_true, if_false]
      by_cases hd : dst c i = d
      · subst hd
        rw [if_pos (show (stat c i).dst = dst c i from rfl), if_pos ⟨trivial, rfl, hf.1, hf.2⟩]
        exact leadS_eq h i
      · rw [if_neg (show ¬ (stat c i).dst = d from hd), if_neg (fun hc => hd hc.2.1)]
    · have hb : (stat c i).raw.testBit 31 = true := by
        by_contra hc
        exact hf ((rawOf_bit h i).1 (by rw [Bool.not_eq_true] at hc; exact hc))
      rw [if_pos hb, if_neg (fun hc => hf ⟨hc.2.2.1, hc.2.2.2⟩)]
  · rw [if_neg hs, if_neg (fun hc => hs hc.1)]

/-- The pairs that are counted. -/
def wedges (c : Cfg) : Finset (Nat × Nat) :=
  ((Finset.range (count c)) ×ˢ (Finset.range (count c))).filter fun x => First c x.1 ∧ x.1 % 2 = 1 ∧ x.2 < x.1 ∧ Closes c x.1 x.2

theorem mem_wedges {c : Cfg} {x : Nat × Nat} : x ∈ wedges c ↔ x.1 < count c ∧ First c x.1 ∧ x.1 % 2 = 1 ∧ x.2 < x.1 ∧ Closes c x.1 x.2 := by
  simp only [wedges, Finset.mem_filter, Finset.mem_product, Finset.mem_range]
  constructor
  · rintro ⟨⟨h1, _⟩, h2⟩; exact ⟨h1, h2⟩
  · rintro ⟨h1, h2, h3, h4, h5⟩; exact ⟨⟨h1, by omega⟩, h2, h3, h4, h5⟩

theorem total {c : Cfg} {N : Nat} (hN : ∀ e ∈ c.es, e.1 < N ∧ e.2 < N) (h : Small c) :
    ∑ d ∈ Finset.range N, ∑ v ∈ Finset.range N, owed c ((batch c v 0 (count c)).map (stat c)) ((batch c v 0 (count c)).map (stat c)).length d = (wedges c).card := by
  have h1 : ∀ i ∈ Finset.range (count c), ∑ d ∈ Finset.range N, ∑ v ∈ Finset.range N,
      (if src c i = v ∧ dst c i = d ∧ First c i ∧ i % 2 = 1 then ((Finset.range i).filter fun j => Closes c i j).card else 0) =
      if First c i ∧ i % 2 = 1 then ((Finset.range i).filter fun j => Closes c i j).card else 0 := by
    intro i hi
    obtain ⟨hs, hd⟩ := src_lt hN (Finset.mem_range.1 hi)
    rw [Finset.sum_eq_single (dst c i), Finset.sum_eq_single (src c i)]
    · simp
    · intro v _ hv; rw [if_neg (fun hc => hv hc.1.symm)]
    · intro hc; exact absurd (Finset.mem_range.2 hs) hc
    · intro d _ hne
      refine Finset.sum_eq_zero fun v _ => ?_
      rw [if_neg (fun hc => hne hc.2.1.symm)]
    · intro hc; exact absurd (Finset.mem_range.2 hd) hc
  calc _ = ∑ d ∈ Finset.range N, ∑ v ∈ Finset.range N, ∑ i ∈ Finset.range (count c),
      (if src c i = v ∧ dst c i = d ∧ First c i ∧ i % 2 = 1 then ((Finset.range i).filter fun j => Closes c i j).card else 0) :=
        Finset.sum_congr rfl fun d _ => Finset.sum_congr rfl fun v _ => owed_all h d v _
    _ = ∑ i ∈ Finset.range (count c), ∑ d ∈ Finset.range N, ∑ v ∈ Finset.range N,
      (if src c i = v ∧ dst c i = d ∧ First c i ∧ i % 2 = 1 then ((Finset.range i).filter fun j => Closes c i j).card else 0) := by
        rw [Finset.sum_congr rfl fun d _ => Finset.sum_comm, Finset.sum_comm]
    _ = ∑ i ∈ Finset.range (count c), if First c i ∧ i % 2 = 1 then ((Finset.range i).filter fun j => Closes c i j).card else 0 :=
        Finset.sum_congr rfl h1
    _ = (wedges c).card := by
        rw [wedges, Finset.card_filter, Finset.sum_product]
        refine Finset.sum_congr rfl fun i hi => ?_
        have hi := Finset.mem_range.1 hi
        simp only
        by_cases hf : First c i ∧ i % 2 = 1
        · rw [if_pos hf, ← Finset.card_filter]
          congr 1
          ext j
          simp only [Finset.mem_filter, Finset.mem_range]
          constructor
          · rintro ⟨a, b⟩; exact ⟨by omega, hf.1, hf.2, a, b⟩
          · rintro ⟨_, _, _, a, b⟩; exact ⟨a, b⟩
        · rw [if_neg hf]
          symm
          exact Finset.sum_eq_zero fun j _ => if_neg (fun hc => hf ⟨hc.1, hc.2.1⟩)

/-! ## Counting triangles -/

def Adj (es : List (Nat × Nat)) (x y : Nat) : Prop := (x, y) ∈ es ∨ (y, x) ∈ es

instance (es : List (Nat × Nat)) (x y : Nat) : Decidable (Adj es x y) := by unfold Adj; infer_instance

/-- Sets of three vertices, any two joined by a line of the input. -/
def triangles (N : Nat) (es : List (Nat × Nat)) : Finset (Finset Nat) :=
  ((Finset.range N).powersetCard 3).filter fun t => ∀ x ∈ t, ∀ y ∈ t, x ≠ y → Adj es x y

/-- The other event of the same line. -/
def partner (i : Nat) : Nat := if i % 2 = 0 then i + 1 else i - 1

theorem partner_half (i : Nat) : partner i / 2 = i / 2 := by
  simp only [partner]; split <;> omega

theorem partner_src (c : Cfg) (i : Nat) : src c (partner i) = dst c i := by
  simp only [src, dst, partner_half]
  by_cases h : i % 2 = 0
  · rw [if_pos h, if_neg (by simp only [partner, if_pos h]; omega)]
  · rw [if_neg h, if_pos (by simp only [partner, if_neg h]; omega)]

theorem partner_dst (c : Cfg) (i : Nat) : dst c (partner i) = src c i := by
  simp only [src, dst, partner_half]
  by_cases h : i % 2 = 0
  · rw [if_pos h, if_neg (by simp only [partner, if_pos h]; omega)]
  · rw [if_neg h, if_pos (by simp only [partner, if_neg h]; omega)]

theorem partner_partner (i : Nat) : partner (partner i) = i := by
  simp only [partner]; split <;> split <;> omega

theorem half_cases {i j : Nat} (h : i / 2 = j / 2) : i = j ∨ i = partner j := by
  simp only [partner]; split <;> omega

theorem first_partner {c : Cfg} {i : Nat} (h : First c i) : First c (partner i) := by
  refine ⟨by rw [partner_src, partner_dst]; exact Ne.symm h.1, fun j hj hs hd => ?_⟩
  rw [partner_src] at hs
  rw [partner_dst] at hd
  have hs' : src c (partner j) = src c i := by rw [partner_src, hd]
  have hd' : dst c (partner j) = dst c i := by rw [partner_dst, hs]
  have hle : j / 2 ≤ i / 2 := by rw [← partner_half i]; omega
  rcases Nat.lt_or_ge (j / 2) (i / 2) with hlt | hge
  · exact h.2 (partner j) (by have := partner_half j; omega) hs' hd'
  · rcases half_cases (show j / 2 = i / 2 by omega) with e | e
    · subst e; exact h.1 hs
    · omega

theorem first_unique {c : Cfg} {i j : Nat} (hi : First c i) (hj : First c j) (hs : src c i = src c j) (hd : dst c i = dst c j) : i = j := by
  rcases Nat.lt_trichotomy i j with h | h | h
  · exact absurd hd (hj.2 i h hs)
  · exact h
  · exact absurd hd.symm (hi.2 j h hs.symm)

theorem first_half {c : Cfg} {i j : Nat} (hi : First c i) (hj : First c j)
    (h : (src c i = src c j ∧ dst c i = dst c j) ∨ (src c i = dst c j ∧ dst c i = src c j)) : i / 2 = j / 2 := by
  rcases h with ⟨h1, h2⟩ | ⟨h1, h2⟩
  · rw [first_unique hi hj h1 h2]
  · have := first_unique hi (first_partner hj) (by rw [partner_src]; exact h1) (by rw [partner_dst]; exact h2)
    rw [this, partner_half]

theorem adj_event {es : List (Nat × Nat)} {c : Cfg} (he : c.es = es) {x y : Nat} (h : Adj es x y) : ∃ i < count c, src c i = x ∧ dst c i = y := by
  subst he
  rcases h with h | h
  · obtain ⟨k, hk, e⟩ := List.mem_iff_getElem.1 h
    refine ⟨2 * k, by simp only [count]; omega, ?_, ?_⟩ <;>
      simp [src, dst, List.getD_eq_getElem?_getD, List.getElem?_eq_getElem hk, e]
  · obtain ⟨k, hk, e⟩ := List.mem_iff_getElem.1 h
    have h2 : (2 * k + 1) / 2 = k := by omega
    refine ⟨2 * k + 1, by simp only [count]; omega, ?_, ?_⟩ <;>
      simp [src, dst, h2, List.getD_eq_getElem?_getD, List.getElem?_eq_getElem hk, e]

theorem event_adj {c : Cfg} {i : Nat} (hi : i < count c) : Adj c.es (src c i) (dst c i) := by
  have hlt : i / 2 < c.es.length := by simp only [count] at hi; omega
  have hm : c.es.getD (i / 2) (0, 0) ∈ c.es := by
    rw [List.getD_eq_getElem?_getD, List.getElem?_eq_getElem hlt]; simp
  simp only [src, dst, Adj]
  split
  · exact .inl hm
  · exact .inr hm

theorem first_event {c : Cfg} {x y : Nat} (hne : x ≠ y) (h : Adj c.es x y) : ∃ i < count c, First c i ∧ src c i = x ∧ dst c i = y := by
  classical
  have hex : ∃ i, src c i = x ∧ dst c i = y := by
    obtain ⟨i, _, h⟩ := adj_event rfl h; exact ⟨i, h⟩
  obtain ⟨h1, h2⟩ := Nat.find_spec hex
  obtain ⟨i, hi, h3⟩ := adj_event rfl h
  refine ⟨Nat.find hex, Nat.lt_of_le_of_lt (Nat.find_min' hex h3) hi, ⟨by rw [h1, h2]; exact hne, fun j hj hs hd => ?_⟩, h1, h2⟩
  exact Nat.find_min hex hj ⟨hs.trans h1, hd.trans h2⟩

def corners (c : Cfg) (x : Nat × Nat) : Finset Nat := {dst c x.1, src c x.1, dst c x.2}

structure Wedge (c : Cfg) (i j g : Nat) : Prop where
  i1 : i < count c
  fi : First c i
  odd : i % 2 = 1
  fj : First c j
  sj : src c j = src c i
  fg : First c g
  sg : src c g = dst c j
  dg : dst c g = dst c i
  ji : j / 2 < i / 2
  gi : g / 2 < i / 2
  ne1 : src c i ≠ dst c i
  ne2 : dst c j ≠ dst c i
  ne3 : dst c j ≠ src c i

theorem wedge_of {c : Cfg} {x : Nat × Nat} (h : x ∈ wedges c) : ∃ g, Wedge c x.1 x.2 g := by
  obtain ⟨h1, h2, h3, h4, h5, h6, g, h7, h8, h9, h10⟩ := mem_wedges.1 h
  have hj : x.2 / 2 ≠ x.1 / 2 := by
    intro e
    rcases half_cases e with e | e
    · omega
    · rw [e, partner_src] at h5; exact h2.1 h5.symm
  have hg : g / 2 ≠ x.1 / 2 := by
    intro e
    rcases half_cases e with e | e
    · omega
    · rw [e, partner_dst] at h9; exact h2.1 h9
  refine ⟨g, h1, h2, h3, h6, h5, h10, h8, h9, by omega, by omega, h2.1, h2.2 _ h4 h5, ?_⟩
  rw [← h5]; exact Ne.symm h6.1

theorem wedge_mem {c : Cfg} {i j g : Nat} (h : Wedge c i j g) : (i, j) ∈ wedges c :=
  mem_wedges.2 ⟨h.i1, h.fi, h.odd, by have := h.ji; show j < i; omega, h.sj, h.fj, g, by have := h.gi; show g < i; omega, h.sg, h.dg, h.fg⟩

theorem mem_corners {c : Cfg} {x : Nat × Nat} {v : Nat} : v ∈ corners c x ↔ v = dst c x.1 ∨ v = src c x.1 ∨ v = dst c x.2 := by
  simp [corners]

theorem wedge_max {c : Cfg} {i j g k : Nat} (h : Wedge c i j g) (hk : First c k) (hs : src c k ∈ corners c (i, j)) (hd : dst c k ∈ corners c (i, j)) :
    k / 2 ≤ i / 2 := by
  rw [mem_corners] at hs hd
  simp only at hs hd
  have hi : (src c k = src c i ∧ dst c k = dst c i) ∨ (src c k = dst c i ∧ dst c k = src c i) → k / 2 = i / 2 := first_half hk h.fi
  have hj : (src c k = src c j ∧ dst c k = dst c j) ∨ (src c k = dst c j ∧ dst c k = src c j) → k / 2 = j / 2 := first_half hk h.fj
  have hg : (src c k = src c g ∧ dst c k = dst c g) ∨ (src c k = dst c g ∧ dst c k = src c g) → k / 2 = g / 2 := first_half hk h.fg
  have := h.ji
  have := h.gi
  have hn := hk.1
  rw [h.sj] at hj
  rw [h.sg, h.dg] at hg
  rcases hs with hs | hs | hs <;> rcases hd with hd | hd | hd
  · exact absurd (hs.trans hd.symm) hn
  · have := hi (.inr ⟨hs, hd⟩); omega
  · have := hg (.inr ⟨hs, hd⟩); omega
  · have := hi (.inl ⟨hs, hd⟩); omega
  · exact absurd (hs.trans hd.symm) hn
  · have := hj (.inl ⟨hs, hd⟩); omega
  · have := hg (.inl ⟨hs, hd⟩); omega
  · have := hj (.inr ⟨hs, hd⟩); omega
  · exact absurd (hs.trans hd.symm) hn

theorem corners_card {c : Cfg} {i j g : Nat} (h : Wedge c i j g) : (corners c (i, j)).card = 3 := by
  simp only [corners]
  exact Finset.card_eq_three.2 ⟨_, _, _, Ne.symm h.ne1, Ne.symm h.ne2, Ne.symm h.ne3, rfl⟩

theorem adj_symm {es : List (Nat × Nat)} {x y : Nat} (h : Adj es x y) : Adj es y x := Or.symm h

theorem corners_mem {c : Cfg} {N : Nat} (hN : ∀ e ∈ c.es, e.1 < N ∧ e.2 < N) {i j g : Nat} (h : Wedge c i j g) : corners c (i, j) ∈ triangles N c.es := by
  have h1 := h.i1
  have h2 := h.ji
  have h3 := h.gi
  have hi := src_lt hN h1
  have hj := src_lt hN (show j < count c by omega)
  have a1 : Adj c.es (src c i) (dst c i) := event_adj h1
  have a2 : Adj c.es (src c i) (dst c j) := by rw [← h.sj]; exact event_adj (by omega)
  have a3 : Adj c.es (dst c j) (dst c i) := by rw [← h.sg, ← h.dg]; exact event_adj (by omega)
  simp only [triangles, Finset.mem_filter, Finset.mem_powersetCard]
  refine ⟨⟨fun v hv => ?_, corners_card h⟩, fun x hx y hy hne => ?_⟩
  · rw [mem_corners] at hv
    rw [Finset.mem_range]
    rcases hv with rfl | rfl | rfl
    · exact hi.2
    · exact hi.1
    · exact hj.2
  · rw [mem_corners] at hx hy
    rcases hx with rfl | rfl | rfl <;> rcases hy with rfl | rfl | rfl
    · exact absurd rfl hne
    · exact adj_symm a1
    · exact adj_symm a3
    · exact a1
    · exact absurd rfl hne
    · exact a2
    · exact a3
    · exact adj_symm a2
    · exact absurd rfl hne

theorem corners_inj {c : Cfg} {x y : Nat × Nat} (hx : x ∈ wedges c) (hy : y ∈ wedges c) (h : corners c x = corners c y) : x = y := by
  obtain ⟨g, hw⟩ := wedge_of hx
  obtain ⟨g', hw'⟩ := wedge_of hy
  obtain ⟨i, j⟩ := x
  obtain ⟨i', j'⟩ := y
  simp only at hw hw'
  have l1 : i' / 2 ≤ i / 2 := wedge_max hw hw'.fi (by rw [h, mem_corners]; simp) (by rw [h, mem_corners]; simp)
  have l2 : i / 2 ≤ i' / 2 := wedge_max hw' hw.fi (by rw [← h, mem_corners]; simp) (by rw [← h, mem_corners]; simp)
  have ei : i = i' := by have := hw.odd; have := hw'.odd; omega
  subst ei
  have ht : dst c j ∈ corners c (i, j') := by rw [← h, mem_corners]; simp
  rw [mem_corners] at ht
  have ed : dst c j = dst c j' := by
    rcases ht with e | e | e
    · exact absurd e hw.ne2
    · exact absurd e hw.ne3
    · exact e
  have := first_unique hw.fj hw'.fj (hw.sj.trans hw'.sj.symm) ed
  rw [this]

theorem corners_surj {c : Cfg} {N : Nat} {t : Finset Nat} (ht : t ∈ triangles N c.es) : ∃ x ∈ wedges c, corners c x = t := by
  simp only [triangles, Finset.mem_filter, Finset.mem_powersetCard] at ht
  obtain ⟨⟨_, hc⟩, ha⟩ := ht
  -- the odd first events within the set
  let F := (Finset.range (count c)).filter fun i => First c i ∧ i % 2 = 1 ∧ src c i ∈ t ∧ dst c i ∈ t
  have hF : ∀ i, i ∈ F ↔ i < count c ∧ First c i ∧ i % 2 = 1 ∧ src c i ∈ t ∧ dst c i ∈ t := by
    intro i; simp [F]
  have hodd : ∀ i, i < count c → First c i → src c i ∈ t → dst c i ∈ t → ∃ k ∈ F, k / 2 = i / 2 := by
    intro i hi hf hs hd
    by_cases ho : i % 2 = 1
    · exact ⟨i, (hF i).2 ⟨hi, hf, ho, hs, hd⟩, rfl⟩
    · refine ⟨partner i, (hF _).2 ⟨?_, first_partner hf, ?_, by rw [partner_src]; exact hd, by rw [partner_dst]; exact hs⟩, partner_half i⟩
      · simp only [partner, if_pos (show i % 2 = 0 by omega)]; simp only [count] at hi ⊢; omega
      · simp only [partner, if_pos (show i % 2 = 0 by omega)]; omega
  obtain ⟨a, b, e, hab, hae, hbe, rfl⟩ := Finset.card_eq_three.1 hc
  have hne : F.Nonempty := by
    obtain ⟨i, hi, hf, hs, hd⟩ := first_event hab (ha a (by simp) b (by simp) hab)
    obtain ⟨k, hk, _⟩ := hodd i hi hf (by rw [hs]; simp) (by rw [hd]; simp)
    exact ⟨k, hk⟩
  obtain ⟨i, hiF, hmax⟩ := F.exists_max_image id hne
  obtain ⟨h1, h2, h3, h4, h5⟩ := (hF i).1 hiF
  -- the third corner
  have hz : ∃ z ∈ ({a, b, e} : Finset Nat), z ≠ src c i ∧ z ≠ dst c i ∧ ({dst c i, src c i, z} : Finset Nat) = {a, b, e} := by
    have hn := h2.1
    simp only [Finset.mem_insert, Finset.mem_singleton] at h4 h5
    rcases h4 with h4 | h4 | h4 <;> rcases h5 with h5 | h5 | h5
    · exact absurd (h4.trans h5.symm) hn
    · exact ⟨e, by simp, by rw [h4]; exact Ne.symm hae, by rw [h5]; exact Ne.symm hbe, by rw [h4, h5]; ext q; simp; grind⟩
    · exact ⟨b, by simp, by rw [h4]; exact Ne.symm hab, by rw [h5]; exact hbe, by rw [h4, h5]; ext q; simp; grind⟩
    · exact ⟨e, by simp, by rw [h4]; exact Ne.symm hbe, by rw [h5]; exact Ne.symm hae, by rw [h4, h5]⟩
    · exact absurd (h4.trans h5.symm) hn
    · exact ⟨a, by simp, by rw [h4]; exact hab, by rw [h5]; exact hae, by rw [h4, h5]; ext q; simp; grind⟩
    · exact ⟨b, by simp, by rw [h4]; exact hbe, by rw [h5]; exact Ne.symm hab, by rw [h4, h5]; ext q; simp; grind⟩
    · exact ⟨a, by simp, by rw [h4]; exact hae, by rw [h5]; exact hab, by rw [h4, h5]; ext q; simp; grind⟩
    · exact absurd (h4.trans h5.symm) hn
  obtain ⟨z, hz, z1, z2, hset⟩ := hz
  obtain ⟨j, j1, j2, j3, j4⟩ := first_event (Ne.symm z1) (ha _ h4 z hz (Ne.symm z1))
  obtain ⟨g, g1, g2, g3, g4⟩ := first_event z2 (ha z hz _ h5 z2)
  have hj : j / 2 < i / 2 := by
    obtain ⟨k, hk, e1⟩ := hodd j j1 j2 (by rw [j3]; exact h4) (by rw [j4]; exact hz)
    have hle : k ≤ i := hmax k hk
    have hne : j / 2 ≠ i / 2 := by
      intro e
      rcases half_cases e with e | e
      · rw [e] at j4; exact z2 j4.symm
      · rw [e, partner_dst] at j4; exact z1 j4.symm
    omega
  have hg : g / 2 < i / 2 := by
    obtain ⟨k, hk, e1⟩ := hodd g g1 g2 (by rw [g3]; exact hz) (by rw [g4]; exact h5)
    have hle : k ≤ i := hmax k hk
    have hne : g / 2 ≠ i / 2 := by
      intro e
      rcases half_cases e with e | e
      · rw [e] at g3; exact z1 g3.symm
      · rw [e, partner_src] at g3; exact z2 g3.symm
    omega
  have hw : Wedge c i j g := ⟨h1, h2, h3, j2, j3, g2, g3.trans j4.symm, g4, hj, hg, h2.1, by rw [j4]; exact z2, by rw [j4]; exact z1⟩
  refine ⟨(i, j), wedge_mem hw, ?_⟩
  rw [← hset]
  simp only [corners, j4]

theorem wedges_card {c : Cfg} {N : Nat} (hN : ∀ e ∈ c.es, e.1 < N ∧ e.2 < N) : (wedges c).card = (triangles N c.es).card := by
  refine Finset.card_bij (fun x _ => corners c x) (fun x hx => ?_) (fun x hx y hy h => corners_inj hx hy h) (fun t ht => ?_)
  · obtain ⟨g, hw⟩ := wedge_of hx
    exact corners_mem hN hw
  · obtain ⟨x, hx, e⟩ := corners_surj ht
    exact ⟨x, hx, e⟩

end Verif.Triangles
