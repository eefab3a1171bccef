import Verif.Enact
import Mathlib.Data.Nat.Bitwise

/-!
# Lemmas about applying changes to one edge list
-/

namespace Verif.Enact

open Verif.Loader (Typ)

variable {D : Type}

/-! ## Stable sorting of a list that splits into two sorted parts -/

theorem filter_append_of_sorted {α : Type} (p : α → Bool) (le : α → α → Bool)
    (h3 : ∀ a b, p a = true → p b = false → le b a = false) : ∀ (r : List α), r.Pairwise (fun a b => le a b = true) →
    r = r.filter p ++ r.filter (fun x => !p x) := by
  intro r
  induction r with
  | nil => intro _; rfl
  | cons x r ih =>
    intro hs
    obtain ⟨h1, h2⟩ := List.pairwise_cons.1 hs
    cases hp : p x with
    | true =>
      rw [List.filter_cons_of_pos hp, List.filter_cons_of_neg (by simp [hp]), List.cons_append, ← ih h2]
    | false =>
      have hall : ∀ y ∈ r, p y = false := by
        intro y hy
        cases hq : p y with
        | false => rfl
        | true =>
          have := h3 y x hq hp
          rw [h1 y hy] at this; cases this
      rw [List.filter_cons_of_neg (by simp [hp]), List.filter_cons_of_pos (by simp [hp])]
      have e1 : r.filter p = [] := by
        rw [List.filter_eq_nil_iff]; intro y hy; rw [hall y hy]; simp
      have e2 : r.filter (fun x => !p x) = r := by
        rw [List.filter_eq_self]; intro y hy; simp [hall y hy]
      rw [e1, e2]; rfl

theorem stableSort_split {α : Type} (p : α → Bool) (le : α → α → Bool)
    (tr : ∀ a b c, le a b = true → le b c = true → le a c = true) (tot : ∀ a b, (le a b || le b a) = true)
    (h3 : ∀ a b, p a = true → p b = false → le b a = false) (l : List α)
    (h1 : (l.filter p).Pairwise (fun a b => le a b = true)) (h2 : (l.filter (fun x => !p x)).Pairwise (fun a b => le a b = true)) :
    stableSort le l = l.filter p ++ l.filter (fun x => !p x) := by
  have hs := stableSort_pairwise tr tot l
  have hp := stableSort_perm le l
  have key : ∀ q : α → Bool, (l.filter q).Pairwise (fun a b => le a b = true) → (stableSort le l).filter q = l.filter q := by
    intro q hq
    have hsub : (l.filter q).Sublist (stableSort le l) := sublist_stableSort hq List.filter_sublist
    have hsub2 := hsub.filter q
    rw [List.filter_filter] at hsub2
    simp only [Bool.and_self] at hsub2
    exact (hsub2.eq_of_length (by rw [(hp.filter q).length_eq])).symm
  rw [filter_append_of_sorted p le h3 _ hs, key p h1, key _ h2]

/-! ## Flags -/

theorem posFlag_toNat : posFlag.toNat = 2 ^ 31 := by decide
theorem timeFlag_toNat : timeFlag.toNat = 2 ^ 63 := by decide

theorem marked_iff (e : Edge D) : e.marked = decide (2 ^ 31 ≤ e.pos.toNat) := by
  have hx := e.pos.toNat_lt
  have h1 : (e.pos &&& posFlag).toNat = (e.pos.toNat.testBit 31).toNat * 2 ^ 31 := by
    rw [UInt32.toNat_and, posFlag_toNat, Nat.and_two_pow]
  have h2 : e.pos.toNat.testBit 31 = decide (2 ^ 31 ≤ e.pos.toNat) := by
    rw [Nat.testBit_eq_decide_div_mod_eq]
    by_cases h : 2 ^ 31 ≤ e.pos.toNat
    · have : e.pos.toNat / 2 ^ 31 = 1 := by omega
      rw [this]; simp only [h, decide_true]
    · have : e.pos.toNat / 2 ^ 31 = 0 := by omega
      rw [this]; simp only [h]; decide
  unfold Edge.marked
  rw [← h2]
  cases hb : e.pos.toNat.testBit 31 with
  | true =>
    rw [hb] at h1
    have : e.pos &&& posFlag ≠ 0 := by
      intro h; rw [h] at h1; simp at h1
    simpa using this
  | false =>
    rw [hb] at h1
    have : e.pos &&& posFlag = 0 := by
      apply UInt32.toNat_inj.1; rw [h1]; simp
    simp [this]

theorem pos_flag_marked {e : Edge D} (h : e.marked = true) : (e.pos &&& posFlag).toNat = 2 ^ 31 := by
  rw [marked_iff, decide_eq_true_eq] at h
  have hx := e.pos.toNat_lt
  rw [UInt32.toNat_and, posFlag_toNat, Nat.and_two_pow, Nat.testBit_eq_decide_div_mod_eq]
  have : e.pos.toNat / 2 ^ 31 = 1 := by omega
  rw [this]; decide

theorem pos_flag_unmarked {e : Edge D} (h : e.marked = false) : (e.pos &&& posFlag).toNat = 0 := by
  rw [marked_iff, decide_eq_false_iff_not] at h
  rw [UInt32.toNat_and, posFlag_toNat, Nat.and_two_pow, Nat.testBit_eq_decide_div_mod_eq]
  have : e.pos.toNat / 2 ^ 31 = 0 := by omega
  rw [this]; decide

theorem unmark_toNat (e : Edge D) : e.unmark.pos.toNat = e.pos.toNat % 2 ^ 31 := by
  unfold Edge.unmark
  simp only [UInt32.toNat_and]
  have : (posFlag - 1).toNat = 2 ^ 31 - 1 := by decide
  rw [this, Nat.and_two_pow_sub_one_eq_mod]

theorem edge_ext_pos {a b : Edge D} (h1 : a.didx = b.didx) (h2 : a.pos.toNat = b.pos.toNat) (h3 : a.ts = b.ts) (h4 : a.endT = b.endT)
    (h5 : a.data = b.data) : a = b := by
  cases a; cases b
  simp only at h1 h2 h3 h4 h5
  rw [UInt32.toNat_inj] at h2
  subst h1; subst h2; subst h3; subst h4; subst h5; rfl

theorem unmark_unmarked {e : Edge D} (h : e.marked = false) : e.unmark = e := by
  rw [marked_iff, decide_eq_false_iff_not] at h
  refine edge_ext_pos rfl ?_ rfl rfl rfl
  rw [unmark_toNat, Nat.mod_eq_of_lt (by omega)]

theorem mark_toNat {e : Edge D} (h : e.marked = false) : e.mark.pos.toNat = 2 ^ 31 + e.pos.toNat := by
  rw [marked_iff, decide_eq_false_iff_not] at h
  unfold Edge.mark
  simp only [UInt32.toNat_or, posFlag_toNat]
  have := Nat.two_pow_add_eq_or_of_lt (i := 31) (b := e.pos.toNat) (by omega) 1
  rw [Nat.mul_one] at this
  rw [this, Nat.or_comm]

theorem marked_mark {e : Edge D} (h : e.marked = false) : e.mark.marked = true := by
  rw [marked_iff, mark_toNat h]; simp

theorem unmark_mark {e : Edge D} (h : e.marked = false) : e.mark.unmark = e := by
  refine edge_ext_pos rfl ?_ rfl rfl rfl
  rw [unmark_toNat, mark_toNat h]
  rw [marked_iff, decide_eq_false_iff_not] at h
  omega

/-- Edges as the construction makes them. -/
def Clean (e : Edge D) : Prop := e.pos.toNat < 2 ^ 31

theorem clean_iff (e : Edge D) : Clean e ↔ e.marked = false := by
  rw [marked_iff, decide_eq_false_iff_not]; unfold Clean; omega

theorem flagTs_toNat {t : UInt64} (h : t.toNat < 2 ^ 63) : (t ||| timeFlag).toNat = 2 ^ 63 + t.toNat := by
  rw [UInt64.toNat_or, timeFlag_toNat]
  have := Nat.two_pow_add_eq_or_of_lt (i := 63) (b := t.toNat) h 1
  rw [Nat.mul_one] at this
  rw [this, Nat.or_comm]

theorem unflagTs {t : UInt64} (h : t.toNat < 2 ^ 63) : (t ||| timeFlag) &&& (timeFlag - 1) = t := by
  apply UInt64.toNat_inj.1
  rw [UInt64.toNat_and, flagTs_toNat h]
  have : (timeFlag - 1).toNat = 2 ^ 63 - 1 := by decide
  rw [this, Nat.and_two_pow_sub_one_eq_mod]
  omega

/-! ## The rule -/

/-- Remove the earliest edge to `d`. -/
def removeFirst (d : Nat × Nat) (es : List (Edge D)) : Option (List (Edge D)) :=
  if es.any (fun e => decide (e.didx = d)) then some (es.eraseP (fun e => decide (e.didx = d))) else none

/-- The simple rule, one event at a time. -/
def rule : List (Edge D) → List (Change D) → Option (List (Edge D))
  | es, [] => some es
  | es, c :: cs =>
    match c.typ with
    | .add => rule (es ++ [c.edge]) cs
    | .del => (removeFirst c.edge.didx es).bind fun es' => rule es' cs

theorem rule_append (es : List (Edge D)) (a b : List (Change D)) : rule es (a ++ b) = (rule es a).bind fun es' => rule es' b := by
  induction a generalizing es with
  | nil => rfl
  | cons c a ih =>
    simp only [List.cons_append, rule]
    cases c.typ with
    | add => exact ih _
    | del =>
      simp only
      cases removeFirst c.edge.didx es with
      | none => rfl
      | some es' => exact ih _

/-- The target of the oldest edge. -/
def oldest (es : List (Edge D)) : Option (Nat × Nat) := es.head?.map (·.didx)

/-- For every delete: its target has at most one edge at that time, or this delete and all deletes
since the last add (if `w`) hit the oldest edge. -/
def Good : Bool → List (Edge D) → List (Change D) → Prop
  | _, _, [] => True
  | w, es, c :: cs =>
    match c.typ with
    | .add => Good true (es ++ [c.edge]) cs
    | .del => ((es.filter (fun e => decide (e.didx = c.edge.didx))).length ≤ 1 ∨ (w = true ∧ oldest es = some c.edge.didx)) ∧
        ∀ es', removeFirst c.edge.didx es = some es' → Good (w && decide (oldest es = some c.edge.didx)) es' cs

theorem Good.mono {w : Bool} {es : List (Edge D)} {cs : List (Change D)} (h : Good w es cs) : Good true es cs := by
  induction cs generalizing w es with
  | nil => trivial
  | cons c cs ih =>
    simp only [Good] at h ⊢
    cases ht : c.typ with
    | add => rw [ht] at h; exact h
    | del =>
      rw [ht] at h
      simp only at h ⊢
      obtain ⟨h1, h2⟩ := h
      refine ⟨?_, ?_⟩
      · rcases h1 with h1 | ⟨-, h1⟩
        · exact .inl h1
        · exact .inr ⟨by trivial, h1⟩
      · intro es' he
        have := h2 es' he
        by_cases ho : oldest es = some c.edge.didx
        · simp only [ho, decide_true, Bool.and_true] at this ⊢
          exact ih this
        · simpa [ho] using this

/-! ## A run of deletes -/

def unm (e : Edge D) : Bool := !e.marked

/-- The marked edges are the first `k`. -/
def Front (s : DelSt D) : Prop := ∀ (i : Nat) (e : Edge D), s.edges[i]? = some e → (e.marked = true ↔ i < s.k)

structure DInv (es0 : List (Edge D)) (s : DelSt D) : Prop where
  sh : s.edges.map Edge.unmark = es0
  idx : ∀ i, i ∈ s.idxs ↔ ∃ e, s.edges[i]? = some e ∧ e.marked = true
  cnt : (s.edges.filter Edge.marked).length = s.k
  fast : s.warn = false → Front s

theorem searchMark_some {d : Nat × Nat} : ∀ {es es' : List (Edge D)} {i : Nat}, searchMark d es = some (es', i) →
    ∃ e, es[i]? = some e ∧ e.didx = d ∧ e.marked = false ∧ (∀ x ∈ es.take i, ¬ (x.didx = d ∧ x.marked = false)) ∧ es' = es.set i e.mark := by
  intro es
  induction es with
  | nil => intro es' i h; cases h
  | cons e es ih =>
    intro es' i h
    simp only [searchMark] at h
    split at h
    · rename_i hc
      injection h with h; injection h with h1 h2; subst h1; subst h2
      exact ⟨e, rfl, hc.1, hc.2, by simp, rfl⟩
    · rename_i hc
      obtain ⟨⟨es1, j⟩, h1, h2⟩ := Option.map_eq_some_iff.1 h
      injection h2 with h2 h3; subst h2; subst h3
      obtain ⟨e', a1, a2, a3, a4, a5⟩ := ih h1
      refine ⟨e', by simpa using a1, a2, a3, ?_, by simp [a5]⟩
      intro x hx
      rw [List.take_succ_cons, List.mem_cons] at hx
      rcases hx with hx | hx
      · subst hx; exact hc
      · exact a4 x hx

theorem searchMark_none {d : Nat × Nat} : ∀ {es : List (Edge D)}, searchMark d es = none → ∀ x ∈ es, ¬ (x.didx = d ∧ x.marked = false) := by
  intro es
  induction es with
  | nil => intro _ x hx; cases hx
  | cons e es ih =>
    intro h x hx
    simp only [searchMark] at h
    split at h
    · cases h
    · rename_i hc
      rw [Option.map_eq_none_iff] at h
      rw [List.mem_cons] at hx
      rcases hx with hx | hx
      · subst hx; exact hc
      · exact ih h x hx

theorem split_at {α : Type} {l : List α} {i : Nat} {e : α} (h : l[i]? = some e) : l = l.take i ++ e :: l.drop (i + 1) := by
  obtain ⟨hl, he⟩ := List.getElem?_eq_some_iff.1 h
  rw [← he, List.getElem_cons_drop hl, List.take_append_drop]

theorem set_split {α : Type} {l : List α} {i : Nat} {e x : α} (h : l[i]? = some e) : l.set i x = l.take i ++ x :: l.drop (i + 1) := by
  obtain ⟨hl, he⟩ := List.getElem?_eq_some_iff.1 h
  rw [List.set_eq_take_append_cons_drop, if_pos hl]

/-- Marking the earliest unmarked edge to `d` is removing the earliest edge to `d`. -/
theorem mark_at {d : Nat × Nat} {es : List (Edge D)} {i : Nat} {e : Edge D} (h1 : es[i]? = some e) (h2 : e.didx = d) (h3 : e.marked = false)
    (h4 : ∀ x ∈ es.take i, ¬ (x.didx = d ∧ x.marked = false)) :
    removeFirst d (es.filter unm) = some ((es.set i e.mark).filter unm) := by
  have hu : unm e = true := by simp [unm, h3]
  have hu2 : unm e.mark = false := by simp [unm, marked_mark h3]
  have e1 : es.filter unm = (es.take i).filter unm ++ e :: (es.drop (i + 1)).filter unm := by
    conv => lhs; rw [split_at h1]
    rw [List.filter_append, List.filter_cons_of_pos hu]
  have e2 : (es.set i e.mark).filter unm = (es.take i).filter unm ++ (es.drop (i + 1)).filter unm := by
    rw [set_split h1, List.filter_append, List.filter_cons_of_neg (by simp [hu2])]
  have hno : ∀ x ∈ (es.take i).filter unm, ¬ (decide (x.didx = d) = true) := by
    intro x hx
    rw [List.mem_filter] at hx
    simp only [decide_eq_true_eq]
    intro hd
    exact h4 x hx.1 ⟨hd, by simpa [unm] using hx.2⟩
  unfold removeFirst
  rw [if_pos, e1, e2, List.eraseP_append_right _ hno, List.eraseP_cons_of_pos (by simp [h2])]
  rw [List.any_eq_true]
  exact ⟨e, by rw [e1]; simp, by simp [h2]⟩

theorem filter_marked_set {es : List (Edge D)} {i : Nat} {e : Edge D} (h1 : es[i]? = some e) (h3 : e.marked = false) :
    ((es.set i e.mark).filter Edge.marked).length = (es.filter Edge.marked).length + 1 := by
  conv => rhs; rw [split_at h1]
  rw [set_split h1, List.filter_append, List.filter_append, List.filter_cons_of_pos (marked_mark h3), List.filter_cons_of_neg (by simp [h3])]
  simp only [List.length_append, List.length_cons]
  omega

theorem dinv_mark {es0 : List (Edge D)} {s : DelSt D} (hi : DInv es0 s) {i : Nat} {e : Edge D} (h1 : s.edges[i]? = some e) (h3 : e.marked = false) :
    (s.edges.set i e.mark).map Edge.unmark = es0 ∧
    (∀ j, j ∈ s.idxs ++ [i] ↔ ∃ e', (s.edges.set i e.mark)[j]? = some e' ∧ e'.marked = true) ∧
    ((s.edges.set i e.mark).filter Edge.marked).length = s.k + 1 := by
  have hl := (List.getElem?_eq_some_iff.1 h1).1
  refine ⟨?_, ?_, ?_⟩
  · rw [← hi.sh, List.map_set, unmark_mark h3]
    conv => lhs; rw [← unmark_unmarked h3]
    apply List.ext_getElem?
    intro j
    by_cases ej : i = j
    · subst ej; rw [List.getElem?_set_self (by simpa using hl), List.getElem?_map, h1]; rfl
    · rw [List.getElem?_set_ne ej]
  · intro j
    rw [List.mem_append, List.mem_singleton, hi.idx]
    by_cases ej : i = j
    · subst ej
      rw [List.getElem?_set_self hl]
      constructor
      · intro _; exact ⟨_, rfl, marked_mark h3⟩
      · intro _; exact .inr rfl
    · rw [List.getElem?_set_ne ej]
      constructor
      · rintro (h | h)
        · exact h
        · exact absurd h.symm ej
      · intro h; exact .inl h
  · rw [filter_marked_set h1 h3, hi.cnt]

/-- One delete follows the rule. -/
theorem delOne_spec {es0 : List (Edge D)} {s : DelSt D} (hi : DInv es0 s) (w : Bool) (hw : w = true → Front s) (d : Nat × Nat)
    (hg : ((s.edges.filter unm).filter (fun e => decide (e.didx = d))).length ≤ 1 ∨ (w = true ∧ oldest (s.edges.filter unm) = some d)) :
    match removeFirst d (s.edges.filter unm) with
    | none => delOne s d = none
    | some S => ∃ s', delOne s d = some s' ∧ DInv es0 s' ∧ s'.edges.filter unm = S ∧ (s.warn = true → s'.warn = true) ∧
        (w = true → oldest (s.edges.filter unm) = some d → Front s') := by
  have frontHead : Front s → (s.edges.take s.k).filter unm = [] := by
    intro hf
    rw [List.filter_eq_nil_iff]
    intro x hx
    obtain ⟨j, hj, he⟩ := List.mem_take_iff_getElem.1 hx
    have := (hf j x (by rw [List.getElem?_eq_getElem (by omega), he])).2 (by omega)
    simp [unm, this]
  have lenle : s.k ≤ s.edges.length := by rw [← hi.cnt]; exact List.length_filter_le _ _
  unfold delOne
  cases hk : s.edges[s.k]? with
  | none =>
    simp only
    have hlen : s.edges.length = s.k := by
      rw [List.getElem?_eq_none_iff] at hk; omega
    have hall : s.edges.filter Edge.marked = s.edges := List.filter_sublist.eq_of_length (by rw [hi.cnt, hlen])
    have hS : s.edges.filter unm = [] := by
      rw [List.filter_eq_nil_iff]; intro x hx
      rw [← hall, List.mem_filter] at hx
      simp [unm, hx.2]
    rw [hS]
    simp [removeFirst]
  | some e =>
    simp only
    have hlk := (List.getElem?_eq_some_iff.1 hk).1
    by_cases hc : e.didx = d ∧ e.marked = false
    · rw [if_pos hc]
      have hfirst : ∀ x ∈ s.edges.take s.k, ¬ (x.didx = d ∧ x.marked = false) := by
        intro x hx ⟨hd, hm⟩
        have hxS : x ∈ (s.edges.take s.k).filter unm := by rw [List.mem_filter]; exact ⟨hx, by simp [unm, hm]⟩
        rcases hg with hg | ⟨hg, -⟩
        · have e1 : s.edges.filter unm = (s.edges.take s.k).filter unm ++ e :: (s.edges.drop (s.k + 1)).filter unm := by
            conv => lhs; rw [split_at hk]
            rw [List.filter_append, List.filter_cons_of_pos (by simp [unm, hc.2])]
          rw [e1, List.filter_append, List.filter_cons_of_pos (by simp [hc.1])] at hg
          have : x ∈ ((s.edges.take s.k).filter unm).filter (fun e => decide (e.didx = d)) := by
            rw [List.mem_filter]; exact ⟨hxS, by simp [hd]⟩
          have := List.length_pos_of_mem this
          simp only [List.length_append, List.length_cons] at hg
          omega
        · rw [frontHead (hw hg)] at hxS; cases hxS
      rw [mark_at hk hc.1 hc.2 hfirst]
      simp only
      obtain ⟨m1, m2, m3⟩ := dinv_mark hi hk hc.2
      have hfr : Front s → Front { s with edges := s.edges.set s.k e.mark, k := s.k + 1, idxs := s.idxs ++ [s.k] } := by
        intro hf j e' he'
        simp only at he' ⊢
        by_cases ej : s.k = j
        · subst ej
          rw [List.getElem?_set_self hlk] at he'
          injection he' with he'; subst he'
          simp [marked_mark hc.2]
        · rw [List.getElem?_set_ne ej] at he'
          rw [hf j e' he']; omega
      refine ⟨_, rfl, ⟨m1, m2, m3, fun hw' => hfr (hi.fast hw')⟩, rfl, id, ?_⟩
      intro h1 _; exact hfr (hw h1)
    · rw [if_neg hc]
      cases hs : searchMark d s.edges with
      | none =>
        have hno := searchMark_none hs
        have : removeFirst d (s.edges.filter unm) = none := by
          unfold removeFirst
          rw [if_neg]
          rw [List.any_eq_true]
          rintro ⟨x, hx, hd⟩
          rw [List.mem_filter] at hx
          exact hno x hx.1 ⟨by simpa using hd, by simpa [unm] using hx.2⟩
        rw [this]
      | some r =>
        obtain ⟨es', i⟩ := r
        obtain ⟨e', a1, a2, a3, a4, a5⟩ := searchMark_some hs
        rw [mark_at a1 a2 a3 a4]
        simp only
        obtain ⟨m1, m2, m3⟩ := dinv_mark hi a1 a3
        rw [← a5] at m1 m2 m3 ⊢
        refine ⟨_, rfl, ⟨m1, m2, m3, fun h => by cases h⟩, rfl, fun _ => rfl, ?_⟩
        intro h1 h2
        -- the oldest edge is at `k`, so the fast path would have been taken
        exfalso
        have e1 : s.edges.filter unm = (s.edges.take s.k).filter unm ++ (e :: s.edges.drop (s.k + 1)).filter unm := by
          conv => lhs; rw [split_at hk]
          rw [List.filter_append]
        rw [frontHead (hw h1)] at e1
        have hm : e.marked = false := by
          cases hmm : e.marked with
          | false => rfl
          | true => have := ((hw h1) s.k e hk).1 hmm; omega
        rw [List.filter_cons_of_pos (by simp [unm, hm]), List.nil_append] at e1
        rw [e1] at h2
        simp [oldest] at h2
        exact hc ⟨h2, hm⟩

/-- A run of deletes follows the rule. -/
theorem delRun_spec {es0 : List (Edge D)} : ∀ (cs : List (Change D)) (s : DelSt D) (w : Bool), DInv es0 s → (w = true → Front s) →
    (∀ c ∈ cs, c.typ = .del) → Good w (s.edges.filter unm) cs →
    match rule (s.edges.filter unm) cs with
    | none => delRun s cs = none
    | some S => ∃ s', delRun s cs = some s' ∧ DInv es0 s' ∧ s'.edges.filter unm = S ∧ (s.warn = true → s'.warn = true) := by
  intro cs
  induction cs with
  | nil => intro s w hi _ _ _; exact ⟨s, rfl, hi, rfl, id⟩
  | cons c cs ih =>
    intro s w hi hw hd hg
    have hc := hd c (List.mem_cons_self ..)
    simp only [Good, hc] at hg
    simp only [rule, hc, delRun]
    have h1 := delOne_spec hi w hw c.edge.didx hg.1
    cases hr : removeFirst c.edge.didx (s.edges.filter unm) with
    | none => rw [hr] at h1; simp only at h1 ⊢; simp [h1]
    | some S =>
      rw [hr] at h1
      obtain ⟨s1, a1, a2, a3, a4, a5⟩ := h1
      simp only [Option.bind_some]
      have h2 := ih s1 (w && decide (oldest (s.edges.filter unm) = some c.edge.didx)) a2
        (by intro hb; rw [Bool.and_eq_true, decide_eq_true_eq] at hb; exact a5 hb.1 hb.2)
        (fun c' hc' => hd c' (List.mem_cons_of_mem _ hc')) (by rw [a3]; exact hg.2 S hr)
      rw [a3] at h2
      rw [a1, Option.bind_some]
      cases hr2 : rule S cs with
      | none => rw [hr2] at h2; exact h2
      | some S2 =>
        rw [hr2] at h2
        obtain ⟨s2, b1, b2, b3, b4⟩ := h2
        exact ⟨s2, b1, b2, b3, fun h => b4 (a4 h)⟩

/-! ## The end of a run -/

theorem flagTimes_get : ∀ (is : List Nat) (es : List (Edge D)) (j : Nat),
    (flagTimes es is)[j]? = if j ∈ is then (es[j]?).map (fun e => { e with ts := e.ts ||| timeFlag }) else es[j]? := by
  intro is
  induction is with
  | nil => intro es j; simp [flagTimes]
  | cons i is ih =>
    intro es j
    rw [flagTimes, ih, List.getElem?_modify]
    by_cases h1 : i = j
    · subst h1
      by_cases h2 : i ∈ is
      · simp only [h2, if_true, List.mem_cons, true_or, if_pos]
        cases es[i]? with
        | none => rfl
        | some e =>
          simp only [Option.map_some]
          have : e.ts ||| timeFlag ||| timeFlag = e.ts ||| timeFlag := by
            rw [UInt64.or_assoc, UInt64.or_self]
          show some _ = some _
          simp only
          rw [this]
      · simp [h2]
    · have hj : j ≠ i := fun e => h1 e.symm
      by_cases h2 : j ∈ is
      · simp [h1, h2]
      · simp [h1, h2, hj]

theorem flagTimes_map {es0 : List (Edge D)} {s : DelSt D} (hi : DInv es0 s) :
    flagTimes s.edges s.idxs = s.edges.map (fun e => if e.marked then { e with ts := e.ts ||| timeFlag } else e) := by
  apply List.ext_getElem?
  intro j
  rw [flagTimes_get, List.getElem?_map]
  cases he : s.edges[j]? with
  | none => simp
  | some e =>
    have := hi.idx j
    rw [he] at this
    cases hm : e.marked with
    | true => rw [if_pos (this.2 ⟨e, rfl, hm⟩)]; simp [hm]
    | false =>
      rw [if_neg]
      · simp [hm]
      · intro hj
        obtain ⟨e', h1, h2⟩ := this.1 hj
        injection h1 with h1; subst h1
        rw [hm] at h2; cases h2

theorem front_filter {s : DelSt D} (hf : Front s) : s.edges.filter unm = s.edges.drop s.k ∧ s.edges.filter Edge.marked = s.edges.take s.k := by
  have h1 : ∀ x ∈ s.edges.take s.k, x.marked = true := by
    intro x hx
    obtain ⟨j, hj, he⟩ := List.mem_take_iff_getElem.1 hx
    exact (hf j x (by rw [List.getElem?_eq_getElem (by omega), he])).2 (by omega)
  have h2 : ∀ x ∈ s.edges.drop s.k, x.marked = false := by
    intro x hx
    obtain ⟨j, hj, he⟩ := List.mem_drop_iff_getElem.1 hx
    cases hm : x.marked with
    | false => rfl
    | true =>
      have := (hf (s.k + j) x (by rw [List.getElem?_eq_getElem (by omega)]; simp only [Option.some.injEq]; exact he)).1 hm
      omega
  constructor
  · conv => lhs; rw [← List.take_append_drop s.k s.edges]
    rw [List.filter_append]
    have a : (s.edges.take s.k).filter unm = [] := by
      rw [List.filter_eq_nil_iff]; intro x hx; simp [unm, h1 x hx]
    have b : (s.edges.drop s.k).filter unm = s.edges.drop s.k := by
      rw [List.filter_eq_self]; intro x hx; simp [unm, h2 x hx]
    rw [a, b]; rfl
  · conv => lhs; rw [← List.take_append_drop s.k s.edges]
    rw [List.filter_append]
    have a : (s.edges.take s.k).filter Edge.marked = s.edges.take s.k := by
      rw [List.filter_eq_self]; intro x hx; exact h1 x hx
    have b : (s.edges.drop s.k).filter Edge.marked = [] := by
      rw [List.filter_eq_nil_iff]; intro x hx; simp [h2 x hx]
    rw [a, b, List.append_nil]

/-- Timestamps in order and below `2^63`. -/
def Timed (es : List (Edge D)) : Prop := es.Pairwise (fun a b => a.ts ≤ b.ts) ∧ ∀ e ∈ es, e.ts.toNat < 2 ^ 63

theorem take_drop_app {α : Type} (a b : List α) (k : Nat) (h : b.length = k) :
    (a ++ b).take ((a ++ b).length - k) = a ∧ (a ++ b).drop ((a ++ b).length - k) = b := by
  have : (a ++ b).length - k = a.length := by rw [List.length_append]; omega
  rw [this]
  exact ⟨List.take_left' rfl, List.drop_left' rfl⟩

/-- Whichever way a run ends, the flagged edges are removed and the others keep their order. -/
theorem finish_spec {es0 : List (Edge D)} {s : DelSt D} (hi : DInv es0 s) (canTs warn : Bool) (hw : warn = false → s.warn = false)
    (ht : canTs = true → Timed es0) :
    finish canTs warn s = (s.edges.filter unm, (s.edges.filter Edge.marked).map Edge.unmark) := by
  unfold finish
  have hneg : (fun e : Edge D => !unm e) = Edge.marked := by funext e; simp [unm]
  by_cases hwf : warn = false
  · rw [if_pos hwf]
    obtain ⟨h1, h2⟩ := front_filter (hi.fast (hw hwf))
    rw [h1, h2]
  · rw [if_neg hwf]
    by_cases hc : canTs = true
    · rw [if_pos hc]
      obtain ⟨ht1, ht2⟩ := ht hc
      rw [← hi.sh, List.pairwise_map] at ht1
      have htl : ∀ e ∈ s.edges, e.ts.toNat < 2 ^ 63 := by
        intro e he
        exact ht2 e.unmark (by rw [← hi.sh]; exact List.mem_map_of_mem he)
      let g : Edge D → Edge D := fun e => if e.marked then { e with ts := e.ts ||| timeFlag } else e
      have hgm : ∀ e, (g e).marked = e.marked := by
        intro e; simp only [g]; split <;> simp [Edge.marked]
      have hfl : flagTimes s.edges s.idxs = s.edges.map g := flagTimes_map hi
      have hf1 : (s.edges.map g).filter unm = s.edges.filter unm := by
        rw [List.filter_map]
        have : (unm ∘ g) = unm := by funext e; simp [unm, hgm]
        rw [this]
        conv => rhs; rw [← List.map_id (s.edges.filter unm)]
        apply List.map_congr_left
        intro e he
        rw [List.mem_filter] at he
        have : e.marked = false := by simpa [unm] using he.2
        simp [g, this]
      have hf2 : (s.edges.map g).filter Edge.marked = (s.edges.filter Edge.marked).map (fun e => { e with ts := e.ts ||| timeFlag }) := by
        rw [List.filter_map]
        have : (Edge.marked ∘ g) = Edge.marked := by funext e; simp [hgm]
        rw [this]
        apply List.map_congr_left
        intro e he
        rw [List.mem_filter] at he
        simp [g, he.2]
      have hsort : stableSort (fun a b => decide (a.ts ≤ b.ts)) (s.edges.map g) =
          s.edges.filter unm ++ (s.edges.filter Edge.marked).map (fun e => { e with ts := e.ts ||| timeFlag }) := by
        -- compare on the elements that occur: attach the bound
        let key : Edge D → Nat := fun e => e.ts.toNat
        have h3 : ∀ a ∈ s.edges.map g, ∀ b ∈ s.edges.map g, unm a = true → unm b = false → ¬ b.ts ≤ a.ts := by
          intro a ha b hb pa pb
          obtain ⟨a0, ha0, rfl⟩ := List.mem_map.1 ha
          obtain ⟨b0, hb0, rfl⟩ := List.mem_map.1 hb
          simp only [unm, hgm, Bool.not_eq_true', Bool.not_eq_false'] at pa pb
          simp only [g, pa, pb, if_true]
          have h1 := htl a0 ha0
          have h2 := flagTs_toNat (htl b0 hb0)
          intro h
          have h := UInt64.le_iff_toNat_le.1 h
          simp only [Bool.false_eq_true, if_false] at h
          rw [h2] at h
          omega
        have hs := stableSort_pairwise (le := fun a b : Edge D => decide (a.ts ≤ b.ts))
          (fun a b c h1 h2 => by
            simp only [decide_eq_true_eq] at *; exact UInt64.le_trans h1 h2)
          (fun a b => by
            simp only [Bool.or_eq_true, decide_eq_true_eq]; exact UInt64.le_total _ _) (s.edges.map g)
        have hp := stableSort_perm (fun a b : Edge D => decide (a.ts ≤ b.ts)) (s.edges.map g)
        have kq : ∀ q : Edge D → Bool, ((s.edges.map g).filter q).Pairwise (fun a b => decide (a.ts ≤ b.ts) = true) →
            (stableSort (fun a b => decide (a.ts ≤ b.ts)) (s.edges.map g)).filter q = (s.edges.map g).filter q := by
          intro q hq
          have hsub := sublist_stableSort (le := fun a b : Edge D => decide (a.ts ≤ b.ts)) hq List.filter_sublist
          have hsub2 := hsub.filter q
          rw [List.filter_filter] at hsub2
          simp only [Bool.and_self] at hsub2
          exact (hsub2.eq_of_length (by rw [(hp.filter q).length_eq])).symm
        have hmem : ∀ x ∈ stableSort (fun a b => decide (a.ts ≤ b.ts)) (s.edges.map g), x ∈ s.edges.map g := fun x hx => hp.mem_iff.1 hx
        have hsplit : ∀ r : List (Edge D), r.Pairwise (fun a b => decide (a.ts ≤ b.ts) = true) → (∀ x ∈ r, x ∈ s.edges.map g) →
            r = r.filter unm ++ r.filter Edge.marked := by
          intro r
          induction r with
          | nil => intro _ _; rfl
          | cons x r ih =>
            intro hr hm
            obtain ⟨r1, r2⟩ := List.pairwise_cons.1 hr
            have ihr := ih r2 (fun y hy => hm y (List.mem_cons_of_mem _ hy))
            cases hx : x.marked with
            | false =>
              rw [List.filter_cons_of_pos (by simp [unm, hx]), List.filter_cons_of_neg (by simp [hx]), List.cons_append, ← ihr]
            | true =>
              have hall : ∀ y ∈ r, y.marked = true := by
                intro y hy
                cases hyy : y.marked with
                | true => rfl
                | false =>
                  have := r1 y hy
                  simp only [decide_eq_true_eq] at this
                  exact absurd this (h3 y (hm y (List.mem_cons_of_mem _ hy)) x (hm x (List.mem_cons_self ..)) (by simp [unm, hyy]) (by simp [unm, hx]))
              rw [List.filter_cons_of_neg (by simp [unm, hx]), List.filter_cons_of_pos hx]
              have e1 : r.filter unm = [] := by
                rw [List.filter_eq_nil_iff]; intro y hy; simp [unm, hall y hy]
              have e2 : r.filter Edge.marked = r := by
                rw [List.filter_eq_self]; exact hall
              rw [e1, e2]; rfl
        rw [hsplit _ hs hmem, kq unm, kq Edge.marked, hf1, hf2]
        · rw [hf2, List.pairwise_map]
          refine (ht1.sublist List.filter_sublist).imp_of_mem ?_
          intro a b ha hb hab
          have ha' := htl a ((List.mem_filter.1 ha).1)
          have hb' := htl b ((List.mem_filter.1 hb).1)
          simp only [decide_eq_true_eq]
          rw [UInt64.le_iff_toNat_le, flagTs_toNat ha', flagTs_toNat hb']
          have : a.ts ≤ b.ts := hab
          rw [UInt64.le_iff_toNat_le] at this
          omega
        · rw [hf1]
          refine (ht1.sublist List.filter_sublist).imp ?_
          intro a b hab
          simp only [decide_eq_true_eq]; exact hab
      simp only
      rw [hfl, hsort]
      obtain ⟨q1, q2⟩ := take_drop_app (s.edges.filter unm) ((s.edges.filter Edge.marked).map (fun e => { e with ts := e.ts ||| timeFlag })) s.k
        (by rw [List.length_map, hi.cnt])
      have hback : ((s.edges.filter Edge.marked).map (fun e => { e with ts := e.ts ||| timeFlag })).map (fun e : Edge D => { e with ts := e.ts &&& (timeFlag - 1) }) = s.edges.filter Edge.marked := ?_
      rw [q1, q2, hback]
      rw [List.map_map]
      conv => rhs; rw [← List.map_id (s.edges.filter Edge.marked)]
      apply List.map_congr_left
      intro e he
      simp only [Function.comp, id]
      rw [unflagTs (htl e ((List.mem_filter.1 he).1))]
    · rw [if_neg hc]
      simp only
      have hsort : stableSort (fun a b => decide (a.pos &&& posFlag ≤ b.pos &&& posFlag)) s.edges = s.edges.filter unm ++ s.edges.filter (fun e => !unm e) := by
        have hle : ∀ a b : Edge D, a.marked = b.marked → a.pos &&& posFlag ≤ b.pos &&& posFlag := by
          intro a b h
          rw [UInt32.le_iff_toNat_le]
          cases hb : b.marked with
          | true => rw [hb] at h; rw [pos_flag_marked h, pos_flag_marked hb]
          | false => rw [hb] at h; rw [pos_flag_unmarked h, pos_flag_unmarked hb]
        apply stableSort_split
        · intro a b c h1 h2
          simp only [decide_eq_true_eq] at *; exact UInt32.le_trans h1 h2
        · intro a b
          simp only [Bool.or_eq_true, decide_eq_true_eq]; exact UInt32.le_total _ _
        · intro a b ha hb
          simp only [unm, Bool.not_eq_true', Bool.not_eq_false'] at ha hb
          simp only [decide_eq_false_iff_not]
          intro h
          rw [UInt32.le_iff_toNat_le, pos_flag_marked hb, pos_flag_unmarked ha] at h
          omega
        · refine List.pairwise_of_forall_mem_list ?_
          intro a ha b hb
          rw [List.mem_filter] at ha hb
          simp only [decide_eq_true_eq]
          apply hle
          have h1 : a.marked = false := by simpa [unm] using ha.2
          have h2 : b.marked = false := by simpa [unm] using hb.2
          rw [h1, h2]
        · refine List.pairwise_of_forall_mem_list ?_
          intro a ha b hb
          rw [List.mem_filter] at ha hb
          simp only [decide_eq_true_eq]
          apply hle
          have h1 : a.marked = true := by simpa [unm] using ha.2
          have h2 : b.marked = true := by simpa [unm] using hb.2
          rw [h1, h2]
      rw [hsort, hneg]
      obtain ⟨q1, q2⟩ := take_drop_app (s.edges.filter unm) (s.edges.filter Edge.marked) s.k hi.cnt
      rw [q1, q2]

/-! ## All changes of one vertex -/

theorem delOne_inv {es0 : List (Edge D)} {s s' : DelSt D} (hi : DInv es0 s) {d : Nat × Nat} (h : delOne s d = some s') :
    DInv es0 s' ∧ (s.warn = true → s'.warn = true) ∧ s'.k = s.k + 1 := by
  unfold delOne at h
  cases hk : s.edges[s.k]? with
  | none => rw [hk] at h; cases h
  | some e =>
    rw [hk] at h
    simp only at h
    have hlk := (List.getElem?_eq_some_iff.1 hk).1
    by_cases hc : e.didx = d ∧ e.marked = false
    · rw [if_pos hc] at h
      injection h with h; subst h
      obtain ⟨m1, m2, m3⟩ := dinv_mark hi hk hc.2
      refine ⟨⟨m1, m2, m3, ?_⟩, id, rfl⟩
      intro hw' j e' he'
      have hf := hi.fast hw'
      simp only at he' ⊢
      by_cases ej : s.k = j
      · subst ej
        rw [List.getElem?_set_self hlk] at he'
        injection he' with he'; subst he'
        simp [marked_mark hc.2]
      · rw [List.getElem?_set_ne ej] at he'
        rw [hf j e' he']; omega
    · rw [if_neg hc] at h
      cases hs : searchMark d s.edges with
      | none => rw [hs] at h; cases h
      | some r =>
        rw [hs] at h
        obtain ⟨es', i⟩ := r
        obtain ⟨e', a1, a2, a3, a4, a5⟩ := searchMark_some hs
        simp only at h
        injection h with h; subst h
        obtain ⟨m1, m2, m3⟩ := dinv_mark hi a1 a3
        rw [← a5] at m1 m2 m3
        exact ⟨⟨m1, m2, m3, fun h => by cases h⟩, fun _ => rfl, rfl⟩

theorem delRun_inv {es0 : List (Edge D)} : ∀ (cs : List (Change D)) {s s' : DelSt D}, DInv es0 s → delRun s cs = some s' →
    DInv es0 s' ∧ (s.warn = true → s'.warn = true) ∧ s'.k = s.k + cs.length := by
  intro cs
  induction cs with
  | nil => intro s s' hi h; injection h with h; subst h; exact ⟨hi, id, rfl⟩
  | cons c cs ih =>
    intro s s' hi h
    simp only [delRun] at h
    obtain ⟨s1, h1, h2⟩ := Option.bind_eq_some_iff.1 h
    obtain ⟨a1, a2, a3⟩ := delOne_inv hi h1
    obtain ⟨b1, b2, b3⟩ := ih a1 h2
    exact ⟨b1, fun h => b2 (a2 h), by rw [b3, a3, List.length_cons]; omega⟩

theorem dinv_start {es : List (Edge D)} (h : ∀ e ∈ es, Clean e) (w : Bool) :
    DInv es { edges := es, k := 0, idxs := [], warn := w } ∧ Front { edges := es, k := 0, idxs := [], warn := w } ∧ es.filter unm = es := by
  have hm : ∀ e ∈ es, e.marked = false := fun e he => (clean_iff e).1 (h e he)
  have hf : Front { edges := es, k := 0, idxs := [], warn := w } := by
    intro i e he
    simp only at he ⊢
    rw [hm e (List.mem_of_getElem? he)]; simp
  refine ⟨⟨?_, ?_, ?_, fun _ => hf⟩, hf, ?_⟩
  · simp only
    conv => rhs; rw [← List.map_id es]
    apply List.map_congr_left
    intro e he
    exact unmark_unmarked (hm e he)
  · intro i
    simp only [List.not_mem_nil, false_iff]
    rintro ⟨e, h1, h2⟩
    rw [hm e (List.mem_of_getElem? h1)] at h2; cases h2
  · simp only
    have : es.filter Edge.marked = [] := by
      rw [List.filter_eq_nil_iff]; intro e he; simp [hm e he]
    rw [this]; rfl
  · rw [List.filter_eq_self]; intro e he; simp [unm, hm e he]

/-- How callbacks explain the change of an edge list: additions are appended; deleted edges are
edges of the list, in its order, and the others stay, in their order. -/
inductive Explains : List (Edge D) → List (Call D) → List (Edge D) → Prop where
  | done (es : List (Edge D)) : Explains es [] es
  | add {es new es' : List (Edge D)} {calls : List (Call D)} : new ≠ [] → Explains (es ++ new) calls es' → Explains es (.add new :: calls) es'
  | del {es rest del es' : List (Edge D)} {calls : List (Call D)} : del ≠ [] → rest.Sublist es → del.Sublist es → (rest ++ del).Perm es →
      Explains rest calls es' → Explains es (.del del :: calls) es'

/-- Edges that a list of changes adds. -/
def addsOf (cs : List (Change D)) : List (Edge D) := (cs.filter isAdd).map (·.edge)

/-- Number of deletes. -/
def delsOf (cs : List (Change D)) : Nat := (cs.filter (fun c => !isAdd c)).length

/-- Edges that callbacks announce. -/
def addedBy (calls : List (Call D)) : List (Edge D) := calls.flatMap fun c => match c with | .add es => es | .del _ => []

def deletedBy (calls : List (Call D)) : List (Edge D) := calls.flatMap fun c => match c with | .add _ => [] | .del es => es

theorem Explains.trans {a b c : List (Edge D)} {k1 k2 : List (Call D)} (h1 : Explains a k1 b) (h2 : Explains b k2 c) : Explains a (k1 ++ k2) c := by
  induction h1 with
  | done _ => exact h2
  | add hn _ ih => exact .add hn (ih h2)
  | del hn hs hd hp _ ih => exact .del hn hs hd hp (ih h2)

/-- The edge lists that the functions are used on: unflagged positions; if timestamps are used,
they are in order, also with the additions `fut` still to come. -/
structure VOk (o : Opts) (es fut : List (Edge D)) : Prop where
  clean : ∀ e ∈ es ++ fut, Clean e
  timed : o.canTs = true → Timed (es ++ fut)

theorem Timed.sub {a b : List (Edge D)} (h : Timed b) (hs : a.Sublist b) : Timed a :=
  ⟨h.1.sublist hs, fun e he => h.2 e (hs.subset he)⟩

theorem VOk.sub {o : Opts} {es es' fut : List (Edge D)} (h : VOk o es fut) (hs : es'.Sublist es) : VOk o es' fut :=
  ⟨fun e he => h.clean e ((hs.append (List.Sublist.refl fut)).subset he), fun hc => (h.timed hc).sub (hs.append (List.Sublist.refl fut))⟩

theorem VOk.left {o : Opts} {es fut : List (Edge D)} (h : VOk o es fut) : VOk o es [] :=
  ⟨fun e he => h.clean e (by rw [List.append_nil] at he; exact List.mem_append_left _ he),
    fun hc => (h.timed hc).sub (by rw [List.append_nil]; exact List.sublist_append_left _ _)⟩

/-- A run of deletes removes edges and tells the algorithm about exactly these. -/
theorem applyDels_explains (o : Opts) (ho : o.timeRange = false) (others : Nat → Bool) {s s' : VSt D} {cs : List (Change D)}
    (hv : VOk o s.edges []) (h : applyDels o others s cs = some s') :
    s'.edges.Sublist s.edges ∧ (s.warn = true → s'.warn = true) ∧ ∃ calls, s'.calls = s.calls ++ calls ∧ Explains s.edges calls s'.edges ∧
      addedBy calls = [] ∧ (deletedBy calls).length = cs.length := by
  unfold applyDels at h
  by_cases hc : cs = []
  · rw [if_pos hc] at h; injection h with h; subst h; subst hc
    exact ⟨List.Sublist.refl _, id, [], by simp, .done _, rfl, rfl⟩
  · rw [if_neg hc, if_neg (by simp [ho])] at h
    obtain ⟨d, h1, h2⟩ := Option.map_eq_some_iff.1 h
    obtain ⟨i1, i2, i3⟩ := dinv_start (fun e he => hv.clean e (List.mem_append_left _ he)) s.warn
    obtain ⟨j1, j2, j3⟩ := delRun_inv cs i1 h1
    have hfin := finish_spec j1 o.canTs (d.warn || others s.runs) (by intro hb; rw [Bool.or_eq_false_iff] at hb; exact hb.1)
      (by intro hb; have := hv.timed hb; rwa [List.append_nil] at this)
    simp only [hfin] at h2
    subst h2
    have hsub : (d.edges.filter unm).map Edge.unmark = d.edges.filter unm := by
      conv => rhs; rw [← List.map_id (d.edges.filter unm)]
      apply List.map_congr_left
      intro e he
      rw [List.mem_filter] at he
      exact unmark_unmarked (by simpa [unm] using he.2)
    have hs1 : (d.edges.filter unm).Sublist s.edges := by
      rw [← hsub, ← j1.sh]
      exact List.filter_sublist.map _
    have hdl : ((d.edges.filter Edge.marked).map Edge.unmark).length = cs.length := by
      rw [List.length_map, j1.cnt, j3]; simp
    refine ⟨hs1, fun hw => by simp [j2 hw], [.del ((d.edges.filter Edge.marked).map Edge.unmark)], rfl, ?_, rfl, ?_⟩
    · refine .del ?_ hs1 ?_ ?_ (.done _)
      · intro he
        rw [he] at hdl
        simp only [List.length_nil] at hdl
        exact hc (List.length_eq_zero_iff.1 hdl.symm)
      · rw [← j1.sh]; exact List.filter_sublist.map _
      · conv => lhs; rw [← hsub]
        rw [← List.map_append, ← j1.sh]
        apply List.Perm.map
        have : d.edges.filter Edge.marked = d.edges.filter (fun x => !unm x) := by
          congr 1; funext e; simp [unm]
        rw [this]
        exact List.filter_append_perm unm d.edges
    · simp [deletedBy] at hdl ⊢; exact hdl

theorem takeWhile_all {α : Type} (p : α → Bool) : ∀ (l : List α), ∀ x ∈ l.takeWhile p, p x = true := by
  intro l
  induction l with
  | nil => intro x hx; cases hx
  | cons a l ih =>
    intro x hx
    cases ha : p a with
    | false => rw [List.takeWhile_cons_of_neg (by simp [ha])] at hx; cases hx
    | true =>
      rw [List.takeWhile_cons_of_pos ha, List.mem_cons] at hx
      rcases hx with hx | hx
      · subst hx; exact ha
      · exact ih x hx

/-- The changes split into adds, deletes and the rest. -/
theorem applyAll_split (o : Opts) (others : Nat → Bool) (cs : List (Change D)) (hne : cs ≠ []) :
    ∃ A B R, cs = A ++ B ++ R ∧ R.length < cs.length ∧ (∀ c ∈ A, isAdd c = true) ∧ (∀ c ∈ B, isAdd c = false) ∧
    ∀ s : VSt D, applyAll o others s cs = (applyDels o others (applyAdds s A) B).bind fun s' => applyAll o others s' R := by
  cases cs with
  | nil => exact absurd rfl hne
  | cons c cs =>
    refine ⟨(c :: cs).takeWhile isAdd, ((c :: cs).dropWhile isAdd).takeWhile (fun c => !isAdd c),
      ((c :: cs).dropWhile isAdd).dropWhile (fun c => !isAdd c), ?_, ?_, takeWhile_all _ _, ?_, ?_⟩
    · rw [List.append_assoc, List.takeWhile_append_dropWhile, List.takeWhile_append_dropWhile]
    · have h1 : (((c :: cs).dropWhile isAdd).dropWhile (fun c => !isAdd c)).length ≤ cs.length := by
        cases hc : isAdd c with
        | true =>
          rw [List.dropWhile_cons_of_pos hc]
          exact Nat.le_trans (List.dropWhile_sublist _).length_le (List.dropWhile_sublist _).length_le
        | false =>
          rw [List.dropWhile_cons_of_neg (by simp [hc]), List.dropWhile_cons_of_pos (by simp [hc])]
          exact (List.dropWhile_sublist _).length_le
      simp only [List.length_cons]; omega
    · intro c' hc'; simpa using takeWhile_all _ _ c' hc'
    · intro s; rw [applyAll]

theorem addsOf_append (a b : List (Change D)) : addsOf (a ++ b) = addsOf a ++ addsOf b := by simp [addsOf]
theorem addsOf_all {a : List (Change D)} (h : ∀ c ∈ a, isAdd c = true) : addsOf a = a.map (·.edge) := by
  unfold addsOf; rw [List.filter_eq_self.2 h]
theorem addsOf_none {a : List (Change D)} (h : ∀ c ∈ a, isAdd c = false) : addsOf a = [] := by
  unfold addsOf; rw [List.filter_eq_nil_iff.2 (by intro c hc; simp [h c hc])]; rfl
theorem delsOf_append (a b : List (Change D)) : delsOf (a ++ b) = delsOf a + delsOf b := by simp [delsOf]
theorem delsOf_all {a : List (Change D)} (h : ∀ c ∈ a, isAdd c = true) : delsOf a = 0 := by
  unfold delsOf; rw [List.filter_eq_nil_iff.2 (by intro c hc; simp [h c hc])]; rfl
theorem delsOf_none {a : List (Change D)} (h : ∀ c ∈ a, isAdd c = false) : delsOf a = a.length := by
  unfold delsOf; rw [List.filter_eq_self.2 (by intro c hc; simp [h c hc])]

theorem applyAdds_edges (s : VSt D) (A : List (Change D)) : (applyAdds s A).edges = s.edges ++ A.map (·.edge) ∧ (applyAdds s A).warn = s.warn ∧
    (applyAdds s A).runs = s.runs := by
  unfold applyAdds
  by_cases h : A = []
  · rw [if_pos h]; subst h; simp
  · rw [if_neg h]; exact ⟨rfl, rfl, rfl⟩

theorem applyAdds_explains (s : VSt D) (A : List (Change D)) : ∃ calls, (applyAdds s A).calls = s.calls ++ calls ∧
    Explains s.edges calls (s.edges ++ A.map (·.edge)) ∧ addedBy calls = A.map (·.edge) ∧ deletedBy calls = [] := by
  unfold applyAdds
  by_cases h : A = []
  · rw [if_pos h]; subst h; exact ⟨[], by simp, by simpa using Explains.done s.edges, rfl, rfl⟩
  · rw [if_neg h]
    exact ⟨[.add (A.map (·.edge))], rfl, .add (by simpa using h) (.done _), by simp [addedBy], by simp [deletedBy]⟩

/-- Whatever the changes, the callbacks explain the new edge list. -/
theorem applyAll_explains (o : Opts) (ho : o.timeRange = false) (others : Nat → Bool) : ∀ (n : Nat) (cs : List (Change D)) (s s' : VSt D), cs.length ≤ n →
    VOk o s.edges (addsOf cs) → applyAll o others s cs = some s' →
    s'.edges.Sublist (s.edges ++ addsOf cs) ∧ (s.warn = true → s'.warn = true) ∧
    ∃ calls, s'.calls = s.calls ++ calls ∧ Explains s.edges calls s'.edges ∧ addedBy calls = addsOf cs ∧ (deletedBy calls).length = delsOf cs := by
  intro n
  induction n with
  | zero =>
    intro cs s s' hn hv h
    have : cs = [] := List.length_eq_zero_iff.1 (by omega)
    subst this
    rw [applyAll] at h; injection h with h; subst h
    exact ⟨by simp [addsOf], id, [], by simp, .done _, rfl, rfl⟩
  | succ n ih =>
    intro cs s s' hn hv h
    by_cases hne : cs = []
    · subst hne
      rw [applyAll] at h; injection h with h; subst h
      exact ⟨by simp [addsOf], id, [], by simp, .done _, rfl, rfl⟩
    obtain ⟨A, B, R, hcs, hlt, hA, hB, heq⟩ := applyAll_split o others cs hne
    rw [heq s] at h
    obtain ⟨s1, h1, h2⟩ := Option.bind_eq_some_iff.1 h
    obtain ⟨e1, e2, -⟩ := applyAdds_edges s A
    have hadds : addsOf cs = A.map (·.edge) ++ addsOf R := by
      rw [hcs, addsOf_append, addsOf_append, addsOf_all hA, addsOf_none hB, List.append_nil]
    have hdels : delsOf cs = B.length + delsOf R := by
      rw [hcs, delsOf_append, delsOf_append, delsOf_all hA, delsOf_none hB]; omega
    have hv1 : VOk o (applyAdds s A).edges (addsOf R) := by
      rw [e1]
      exact ⟨by have := hv.clean; rw [hadds] at this; rwa [List.append_assoc],
        by have := hv.timed; rw [hadds] at this; rwa [List.append_assoc]⟩
    obtain ⟨d1, d2, dc, d3, d4, d5, d6⟩ := applyDels_explains o ho others hv1.left h1
    obtain ⟨ac, a1, a2, a3, a4⟩ := applyAdds_explains s A
    obtain ⟨r1, r2, rc, r3, r4, r5, r6⟩ := ih R s1 s' (by omega) (hv1.sub d1) h2
    refine ⟨?_, fun h => r2 (d2 (by rw [e2]; exact h)), ac ++ dc ++ rc, ?_, ?_, ?_, ?_⟩
    · rw [hadds, ← List.append_assoc, ← e1]
      exact r1.trans (d1.append (List.Sublist.refl _))
    · rw [r3, d3, a1]; simp [List.append_assoc]
    · rw [← e1] at a2
      exact (a2.trans d4).trans r4
    · simp only [addedBy, List.flatMap_append] at a3 d5 r5 ⊢
      rw [a3, d5, r5, hadds]; simp
    · simp only [deletedBy, List.flatMap_append] at a4 d6 r6 ⊢
      rw [a4]
      simp only [List.length_append, List.length_nil]
      rw [d6, r6, hdels]; omega

theorem rule_adds {A : List (Change D)} (hA : ∀ c ∈ A, isAdd c = true) (es : List (Edge D)) : rule es A = some (es ++ A.map (·.edge)) := by
  induction A generalizing es with
  | nil => simp [rule]
  | cons c A ih =>
    have hc : c.typ = .add := by simpa [isAdd] using hA c (List.mem_cons_self ..)
    simp only [rule, hc]
    rw [ih (fun c' h => hA c' (List.mem_cons_of_mem _ h))]
    simp

theorem good_adds {A R : List (Change D)} (hA : ∀ c ∈ A, isAdd c = true) (es : List (Edge D)) (h : Good true es (A ++ R)) :
    Good true (es ++ A.map (·.edge)) R := by
  induction A generalizing es with
  | nil => simpa using h
  | cons c A ih =>
    have hc : c.typ = .add := by simpa [isAdd] using hA c (List.mem_cons_self ..)
    simp only [List.cons_append, Good, hc] at h
    have := ih (fun c' h => hA c' (List.mem_cons_of_mem _ h)) _ h
    simpa using this

theorem good_append {w : Bool} {B R : List (Change D)} (es : List (Edge D)) (h : Good w es (B ++ R)) :
    Good w es B ∧ ∀ S, rule es B = some S → Good true S R := by
  induction B generalizing es w with
  | nil =>
    refine ⟨trivial, ?_⟩
    intro S hS; injection hS with hS; subst hS
    exact Good.mono (by simpa using h)
  | cons c B ih =>
    simp only [List.cons_append, Good] at h ⊢
    cases hc : c.typ with
    | add =>
      rw [hc] at h
      simp only [rule, hc] at h ⊢
      exact ih _ h
    | del =>
      rw [hc] at h
      simp only [rule, hc] at h ⊢
      obtain ⟨h1, h2⟩ := h
      refine ⟨⟨h1, fun es' he => (ih _ (h2 es' he)).1⟩, ?_⟩
      intro S hS
      obtain ⟨es', g1, g2⟩ := Option.bind_eq_some_iff.1 hS
      exact (ih _ (h2 es' g1)).2 S g2

/-- In good histories the result is that of the rule. -/
theorem applyAll_rule (o : Opts) (ho : o.timeRange = false) (others : Nat → Bool) : ∀ (n : Nat) (cs : List (Change D)) (s : VSt D), cs.length ≤ n →
    VOk o s.edges (addsOf cs) → Good true s.edges cs → (applyAll o others s cs).map (·.edges) = rule s.edges cs := by
  intro n
  induction n with
  | zero =>
    intro cs s hn hv hg
    have : cs = [] := List.length_eq_zero_iff.1 (by omega)
    subst this
    rw [applyAll]; rfl
  | succ n ih =>
    intro cs s hn hv hg
    by_cases hne : cs = []
    · subst hne; rw [applyAll]; rfl
    obtain ⟨A, B, R, hcs, hlt, hA, hB, heq⟩ := applyAll_split o others cs hne
    rw [heq s]
    obtain ⟨e1, e2, -⟩ := applyAdds_edges s A
    have hadds : addsOf cs = A.map (·.edge) ++ addsOf R := by
      rw [hcs, addsOf_append, addsOf_append, addsOf_all hA, addsOf_none hB, List.append_nil]
    have hv1 : VOk o (applyAdds s A).edges (addsOf R) := by
      rw [e1]
      exact ⟨by have := hv.clean; rw [hadds] at this; rwa [List.append_assoc],
        by have := hv.timed; rw [hadds] at this; rwa [List.append_assoc]⟩
    have hrule : rule s.edges cs = (rule (applyAdds s A).edges B).bind fun S => rule S R := by
      rw [hcs, rule_append, rule_append, rule_adds hA, e1]; rfl
    rw [hcs, List.append_assoc] at hg
    have hg1 := good_adds hA _ hg
    rw [← e1] at hg1
    obtain ⟨g1, g2⟩ := good_append _ hg1
    -- the deletes
    have hdel : (applyDels o others (applyAdds s A) B).map (·.edges) = rule (applyAdds s A).edges B := by
      unfold applyDels
      by_cases hb : B = []
      · rw [if_pos hb]; subst hb; rfl
      · rw [if_neg hb, if_neg (by simp [ho])]
        obtain ⟨i1, i2, i3⟩ := dinv_start (fun e he => hv1.clean e (List.mem_append_left _ he)) (applyAdds s A).warn
        have hr := delRun_spec B _ true i1 (fun _ => i2) (by intro c hc; have := hB c hc; cases ht : c.typ <;> simp_all [isAdd])
          (by simp only; rw [i3]; exact g1)
        simp only [i3] at hr
        cases hrr : rule (applyAdds s A).edges B with
        | none => rw [hrr] at hr; simp only at hr; rw [hr]; rfl
        | some S =>
          rw [hrr] at hr
          obtain ⟨d, q1, q2, q3, q4⟩ := hr
          rw [q1]
          simp only [Option.map_some]
          rw [finish_spec q2 o.canTs _ (by intro hb; rw [Bool.or_eq_false_iff] at hb; exact hb.1)
            (by intro hb; have := hv1.left.timed hb; rwa [List.append_nil] at this), q3]
    rw [hrule, ← hdel]
    cases had : applyDels o others (applyAdds s A) B with
    | none => rfl
    | some s1 =>
      simp only [Option.bind_some, Option.map_some]
      obtain ⟨d1, -⟩ := applyDels_explains o ho others hv1.left had
      exact ih R s1 (by omega) (hv1.sub d1) (g2 _ (by rw [← hdel, had]; rfl))

end Verif.Enact
