import Verif.Rbo

/-!
# C14: rank-biased overlap
-/

namespace Verif.Props.Rbo
open Verif.Rbo

/-- Specification: the number of common items of two rankings. -/
def common (a b : List Int) : Nat := (a.filter (fun x => decide (x ∈ b))).length

theorem common_snoc_left (a b : List Int) (x : Int) :
    common (a ++ [x]) b = common a b + if x ∈ b then 1 else 0 := by
  unfold common
  rw [List.filter_append, List.length_append]
  by_cases h : x ∈ b <;> simp [h]

theorem common_snoc_right (a b : List Int) (y : Int) (ha : a.Nodup) (hy : y ∉ b) :
    common a (b ++ [y]) = common a b + if y ∈ a then 1 else 0 := by
  induction a with
  | nil => simp [common]
  | cons x xs ih =>
    have ih := ih (List.nodup_cons.1 ha).2
    have hx := (List.nodup_cons.1 ha).1
    have step : ∀ c : List Int, common (x :: xs) c = (if x ∈ c then 1 else 0) + common xs c := by
      intro c; unfold common; by_cases h : x ∈ c <;> simp [h, Nat.add_comm]
    rw [step, step, ih]
    by_cases hxy : x = y
    · subst hxy
      simp [hx, hy, Nat.add_comm]
    · by_cases hxb : x ∈ b <;> by_cases hyx : y ∈ xs <;>
        simp [hxb, hyx, hxy, Ne.symm hxy, Nat.add_comm, Nat.add_left_comm]

theorem common_le_left (a b : List Int) : common a b ≤ a.length := List.length_filter_le _ _

/-- Specification: the agreement sum of the first `d` depths, weighted `(1-p)/p * p^k`. -/
def agreeSum (p : Rat) (s t : List Int) (d : Nat) : Rat :=
  ((List.range d).map fun k =>
    (common (s.take (k + 1)) (t.take (k + 1)) : Rat) / (k + 1 : Nat) * ((1 - p) / p * p ^ (k + 1))).sum

/-- Specification: the extrapolation terms beyond the end of the short list. -/
def tailSum (p : Rat) (s t : List Int) (j : Nat) : Rat :=
  ((List.range j).map fun i =>
    ((common s (t.take s.length) * (i + 1) : Nat) : Rat) / ((s.length + i + 1) * s.length : Nat) *
      ((1 - p) / p * p ^ (s.length + i + 1))).sum

/-- Specification: the extrapolated rank-biased overlap of a short and a long ranking (Webber,
Moffat, Zobel, equation 32). -/
def rboSpec (p : Rat) (s t : List Int) : Rat :=
  agreeSum p s t t.length + tailSum p s t (t.length - s.length) +
    (((common s t : Rat) - common s (t.take s.length)) / t.length
      + (common s (t.take s.length) : Rat) / s.length) * p ^ t.length

/-- The state after the prefixes `a`, `b` of equal length. -/
structure InvE (p : Rat) (s t : List Int) (d : Nat) (st : St) : Prop where
  depth : st.depth = d
  overlap : st.overlap = common (s.take d) (t.take d)
  seen : ∀ x, st.seen x = (decide (x ∈ s.take d) ^^ decide (x ∈ t.take d))
  wgt : st.wgt = some ((1 - p) / p * p ^ d)
  rbo : st.rbo = some (agreeSum p s t d)
  p_eq : st.p = p
  sd : st.shortDepth = -1

theorem agreeSum_succ (p : Rat) (s t : List Int) (d : Nat) :
    agreeSum p s t (d + 1) = agreeSum p s t d +
      (common (s.take (d + 1)) (t.take (d + 1)) : Rat) / (d + 1 : Nat) * ((1 - p) / p * p ^ (d + 1)) := by
  simp [agreeSum, List.range_succ]

theorem take_succ' (s : List Int) (d : Nat) (h : d < s.length) : s.take (d + 1) = s.take d ++ [s[d]] :=
  List.take_succ_eq_append_getElem h

theorem not_mem_take (s : List Int) (hs : s.Nodup) (d : Nat) (h : d < s.length) : s[d] ∉ s.take d := by
  have := hs.sublist (List.take_sublist (d + 1) s)
  rw [take_succ' s d h, List.nodup_append] at this
  intro hm
  exact this.2.2 _ hm _ (by simp) rfl

theorem common_step (s t : List Int) (hs : s.Nodup) (ht : t.Nodup) (d : Nat) (h1 : d < s.length)
    (h2 : d < t.length) : common (s.take (d + 1)) (t.take (d + 1)) = common (s.take d) (t.take d) +
      if s[d] = t[d] then 1 else
        (if s[d] ∈ t.take d then 1 else 0) + (if t[d] ∈ s.take d then 1 else 0) := by
  have n1 := not_mem_take s hs d h1
  have n2 := not_mem_take t ht d h2
  rw [take_succ' s d h1, take_succ' t d h2, common_snoc_left,
    common_snoc_right _ _ _ (hs.sublist (List.take_sublist d s)) n2]
  simp only [List.mem_append, List.mem_singleton]
  by_cases he : s[d] = t[d]
  · rw [if_pos he, if_pos (Or.inr he), if_neg (show ¬ t[d] ∈ s.take d by rw [← he]; exact n1)]
  · rw [if_neg he]
    by_cases ha : s[d] ∈ t.take d <;> by_cases hb : t[d] ∈ s.take d <;> simp [ha, hb, he]

theorem InvE.step {p : Rat} {s t : List Int} {d : Nat} {st : St}
    (h : InvE p s t d st) (hs : s.Nodup) (ht : t.Nodup) (h1 : d < s.length) (h2 : d < t.length) :
    ∃ st', update st s[d] t[d] = some st' ∧ InvE p s t (d + 1) st' := by
  have n1 := not_mem_take s hs d h1
  have n2 := not_mem_take t ht d h2
  have hc := common_step s t hs ht d h1 h2
  rw [update, if_neg (by simp [h.sd])]
  refine ⟨_, rfl, ?_⟩
  -- the state before `advance`
  have key : ∀ st1 : St, st1.depth = d → st1.overlap = common (s.take (d + 1)) (t.take (d + 1)) →
      (∀ x, st1.seen x = (decide (x ∈ s.take (d + 1)) ^^ decide (x ∈ t.take (d + 1)))) →
      st1.wgt = some ((1 - p) / p * p ^ d) → st1.rbo = some (agreeSum p s t d) → st1.p = p →
      st1.shortDepth = -1 → InvE p s t (d + 1) (advance st1) := by
    intro st1 k1 k2 k3 k4 k5 k6 k7
    have hd : ((d : Int) + 1 : Rat) ≠ 0 := by positivity
    refine ⟨by simp [advance, k1], k2, k3, ?_, ?_, k6, k7⟩
    · simp only [advance, k4, k6, fmul, Option.bind_some, Option.map_some, pow_succ]
      rw [mul_assoc]
    · simp only [advance, k4, k5, k6, k1, k2, fmul, fadd, fdiv, Option.bind_some, Option.map_some,
        agreeSum_succ]
      rw [if_neg (by push_cast; positivity)]
      simp only [Option.bind_some, Option.map_some, Option.some.injEq]
      push_cast
      rw [pow_succ]; ring
  have hseen : ∀ x, (decide (x ∈ s.take (d + 1)) ^^ decide (x ∈ t.take (d + 1))) =
      ((decide (x ∈ s.take d) || decide (x = s[d])) ^^ (decide (x ∈ t.take d) || decide (x = t[d]))) := by
    intro x; rw [take_succ' s d h1, take_succ' t d h2]; simp only [List.mem_append, List.mem_singleton, Bool.decide_or]
  split
  · rename_i he
    apply key
    · exact h.depth
    · simp only [h.overlap, hc, if_pos he]; push_cast; rfl
    · intro x
      rw [hseen, show ({ st with overlap := st.overlap + 1 } : St).seen x = st.seen x from rfl, h.seen]
      by_cases hx : x = t[d]
      · subst hx
        simp [← he, n1]
        rw [he]; simp [n2]
      · simp [he, hx]
    · exact h.wgt
    · exact h.rbo
    · exact h.p_eq
    · exact h.sd
  · rename_i he
    have hs1 : st.seen s[d] = decide (s[d] ∈ t.take d) := by rw [h.seen]; simp [n1]
    have hs2 : st.seen t[d] = decide (t[d] ∈ s.take d) := by rw [h.seen]; simp [n2]
    have hne : ¬ t[d] = s[d] := fun e => he e.symm
    have h1s : (toggle st s[d]).seen t[d] = st.seen t[d] := by
      unfold toggle; split <;> simp [upd, hne]
    apply key
    · unfold toggle; split <;> split <;> exact h.depth
    · rw [hc, if_neg he]
      have e1 : (toggle st s[d]).overlap = st.overlap + if s[d] ∈ t.take d then 1 else 0 := by
        unfold toggle; rw [hs1]
        by_cases hm : s[d] ∈ t.take d <;> simp [hm]
      have e2 : (toggle (toggle st s[d]) t[d]).overlap =
          (toggle st s[d]).overlap + if t[d] ∈ s.take d then 1 else 0 := by
        have : ∀ st : St, (toggle st t[d]).overlap = st.overlap + if st.seen t[d] then 1 else 0 := by
          intro st; unfold toggle; split <;> simp [*]
        rw [this, h1s, hs2]
        simp
      rw [e2, e1, h.overlap]
      by_cases ha : s[d] ∈ t.take d <;> by_cases hb : t[d] ∈ s.take d <;> simp [ha, hb]
      ring
    · intro x
      rw [hseen]
      have e1 : ∀ y (st : St) (e : Int), (toggle st e).seen y = if y = e then !st.seen e else st.seen y := by
        intro y st e; unfold toggle
        by_cases hm : st.seen e = true <;> simp [hm, upd]
      rw [e1, h1s, e1, hs1, hs2, h.seen]
      by_cases hx2 : x = t[d]
      · subst hx2; simp [n2, hne]
      · by_cases hx1 : x = s[d]
        · subst hx1; simp [he, n1]
        · simp [hx1, hx2]
    · unfold toggle; split <;> split <;> exact h.wgt
    · unfold toggle; split <;> split <;> exact h.rbo
    · unfold toggle; split <;> split <;> exact h.p_eq
    · unfold toggle; split <;> split <;> exact h.sd

theorem InvE.new (p : Rat) (hp : p ≠ 0) (s t : List Int) : InvE p s t 0 (new p) := by
  refine ⟨rfl, by simp [Verif.Rbo.new, common], by simp [Verif.Rbo.new], ?_,
    by simp [Verif.Rbo.new, agreeSum], rfl, rfl⟩
  simp [Verif.Rbo.new, fdiv, hp]

theorem InvE.run {p : Rat} {s t : List Int} (hs : s.Nodup) (ht : t.Nodup) (hle : s.length ≤ t.length)
    (k : Nat) : ∀ {d : Nat} {st : St}, InvE p s t d st → d + k = s.length →
    ∃ st', updates st (s.drop d) (t.drop d) = some st' ∧ InvE p s t s.length st' := by
  induction k with
  | zero =>
    intro d st h hd
    have hd : d = s.length := by omega
    subst hd
    exact ⟨st, by simp [updates], h⟩
  | succ k ih =>
    intro d st h hd
    have h1 : d < s.length := by omega
    have h2 : d < t.length := by omega
    rw [List.drop_eq_getElem_cons h1, List.drop_eq_getElem_cons h2, updates]
    obtain ⟨st1, e1, i1⟩ := h.step hs ht h1 h2
    rw [e1, Option.bind_some]
    exact ih i1 (by omega)

/-- The state after the short list `s` and `d` items of the long list `t`. -/
structure InvU (p : Rat) (s t : List Int) (d : Nat) (st : St) : Prop where
  depth : st.depth = d
  overlap : st.overlap = common s (t.take d)
  seen : ∀ x, x ∉ t.take d → st.seen x = decide (x ∈ s)
  wgt : st.wgt = some ((1 - p) / p * p ^ d)
  rbo : st.rbo = some (agreeSum p s t d + tailSum p s t (d - s.length))
  p_eq : st.p = p
  sd : st.shortDepth = s.length
  so : st.shortOverlap = common s (t.take s.length)
  le : s.length ≤ d

theorem InvE.endShort {p : Rat} {s t : List Int} {st : St} (h : InvE p s t s.length st) :
    InvU p s t s.length (endShort st) := by
  refine ⟨h.depth, ?_, ?_, h.wgt, ?_, h.p_eq, h.depth, ?_, Nat.le_refl _⟩
  · have := h.overlap; rw [List.take_length] at this; exact this
  · intro x hx
    have := h.seen x
    rw [List.take_length] at this
    simpa [Verif.Rbo.endShort, hx] using this
  · simp [Verif.Rbo.endShort, h.rbo, tailSum]
  · have := h.overlap; rw [List.take_length] at this; exact this

theorem InvU.step {p : Rat} {s t : List Int} {d : Nat} {st : St}
    (h : InvU p s t d st) (hs : s.Nodup) (ht : t.Nodup) (hne : s ≠ []) (h2 : d < t.length) :
    ∃ st', updateUneven st t[d] = some st' ∧ InvU p s t (d + 1) st' := by
  have n2 := not_mem_take t ht d h2
  have hle := h.le
  have hc : common s (t.take (d + 1)) = common s (t.take d) + if t[d] ∈ s then 1 else 0 := by
    rw [take_succ' t d h2, common_snoc_right _ _ _ hs n2]
  have hc2 : common (s.take (d + 1)) (t.take (d + 1)) = common s (t.take (d + 1)) := by
    rw [List.take_of_length_le (by omega)]
  have hsl : 0 < s.length := List.length_pos_iff.2 hne
  rw [updateUneven, if_neg (by rw [h.sd]; omega)]
  refine ⟨_, rfl, ?_⟩
  have hsd := h.seen _ n2
  have key : ∀ st1 : St, st1.depth = d → st1.overlap = common s (t.take (d + 1)) →
      (∀ x, x ∉ t.take (d + 1) → st1.seen x = decide (x ∈ s)) →
      st1.wgt = some ((1 - p) / p * p ^ d) →
      st1.rbo = some (agreeSum p s t d + tailSum p s t (d - s.length)) → st1.p = p →
      st1.shortDepth = s.length → st1.shortOverlap = common s (t.take s.length) →
      InvU p s t (d + 1) { advance st1 with rbo := fadd (advance st1).rbo (fmul
        (fdiv (((advance st1).shortOverlap * ((advance st1).depth - (advance st1).shortDepth) : Int))
        (((advance st1).depth * (advance st1).shortDepth : Int))) (advance st1).wgt) } := by
    intro st1 k1 k2 k3 k4 k5 k6 k7 k8
    refine ⟨by simp [advance, k1], k2, k3, ?_, ?_, k6, k7, k8, by omega⟩
    · simp only [advance, k4, k6, fmul, Option.bind_some, Option.map_some, pow_succ]
      rw [mul_assoc]
    · obtain ⟨j, hj⟩ : ∃ j, d = s.length + j := ⟨d - s.length, by omega⟩
      subst hj
      have e1 : s.length + j + 1 - s.length = j + 1 := by omega
      have e2 : s.length + j - s.length = j := by omega
      simp only [advance, k4, k5, k6, k1, k2, k7, k8, fmul, fadd, fdiv, Option.bind_some,
        Option.map_some, agreeSum_succ, e1, e2, hc2]
      have p1 : ((((s.length + j : Nat) : Int) + 1 : Int) : Rat) ≠ 0 := by push_cast; positivity
      have p2 : (((((s.length + j : Nat) : Int) + 1) * (s.length : Int) : Int) : Rat) ≠ 0 := by
        have : (s.length : Rat) ≠ 0 := by positivity
        push_cast
        exact mul_ne_zero (by positivity) this
      rw [if_neg p1, if_neg p2]
      simp only [Option.bind_some, Option.map_some, Option.some.injEq]
      have ht : tailSum p s t (j + 1) = tailSum p s t j +
          ((common s (t.take s.length) * (j + 1) : Nat) : Rat) / ((s.length + j + 1) * s.length : Nat) *
          ((1 - p) / p * p ^ (s.length + j + 1)) := by
        simp [tailSum, List.range_succ]
      rw [ht, pow_succ]
      push_cast
      have : ((s.length : Rat) + j + 1 - s.length) = j + 1 := by ring
      rw [this]
      ring
  split
  · rename_i hm
    rw [hsd] at hm
    have hm : t[d] ∈ s := by simpa using hm
    apply key
    · exact h.depth
    · simp only [h.overlap, hc, if_pos hm]; push_cast; rfl
    · intro x hx
      rw [take_succ' t d h2] at hx
      simp only [List.mem_append, List.mem_singleton, not_or] at hx
      simp only [upd, if_neg hx.2]
      exact h.seen x hx.1
    · exact h.wgt
    · exact h.rbo
    · exact h.p_eq
    · exact h.sd
    · exact h.so
  · rename_i hm
    rw [hsd] at hm
    have hm : t[d] ∉ s := by simpa using hm
    apply key
    · exact h.depth
    · simp only [h.overlap, hc, if_neg hm]; rfl
    · intro x hx
      rw [take_succ' t d h2] at hx
      simp only [List.mem_append, List.mem_singleton, not_or] at hx
      exact h.seen x hx.1
    · exact h.wgt
    · exact h.rbo
    · exact h.p_eq
    · exact h.sd
    · exact h.so

theorem InvU.run {p : Rat} {s t : List Int} (hs : s.Nodup) (ht : t.Nodup) (hne : s ≠ [])
    (k : Nat) : ∀ {d : Nat} {st : St}, InvU p s t d st → d + k = t.length →
    ∃ st', unevens st (t.drop d) = some st' ∧ InvU p s t t.length st' := by
  induction k with
  | zero =>
    intro d st h hd
    have hd : d = t.length := by omega
    subst hd
    exact ⟨st, by simp [unevens], h⟩
  | succ k ih =>
    intro d st h hd
    have h2 : d < t.length := by omega
    rw [List.drop_eq_getElem_cons h2, unevens]
    obtain ⟨st1, e1, i1⟩ := h.step hs ht hne h2
    rw [e1, Option.bind_some]
    exact ih i1 (by omega)

theorem calcOrdered_eq (p : Rat) (hp : p ≠ 0) (s t : List Int) (hs : s.Nodup) (ht : t.Nodup)
    (hne : s ≠ []) (hle : s.length ≤ t.length) :
    calcOrdered s t p = some (some (rboSpec p s t)) := by
  obtain ⟨st1, e1, i1⟩ := InvE.run hs ht hle s.length (InvE.new p hp s t) (by omega)
  obtain ⟨st2, e2, i2⟩ := InvU.run hs ht hne (t.length - s.length) i1.endShort (by omega)
  have hsl : 0 < s.length := List.length_pos_iff.2 hne
  have htl : 0 < t.length := by omega
  simp only [List.drop_zero] at e1
  rw [calcOrdered, e1, Option.bind_some, e2, Option.map_some, calcExtrapolated]
  rw [if_neg (by rw [i2.sd]; omega), i2.rbo, i2.overlap, i2.sd, i2.so, i2.depth, i2.p_eq,
    List.take_length]
  have q1 : (((t.length : Nat) : Int) : Rat) ≠ 0 := by push_cast; positivity
  have q2 : (((s.length : Nat) : Int) : Rat) ≠ 0 := by push_cast; positivity
  simp only [fdiv, if_neg q1, if_neg q2, fadd, fmul, Option.bind_some, Option.map_some, rboSpec]
  push_cast
  simp

/-- C14: for every pair of duplicate-free non-empty rankings and every `p ≠ 0`, the calculator
does not panic and returns exactly the extrapolated rank-biased overlap of the shorter and the
longer ranking: the overlap used at each depth is the number of common items of the prefixes. -/
theorem C14_value (p : Rat) (hp : p ≠ 0) (s t : List Int) (hs : s.Nodup) (ht : t.Nodup)
    (hs0 : s ≠ []) (ht0 : t ≠ []) :
    calculateRBO s t p =
      some (some (if t.length < s.length then rboSpec p t s else rboSpec p s t)) := by
  unfold calculateRBO
  split
  · exact calcOrdered_eq p hp t s ht hs ht0 (by omega)
  · exact calcOrdered_eq p hp s t hs ht hs0 (by omega)

/-- C14 for the calculator used step by step: after `Update` for all items of two rankings of the same
length, the extrapolated value can be asked for without `EndShort`; `UpdateUneven` before `EndShort`
and `Update` after it panic. -/
theorem C14_incremental (p : Rat) (hp : p ≠ 0) (s t : List Int) (hs : s.Nodup) (ht : t.Nodup) (hne : s ≠ []) (hlen : s.length = t.length) :
    ∃ st, updates (new p) s t = some st ∧ calcExtrapolated st = some (rboSpec p s t) ∧ (∀ e, updateUneven st e = none) ∧
      ∀ e1 e2, update (Verif.Rbo.endShort st) e1 e2 = none := by
  obtain ⟨st, e1, i1⟩ := InvE.run hs ht (by omega) s.length (InvE.new p hp s t) (by omega)
  simp only [List.drop_zero] at e1
  have hsl : 0 < s.length := List.length_pos_iff.2 hne
  have h := calcOrdered_eq p hp s t hs ht hne (by omega)
  rw [calcOrdered, e1, Option.bind_some, List.drop_eq_nil_of_le (by omega), unevens, Option.map_some, Option.some.injEq] at h
  have hd : st.depth ≠ -1 := by rw [i1.depth]; omega
  refine ⟨st, e1, ?_, ?_, ?_⟩
  · rw [← h]
    unfold calcExtrapolated
    rw [if_pos i1.sd, if_neg (show ¬ (Verif.Rbo.endShort st).shortDepth = -1 from hd)]
    rfl
  · intro e
    rw [updateUneven, if_pos i1.sd]
  · intro a b
    rw [update, if_pos (show (Verif.Rbo.endShort st).shortDepth ≠ -1 from hd)]

example : ∃ st, updates (new (1 / 2)) [1, 2, 3] [2, 1, 4] = some st ∧ calcExtrapolated st = some (rboSpec (1 / 2) [1, 2, 3] [2, 1, 4]) := by
  obtain ⟨st, h1, h2, -⟩ := C14_incremental (1 / 2) (by norm_num) [1, 2, 3] [2, 1, 4] (by decide) (by decide) (by decide) rfl
  exact ⟨st, h1, h2⟩

/-- C14: at every depth of the paired phase the overlap is the number of common items. -/
theorem C14_overlap_exact (p : Rat) (hp : p ≠ 0) (s t : List Int) (hs : s.Nodup) (ht : t.Nodup)
    (hle : s.length = t.length) :
    ∃ st, updates (new p) s t = some st ∧ st.overlap = common s t ∧ st.depth = s.length := by
  obtain ⟨st, e, i⟩ := InvE.run hs ht (by omega) s.length (InvE.new p hp s t) (by omega)
  simp only [List.drop_zero] at e
  refine ⟨st, e, ?_, i.depth⟩
  have := i.overlap
  rwa [List.take_length, hle, List.take_length] at this

example : calculateRBO [1, 2, 3] [2, 1, 4, 3] (1 / 2) = some (some (43 / 96)) := by
  rw [C14_value _ (by norm_num) _ _ (by decide) (by decide) (by simp) (by simp)]
  norm_num [rboSpec, agreeSum, tailSum, common, List.range_succ]

/-- An empty ranking makes the result "not a number", for every other ranking. -/
theorem C14_empty_not_a_number (p : Rat) (t : List Int) : calcOrdered [] t p =
    (unevens (endShort (new p)) t).map calcExtrapolated ∧
    ∀ r, calcOrdered [] t p = some r → r = none := by
  have key : ∀ (t : List Int) (st st' : St), st.shortDepth = 0 → unevens st t = some st' →
      st'.shortDepth = 0 := by
    intro t
    induction t with
    | nil => intro st st' h e; simp [unevens] at e; rw [← e]; exact h
    | cons v vs ih =>
      intro st st' h e
      rw [unevens, updateUneven, if_neg (by omega), Option.bind_some] at e
      refine ih _ _ ?_ e
      simp only [advance]
      split <;> exact h
  constructor
  · simp [calcOrdered, updates]
  · intro r hr
    simp only [calcOrdered, updates, Option.bind_some, List.length_nil, List.drop_zero,
      Option.map_eq_some_iff] at hr
    obtain ⟨st', e, rfl⟩ := hr
    have h0 := key t _ _ (by simp [endShort, new]) e
    rw [calcExtrapolated, if_neg (by omega), h0]
    have : ∀ x : Option Rat, fadd x none = none := by intro x; cases x <;> rfl
    rw [show fdiv (st'.shortOverlap : Rat) ((0 : Int) : Rat) = none by simp [fdiv], this]
    exact this _

/-! ### Consequences for `0 < p < 1` -/

theorem weights (p : Rat) (hp : p ≠ 0) (n : Nat) :
    ((List.range n).map fun k => (1 - p) / p * p ^ (k + 1)).sum + p ^ n = 1 := by
  induction n with
  | zero => simp
  | succ n ih =>
    rw [List.range_succ, List.map_append, List.sum_append]
    simp only [List.map_cons, List.map_nil, List.sum_cons, List.sum_nil, add_zero]
    have : (1 - p) / p * p ^ (n + 1) + p ^ (n + 1) = p ^ n := by
      rw [pow_succ]; field_simp; ring
    linarith

theorem common_self (s : List Int) : common s s = s.length := by
  unfold common
  rw [List.filter_eq_self.2]
  intro a ha; simpa using ha

/-- C14: identical rankings have overlap exactly 1. -/
theorem C14_identical (p : Rat) (hp : p ≠ 0) (s : List Int) (hs : s.Nodup) (h0 : s ≠ []) :
    calculateRBO s s p = some (some 1) := by
  rw [C14_value p hp s s hs hs h0 h0, if_neg (by omega)]
  have hl : (s.length : Rat) ≠ 0 := by
    have := List.length_pos_iff.2 h0; positivity
  congr 2
  rw [← weights p hp s.length, rboSpec, List.take_length, common_self, Nat.sub_self, sub_self]
  rw [div_self hl, zero_div, zero_add, one_mul]
  have : tailSum p s s 0 = 0 := by simp [tailSum]
  rw [this, add_zero, agreeSum]
  congr 2
  apply List.map_congr_left
  intro k hk
  rw [List.mem_range] at hk
  rw [common_self, List.length_take, Nat.min_eq_left (by omega), div_self (by positivity), one_mul]

theorem common_mono_right (a b c : List Int) (h : ∀ x ∈ b, x ∈ c) : common a b ≤ common a c := by
  unfold common
  apply List.Sublist.length_le
  apply List.monotone_filter_right
  intro x hx
  simp only [decide_eq_true_eq] at hx ⊢
  exact h x hx

theorem sum_le (n : Nat) (f g : Nat → Rat) (h : ∀ k < n, f k ≤ g k) :
    ((List.range n).map f).sum ≤ ((List.range n).map g).sum := by
  induction n with
  | zero => simp
  | succ n ih =>
    rw [List.range_succ, List.map_append, List.map_append, List.sum_append, List.sum_append]
    have := ih (fun k hk => h k (by omega))
    have := h n (by omega)
    simp only [List.map_cons, List.map_nil, List.sum_cons, List.sum_nil, add_zero]
    linarith

theorem rboSpec_as_sum (p : Rat) (s t : List Int) (hle : s.length ≤ t.length) :
    agreeSum p s t t.length + tailSum p s t (t.length - s.length) =
    ((List.range t.length).map fun k =>
      ((common (s.take (k + 1)) (t.take (k + 1)) : Rat) / (k + 1 : Nat) +
        if s.length ≤ k then ((common s (t.take s.length) * (k + 1 - s.length) : Nat) : Rat) /
          ((k + 1) * s.length : Nat) else 0) * ((1 - p) / p * p ^ (k + 1))).sum := by
  obtain ⟨j, hj⟩ : ∃ j, t.length = s.length + j := ⟨t.length - s.length, by omega⟩
  rw [hj, Nat.add_sub_cancel_left]
  clear hj hle
  induction j with
  | zero =>
    simp only [Nat.add_zero]
    have : tailSum p s t 0 = 0 := by simp [tailSum]
    rw [this, add_zero, agreeSum]
    congr 1
    apply List.map_congr_left
    intro k hk
    rw [List.mem_range] at hk
    rw [if_neg (by omega), add_zero]
  | succ j ih =>
    rw [← Nat.add_assoc, agreeSum_succ, List.range_succ, List.map_append, List.sum_append, ← ih]
    have ht : tailSum p s t (j + 1) = tailSum p s t j +
        ((common s (t.take s.length) * (j + 1) : Nat) : Rat) / ((s.length + j + 1) * s.length : Nat) *
        ((1 - p) / p * p ^ (s.length + j + 1)) := by
      simp [tailSum, List.range_succ]
    rw [ht]
    simp only [List.map_cons, List.map_nil, List.sum_cons, List.sum_nil, add_zero]
    rw [if_pos (by omega), show s.length + j + 1 - s.length = j + 1 by omega]
    ring

/-- C14: for `0 < p < 1` the overlap is a number between 0 and 1. -/
theorem C14_range (p : Rat) (h0 : 0 < p) (h1 : p < 1) (s t : List Int) (hs : s.Nodup) (ht : t.Nodup)
    (hs0 : s ≠ []) (ht0 : t ≠ []) :
    ∃ v, calculateRBO s t p = some (some v) ∧ 0 ≤ v ∧ v ≤ 1 := by
  have key : ∀ s t : List Int, s.Nodup → t.Nodup → s ≠ [] → s.length ≤ t.length →
      0 ≤ rboSpec p s t ∧ rboSpec p s t ≤ 1 := by
    intro s t hs ht hne hle
    have hm : 0 < s.length := List.length_pos_iff.2 hne
    have hn : 0 < t.length := by omega
    have hmq : (0 : Rat) < s.length := by exact_mod_cast hm
    have hnq : (0 : Rat) < t.length := by exact_mod_cast hn
    have w0 : ∀ k : Nat, 0 ≤ (1 - p) / p * p ^ (k + 1) := by
      intro k
      have : 0 ≤ 1 - p := by linarith
      positivity
    have hXm : common s (t.take s.length) ≤ s.length := common_le_left _ _
    have hXmono : ∀ d, s.length ≤ d → common s (t.take s.length) ≤ common s (t.take d) := by
      intro d hd
      apply common_mono_right
      intro x hx
      exact (List.take_sublist_take_left hd).subset hx
    have hXn : common s (t.take s.length) ≤ common s t := by
      have := hXmono t.length hle
      rwa [List.take_length] at this
    have hXl : common s t ≤ s.length := common_le_left _ _
    -- the agreement plus extrapolation at depth d > s.length
    have bound : ∀ (X d : Nat), s.length ≤ d → common s (t.take s.length) ≤ X → X ≤ s.length →
        (X - common s (t.take s.length) : Rat) / d + (common s (t.take s.length) : Rat) / s.length ≤ 1 ∧
        0 ≤ (X - common s (t.take s.length) : Rat) / d := by
      intro X d hd hX hXs
      have hdq : (0 : Rat) < d := by exact_mod_cast (by omega : 0 < d)
      have e1 : (0 : Rat) ≤ X - common s (t.take s.length) := by
        have : (common s (t.take s.length) : Rat) ≤ X := by exact_mod_cast hX
        linarith
      have e2 : (X - common s (t.take s.length) : Rat) / d ≤
          (X - common s (t.take s.length) : Rat) / s.length :=
        div_le_div_of_nonneg_left e1 hmq (by exact_mod_cast hd)
      refine ⟨?_, by positivity⟩
      have e3 : (X - common s (t.take s.length) : Rat) / s.length +
          (common s (t.take s.length) : Rat) / s.length = X / s.length := by ring
      have e4 : (X : Rat) / s.length ≤ 1 := by
        rw [div_le_one hmq]; exact_mod_cast hXs
      linarith
    have fin := bound (common s t) t.length hle hXn hXl
    have hc0 : (0 : Rat) ≤ (common s (t.take s.length) : Rat) / s.length := by positivity
    have pn : 0 ≤ p ^ t.length := by positivity
    have coef : ∀ k < t.length,
        0 ≤ ((common (s.take (k + 1)) (t.take (k + 1)) : Rat) / (k + 1 : Nat) +
        if s.length ≤ k then ((common s (t.take s.length) * (k + 1 - s.length) : Nat) : Rat) /
          ((k + 1) * s.length : Nat) else 0) ∧
        ((common (s.take (k + 1)) (t.take (k + 1)) : Rat) / (k + 1 : Nat) +
        if s.length ≤ k then ((common s (t.take s.length) * (k + 1 - s.length) : Nat) : Rat) /
          ((k + 1) * s.length : Nat) else 0) ≤ 1 := by
      intro k hk
      constructor
      · split <;> positivity
      · split
        · rename_i hsk
          rw [List.take_of_length_le (show s.length ≤ k + 1 by omega)]
          have hb := (bound (common s (t.take (k + 1))) (k + 1) (by omega) (hXmono _ (by omega))
            (common_le_left _ _)).1
          have hkq : ((k + 1 : Nat) : Rat) ≠ 0 := by positivity
          have : ((common s (t.take s.length) * (k + 1 - s.length) : Nat) : Rat) /
              ((k + 1) * s.length : Nat) = (common s (t.take s.length) : Rat) / s.length -
              (common s (t.take s.length) : Rat) / (k + 1 : Nat) := by
            rw [Nat.cast_mul, Nat.cast_mul, Nat.cast_sub (by omega)]
            field_simp
          rw [this]
          have e5 : ((common s (t.take (k + 1)) : Rat) - common s (t.take s.length)) / (k + 1 : Nat) =
            (common s (t.take (k + 1)) : Rat) / (k + 1 : Nat) -
              (common s (t.take s.length) : Rat) / (k + 1 : Nat) := by ring
          rw [e5] at hb
          linarith
        · rw [add_zero, div_le_one (by positivity)]
          have := common_le_left (s.take (k + 1)) (t.take (k + 1))
          rw [List.length_take] at this
          exact_mod_cast (by omega : common (s.take (k + 1)) (t.take (k + 1)) ≤ k + 1)
    rw [rboSpec, rboSpec_as_sum p s t hle]
    constructor
    · have := sum_le t.length (fun _ => 0) _ (fun k hk => mul_nonneg (coef k hk).1 (w0 k))
      have hz : ((List.range t.length).map (fun _ : Nat => (0 : Rat))).sum = 0 := by
        simp
      rw [hz] at this
      have : 0 ≤ (((common s t : Rat) - common s (t.take s.length)) / t.length +
        (common s (t.take s.length) : Rat) / s.length) * p ^ t.length :=
        mul_nonneg (by linarith [fin.2]) pn
      linarith
    · have a1 := sum_le t.length _ (fun k => (1 - p) / p * p ^ (k + 1))
        (fun k hk => mul_le_of_le_one_left (w0 k) (coef k hk).2)
      have a2 := weights p (ne_of_gt h0) t.length
      have a3 := mul_le_of_le_one_left pn fin.1
      linarith
  rw [C14_value p (ne_of_gt h0) s t hs ht hs0 ht0]
  refine ⟨_, rfl, ?_⟩
  split
  · exact key t s ht hs ht0 (by omega)
  · exact key s t hs ht hs0 (by omega)

example : ∃ v, calculateRBO [5, 1, 7] [1, 5] (9 / 10) = some (some v) ∧ 0 ≤ v ∧ v ≤ 1 :=
  C14_range _ (by norm_num) (by norm_num) _ _ (by decide) (by decide) (by simp) (by simp)

end Verif.Props.Rbo
