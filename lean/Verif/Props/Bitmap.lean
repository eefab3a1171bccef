import Verif.BitmapLemmas

/-!
# C09: the bitmap is a set of bits

Specification: `members log`, the set obtained from the log of calls (with their results) by
plain set insertion and clearing. The observation `isSet` looks only at the visible slice.
-/

namespace Verif.Props.Bitmap
open Verif.Bitmap

/-- The abstract set after a log of calls: `Set x` and a successful `QuickSet x` insert `x`,
`Zeroes` empties, anything else changes nothing. -/
def members (log : List (Op × Bool)) : UInt32 → Bool :=
  log.foldl (fun S e =>
    match e with
    | (.set x, _) => fun y => S y || y == x
    | (.quickSet x, true) => fun y => S y || y == x
    | (.quickSet _, false) => S
    | (.zeroes, _) => fun _ => false
    | (.grow _, _) => S) (fun _ => false)

/-- Bit `x` of the slice a caller sees (`false` when beyond its length). -/
def isSet (b : Bm) (x : UInt32) : Bool :=
  match (b.mem.take b.len)[x.toNat / 64]? with
  | some w => w.toNat.testBit (x.toNat % 64)
  | none => false

/-! ### glue -/

theorem isSet_eq {b : Bm} (h : Inv b) (x : UInt32) : isSet b x = bit b x.toNat := by
  unfold isSet
  by_cases hl : x.toNat / 64 < b.len
  · have hm := h.le
    rw [List.getElem?_take_of_lt hl]
    simp only [bit, List.getD_eq_getElem?_getD, List.getElem?_eq_getElem (show x.toNat / 64 < b.mem.length by omega)]
    rfl
  · rw [List.getElem?_eq_none (by simp; omega), bit_of_len h (by omega)]

/-- Set after a log, starting from a given set. -/
def membersFrom (S : UInt32 → Bool) (log : List (Op × Bool)) : UInt32 → Bool :=
  log.foldl (fun S e =>
    match e with
    | (.set x, _) => fun y => S y || y == x
    | (.quickSet x, true) => fun y => S y || y == x
    | (.quickSet _, false) => S
    | (.zeroes, _) => fun _ => false
    | (.grow _, _) => S) S

theorem u32_eq_iff (x y : UInt32) : (decide (x.toNat = y.toNat)) = (x == y) := by
  rw [Bool.eq_iff_iff]; simp [UInt32.toNat_inj]

theorem run_from {b b' : Bm} (h : Inv b) (hn : NilOk b) {ops : List Op} {log : List (Op × Bool)}
    (hr : run b ops = some (b', log)) :
    Inv b' ∧ NilOk b' ∧ b.len ≤ b'.len ∧
    (fun x : UInt32 => bit b' x.toNat) = membersFrom (fun x => bit b x.toNat) log ∧
    ∀ y r, (Op.set y, r) ∈ log → y.toNat / 64 < b'.len := by
  induction ops generalizing b log with
  | nil =>
    simp only [run, Option.some.injEq, Prod.mk.injEq] at hr
    obtain ⟨rfl, rfl⟩ := hr
    exact ⟨h, hn, Nat.le_refl _, rfl, by simp⟩
  | cons o os ih =>
    simp only [run] at hr
    split at hr
    · simp at hr
    · rename_i b1 r hs
      simp only [Option.map_eq_some_iff, Prod.mk.injEq, Prod.exists] at hr
      obtain ⟨b2, log2, hr2, rfl, rfl⟩ := hr
      have hok := step_ok h hn hs
      obtain ⟨i1, i2, i3, i4, i5⟩ := ih hok.1 hok.2 hr2
      have hnil : b.isNil = true → b.len = 0 := by
        intro e; have := h.le; rw [hn e] at this; simpa using this
      have key : b.len ≤ b1.len ∧ (∀ y, o = .set y → y.toNat / 64 < b1.len) ∧
          membersFrom (fun x => bit b x.toNat) ((o, r) :: log2) =
          membersFrom (fun x => bit b1 x.toNat) log2 := by
        cases o with
        | set x =>
          simp only [step, Option.map_eq_some_iff, Prod.mk.injEq] at hs
          obtain ⟨b3, e, rfl, -⟩ := hs
          obtain ⟨b4, e2, -, hl, hb⟩ := set_spec h x
          rw [e] at e2; cases e2
          refine ⟨by omega, fun y e => by cases e; omega, ?_⟩
          simp only [membersFrom, List.foldl_cons, hb, u32_eq_iff]
        | quickSet x =>
          simp only [step, Option.some.injEq, Prod.ext_iff] at hs
          obtain ⟨rfl, rfl⟩ := hs
          obtain ⟨-, hl, -, hb⟩ := quickSet_spec h x
          refine ⟨by omega, by simp, ?_⟩
          cases hq : (quickSet b x).2 <;>
            simp only [membersFrom, List.foldl_cons, hb, hq, u32_eq_iff, Bool.and_true,
              Bool.and_false, Bool.or_false]
        | zeroes =>
          simp only [step, Option.some.injEq, Prod.mk.injEq] at hs
          obtain ⟨rfl, -⟩ := hs
          obtain ⟨-, hl, hb⟩ := zeroes_spec h
          refine ⟨by omega, by simp, ?_⟩
          simp only [membersFrom, List.foldl_cons, hb]
        | grow x =>
          simp only [step, Option.map_eq_some_iff, Prod.mk.injEq] at hs
          obtain ⟨b3, e, rfl, -⟩ := hs
          obtain ⟨b4, e2, -, hl, hb⟩ := grow_spec h hnil x
          rw [e] at e2; cases e2
          refine ⟨?_, by simp, ?_⟩
          · rw [hl]; split
            · rename_i hc
              rcases hc with hc | hc
              · omega
              · rw [hnil hc]; omega
            · omega
          · simp only [membersFrom, List.foldl_cons, hb]
      refine ⟨i1, i2, by omega, by rw [i4, key.2.2], ?_⟩
      intro y r' hm
      rcases List.mem_cons.1 hm with e | hm
      · simp only [Prod.mk.injEq] at e
        have := key.2.1 y e.1.symm; omega
      · exact i5 y r' hm

/-! ### properties -/

/-- C09: no call on a bitmap ever panics (indexing, slicing, `make`). -/
theorem C09_never_panics (ops : List Op) : (run nilBm ops).isSome = true := by
  have : ∀ (ops : List Op) (b : Bm), Inv b → NilOk b → (run b ops).isSome = true := by
    intro ops
    induction ops with
    | nil => intro b _ _; rfl
    | cons o os ih =>
      intro b h hn
      have hnil : b.isNil = true → b.len = 0 := by
        intro e; have := h.le; rw [hn e] at this; simpa using this
      have : ∃ p, step b o = some p := by
        cases o with
        | set x => obtain ⟨b', e, -⟩ := set_spec h x; exact ⟨_, by simp only [step, e]; rfl⟩
        | quickSet x => exact ⟨_, rfl⟩
        | zeroes => exact ⟨_, rfl⟩
        | grow x => obtain ⟨b', e, -⟩ := grow_spec h hnil x; exact ⟨_, by simp only [step, e]; rfl⟩
      obtain ⟨⟨b1, r⟩, hs⟩ := this
      have hok := step_ok h hn hs
      simp only [run, hs, Option.isSome_map]
      exact ih b1 hok.1 hok.2
  exact this ops nilBm inv_nil (fun _ => rfl)

/-- C09: after any calls, a bit is set exactly when the plain-set specification says so. -/
theorem C09_bits_exact (ops : List Op) (b : Bm) (log : List (Op × Bool))
    (h : run nilBm ops = some (b, log)) (x : UInt32) : isSet b x = members log x := by
  obtain ⟨hi, -, -, hm, -⟩ := run_from inv_nil (fun _ => rfl) h
  rw [isSet_eq hi, congrFun hm x]
  have : (fun x : UInt32 => bit nilBm x.toNat) = fun _ => false := by
    funext x; simp [bit, nilBm]
  rw [this]; rfl

/-- C09: `FirstUnused` is the least index that is not set (whenever some 32-bit index is not). -/
theorem C09_firstUnused_least (ops : List Op) (b : Bm) (log : List (Op × Bool))
    (h : run nilBm ops = some (b, log)) (hfree : ∃ x, members log x = false) :
    members log (firstUnused b) = false ∧ ∀ y, y < firstUnused b → members log y = true := by
  obtain ⟨hi, -⟩ := run_from inv_nil (fun _ => rfl) h
  have hx := C09_bits_exact ops b log h
  obtain ⟨p, h1, h2, h3, h4⟩ := firstUnusedFrom_spec (b.mem.take b.len) 0
  have tk : ∀ n, ((b.mem.take b.len).getD (n / 64) 0).toNat.testBit (n % 64) = bit b n := by
    intro n
    by_cases hn : n / 64 < b.len
    · simp only [bit, List.getD_eq_getElem?_getD, List.getElem?_take_of_lt hn]
    · rw [bit_of_len hi (by omega), List.getD_eq_getElem?_getD,
        List.getElem?_eq_none (by simp; omega)]
      simp
  simp only [tk] at h3 h4
  have hp : p < 2 ^ 32 := by
    obtain ⟨x, hxf⟩ := hfree
    rw [← hx, isSet_eq hi] at hxf
    rcases Nat.lt_or_ge x.toNat p with hlt | hge
    · rw [h4 _ hlt] at hxf; cases hxf
    · have := x.toNat_lt; omega
  have hf : (firstUnused b).toNat = p := by
    show (firstUnusedFrom _ 0).toNat = p
    rw [h1]; omega
  refine ⟨by rw [← hx, isSet_eq hi, hf, h3], fun y hy => ?_⟩
  rw [← hx, isSet_eq hi]
  apply h4
  have : y.toNat < (firstUnused b).toNat := hy
  omega

example : ∃ b log, run nilBm [.set 0, .set 70, .quickSet 1, .grow 500, .quickSet 3] = some (b, log) ∧
    firstUnused b = 2 ∧ members log 3 = true ∧ members log 2 = false := by
  refine ⟨_, _, rfl, ?_, ?_, ?_⟩ <;> decide

/-- C09: after `Set y` (and any later calls) every bit up to `y` accepts `QuickSet`. -/
theorem C09_set_makes_addressable (ops : List Op) (b : Bm) (log : List (Op × Bool))
    (h : run nilBm ops = some (b, log)) (x y : UInt32) (hy : Op.set y ∈ ops) (hxy : x ≤ y) :
    (quickSet b x).2 = true := by
  obtain ⟨hi, -, -, -, hm⟩ := run_from inv_nil (fun _ => rfl) h
  have hlog : ∀ (ops : List Op) (b b' : Bm) log, run b ops = some (b', log) → log.map Prod.fst = ops := by
    intro ops
    induction ops with
    | nil => intro b b' log h; simp only [run, Option.some.injEq, Prod.mk.injEq] at h; simp [← h.2]
    | cons o os ih =>
      intro b b' log h
      simp only [run] at h
      split at h
      · simp at h
      · simp only [Option.map_eq_some_iff, Prod.mk.injEq, Prod.exists] at h
        obtain ⟨b2, log2, hr2, rfl, rfl⟩ := h
        simp [ih _ _ _ hr2]
  rw [← hlog _ _ _ _ h] at hy
  obtain ⟨⟨o, r⟩, hmem, rfl⟩ := List.mem_map.1 hy
  have := hm y r hmem
  rw [(quickSet_spec hi x).2.2.1]
  have : x.toNat ≤ y.toNat := hxy
  omega

/-- The full claim about `Grow`: after `Grow(x)` the bit `x` is addressable. -/
def C09_GrowStatement : Prop :=
  ∀ (ops : List Op) (x : UInt32) (b : Bm) (log : List (Op × Bool)),
    run nilBm (ops ++ [.grow x]) = some (b, log) → (quickSet b x).2 = true

/-- C09: the claim about `Grow` is false: with one word in use, `Grow(64)` does nothing
(`bitmap.go:46` tests `>` where `>=` is needed). -/
theorem C09_grow_statement_false : ¬ C09_GrowStatement := by
  intro h
  have := h [.set 0] 64 _ _ rfl
  exact absurd this (by decide)

theorem growTo_len {b b' : Bm} {i : Nat} (h : growTo b i = some b') : b'.len = i + 1 := by
  unfold growTo at h
  split at h
  · simp only [Option.some.injEq] at h; subst h; rfl
  · dsimp only at h
    split at h
    · simp only [Option.some.injEq] at h; subst h; rfl
    · cases h

/-- A bitmap that has no words yet is nil. -/
theorem nil_of_empty (ops : List Op) : ∀ (b b' : Bm) (log : List (Op × Bool)), (b.len = 0 → b.isNil = true) →
    run b ops = some (b', log) → b'.len = 0 → b'.isNil = true := by
  induction ops with
  | nil => intro b b' log h0 h; simp only [run, Option.some.injEq, Prod.mk.injEq] at h; exact h.1 ▸ h0
  | cons o os ih =>
    intro b b' log h0 h
    simp only [run] at h
    split at h
    · cases h
    · rename_i b1 r hs
      cases hr : run b1 os with
      | none => rw [hr] at h; cases h
      | some p =>
        rw [hr] at h
        simp only [Option.map_some, Option.some.injEq, Prod.mk.injEq] at h
        obtain ⟨rfl, -⟩ := h
        refine ih b1 p.1 p.2 ?_ hr
        cases o with
        | set x =>
          simp only [step, Bitmap.set] at hs
          split at hs
          · cases hg : growTo b (x >>> 6).toNat with
            | none => rw [hg] at hs; cases hs
            | some b2 =>
              rw [hg] at hs
              simp only [Option.map_some, Option.some.injEq, Prod.mk.injEq] at hs
              obtain ⟨rfl, -⟩ := hs
              intro e
              have := growTo_len hg
              simp only [orBit] at e
              omega
          · simp only [Option.map_some, Option.some.injEq, Prod.mk.injEq] at hs
            obtain ⟨rfl, -⟩ := hs
            exact h0
        | quickSet x =>
          simp only [step, quickSet, Option.some.injEq] at hs
          split at hs <;> simp only [Prod.mk.injEq] at hs <;> obtain ⟨rfl, -⟩ := hs <;> exact h0
        | zeroes =>
          simp only [step, Option.some.injEq, Prod.mk.injEq] at hs
          obtain ⟨rfl, -⟩ := hs
          exact h0
        | grow x =>
          simp only [step, grow] at hs
          split at hs
          · cases hg : growTo b (x >>> 6).toNat with
            | none => rw [hg] at hs; cases hs
            | some b2 =>
              rw [hg] at hs
              simp only [Option.map_some, Option.some.injEq, Prod.mk.injEq] at hs
              obtain ⟨rfl, -⟩ := hs
              intro e
              have := growTo_len hg
              omega
          · simp only [Option.map_some, Option.some.injEq, Prod.mk.injEq] at hs
            obtain ⟨rfl, -⟩ := hs
            exact h0

/-- C09 (partial): `Grow(x)` makes every bit up to `x` addressable unless the word of `x` is exactly one
past the current end of a bitmap with at least one word. Missing: that one case, where the claim is false. -/
theorem C09_grow_partial (ops : List Op) (x : UInt32) (b0 b : Bm) (l0 log : List (Op × Bool))
    (h0 : run nilBm ops = some (b0, l0)) (hgap : x.toNat / 64 ≠ b0.len ∨ b0.len = 0)
    (h : run b0 [.grow x] = some (b, log)) (y : UInt32) (hy : y ≤ x) : (quickSet b y).2 = true := by
  obtain ⟨hi, hn, -⟩ := run_from inv_nil (fun _ => rfl) h0
  have hnil : b0.isNil = true → b0.len = 0 := by
    intro e; have := hi.le; rw [hn e] at this; simpa using this
  obtain ⟨b4, e2, i4, hl, -⟩ := grow_spec hi hnil x
  simp only [run, step, e2, Option.map_some, Option.some.injEq, Prod.mk.injEq] at h
  obtain ⟨rfl, -⟩ := h
  rw [(quickSet_spec i4 y).2.2.1, hl]
  have hy : y.toNat ≤ x.toNat := hy
  by_cases hc : b0.len < x.toNat / 64 ∨ b0.isNil = true
  · rw [if_pos hc]; omega
  · rw [if_neg hc]
    rcases hgap with hg | hg
    · have : ¬ b0.len < x.toNat / 64 := fun e => hc (Or.inl e)
      omega
    · exact absurd (Or.inr (nil_of_empty ops nilBm b0 l0 (fun _ => rfl) h0 hg)) hc

/-- The first `Grow`, of bit 0 too. -/
example : (do let (b0, _) ← run nilBm [.quickSet 3, .zeroes]; let (b, _) ← run b0 [.grow 0]; pure (b0.len, (quickSet b 0).2)) = some (0, true) := by
  decide

example : (do let (b0, _) ← run nilBm [.set 0]; let (b, _) ← run b0 [.grow 128]; pure (quickSet b 128).2) = some true := by
  decide

end Verif.Props.Bitmap
