import Verif.Bitmap
import Verif.Props.RoundUp

/-! Helper lemmas for the bitmap. -/

namespace Verif.Bitmap
open Verif.RoundUp

theorem resizeLoop_ge (c v : Nat) (h : 0 < c) : v + 1 ≤ resizeLoop c v := by
  fun_induction resizeLoop c v with
  | case1 c h1 ih => exact ih (by omega)
  | case2 c h1 => omega

theorem resizeLoop_ge_cap (c v : Nat) : c ≤ resizeLoop c v := by
  fun_induction resizeLoop c v with
  | case1 c h1 ih => omega
  | case2 c h1 => omega

theorem resize_ge (c v : Nat) (hv : v < 2 ^ 60) : v ≤ resize c v := by
  unfold resize
  split
  · have h := Verif.Props.C08.C08_roundUpPow_least (UInt64.ofNat (v + 1))
      (by rw [UInt64.toNat_ofNat']; omega) (by rw [UInt64.toNat_ofNat']; omega)
    have := h.2.1
    rw [UInt64.toNat_ofNat'] at this; omega
  · have := resizeLoop_ge (if c < 256 then 256 else c) v (by split <;> omega)
    simp only; omega

/-- Backing array at least as long as the slice; words past the slice are zero. -/
structure Inv (b : Bm) : Prop where
  le : b.len ≤ b.mem.length
  zero : ∀ i, b.len ≤ i → b.mem.getD i 0 = 0

/-- Bit `n` of the visible slice. -/
def bit (b : Bm) (n : Nat) : Bool := (b.mem.getD (n / 64) 0).toNat.testBit (n % 64)

theorem inv_nil : Inv nilBm := ⟨by simp [nilBm], by simp [nilBm]⟩

theorem bit_of_len {b : Bm} (h : Inv b) {n : Nat} (hn : b.len ≤ n / 64) : bit b n = false := by
  rw [bit, h.zero _ hn]; simp

theorem growTo_spec {b : Bm} (h : Inv b) {idx : Nat} (hi : b.len ≤ idx) (hx : idx < 2 ^ 59) :
    ∃ b', growTo b idx = some b' ∧ Inv b' ∧ b'.len = idx + 1 ∧
      ∀ i, b'.mem.getD i 0 = b.mem.getD i 0 := by
  unfold growTo
  split
  · rename_i hlt
    refine ⟨_, rfl, ⟨by simp only; omega, fun i hle => h.zero i (by simp only at hle; omega)⟩, rfl,
      fun i => rfl⟩
  · rename_i hge
    have hr := resize_ge b.mem.length (idx + 1) (by omega)
    simp only [hr, if_true]
    refine ⟨_, rfl, ?_, rfl, ?_⟩
    · refine ⟨?_, ?_⟩
      · have := h.le
        simp only [List.length_append, List.length_take, List.length_replicate]; omega
      · intro i hle
        simp only at hle ⊢
        have := h.le
        rw [List.getD_eq_getElem?_getD, List.getElem?_append_right (by simp; omega),
          List.getElem?_replicate]
        split <;> rfl
    · intro i
      have hle := h.le
      simp only
      by_cases hlt : i < b.len
      · rw [List.getD_eq_getElem?_getD, List.getElem?_append_left (by simp; omega),
          List.getElem?_take_of_lt hlt, List.getD_eq_getElem?_getD]
      · rw [h.zero i (by omega)]
        rw [List.getD_eq_getElem?_getD, List.getElem?_append_right (by simp; omega),
          List.getElem?_replicate]
        split <;> rfl

theorem shr6 (x : UInt32) : (x >>> 6).toNat = x.toNat / 64 := by
  simp [UInt32.toNat_shiftRight, Nat.shiftRight_eq_div_pow]

theorem mod64 (x : UInt32) : (x % 64).toNat = x.toNat % 64 := by
  simp [UInt32.toNat_mod]

theorem one_shl (n : Nat) (h : n < 64) :
    ((1 : UInt64) <<< UInt64.ofNat n).toNat = 2 ^ n := by
  have h1 : (1 : UInt64).toNat = 1 := rfl
  rw [UInt64.toNat_shiftLeft, h1, UInt64.toNat_ofNat', Nat.mod_eq_of_lt (by omega : n < 2 ^ 64),
    Nat.mod_eq_of_lt h, Nat.shiftLeft_eq, Nat.one_mul]
  exact Nat.mod_eq_of_lt (Nat.pow_lt_pow_right (by omega) h)

theorem orBit_spec {b : Bm} (h : Inv b) {x : UInt32} (hx : (x >>> 6).toNat < b.len) :
    Inv (orBit b (x >>> 6).toNat (x % 64)) ∧ (orBit b (x >>> 6).toNat (x % 64)).len = b.len ∧
    ∀ n, bit (orBit b (x >>> 6).toNat (x % 64)) n = (bit b n || decide (n = x.toNat)) := by
  have hle := h.le
  refine ⟨⟨by simpa [orBit] using hle, ?_⟩, rfl, ?_⟩
  · intro i hi
    have hi' : b.len ≤ i := hi
    simp only [orBit, List.getD_eq_getElem?_getD]
    rw [List.getElem?_set_ne (by omega), ← List.getD_eq_getElem?_getD]
    exact h.zero i hi'
  · intro n
    simp only [bit, orBit, List.getD_eq_getElem?_getD]
    by_cases hn : (x >>> 6).toNat = n / 64
    · rw [← hn, List.getElem?_set_self (by omega)]
      simp only [Option.getD_some, UInt64.toNat_or, Nat.testBit_or]
      rw [one_shl _ (by rw [mod64]; omega), mod64]
      congr 1
      rw [shr6] at hn
      rw [Nat.testBit_two_pow]
      congr 1
      exact propext ⟨fun h => by omega, fun h => by omega⟩
    · rw [List.getElem?_set_ne hn]
      have : n ≠ x.toNat := by intro e; rw [shr6, e] at hn; exact hn rfl
      simp [this]

theorem quickSet_spec {b : Bm} (h : Inv b) (x : UInt32) :
    Inv (quickSet b x).1 ∧ (quickSet b x).1.len = b.len ∧
    ((quickSet b x).2 = true ↔ x.toNat / 64 < b.len) ∧
    ∀ n, bit (quickSet b x).1 n = (bit b n || (decide (n = x.toNat) && (quickSet b x).2)) := by
  unfold quickSet
  simp only
  split
  · rename_i hl
    rw [shr6] at hl
    exact ⟨h, rfl, by simp; omega, by simp⟩
  · rename_i hl
    have := orBit_spec h (x := x) (by omega)
    rw [shr6] at hl
    exact ⟨this.1, this.2.1, by simp; omega, by simpa using this.2.2⟩

theorem set_spec {b : Bm} (h : Inv b) (x : UInt32) :
    ∃ b', set b x = some b' ∧ Inv b' ∧ b'.len = max b.len (x.toNat / 64 + 1) ∧
    ∀ n, bit b' n = (bit b n || decide (n = x.toNat)) := by
  have hx : x.toNat < 2 ^ 32 := x.toNat_lt
  unfold set
  simp only
  split
  · rename_i hl
    obtain ⟨b1, e, hi, hlen, hm⟩ := growTo_spec h hl (by rw [shr6]; omega)
    have := orBit_spec hi (x := x) (by omega)
    refine ⟨_, by rw [e]; rfl, this.1, ?_, ?_⟩
    · rw [this.2.1, hlen, shr6]; rw [shr6] at hl; omega
    · intro n; rw [this.2.2 n]; simp only [bit, hm]
  · rename_i hl
    have := orBit_spec h (x := x) (by omega)
    refine ⟨_, rfl, this.1, ?_, this.2.2⟩
    rw [this.2.1]; rw [shr6] at hl; omega

theorem zeroes_spec {b : Bm} (h : Inv b) :
    Inv (zeroes b) ∧ (zeroes b).len = b.len ∧ ∀ n, bit (zeroes b) n = false := by
  have hle := h.le
  have hz : ∀ i, (zeroes b).mem.getD i 0 = 0 := by
    intro i
    simp only [zeroes, List.getD_eq_getElem?_getD]
    by_cases hi : i < b.len
    · rw [List.getElem?_append_left (by simpa using hi), List.getElem?_replicate]; split <;> rfl
    · rw [List.getElem?_append_right (by simp; omega), List.getElem?_drop,
        ← List.getD_eq_getElem?_getD]
      exact h.zero _ (by omega)
  refine ⟨⟨by simp [zeroes], fun i _ => hz i⟩, rfl, fun n => by rw [bit, hz]; simp⟩

theorem grow_spec {b : Bm} (h : Inv b) (hnil : b.isNil = true → b.len = 0) (x : UInt32) :
    ∃ b', grow b x = some b' ∧ Inv b' ∧
      b'.len = (if b.len < x.toNat / 64 ∨ b.isNil = true then x.toNat / 64 + 1 else b.len) ∧
      ∀ n, bit b' n = bit b n := by
  have hx : x.toNat < 2 ^ 32 := x.toNat_lt
  unfold grow
  simp only [shr6]
  split
  · rename_i hc
    have hl : b.len ≤ x.toNat / 64 := by
      rcases hc with hc | hc
      · omega
      · have := hnil hc; omega
    obtain ⟨b1, e, hi, hlen, hm⟩ := growTo_spec h hl (by omega)
    exact ⟨b1, e, hi, hlen, fun n => by simp only [bit, hm]⟩
  · exact ⟨b, rfl, h, rfl, fun n => rfl⟩

theorem growTo_nil {b b' : Bm} {idx : Nat} (h : growTo b idx = some b') :
    b'.isNil = true → b.isNil = true ∧ idx < b.mem.length := by
  unfold growTo at h
  split at h
  · rename_i hlt
    simp only [Option.some.injEq] at h; subst h; exact fun hn => ⟨hn, hlt⟩
  · simp only at h
    split at h
    · simp only [Option.some.injEq] at h; subst h; simp
    · simp at h

/-- `nil` has an empty backing array. -/
def NilOk (b : Bm) : Prop := b.isNil = true → b.mem = []

theorem orBit_nil {b : Bm} (h : NilOk b) (i : Nat) (j : UInt32) : NilOk (orBit b i j) := by
  intro hn
  have := h hn
  simp [orBit, this]

theorem growTo_nilOk {b b' : Bm} {idx : Nat} (hb : NilOk b) (h : growTo b idx = some b') :
    NilOk b' := by
  intro hn
  have := growTo_nil h hn
  rw [hb this.1] at this
  simp at this

theorem step_ok {b b' : Bm} {o : Op} {r : Bool} (h : Inv b) (hn : NilOk b)
    (hs : step b o = some (b', r)) : Inv b' ∧ NilOk b' := by
  have hnil : b.isNil = true → b.len = 0 := by
    intro e; have := h.le; rw [hn e] at this; simpa using this
  cases o with
  | set x =>
    simp only [step, Option.map_eq_some_iff, Prod.mk.injEq] at hs
    obtain ⟨b1, e, rfl, -⟩ := hs
    obtain ⟨b2, e2, hi, -, -⟩ := set_spec h x
    rw [e] at e2; cases e2
    refine ⟨hi, ?_⟩
    unfold set at e; simp only at e
    split at e
    · simp only [Option.map_eq_some_iff] at e
      obtain ⟨b3, e3, rfl⟩ := e
      exact orBit_nil (growTo_nilOk hn e3) _ _
    · cases e; exact orBit_nil hn _ _
  | quickSet x =>
    simp only [step, Option.some.injEq, Prod.ext_iff] at hs
    obtain ⟨rfl, -⟩ := hs
    refine ⟨(quickSet_spec h x).1, ?_⟩
    unfold quickSet; simp only
    split
    · exact hn
    · exact orBit_nil hn _ _
  | zeroes =>
    simp only [step, Option.some.injEq, Prod.mk.injEq] at hs
    obtain ⟨rfl, -⟩ := hs
    refine ⟨(zeroes_spec h).1, fun e => ?_⟩
    have e' : b.isNil = true := e
    simp [zeroes, hn e', hnil e']
  | grow x =>
    simp only [step, Option.map_eq_some_iff, Prod.mk.injEq] at hs
    obtain ⟨b1, e, rfl, -⟩ := hs
    obtain ⟨b2, e2, hi, -, -⟩ := grow_spec h hnil x
    rw [e] at e2; cases e2
    refine ⟨hi, ?_⟩
    unfold grow at e; simp only at e
    split at e
    · exact growTo_nilOk hn e
    · cases e; exact hn

theorem tz_spec (w : UInt64) (n : Nat) (hn : n ≤ 64)
    (hlow : ∀ j, j < 64 - n → w.toNat.testBit j = false) :
    (∀ j, j < trailingZeros w n → w.toNat.testBit j = false) ∧
    (trailingZeros w n < 64 → w.toNat.testBit (trailingZeros w n) = true) ∧
    trailingZeros w n ≤ 64 := by
  induction n with
  | zero => exact ⟨fun j hj => hlow j (by simpa [trailingZeros] using hj), by simp [trailingZeros], by simp [trailingZeros]⟩
  | succ n ih =>
    simp only [trailingZeros]
    split
    · rename_i ht
      exact ⟨fun j hj => hlow j hj, fun _ => ht, by omega⟩
    · rename_i ht
      apply ih (by omega)
      intro j hj
      by_cases e : j = 64 - (n + 1)
      · subst e; simpa using ht
      · exact hlow j (by omega)

/-- The lowest zero bit of a word that is not all ones. -/
theorem low_zero (w : UInt64) (hw : w ≠ 0xFFFFFFFFFFFFFFFF) :
    trailingZeros (~~~w) 64 < 64 ∧ w.toNat.testBit (trailingZeros (~~~w) 64) = false ∧
    ∀ j, j < trailingZeros (~~~w) 64 → w.toNat.testBit j = true := by
  have hc : ∀ j, j < 64 → (~~~w).toNat.testBit j = !w.toNat.testBit j := by
    intro j hj
    rw [UInt64.toNat_not]
    have e : UInt64.size - 1 - w.toNat = 2 ^ 64 - (w.toNat + 1) := by
      have : UInt64.size = 2 ^ 64 := rfl
      have := w.toNat_lt; omega
    rw [e, Nat.testBit_two_pow_sub_succ w.toNat_lt]
    simp [hj]
  obtain ⟨h1, h2, h3⟩ := tz_spec (~~~w) 64 (by omega) (by intro j hj; omega)
  have hlt : trailingZeros (~~~w) 64 < 64 := by
    rcases Nat.lt_or_ge (trailingZeros (~~~w) 64) 64 with h | h
    · exact h
    · exfalso
      apply hw
      apply UInt64.toNat_inj.1
      apply Nat.eq_of_testBit_eq
      intro j
      have e : (0xFFFFFFFFFFFFFFFF : UInt64).toNat = 2 ^ 64 - 1 := rfl
      rw [e, Nat.testBit_two_pow_sub_one]
      by_cases hj : j < 64
      · have := h1 j (by omega)
        rw [hc j hj] at this
        simpa [hj] using this
      · rw [Nat.testBit_lt_two_pow]
        · simp [hj]
        · calc w.toNat < 2 ^ 64 := w.toNat_lt
            _ ≤ 2 ^ j := Nat.pow_le_pow_right (by omega) (by omega)
  refine ⟨hlt, ?_, ?_⟩
  · have := h2 hlt
    rw [hc _ hlt] at this; simpa using this
  · intro j hj
    have := h1 j hj
    rw [hc j (by omega)] at this; simpa using this

theorem firstUnusedFrom_spec (ws : List UInt64) (i : Nat) :
    ∃ p, (firstUnusedFrom ws i).toNat = (i * 64 + p) % 2 ^ 32 ∧ p ≤ ws.length * 64 ∧
      (ws.getD (p / 64) 0).toNat.testBit (p % 64) = false ∧
      ∀ q, q < p → (ws.getD (q / 64) 0).toNat.testBit (q % 64) = true := by
  induction ws generalizing i with
  | nil =>
    refine ⟨0, ?_, by simp, by simp, by intro q hq; omega⟩
    simp only [firstUnusedFrom, UInt32.toNat_ofNat', Nat.shiftLeft_eq]
    omega
  | cons w ws ih =>
    simp only [firstUnusedFrom]
    split
    · rename_i hw
      obtain ⟨h1, h2, h3⟩ := low_zero w hw
      refine ⟨trailingZeros (~~~w) 64, ?_, by simp only [List.length_cons]; omega, ?_, ?_⟩
      · rw [UInt32.toNat_ofNat', Nat.shiftLeft_eq]
      · rw [Nat.div_eq_of_lt h1, Nat.mod_eq_of_lt h1]; simpa using h2
      · intro q hq
        rw [Nat.div_eq_of_lt (by omega), Nat.mod_eq_of_lt (by omega)]; simpa using h3 q hq
    · rename_i hw
      have hw : w = 0xFFFFFFFFFFFFFFFF := by simpa using hw
      obtain ⟨p, h1, h2, h3, h4⟩ := ih (i + 1)
      refine ⟨p + 64, by omega, by simp only [List.length_cons]; omega, ?_, ?_⟩
      · rw [show (p + 64) / 64 = p / 64 + 1 by omega, show (p + 64) % 64 = p % 64 by omega]
        simpa using h3
      · intro q hq
        by_cases hlt : q < 64
        · rw [Nat.div_eq_of_lt hlt, Nat.mod_eq_of_lt hlt, hw]
          have e : (0xFFFFFFFFFFFFFFFF : UInt64).toNat = 2 ^ 64 - 1 := rfl
          simp only [List.getD_cons_zero, e, Nat.testBit_two_pow_sub_one, hlt, decide_true]
        · have := h4 (q - 64) (by omega)
          rw [show q / 64 = (q - 64) / 64 + 1 by omega, show q % 64 = (q - 64) % 64 by omega]
          simpa using this

end Verif.Bitmap
