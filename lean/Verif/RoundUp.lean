/-!
# `utils/helpers.go`: `RoundUpPow`

Model of the bit-smearing rounding used to size every queue and bitmap.
-/

namespace Verif.RoundUp

/-- `utils/helpers.go:40-50` `RoundUpPow`, on Go's wrapping `uint64`.
One assignment per line, in the order of the source. -/
def roundUpPow (i : UInt64) : UInt64 :=
  let i := i - 1
  let i := i ||| (i >>> 1)
  let i := i ||| (i >>> 2)
  let i := i ||| (i >>> 4)
  let i := i ||| (i >>> 8)
  let i := i ||| (i >>> 16)
  let i := i ||| (i >>> 32)
  i + 1

/-! ## Helper lemmas -/

/-- One smear step on naturals. -/
def smear (w n : Nat) : Nat := n ||| (n >>> w)

/-- `x` has bit `i` exactly when `n` has a bit in `[i, i+w)`. -/
def Covers (n w x : Nat) : Prop :=
  ∀ i, x.testBit i = true ↔ ∃ j, j < w ∧ n.testBit (i + j) = true

theorem covers_one (n : Nat) : Covers n 1 n := by
  intro i
  constructor
  · intro h; exact ⟨0, by omega, by simpa using h⟩
  · rintro ⟨j, hj, h⟩
    have : j = 0 := by omega
    subst this; simpa using h

theorem covers_smear {n w x : Nat} (h : Covers n w x) : Covers n (2 * w) (smear w x) := by
  intro i
  simp only [smear, Nat.testBit_or, Nat.testBit_shiftRight, Bool.or_eq_true, h i, h (w + i)]
  constructor
  · rintro (⟨j, hj, hb⟩ | ⟨j, hj, hb⟩)
    · exact ⟨j, by omega, hb⟩
    · exact ⟨w + j, by omega, by rw [← hb]; congr 1; omega⟩
  · rintro ⟨j, hj, hb⟩
    by_cases hjw : j < w
    · exact Or.inl ⟨j, hjw, hb⟩
    · exact Or.inr ⟨j - w, by omega, by rw [← hb]; congr 1; omega⟩

def smear64 (n : Nat) : Nat :=
  smear 32 (smear 16 (smear 8 (smear 4 (smear 2 (smear 1 n)))))

theorem covers_smear64 (n : Nat) : Covers n 64 (smear64 n) :=
  covers_smear (w := 32) (covers_smear (w := 16) (covers_smear (w := 8)
    (covers_smear (w := 4) (covers_smear (w := 2) (covers_smear (w := 1) (covers_one n))))))

theorem smear64_eq {n : Nat} (h0 : n ≠ 0) (hn : n < 2 ^ 64) :
    smear64 n = 2 ^ (n.log2 + 1) - 1 := by
  have hlog : n.log2 < 64 := (Nat.log2_lt h0).2 hn
  apply Nat.eq_of_testBit_eq
  intro i
  rw [Bool.eq_iff_iff, covers_smear64 n i, Nat.testBit_two_pow_sub_one, decide_eq_true_iff]
  constructor
  · rintro ⟨j, hj, hb⟩
    have : i + j < n.log2 + 1 := by
      apply Nat.lt_of_not_le
      intro hle
      have : n < 2 ^ (i + j) :=
        Nat.lt_of_lt_of_le Nat.lt_log2_self (Nat.pow_le_pow_right (by omega) hle)
      rw [Nat.testBit_lt_two_pow this] at hb
      exact absurd hb (by simp)
    omega
  · intro hi
    refine ⟨n.log2 - i, by omega, ?_⟩
    have : i + (n.log2 - i) = n.log2 := by omega
    rw [this]
    exact Nat.testBit_log2 h0

theorem smear64_zero : smear64 0 = 0 := by decide

theorem toNat_smear (x : UInt64) (w : UInt64) (hw : w.toNat < 64) :
    (x ||| (x >>> w)).toNat = smear w.toNat x.toNat := by
  simp only [smear, UInt64.toNat_or, UInt64.toNat_shiftRight, Nat.mod_eq_of_lt hw]

theorem roundUpPow_toNat (i : UInt64) :
    (roundUpPow i).toNat = (smear64 (i - 1).toNat + 1) % 2 ^ 64 := by
  unfold roundUpPow smear64
  simp only [UInt64.toNat_add, UInt64.toNat_one]
  rw [toNat_smear _ 32 (by decide), toNat_smear _ 16 (by decide), toNat_smear _ 8 (by decide),
    toNat_smear _ 4 (by decide), toNat_smear _ 2 (by decide), toNat_smear _ 1 (by decide)]
  rfl

end Verif.RoundUp
