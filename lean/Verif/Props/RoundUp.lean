import Verif.RoundUp

/-!
# C08 — requested capacities are rounded up to the least power of two
-/

namespace Verif.Props.C08
open Verif.RoundUp

/-- Specification: `r` is the least power of two that is at least `n`. -/
def IsLeastPow2GE (n r : Nat) : Prop :=
  (∃ k, r = 2 ^ k) ∧ n ≤ r ∧ ∀ k, n ≤ 2 ^ k → r ≤ 2 ^ k

/-- C08. For every request between 1 and 2^63 the result is the least power of two that is at
least the request (in particular it did not wrap). -/
theorem C08_roundUpPow_least (i : UInt64) (h1 : 1 ≤ i.toNat) (h2 : i.toNat ≤ 2 ^ 63) :
    IsLeastPow2GE i.toNat (roundUpPow i).toNat := by
  have hsub : (i - 1).toNat = i.toNat - 1 := by
    rw [UInt64.toNat_sub_of_le]
    · rfl
    · exact UInt64.le_iff_toNat_le.2 (by simpa using h1)
  rw [roundUpPow_toNat, hsub]
  generalize i.toNat = n at *
  by_cases h : n - 1 = 0
  · have : n = 1 := by omega
    subst this
    rw [Nat.sub_self, smear64_zero]
    exact ⟨⟨0, by decide⟩, by decide, fun k _ => Nat.one_le_two_pow⟩
  · rw [smear64_eq h (by omega)]
    have hlog : (n - 1).log2 < 63 := (Nat.log2_lt h).2 (by omega)
    have hpos : 0 < 2 ^ ((n - 1).log2 + 1) := Nat.two_pow_pos _
    have hle : 2 ^ ((n - 1).log2 + 1) ≤ 2 ^ 63 := Nat.pow_le_pow_right (by omega) (by omega)
    have hlt : n - 1 < 2 ^ ((n - 1).log2 + 1) := Nat.lt_log2_self
    have hge : 2 ^ (n - 1).log2 ≤ n - 1 := Nat.log2_self_le h
    rw [Nat.sub_add_cancel hpos, Nat.mod_eq_of_lt (by omega)]
    refine ⟨⟨_, rfl⟩, by omega, fun k hk => ?_⟩
    apply Nat.pow_le_pow_right (by omega)
    apply Nat.lt_of_not_le
    intro hkl
    have := Nat.pow_le_pow_right (n := 2) (by omega) hkl
    omega

/-- The hypotheses are met by a non-trivial request. -/
example : IsLeastPow2GE 1000 (roundUpPow 1000).toNat :=
  C08_roundUpPow_least 1000 (by decide) (by decide)
example : roundUpPow 1000 = 1024 := by decide

/-- Outside the range the function wraps to 0 (so a queue of capacity 0 is requested): the two
rejected cases, stated explicitly. -/
theorem C08_roundUpPow_out_of_range (i : UInt64) (h : i = 0 ∨ 2 ^ 63 < i.toNat) :
    roundUpPow i = 0 := by
  rcases h with h | h
  · subst h; decide
  · apply UInt64.toNat_inj.1
    have hi : i.toNat < 2 ^ 64 := i.toNat_lt
    have hsub : (i - 1).toNat = i.toNat - 1 := by
      rw [UInt64.toNat_sub_of_le]
      · rfl
      · exact UInt64.le_iff_toNat_le.2 (by simp; omega)
    rw [roundUpPow_toNat, hsub, smear64_eq (by omega) (by omega)]
    have h1 : (i.toNat - 1).log2 < 64 := (Nat.log2_lt (by omega)).2 (by omega)
    have h2 : 63 ≤ (i.toNat - 1).log2 := (Nat.le_log2 (by omega)).2 (by omega)
    have : (i.toNat - 1).log2 = 63 := by omega
    rw [this]; decide

example : roundUpPow 9223372036854775809 = 0 := C08_roundUpPow_out_of_range _ (Or.inr (by decide))

end Verif.Props.C08
