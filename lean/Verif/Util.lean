/-! Small shared helpers (function update, modular index facts). -/

namespace Verif

/-- Update a total function at one point (an array/map store). -/
def upd {ι : Type} {β : Type} [DecidableEq ι] (f : ι → β) (i : ι) (v : β) : ι → β :=
  fun j => if j = i then v else f j

@[simp] theorem upd_same {ι β : Type} [DecidableEq ι] (f : ι → β) (i : ι) (v : β) :
    upd f i v i = v := by simp [upd]

theorem upd_ne {ι β : Type} [DecidableEq ι] (f : ι → β) {i j : ι} (v : β) (h : j ≠ i) :
    upd f i v j = f j := by simp [upd, h]

theorem and_mask (k n : Nat) : n &&& (2 ^ k - 1) = n % 2 ^ k := Nat.and_two_pow_sub_one_eq_mod n k

/-- Two positions less than `size` apart use different slots. -/
theorem mod_ne_of_lt {a b size : Nat} (h : a < b) (h2 : b < a + size) : a % size ≠ b % size := by
  intro heq
  have hs : 0 < size := by omega
  have h1 := Nat.div_add_mod a size
  have h3 := Nat.div_add_mod b size
  have hlt : a / size < b / size ∨ b / size ≤ a / size := by omega
  rcases hlt with hlt | hle
  · have : size * (a / size + 1) ≤ size * (b / size) := Nat.mul_le_mul_left _ hlt
    rw [Nat.mul_add] at this; omega
  · have := Nat.mul_le_mul_left size hle
    omega

/-- Every window of `size` consecutive positions contains one with a given residue. -/
theorem exists_window (c p size : Nat) (hs : 0 < size) :
    ∃ q, c ≤ q ∧ q < c + size ∧ q % size = p % size := by
  have h1 : c % size < size := Nat.mod_lt _ hs
  have h2 : p % size < size := Nat.mod_lt _ hs
  have hc := Nat.div_add_mod c size
  by_cases h : c % size ≤ p % size
  · refine ⟨size * (c / size) + p % size, by omega, by omega, ?_⟩
    rw [Nat.mul_add_mod]; exact Nat.mod_mod _ _
  · refine ⟨size * (c / size + 1) + p % size, ?_, ?_, ?_⟩
    · rw [Nat.mul_add]; omega
    · rw [Nat.mul_add]; omega
    · rw [Nat.mul_add_mod]; exact Nat.mod_mod _ _

/-- Consecutive positions use different slots unless the ring has one slot. -/
theorem mod_succ_ne {q size : Nat} (hs : 2 ≤ size) : (q + 1) % size ≠ q % size := by
  intro h
  exact mod_ne_of_lt (a := q) (b := q + 1) (size := size) (by omega) (by omega) h.symm

end Verif
