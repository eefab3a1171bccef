/-!
# A stable sort

Contract of Go's `sort.SliceStable`: the result is sorted, has the same elements, and elements keep
their order where the order allows it. These determine the result; insertion sort is used because it
computes well.
-/

namespace Verif

variable {α : Type}

def insertSorted (le : α → α → Bool) (a : α) : List α → List α
  | [] => [a]
  | b :: l => if le a b then a :: b :: l else b :: insertSorted le a l

/-- `sort.SliceStable` with `le a b` for "not b less than a". -/
def stableSort (le : α → α → Bool) : List α → List α
  | [] => []
  | a :: l => insertSorted le a (stableSort le l)

theorem insertSorted_perm (le : α → α → Bool) (a : α) : ∀ l : List α, (insertSorted le a l).Perm (a :: l)
  | [] => List.Perm.refl _
  | b :: l => by
    unfold insertSorted
    split
    · exact List.Perm.refl _
    · exact ((insertSorted_perm le a l).cons b).trans (List.Perm.swap a b l)

theorem stableSort_perm (le : α → α → Bool) : ∀ l : List α, (stableSort le l).Perm l
  | [] => List.Perm.refl _
  | a :: l => (insertSorted_perm le a _).trans ((stableSort_perm le l).cons a)

@[simp] theorem stableSort_length (le : α → α → Bool) (l : List α) : (stableSort le l).length = l.length := (stableSort_perm le l).length_eq

theorem insertSorted_pairwise {le : α → α → Bool} (tr : ∀ a b c, le a b = true → le b c = true → le a c = true) (tot : ∀ a b, (le a b || le b a) = true) (a : α) :
    ∀ l : List α, l.Pairwise (fun a b => le a b = true) → (insertSorted le a l).Pairwise (fun a b => le a b = true)
  | [], _ => by simp [insertSorted]
  | b :: l, h => by
    obtain ⟨h1, h2⟩ := List.pairwise_cons.1 h
    unfold insertSorted
    split
    · next hab =>
      refine List.pairwise_cons.2 ⟨?_, h⟩
      intro x hx
      rw [List.mem_cons] at hx
      rcases hx with hx | hx
      · rw [hx]; exact hab
      · exact tr a b x hab (h1 x hx)
    · next hab =>
      refine List.pairwise_cons.2 ⟨?_, insertSorted_pairwise tr tot a l h2⟩
      intro x hx
      rw [(insertSorted_perm le a l).mem_iff, List.mem_cons] at hx
      rcases hx with hx | hx
      · rw [hx]
        have := tot a b
        rw [Bool.or_eq_true] at this
        exact this.resolve_left hab
      · exact h1 x hx

theorem stableSort_pairwise {le : α → α → Bool} (tr : ∀ a b c, le a b = true → le b c = true → le a c = true) (tot : ∀ a b, (le a b || le b a) = true) :
    ∀ l : List α, (stableSort le l).Pairwise (fun a b => le a b = true)
  | [] => List.Pairwise.nil
  | a :: l => insertSorted_pairwise tr tot a _ (stableSort_pairwise tr tot l)

theorem sublist_insertSorted (le : α → α → Bool) (a : α) : ∀ l : List α, l.Sublist (insertSorted le a l)
  | [] => List.nil_sublist _
  | b :: l => by
    unfold insertSorted
    split
    · exact List.sublist_cons_self ..
    · exact (sublist_insertSorted le a l).cons_cons b

theorem cons_sublist_insertSorted {le : α → α → Bool} {a : α} : ∀ {c l : List α}, c.Sublist l → (∀ x ∈ c, le a x = true) → (a :: c).Sublist (insertSorted le a l) := by
  intro c l h
  induction l generalizing c with
  | nil =>
    intro _
    have : c = [] := List.sublist_nil.1 h
    subst this
    exact List.Sublist.refl _
  | cons b l ih =>
    intro hc
    unfold insertSorted
    split
    · exact h.cons_cons a
    · next hab =>
      have hcl : c.Sublist l := by
        cases h with
        | cons _ h => exact h
        | cons_cons _ h => exact absurd (hc b (List.mem_cons_self ..)) hab
      exact (ih hcl hc).cons b

/-- Stability: a sublist that is in order stays a sublist. -/
theorem sublist_stableSort {le : α → α → Bool} {c l : List α} (hc : c.Pairwise (fun a b => le a b = true)) (h : c.Sublist l) : c.Sublist (stableSort le l) := by
  induction h with
  | slnil => exact List.Sublist.refl _
  | cons a h ih => exact (ih hc).trans (sublist_insertSorted le a _)
  | cons_cons a h ih =>
    obtain ⟨h1, h2⟩ := List.pairwise_cons.1 hc
    exact cons_sublist_insertSorted (ih h2) h1

end Verif
