import Verif.Looks

/-!
# C59, C60: a look at a queue that has only grown does not lead to a vote

This is the guard `votes` of `Verif/Query.lean`, proved for the queue, the loop and the check.
-/

namespace Verif.Looks

/-- Events were put before a ring can be full; the grown ring holds the event it was grown for; in an epoch nothing is
put, and until the thread has switched to the grown ring it has made no check. -/
structure Inv (s : St) : Prop where
  stuck : s.full = true → 0 < s.acts + s.cur
  grown : ∀ n, s.nxt = some n → 0 < n ∧ 0 < s.acts + s.cur
  still : s.asked = true → s.full = false
  asked : s.epoch = true → s.asked = true
  calm : s.epoch = false → s.view = 0
  first : s.epoch = true → s.nxt ≠ none → s.view = 0
  one : s.check = true → s.epoch = true → s.nxt = none
  look : s.check = true → s.epoch = true → s.cur ≠ 0 → s.view = 0 ∧ 0 < s.acts

theorem inv_start : Inv start := by
  constructor <;> simp [start]

theorem inv_step {ring : Nat} (hr : 1 ≤ ring) {s s' : St} {x : Act} (hi : Inv s) (h : step ring s x = some s') : Inv s' := by
  obtain ⟨h1, h2, h3, h4, h5, h6, h7, h8⟩ := hi
  cases x <;> simp only [step] at h <;> constructor <;> grind [past]

theorem inv_run {ring : Nat} (hr : 1 ≤ ring) : ∀ (xs : List Act) (s s' : St), Inv s → run ring s xs = some s' → Inv s'
  | [], s, s', hi, h => by simp only [run, Option.some.injEq] at h; exact h ▸ hi
  | x :: xs, s, s', hi, h => by
    simp only [run, Option.bind_eq_some_iff] at h
    obtain ⟨t, ht, h⟩ := h
    exact inv_run hr xs t s' (inv_step hr hi ht) h

/-- In an epoch, `CheckTermination` gets past the report of a changed view only if no event is in either ring. -/
theorem C59_vote_empty (ring : Nat) (hr : 1 ≤ ring) (xs : List Act) (s : St) (h : run ring start xs = some s)
    (he : s.epoch = true) (hc : s.check = true) (hv : s.view = s.acts + s.others) : s.cur = 0 ∧ s.nxt = none := by
  have hi := inv_run hr xs _ _ inv_start h
  refine ⟨Nat.eq_zero_of_not_pos fun hp => ?_, hi.one hc he⟩
  have := hi.look hc he (by omega)
  omega

/-- And if nothing else happens it does get past it: from any state of an epoch, the thread takes what is in the rings, looks
again after a miss, and the check after the second look at an empty queue finds its view unchanged. -/
theorem C60_vote_next (ring : Nat) (s : St) (he : s.epoch = true) (hc : s.check = false) :
    ∃ ys s', run ring s ys = some s' ∧ (∀ y ∈ ys, (∃ k, y = .take k false) ∨ y = .miss ∨ y = .empty ∨ y = .check) ∧
      s'.epoch = true ∧ s'.check = true ∧ s'.cur = 0 ∧ s'.nxt = none ∧ s'.acts = s.acts + s.cur + s.nxt.getD 0 ∧
      s'.others = s.others ∧ s'.view = s'.acts + s'.others := by
  have drain : ∀ (t : St), t.epoch = true → t.check = false → t.nxt = none → ∃ ys s', run ring t ys = some s' ∧
      (∀ y ∈ ys, (∃ k, y = .take k false) ∨ y = .miss ∨ y = .empty ∨ y = .check) ∧
      s'.epoch = true ∧ s'.check = true ∧ s'.cur = 0 ∧ s'.nxt = none ∧ s'.acts = t.acts + t.cur ∧ s'.others = t.others ∧
      s'.view = s'.acts + s'.others := by
    intro t h1 h2 h3
    by_cases h0 : t.cur = 0
    · exact ⟨[.empty, .check, .empty], _, by simp [run, step, h0, h1, h2, h3]; rfl, by simp, by simp [h0]⟩
    · exact ⟨[.take t.cur false, .empty, .check, .empty], _,
        by simp [run, step, h1, h2, h3, Nat.pos_of_ne_zero h0]; rfl, by simp, by simp⟩
  cases hn : s.nxt with
  | none => simpa [hn] using drain s he hc hn
  | some n =>
    by_cases h0 : s.cur = 0
    · obtain ⟨ys, s', h1, h2, h3⟩ := drain { s with cur := n, nxt := none, check := false, view := s.acts + s.others } he rfl rfl
      refine ⟨.miss :: .check :: ys, s', ?_, ?_, ?_⟩
      · simpa [run, step, h0, hc, hn, he] using h1
      · simpa using h2
      · simpa [h0] using h3
    · obtain ⟨ys, s', h1, h2, h3⟩ := drain { s with cur := n, nxt := none, check := false, acts := s.acts + s.cur, view := s.acts + s.cur + s.others } he rfl rfl
      refine ⟨.take s.cur false :: .miss :: .check :: ys, s', ?_, ?_, ?_⟩
      · simpa [run, step, Nat.pos_of_ne_zero h0, hc, hn, he] using h1
      · simpa using h2
      · simpa using h3

/-- A vote is reached with a queue that had grown: two rings, a miss, a report, and a second look. -/
def case : List Act :=
  [.put, .put, .stuck, .grow, .ask, .epoch, .take 2 false, .miss, .check, .take 1 false, .empty, .check, .empty]

example : (run 2 start case).any (fun s => s.epoch && s.check && past s && decide (s.acts = 3)) = true := by decide +kernel

/-- A state `C60_vote_next` starts from. -/
example : (run 2 start (case.take 6)).any (fun s => s.epoch && !s.check && decide (s.cur = 2) && decide (s.nxt = some 1)) = true := by decide +kernel

/-- The same in a second query: the queue grows again after the first one. -/
def twice : List Act :=
  case ++ [.resume, .put, .put, .stuck, .take 2 false, .grow, .ask, .epoch, .miss, .check, .take 1 false, .empty, .check, .empty]

example : (run 2 start twice).any (fun s => s.epoch && s.check && past s && decide (s.acts = 6)) = true := by decide +kernel

/-- The look that misses finds `topCount == 0` in an epoch with an event in the queue, so the vote does depend on the view. -/
theorem C59_miss_happens : ∃ s, run 2 start (case.take 8) = some s ∧ s.epoch = true ∧ s.check = true ∧ s.cur = 1 ∧ past s = false :=
  ⟨_, rfl, by decide +kernel⟩

end Verif.Looks
