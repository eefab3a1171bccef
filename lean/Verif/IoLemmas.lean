import Verif.Io

/-! Helper lemmas for parsing and line scanning. -/

namespace Verif.Io

theorem isByteSpace_iff (b : UInt8) :
    isByteSpace b = true ↔ b ∈ [9, 10, 11, 12, 13, 32] := by
  have : ∀ n : Fin 256, isByteSpace (UInt8.ofNat n.val) = true ↔
      (UInt8.ofNat n.val) ∈ ([9, 10, 11, 12, 13, 32] : List UInt8) := by decide +kernel
  have h := this ⟨b.toNat, b.toNat_lt⟩
  simpa using h

theorem skipSpaces_spec (l : List UInt8) :
    ∃ sp, l = sp ++ skipSpaces l ∧ (∀ b ∈ sp, isByteSpace b = true) ∧
      ∀ b bs, skipSpaces l = b :: bs → isByteSpace b = false := by
  induction l with
  | nil => exact ⟨[], rfl, by simp, by simp [skipSpaces]⟩
  | cons b bs ih =>
    simp only [skipSpaces]
    split
    · rename_i hb
      obtain ⟨sp, h1, h2, h3⟩ := ih
      exact ⟨b :: sp, by rw [List.cons_append, ← h1], by simpa [hb] using h2, h3⟩
    · rename_i hb
      refine ⟨[], rfl, by simp, ?_⟩
      intro c cs h
      simp only [List.cons.injEq] at h
      rw [← h.1]; simpa using hb

theorem skipSpaces_append (sp l : List UInt8) (h : ∀ b ∈ sp, isByteSpace b = true) :
    skipSpaces (sp ++ l) = skipSpaces l := by
  induction sp with
  | nil => rfl
  | cons b bs ih =>
    simp only [List.cons_append, skipSpaces, h b (by simp), if_true]
    exact ih (fun c hc => h c (by simp [hc]))

theorem skipSpaces_id {l : List UInt8} (h : ∀ b bs, l = b :: bs → isByteSpace b = false) :
    skipSpaces l = l := by
  cases l with
  | nil => rfl
  | cons b bs => simp [skipSpaces, h b bs rfl]

/-- Reading a token: the loop collects its bytes. -/
theorem fieldsLoop_token (fields : List (List UInt8)) (idx : Nat) (cur t rest : List UInt8)
    (ht : ∀ b ∈ t, isByteSpace b = false) :
    fieldsLoop fields idx cur (t ++ rest) = fieldsLoop fields idx (cur ++ t) rest := by
  induction t generalizing cur with
  | nil => simp
  | cons b bs ih =>
    rw [List.cons_append, fieldsLoop, ht b (by simp)]
    simp only [Bool.false_eq_true, if_false]
    rw [ih _ (fun c hc => ht c (by simp [hc]))]
    simp

theorem slice_length (buf : Nat → UInt8) (a b : Nat) : (slice buf a b).length = b - a := by
  simp [slice]

theorem slice_getElem? (buf : Nat → UInt8) (a b i : Nat) :
    (slice buf a b)[i]? = if i < b - a then some (buf (a + i)) else none := by
  simp only [slice, List.getElem?_map]
  split
  · rename_i h; simp [List.getElem?_range h]
  · rename_i h; rw [List.getElem?_eq_none (by simpa using h)]; rfl

theorem slice_take (buf : Nat → UInt8) (a b i : Nat) (h : a + i ≤ b) :
    slice buf a (a + i) = (slice buf a b).take i := by
  apply List.ext_getElem?
  intro k
  rw [slice_getElem?, List.getElem?_take, slice_getElem?]
  by_cases hk : k < i
  · rw [if_pos (by omega), if_pos hk, if_pos (by omega)]
  · rw [if_neg (by omega), if_neg hk]

theorem slice_drop (buf : Nat → UInt8) (a b i : Nat) :
    slice buf (a + i) b = (slice buf a b).drop i := by
  apply List.ext_getElem?
  intro k
  rw [slice_getElem?, List.getElem?_drop, slice_getElem?]
  by_cases hk : k < b - (a + i)
  · rw [if_pos hk, if_pos (by omega)]; congr 2; omega
  · rw [if_neg hk, if_neg (by omega)]

theorem shiftLoop_spec (buf : Nat → UInt8) (start : Nat) (hs : 0 < start) (k i : Nat) :
    ∀ j, shiftLoop buf start i k j = if i ≤ j ∧ j < i + k then buf (start + j) else buf j := by
  induction k generalizing buf i with
  | zero => intro j; rw [shiftLoop, if_neg (by omega)]
  | succ k ih =>
    intro j
    rw [shiftLoop, ih]
    by_cases h1 : i + 1 ≤ j ∧ j < i + 1 + k
    · rw [if_pos h1, if_neg (show ¬ start + j = i by omega), if_pos (by omega)]
    · rw [if_neg h1]
      by_cases h2 : j = i
      · subst h2; rw [if_pos rfl, if_pos (by omega)]
      · rw [if_neg h2, if_neg (by omega)]

/-- The bytes not yet handed out. -/
def pending (s : Scanner) : List UInt8 := slice s.buf s.start s.stop ++ s.rest

/-- Positions are in range. -/
structure Ok (L : Nat) (s : Scanner) : Prop where
  le : s.start ≤ s.stop
  cap : s.stop ≤ L

theorem shift_ok {L : Nat} {s : Scanner} (h : Ok L s) :
    Ok L (shift L s) ∧ slice (shift L s).buf (shift L s).start (shift L s).stop =
      slice s.buf s.start s.stop ∧ (shift L s).rest = s.rest ∧ (shift L s).chunks = s.chunks ∧
      (shift L s).start ≤ L / 2 := by
  unfold shift
  have h1 := h.le
  have h2 := h.cap
  split
  · rename_i hc
    refine ⟨⟨by simp, by simp only; omega⟩, ?_, rfl, rfl, by simp⟩
    simp only
    apply List.ext_getElem?
    intro k
    rw [slice_getElem?, slice_getElem?, shiftLoop_spec _ _ hc.1]
    simp only [Nat.zero_add, Nat.sub_zero, Nat.zero_le, true_and]
    by_cases hk : k < s.stop - s.start
    · simp [hk]
    · simp [hk]
  · exact ⟨h, rfl, rfl, rfl, by omega⟩

theorem readInto_ok {L : Nat} {s : Scanner} (h : Ok L s) :
    Ok L (readInto L s) ∧ pending (readInto L s) = pending s ∧ (readInto L s).start = s.start ∧
    (readInto L s).rest.length = s.rest.length - readAmount (L - s.stop) s ∧
    slice (readInto L s).buf (readInto L s).start (readInto L s).stop =
      slice s.buf s.start s.stop ++ s.rest.take (readAmount (L - s.stop) s) := by
  have h1 := h.le
  have h2 := h.cap
  have hn : readAmount (L - s.stop) s ≤ L - s.stop := by unfold readAmount; omega
  have hn2 : readAmount (L - s.stop) s ≤ s.rest.length := by unfold readAmount; omega
  have hsl : slice (readInto L s).buf (readInto L s).start (readInto L s).stop =
      slice s.buf s.start s.stop ++ s.rest.take (readAmount (L - s.stop) s) := by
    simp only [readInto]
    generalize readAmount (L - s.stop) s = n at hn hn2
    apply List.ext_getElem?
    intro k
    rw [slice_getElem?]
    by_cases hk : k < s.stop - s.start
    · rw [if_pos (by omega), List.getElem?_append_left (by rw [slice_length]; exact hk),
        slice_getElem?, if_pos hk, if_neg (by omega)]
    · rw [List.getElem?_append_right (by rw [slice_length]; omega), slice_length]
      by_cases hk2 : k < s.stop + n - s.start
      · rw [if_pos hk2, if_pos (by omega), List.getElem?_take, if_pos (by omega),
          show s.start + k - s.stop = k - (s.stop - s.start) by omega,
          List.getD_eq_getElem?_getD, List.getElem?_eq_getElem (by omega)]
        rfl
      · rw [if_neg hk2, List.getElem?_eq_none (by rw [List.length_take]; omega)]
  refine ⟨⟨by simp only [readInto]; omega, by simp only [readInto]; omega⟩, ?_, rfl,
    by simp [readInto], hsl⟩
  rw [pending, hsl, pending]
  simp only [readInto, List.append_assoc, List.take_append_drop]

theorem findNl_none {l : List UInt8} (h : findNl l = none) : ∀ b ∈ l, b ≠ 10 := by
  induction l with
  | nil => simp
  | cons b bs ih =>
    simp only [findNl] at h
    split at h
    · simp at h
    · rename_i hb
      simp only [Option.map_eq_none_iff] at h
      intro c hc
      rcases List.mem_cons.1 hc with rfl | hc
      · exact hb
      · exact ih h c hc

theorem findNl_some {l : List UInt8} {i : Nat} (h : findNl l = some i) :
    i < l.length ∧ (∀ b ∈ l.take i, b ≠ 10) ∧ l = l.take i ++ 10 :: l.drop (i + 1) := by
  induction l generalizing i with
  | nil => simp [findNl] at h
  | cons b bs ih =>
    simp only [findNl] at h
    split at h
    · rename_i hb
      simp only [Option.some.injEq] at h
      subst h; subst hb
      simp
    · rename_i hb
      simp only [Option.map_eq_some_iff] at h
      obtain ⟨j, hj, rfl⟩ := h
      obtain ⟨h1, h2, h3⟩ := ih hj
      refine ⟨by simp; omega, ?_, ?_⟩
      · intro c hc
        simp only [List.take_succ_cons, List.mem_cons] at hc
        rcases hc with rfl | hc
        · exact hb
        · exact h2 c hc
      · simp only [List.take_succ_cons, List.drop_succ_cons, List.cons_append, ← h3]

theorem nl_unique {l1 l2 r1 r2 : List UInt8} (h1 : ∀ b ∈ l1, b ≠ 10) (h2 : ∀ b ∈ l2, b ≠ 10)
    (h : l1 ++ 10 :: r1 = l2 ++ 10 :: r2) : l1 = l2 ∧ r1 = r2 := by
  induction l1 generalizing l2 with
  | nil =>
    cases l2 with
    | nil => simpa using h
    | cons b bs =>
      simp only [List.nil_append, List.cons_append, List.cons.injEq] at h
      exact absurd h.1.symm (h2 b (by simp))
  | cons a as ih =>
    cases l2 with
    | nil =>
      simp only [List.nil_append, List.cons_append, List.cons.injEq] at h
      exact absurd h.1 (h1 a (by simp))
    | cons b bs =>
      simp only [List.cons_append, List.cons.injEq] at h
      obtain ⟨e1, e2⟩ := ih (fun c hc => h1 c (by simp [hc])) (fun c hc => h2 c (by simp [hc])) h.2
      exact ⟨by rw [h.1, e1], e2⟩

theorem prefix_le {a r l t : List UInt8} (ha : ∀ b ∈ a, b ≠ 10) (h : a ++ r = l ++ 10 :: t) :
    a.length ≤ l.length := by
  rcases Nat.lt_or_ge l.length a.length with hlt | hge
  · exfalso
    have h1 : (a ++ r)[l.length]? = some 10 := by rw [h]; simp
    rw [List.getElem?_append_left hlt, List.getElem?_eq_getElem hlt] at h1
    simp only [Option.some.injEq] at h1
    exact ha _ (List.getElem_mem hlt) h1
  · exact hge

/-- A newline inside the buffered bytes: the line and what remains. -/
theorem take_line {L : Nat} {s : Scanner} (h : Ok L s) {i : Nat}
    (hf : findNl (slice s.buf s.start s.stop) = some i) {l rest : List UInt8}
    (hl : ∀ b ∈ l, b ≠ 10) (hp : pending s = l ++ 10 :: rest) :
    slice s.buf s.start (s.start + i) = l ∧ Ok L { s with start := s.start + i + 1 } ∧
      pending { s with start := s.start + i + 1 } = rest := by
  obtain ⟨h1, h2, h3⟩ := findNl_some hf
  rw [slice_length] at h1
  have e : (slice s.buf s.start s.stop).take i ++
      10 :: ((slice s.buf s.start s.stop).drop (i + 1) ++ s.rest) = l ++ 10 :: rest := by
    rw [← hp, pending]
    conv => rhs; rw [h3]
    simp
  obtain ⟨e1, e2⟩ := nl_unique h2 hl e
  have hle := h.le
  have hcap := h.cap
  refine ⟨by rw [slice_take _ _ s.stop _ (by omega), e1], ⟨by simp only; omega, hcap⟩, ?_⟩
  rw [pending]
  simp only
  rw [Nat.add_assoc, slice_drop, e2]

theorem no_nl_found {s : Scanner} {l : List UInt8} {t : List UInt8}
    (hf : findNl (slice s.buf s.start s.stop) = none) (hp : pending s = l ++ 10 :: t) :
    s.stop - s.start ≤ l.length := by
  have := prefix_le (findNl_none hf) hp
  rwa [slice_length] at this

theorem findNl_of_no {l : List UInt8} (h : ∀ b ∈ l, b ≠ 10) : findNl l = none := by
  induction l with
  | nil => rfl
  | cons b bs ih =>
    simp only [findNl, h b (by simp), if_false, ih (fun c hc => h c (by simp [hc])), Option.map_none]

/-- Room is left after the shift when the current line is short. -/
theorem room {L : Nat} {s : Scanner} (h : Ok L s) (hlen : 2 * (s.stop - s.start) < L) :
    (shift L s).stop < L := by
  obtain ⟨h1, h2, h3, h4, h5⟩ := shift_ok h
  have := congrArg List.length h2
  rw [slice_length, slice_length] at this
  have := h1.le
  omega

theorem scan_line {L : Nat} (s : Scanner) (h : Ok L s) {l rest : List UInt8}
    (hf : findNl (slice s.buf s.start s.stop) = none)
    (hl : ∀ b ∈ l, b ≠ 10) (hp : pending s = l ++ 10 :: rest) (hlen : 2 * l.length < L) :
    ∃ s', scan L s = .line l s' ∧ Ok L s' ∧ pending s' = rest := by
  obtain ⟨n, hn⟩ : ∃ n, s.rest.length = n := ⟨_, rfl⟩
  induction n using Nat.strongRecOn generalizing s with
  | ind n ih =>
    obtain ⟨k1, k2, k3, k4, k5⟩ := shift_ok h
    have hlt := room h (by have := no_nl_found hf hp; omega)
    obtain ⟨r1, r2, r3, r4, r5⟩ := readInto_ok k1
    have hp1 : pending (shift L s) = l ++ 10 :: rest := by rw [pending, k2, k3]; exact hp
    rw [scan]
    simp only
    rw [if_neg (by omega)]
    split
    · rename_i i hi
      have ht := take_line r1 hi hl (by rw [r2]; exact hp1)
      rw [ht.1]
      exact ⟨_, rfl, ht.2⟩
    · rename_i hi
      have hne : (shift L s).rest.isEmpty = false := by
        rw [k3]
        cases hr : s.rest with
        | nil =>
          exfalso
          rw [pending, hr, List.append_nil] at hp
          have := findNl_none hf 10 (by rw [hp]; simp)
          exact this rfl
        | cons a as => rfl
      have hlt2 : (readInto L (shift L s)).rest.length < s.rest.length := by
        rw [r4, k3]
        have h0 : 0 < s.rest.length := by
          rw [k3] at hne
          cases hr : s.rest with
          | nil => simp [hr] at hne
          | cons a as => simp
        have : 0 < readAmount (L - (shift L s).stop) (shift L s) := by
          unfold readAmount; rw [k3]; omega
        omega
      rw [hne]
      simp only [Bool.false_eq_true, if_false, hlt2, if_true]
      exact ih _ (by omega) _ r1 hi (by rw [r2]; exact hp1) rfl

theorem scan_last {L : Nat} (s : Scanner) (h : Ok L s) {l : List UInt8}
    (hl : ∀ b ∈ l, b ≠ 10) (hne : l ≠ []) (hp : pending s = l) (hlen : 2 * l.length < L) :
    ∃ s', scan L s = .line l s' ∧ Ok L s' ∧ pending s' = [] := by
  obtain ⟨n, hn⟩ : ∃ n, s.rest.length = n := ⟨_, rfl⟩
  induction n using Nat.strongRecOn generalizing s with
  | ind n ih =>
    obtain ⟨k1, k2, k3, k4, k5⟩ := shift_ok h
    have hlt := room h (by
      have := congrArg List.length hp
      rw [pending, List.length_append, slice_length] at this; omega)
    obtain ⟨r1, r2, r3, r4, r5⟩ := readInto_ok k1
    have hp1 : pending (readInto L (shift L s)) = l := by
      rw [r2, pending, k2, k3]; exact hp
    have hi : findNl (slice (readInto L (shift L s)).buf (readInto L (shift L s)).start
        (readInto L (shift L s)).stop) = none := by
      apply findNl_of_no
      intro b hb
      apply hl
      rw [← hp1, pending]
      exact List.mem_append_left _ hb
    rw [scan]
    simp only
    rw [if_neg (by omega), hi]
    simp only
    cases hr : s.rest with
    | nil =>
      have hr2 : (readInto L (shift L s)).rest = [] := by
        apply List.eq_nil_of_length_eq_zero; rw [r4, k3, hr]; simp
      rw [k3, hr]
      simp only [List.isEmpty_nil, if_true]
      rw [pending, hr2, List.append_nil] at hp1
      have hgt : (readInto L (shift L s)).stop > (readInto L (shift L s)).start := by
        have := congrArg List.length hp1
        rw [slice_length] at this
        have := List.length_pos_iff.2 hne
        omega
      rw [if_pos hgt, hp1]
      refine ⟨_, rfl, ⟨Nat.le_refl _, r1.cap⟩, ?_⟩
      simp [pending, hr2, slice]
    | cons a as =>
      have hlt2 : (readInto L (shift L s)).rest.length < s.rest.length := by
        rw [r4, k3]
        have : 0 < readAmount (L - (shift L s).stop) (shift L s) := by
          unfold readAmount; rw [k3, hr]; simp; omega
        rw [hr]; simp; omega
      rw [k3, hr]
      rw [hr] at hlt2
      simp only [List.isEmpty_cons, Bool.false_eq_true, if_false, hlt2, if_true]
      exact ih _ (by rw [← hn, hr]; exact hlt2) _ r1 hp1 rfl

theorem scan_eof {L : Nat} (s : Scanner) (h : Ok L s) (hL : 0 < L) (hp : pending s = []) :
    scan L s = .eof := by
  obtain ⟨k1, k2, k3, k4, k5⟩ := shift_ok h
  rw [pending, List.append_eq_nil_iff] at hp
  have hlt := room h (by
    have := congrArg List.length hp.1
    rw [slice_length] at this; simp at this; omega)
  obtain ⟨r1, r2, r3, r4, r5⟩ := readInto_ok k1
  have hs : slice (readInto L (shift L s)).buf (readInto L (shift L s)).start
      (readInto L (shift L s)).stop = [] := by
    rw [r5, k2, hp.1, k3, hp.2]; simp
  rw [scan]
  simp only
  rw [if_neg (by omega), hs]
  simp only [findNl, k3, hp.2, List.isEmpty_nil, if_true]
  have := congrArg List.length hs
  rw [slice_length] at this
  rw [if_neg (by simp at this; omega)]

end Verif.Io
