import Verif.IoLemmas

/-!
# C16, C17: parsing and line scanning
-/

namespace Verif.Props.Io
open Verif.Io

/-! ### C16: decimal text -/

/-- Specification: the decimal text of a number, as ASCII bytes. -/
def decimal (n : Nat) : List UInt8 :=
  if n < 10 then [UInt8.ofNat (48 + n)] else decimal (n / 10) ++ [UInt8.ofNat (48 + n % 10)]

example : decimal 4096 = [52, 48, 57, 54] := by
  simp [decimal]

theorem digit_sub (d : Nat) (h : d < 10) : (UInt8.ofNat (48 + d) - 48).toUInt32.toNat = d := by
  have : ∀ d : Fin 10, (UInt8.ofNat (48 + d.val) - 48).toUInt32.toNat = d.val := by decide
  exact this ⟨d, h⟩

/-- C16: parsing the decimal text of `n` gives `n` modulo 2^32. -/
theorem C16_toInt_decimal_mod (n : Nat) : (toInt (decimal n)).toNat = n % 2 ^ 32 := by
  induction n using Nat.strongRecOn with
  | ind n ih =>
    rw [decimal]
    have h10 : (10 : UInt32).toNat = 10 := rfl
    split
    · rename_i h
      have := digit_sub n h
      simp only [toInt, List.foldl_cons, List.foldl_nil, UInt32.toNat_add, UInt32.toNat_mul, this]
      simp
    · rename_i h
      have := digit_sub (n % 10) (by omega)
      have ih := ih (n / 10) (by omega)
      simp only [toInt, List.foldl_append, List.foldl_cons, List.foldl_nil] at ih ⊢
      rw [UInt32.toNat_add, UInt32.toNat_mul, this, ih, h10]
      omega

/-- C16: so every 32-bit vertex id is read back exactly. -/
theorem C16_toInt_decimal (n : Nat) (h : n < 2 ^ 32) : (toInt (decimal n)).toNat = n := by
  rw [C16_toInt_decimal_mod]; omega

example : (toInt (decimal 4294967295)).toNat = 4294967295 := C16_toInt_decimal _ (by decide)

/-! ### C16: fields -/

/-- The ASCII white space bytes. -/
def IsSpace (b : UInt8) : Prop := b ∈ ([9, 10, 11, 12, 13, 32] : List UInt8)

/-- Specification: `Tokens line ts` — `ts` are the maximal runs of non-space bytes, in order. -/
inductive Tokens : List UInt8 → List (List UInt8) → Prop
  | none (sp) : (∀ b ∈ sp, IsSpace b) → Tokens sp []
  | cons (sp t rest ts) : (∀ b ∈ sp, IsSpace b) → t ≠ [] → (∀ b ∈ t, ¬ IsSpace b) →
      (∀ b bs, rest = b :: bs → IsSpace b) → Tokens rest ts → Tokens (sp ++ t ++ rest) (t :: ts)

theorem space_iff (b : UInt8) : isByteSpace b = true ↔ IsSpace b := isByteSpace_iff b

theorem nospace {b : UInt8} (h : ¬ IsSpace b) : isByteSpace b = false := by
  cases e : isByteSpace b with
  | false => rfl
  | true => exact absurd ((space_iff b).1 e) h

/-- C16: every line has its list of tokens. -/
theorem C16_tokens_exist (line : List UInt8) : ∃ ts, Tokens line ts := by
  obtain ⟨n, hn⟩ : ∃ n, line.length = n := ⟨_, rfl⟩
  induction n using Nat.strongRecOn generalizing line with
  | ind n ih =>
    obtain ⟨sp, h1, h2, h3⟩ := skipSpaces_spec line
    have hsp : ∀ b ∈ sp, IsSpace b := fun b hb => (space_iff b).1 (h2 b hb)
    cases hs : skipSpaces line with
    | nil =>
      rw [hs, List.append_nil] at h1
      exact ⟨[], by rw [h1]; exact Tokens.none sp hsp⟩
    | cons b bs =>
      have hb := h3 b bs hs
      have hsplit := List.takeWhile_append_dropWhile (p := fun b => !isByteSpace b) (l := b :: bs)
      have ht : (b :: bs).takeWhile (fun b => !isByteSpace b) ≠ [] := by simp [hb]
      have hlen := congrArg List.length hsplit
      have htl := List.length_pos_iff.2 ht
      rw [List.length_append] at hlen
      obtain ⟨ts, hts⟩ := ih ((b :: bs).dropWhile (fun b => !isByteSpace b)).length (by
        have := congrArg List.length h1
        rw [List.length_append, hs] at this; omega) _ rfl
      refine ⟨(b :: bs).takeWhile (fun b => !isByteSpace b) :: ts, ?_⟩
      rw [h1, hs, ← hsplit, ← List.append_assoc]
      rw [hsplit]
      refine Tokens.cons sp _ _ ts hsp ht ?_ ?_ hts
      · intro c hc hsc
        have := List.all_eq_true.1 (List.all_takeWhile (p := fun b => !isByteSpace b)) c hc
        rw [(space_iff c).2 hsc] at this
        simp at this
      · intro c cs hc
        have := List.head_dropWhile_not (p := fun b => !isByteSpace b) (l := b :: bs)
          (by rw [hc]; simp)
        simp only [hc, List.head_cons] at this
        exact (space_iff c).1 (by simpa using this)

theorem fieldsLoop_tokens {line : List UInt8} {ts : List (List UInt8)} (h : Tokens line ts)
    (fields : List (List UInt8)) (idx : Nat) :
    fieldsLoop fields idx [] (skipSpaces line) =
      if idx + ts.length ≤ fields.length ∨ ts = [] then
        some (fields.take idx ++ ts ++ fields.drop (idx + ts.length))
      else none := by
  induction h generalizing fields idx with
  | none sp hsp =>
    have : skipSpaces sp = [] := by
      have := skipSpaces_append sp [] (fun b hb => (space_iff b).2 (hsp b hb))
      simpa [skipSpaces] using this
    rw [this, fieldsLoop]
    simp
  | cons sp t rest ts hsp hne ht hr _ ih =>
    have htn : ∀ b ∈ t, isByteSpace b = false := fun b hb => nospace (ht b hb)
    rw [List.append_assoc, skipSpaces_append _ _ (fun b hb => (space_iff b).2 (hsp b hb)),
      skipSpaces_id (l := t ++ rest) (by
        intro b bs e
        cases t with
        | nil => exact absurd rfl hne
        | cons a as =>
          simp only [List.cons_append, List.cons.injEq] at e
          rw [← e.1]; exact htn a (by simp)),
      fieldsLoop_token _ _ _ _ _ htn, List.nil_append]
    have hset : idx < fields.length → ∀ ts' : List (List UInt8),
        (fields.set idx t).take (idx + 1) ++ ts' ++ (fields.set idx t).drop (idx + 1 + ts'.length) =
        fields.take idx ++ t :: ts' ++ fields.drop (idx + (ts'.length + 1)) := by
      intro hi ts'
      rw [List.drop_set_of_lt (by omega), List.take_succ_eq_append_getElem (by simpa using hi),
        List.take_set_of_le (Nat.le_refl _)]
      simp [Nat.add_comm, Nat.add_left_comm]
    cases hrc : rest with
    | nil =>
      have hts : ts = [] := by
        subst hrc
        rename_i htk
        generalize he : ([] : List UInt8) = r at htk
        cases htk with
        | none => rfl
        | cons sp' t' rest' ts' _ hne' =>
          simp only [List.nil_eq, List.append_eq_nil_iff] at he
          exact absurd he.1.2 hne'
      subst hts
      rw [fieldsLoop, if_neg hne]
      by_cases hi : idx < fields.length
      · rw [if_pos hi, if_pos (Or.inl (by simp only [List.length_cons, List.length_nil]; omega))]
        have := hset hi []
        simp only [List.append_nil, List.length_nil, Nat.add_zero] at this
        rw [List.take_append_drop] at this
        rw [this]; simp
      · rw [if_neg hi, if_neg (by simp; omega)]
    | cons b bs =>
      have hb := (space_iff b).2 (hr b bs hrc)
      rw [fieldsLoop, if_pos hb]
      have hsk : skipSpaces bs = skipSpaces rest := by rw [hrc, skipSpaces, if_pos hb]
      by_cases hi : idx < fields.length
      · rw [if_pos hi, hsk, ih (fields.set idx t) (idx + 1), List.length_set]
        by_cases hc : idx + 1 + ts.length ≤ fields.length
        · rw [if_pos (Or.inl hc), if_pos (Or.inl (by simp; omega)), hset hi]
          simp
        · by_cases he : ts = []
          · subst he; simp at hc; omega
          · rw [if_neg (by simp [he]; omega), if_neg (by simp; omega)]
      · rw [if_neg hi, if_neg (by simp; omega)]

/-- C16: with `ts` the tokens of the line and room for them, `FastFields` stores exactly the
tokens, in order, in the first entries (later entries keep their previous contents). -/
theorem C16_fastFields (line : List UInt8) (ts : List (List UInt8)) (h : Tokens line ts)
    (fields : List (List UInt8)) (hroom : ts.length ≤ fields.length) :
    fastFields fields line = some (ts ++ fields.drop ts.length) := by
  rw [fastFields, fieldsLoop_tokens h]
  simp [hroom]

/-- C16: a line with more tokens than entries is a panic, not a wrong answer. -/
theorem C16_fastFields_too_many (line : List UInt8) (ts : List (List UInt8)) (h : Tokens line ts)
    (fields : List (List UInt8)) (hmany : fields.length < ts.length) :
    fastFields fields line = none := by
  rw [fastFields, fieldsLoop_tokens h]
  have : ts ≠ [] := by intro e; subst e; simp at hmany
  simp [this, hmany]

/-- "12 \t7" has the tokens "12" and "7". -/
theorem tokens_ex : Tokens [32, 49, 50, 32, 9, 55, 10] [[49, 50], [55]] :=
  Tokens.cons [32] [49, 50] [32, 9, 55, 10] [[55]] (by simp [IsSpace]) (by simp) (by simp [IsSpace])
    (by simp [IsSpace])
    (Tokens.cons [32, 9] [55] [10] [] (by simp [IsSpace]) (by simp) (by simp [IsSpace])
      (by simp [IsSpace]) (Tokens.none [10] (by simp [IsSpace])))

example : fastFields [[], [], [], [], []] [32, 49, 50, 32, 9, 55, 10] =
    some [[49, 50], [55], [], [], []] := C16_fastFields _ _ tokens_ex _ (by decide)

/-! ### C17: lines -/

/-- Specification: the newline split of a content; a last line without newline counts when it is
not empty. -/
inductive IsLines : List UInt8 → List (List UInt8) → Prop
  | nil : IsLines [] []
  | last (l) : l ≠ [] → (∀ b ∈ l, b ≠ 10) → IsLines l [l]
  | cons (l rest ls) : (∀ b ∈ l, b ≠ 10) → IsLines rest ls → IsLines (l ++ 10 :: rest) (l :: ls)

/-- Every content has a newline split. -/
theorem C17_lines_exist (c : List UInt8) : ∃ ls, IsLines c ls := by
  obtain ⟨n, hn⟩ : ∃ n, c.length = n := ⟨_, rfl⟩
  induction n using Nat.strongRecOn generalizing c with
  | ind n ih =>
    cases hf : findNl c with
    | none =>
      by_cases he : c = []
      · exact ⟨[], by rw [he]; exact IsLines.nil⟩
      · exact ⟨[c], IsLines.last c he (findNl_none hf)⟩
    | some i =>
      obtain ⟨h1, h2, h3⟩ := findNl_some hf
      obtain ⟨ls, hls⟩ := ih (c.drop (i + 1)).length (by rw [List.length_drop]; omega) _ rfl
      exact ⟨c.take i :: ls, by have := IsLines.cons _ _ _ h2 hls; rwa [← h3] at this⟩

theorem readAll_lines {c : List UInt8} {ls : List (List UInt8)} (h : IsLines c ls) (L : Nat)
    (hL : 0 < L) (hlen : ∀ l ∈ ls, 2 * l.length < L) (s : Scanner) (hs : Ok L s)
    (hp : pending s = c) (f : Nat) (hf : c.length < f) : readAll L f s = some ls := by
  induction h generalizing s f with
  | nil =>
    obtain ⟨g, rfl⟩ : ∃ g, f = g + 1 := ⟨f - 1, by omega⟩
    have hsl : slice s.buf s.start s.stop = [] := by
      rw [pending, List.append_eq_nil_iff] at hp; exact hp.1
    have : nextLine L s = .eof := by
      rw [nextLine, hsl]; simp only [findNl]; exact scan_eof s hs hL hp
    rw [readAll, this]
  | last l hne hl =>
    obtain ⟨g, rfl⟩ : ∃ g, f = g + 1 := ⟨f - 1, by omega⟩
    have hfn : findNl (slice s.buf s.start s.stop) = none := by
      apply findNl_of_no
      intro b hb
      apply hl
      rw [← hp, pending]; exact List.mem_append_left _ hb
    obtain ⟨s', e1, e2, e3⟩ := scan_last s hs hl hne hp (hlen l (by simp))
    rw [readAll, nextLine, hfn]
    simp only [e1]
    have hsl : slice s'.buf s'.start s'.stop = [] := by
      rw [pending, List.append_eq_nil_iff] at e3; exact e3.1
    have : nextLine L s' = .eof := by
      rw [nextLine, hsl]; simp only [findNl]; exact scan_eof s' e2 hL e3
    obtain ⟨k, rfl⟩ : ∃ k, g = k + 1 := ⟨g - 1, by have := List.length_pos_iff.2 hne; omega⟩
    rw [readAll, this]
    rfl
  | cons l rest ls hl _ ih =>
    obtain ⟨g, rfl⟩ : ∃ g, f = g + 1 := ⟨f - 1, by omega⟩
    have : ∃ s', nextLine L s = .line l s' ∧ Ok L s' ∧ pending s' = rest := by
      rw [nextLine]
      split
      · rename_i i hi
        have ht := take_line hs hi hl hp
        rw [ht.1]
        exact ⟨_, rfl, ht.2⟩
      · rename_i hi
        exact scan_line s hs hi hl hp (hlen l (by simp))
    obtain ⟨s', e1, e2, e3⟩ := this
    rw [readAll, e1]
    simp only
    rw [ih (fun l' hl' => hlen l' (by simp [hl'])) s' e2 e3 g (by simp at hf; omega)]
    rfl

/-- C17: whatever amounts the reads return, and whatever the buffer size, the lines delivered
are exactly the newline split of the file, provided each is shorter than half the buffer. -/
theorem C17_lines_exact (content : List UInt8) (ls : List (List UInt8)) (h : IsLines content ls)
    (L : Nat) (hL : 0 < L) (hlen : ∀ l ∈ ls, 2 * l.length < L) (chunks : List Nat) :
    readAll L (content.length + 1) (openFile content chunks) = some ls :=
  readAll_lines h L hL hlen _ ⟨by simp [openFile], by simp [openFile]⟩
    (by simp [pending, openFile, slice]) _ (by omega)

/-- "ab\n\nc" read with a buffer of 5 bytes and reads of 1 or 2 bytes. -/
example : readAll 5 6 (openFile [97, 98, 10, 10, 99] [0, 1, 0]) = some [[97, 98], [], [99]] :=
  C17_lines_exact _ _ (IsLines.cons [97, 98] [10, 99] [[], [99]] (by decide)
    (IsLines.cons [] [99] [[99]] (by simp) (IsLines.last [99] (by simp) (by simp))))
    5 (by decide) (by decide) _

/-- C17: the bound matters: a line that fills the whole buffer without a newline is a panic. -/
theorem C17_long_line_panics : readAll 4 9 (openFile [97, 97, 97, 97, 10, 98] [9, 9]) = none := by
  decide +kernel

end Verif.Props.Io
