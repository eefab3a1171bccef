import Verif.EdgeProps
import Verif.Props.Loader
import Mathlib.Data.List.Induction

/-!
# C90: timestamps are read as they are written

The timestamp of an edge is the number in the timestamp column of its line. True for decimal numbers below 2^64; what
is not a number is read as 0, and what is too large as the largest number, without a word.
-/

namespace Verif.Props.EdgeProps

open Verif.EdgeProps
open Verif.Loader (Ops Cfg Ev)
open Verif.Props.Loader (Reads EventOf IsComment IsStream)
open Verif.Props.Io (Tokens)

/-- The text is the number, in decimal; zeros in front are allowed. -/
inductive Decimal : List UInt8 → Nat → Prop where
  | one (d : Nat) : d < 10 → Decimal [UInt8.ofNat (48 + d)] d
  | more (t : List UInt8) (n d : Nat) : Decimal t n → d < 10 → Decimal (t ++ [UInt8.ofNat (48 + d)]) (10 * n + d)

/-- The edge lines of a file, each with its columns after the two vertices. -/
inductive Columns : List (List UInt8) → List (List (List UInt8)) → Prop where
  | nil : Columns [] []
  | comment (line : List UInt8) (file : List (List UInt8)) (cs : List (List (List UInt8))) : IsComment line → Columns file cs → Columns (line :: file) cs
  | edge (line : List UInt8) (file : List (List UInt8)) (cs : List (List (List UInt8))) (a b : List UInt8) (rest : List (List UInt8)) :
      ¬ IsComment line → Tokens line (a :: b :: rest) → Columns file cs → Columns (line :: file) (rest :: cs)

/-- The `k`-th edge of the file has the number in column `j` of the `k`-th edge line as its time. -/
def TimesRead (ops : Ops E) (time : E → UInt64) : Prop :=
  ∀ (c : Cfg) (j : Nat) (file : List (List UInt8)) (evs : List (Ev E)) (cs : List (List (List UInt8))), c.tPos = some j → c.logicalTime = false →
  Reads ops c 0 file evs → Columns file cs → ∀ (k : Nat) (e : Ev E) (rest : List (List UInt8)), evs[k]? = some e → cs[k]? = some rest → ∃ tok, rest[j]? = some tok ∧ Decimal tok (time e.prop).toNat

/-- **C90**, full statement: a file that is read has numbers in its timestamp column, and these are the timestamps. -/
def C90Statement : Prop := TimesRead rangeOps (fun e => e.ts)

/-! ## Numbers -/

theorem digit_ok (d : Nat) (h : d < 10) : isDigit (UInt8.ofNat (48 + d)) = true ∧ (UInt8.ofNat (48 + d) - 48).toUInt64.toNat = d := by
  have : ∀ d : Fin 10, isDigit (UInt8.ofNat (48 + d.val)) = true ∧ (UInt8.ofNat (48 + d.val) - 48).toUInt64.toNat = d.val := by decide
  exact this ⟨d, h⟩

/-- The digits of a decimal text. -/
theorem Decimal.digits {t : List UInt8} {n : Nat} (h : Decimal t n) : ∃ ds : List Nat, (∀ d ∈ ds, d < 10) ∧ t = ds.map (fun d => UInt8.ofNat (48 + d)) ∧ n = ds.foldl (fun a d => 10 * a + d) 0 := by
  induction h with
  | one d hd => exact ⟨[d], by simpa using hd, rfl, by simp⟩
  | more t n d _ hd ih =>
    obtain ⟨ds, h1, rfl, rfl⟩ := ih
    refine ⟨ds ++ [d], ?_, by simp, by simp⟩
    intro x hx
    rcases List.mem_append.1 hx with hx | hx
    · exact h1 x hx
    · rcases List.mem_singleton.1 hx with rfl; exact hd

theorem fold_ge (ds : List Nat) : ∀ n, n ≤ ds.foldl (fun a d => 10 * a + d) n := by
  induction ds with
  | nil => intro n; exact Nat.le_refl n
  | cons d ds ih => intro n; rw [List.foldl_cons]; exact Nat.le_trans (show n ≤ 10 * n + d by omega) (ih _)

theorem parseLoop_digits (ds : List Nat) : ∀ (n : UInt64), (∀ d ∈ ds, d < 10) →
    (parseLoop n (ds.map fun d => UInt8.ofNat (48 + d))).toNat = min (ds.foldl (fun a d => 10 * a + d) n.toNat) (2 ^ 64 - 1) := by
  induction ds with
  | nil =>
    intro n _
    have := n.toNat_lt
    simp only [List.map_nil, parseLoop, List.foldl_nil]
    omega
  | cons d ds ih =>
    intro n h
    obtain ⟨h1, h2⟩ := digit_ok d (h d (by simp))
    have hd := h d (by simp)
    have hn := n.toNat_lt
    have ih' := fun m => ih m fun x hx => h x (by simp [hx])
    have hge := fold_ge ds (10 * n.toNat + d)
    rw [List.map_cons, parseLoop, if_pos h1, List.foldl_cons]
    generalize hc : (UInt8.ofNat (48 + d) - 48).toUInt64 = cd at *
    have e0 : (10 : UInt64).toNat = 10 := rfl
    by_cases hcut : n ≥ 1844674407370955162
    · rw [if_pos hcut]
      have h3 : 1844674407370955162 ≤ n.toNat := UInt64.le_iff_toNat_le.1 hcut
      have e : (18446744073709551615 : UInt64).toNat = 2 ^ 64 - 1 := rfl
      rw [e]; omega
    · rw [if_neg hcut]
      have h3 : n.toNat < 1844674407370955162 := by
        have : ¬ 1844674407370955162 ≤ n.toNat := fun h => hcut (UInt64.le_iff_toNat_le.2 h)
        omega
      have e1 : (n * 10).toNat = n.toNat * 10 := by rw [UInt64.toNat_mul, e0]; omega
      have e2 : (n * 10 + cd).toNat = (n.toNat * 10 + d) % 2 ^ 64 := by rw [UInt64.toNat_add, e1, h2]
      by_cases hw : n * 10 + cd < n * 10
      · rw [if_pos hw]
        have h4 := UInt64.lt_iff_toNat_lt.1 hw
        rw [e1, e2] at h4
        have e : (18446744073709551615 : UInt64).toNat = 2 ^ 64 - 1 := rfl
        rw [e]; omega
      · rw [if_neg hw, ih']
        have h4 : ¬ (n.toNat * 10 + d) % 2 ^ 64 < n.toNat * 10 := by
          intro h5
          exact hw (UInt64.lt_iff_toNat_lt.2 (by rw [e1, e2]; exact h5))
        have h5 : (n * 10 + cd).toNat = 10 * n.toNat + d := by rw [e2]; omega
        rw [h5]

/-- **C90** for a token: a decimal number is read as that number, or as the largest number if it is larger. -/
theorem C90_token (t : List UInt8) (n : Nat) (h : Decimal t n) : (parseUint t).toNat = min n (2 ^ 64 - 1) := by
  obtain ⟨ds, h1, rfl, rfl⟩ := h.digits
  exact parseLoop_digits ds 0 h1

theorem parseLoop_bad (a : List UInt8) (c : UInt8) (b : List UInt8) (hc : isDigit c = false) : ∀ n, parseLoop n (a ++ c :: b) = 0 ∨ parseLoop n (a ++ c :: b) = 18446744073709551615 := by
  induction a with
  | nil => intro n; left; simp [parseLoop, hc]
  | cons x a ih =>
    intro n
    rw [List.cons_append, parseLoop]
    split
    · split
      · exact .inr rfl
      · split
        · exact .inr rfl
        · exact ih _
    · exact .inl rfl

/-- **C90** for a token: anything else is read as 0 or as the largest number. -/
theorem C90_not_a_number (t : List UInt8) (h : ∀ n, ¬ Decimal t n) : parseUint t = 0 ∨ parseUint t = 18446744073709551615 := by
  have hd : ∀ t : List UInt8, t ≠ [] → (∀ c ∈ t, isDigit c = true) → ∃ n, Decimal t n := by
    intro t
    induction t using List.reverseRecOn with
    | nil => intro h; exact absurd rfl h
    | append_singleton t c ih =>
      intro _ hc
      have h1 : ∃ d < 10, c = UInt8.ofNat (48 + d) := by
        have h2 := of_decide_eq_true (hc c (by simp))
        have h3 : 48 ≤ c.toNat := UInt8.le_iff_toNat_le.1 h2.1
        have h4 : c.toNat ≤ 57 := UInt8.le_iff_toNat_le.1 h2.2
        exact ⟨c.toNat - 48, by omega, by rw [show 48 + (c.toNat - 48) = c.toNat by omega]; simp⟩
      obtain ⟨d, h5, rfl⟩ := h1
      by_cases ht : t = []
      · subst ht; exact ⟨d, .one d h5⟩
      · obtain ⟨n, hn⟩ := ih ht fun x hx => hc x (by simp [hx])
        exact ⟨_, .more t n d hn h5⟩
  by_cases ht : t = []
  · subst ht; exact .inl rfl
  · by_cases hb : ∃ c ∈ t, isDigit c = false
    · obtain ⟨c, hc, h1⟩ := hb
      obtain ⟨a, b, rfl⟩ := List.append_of_mem hc
      exact parseLoop_bad a c b h1 0
    · obtain ⟨n, hn⟩ := hd t ht fun c hc => by
        cases e : isDigit c with
        | true => rfl
        | false => exact absurd ⟨c, hc, e⟩ hb
      exact absurd hn (h n)

/-! ## Files -/

/-- Tokens of a line are determined by it. -/
theorem tokens_unique {line : List UInt8} {a b : List (List UInt8)} (ha : Tokens line a) (hb : Tokens line b) : a = b := by
  have h1 := Props.Io.C16_fastFields line a ha (List.replicate (a.length + b.length) []) (by simp)
  have h2 := Props.Io.C16_fastFields line b hb (List.replicate (a.length + b.length) []) (by simp)
  rw [h1] at h2
  injection h2 with h2
  simp only [List.drop_replicate] at h2
  have hna : ∀ {line : List UInt8} {a : List (List UInt8)}, Tokens line a → ∀ t ∈ a, t ≠ [] := by
    intro line a h
    induction h with
    | none => simp
    | cons sp t rest ts _ ht _ _ _ ih => intro x hx; rcases List.mem_cons.1 hx with rfl | hx; exact ht; exact ih x hx
  have key : ∀ (a b : List (List UInt8)) (m n : Nat), (∀ t ∈ a, t ≠ []) → (∀ t ∈ b, t ≠ []) → a ++ List.replicate m [] = b ++ List.replicate n [] → a = b := by
    intro a
    induction a with
    | nil =>
      intro b m n _ hb h
      cases b with
      | nil => rfl
      | cons y b =>
        cases m with
        | zero => simp at h
        | succ m =>
          rw [List.replicate_succ, List.nil_append, List.cons_append] at h
          injection h with h
          exact absurd h.symm (hb y (by simp))
    | cons x a ih =>
      intro b m n ha hb h
      cases b with
      | nil =>
        cases n with
        | zero => simp at h
        | succ n =>
          rw [List.replicate_succ, List.nil_append, List.cons_append] at h
          injection h with h
          exact absurd h (ha x (by simp))
      | cons y b =>
        rw [List.cons_append, List.cons_append] at h
        injection h with h1 h2
        subst h1
        rw [ih b m n (fun t ht => ha t (by simp [ht])) (fun t ht => hb t (by simp [ht])) h2]
  exact key a b _ _ (hna ha) (hna hb) h2

/-- What is read from the columns of a line. -/
theorem event_prop {ops : Ops E} {c : Cfg} {j : Nat} (hj : c.tPos = some j) (hl : c.logicalTime = false) {k0 : Nat} {file : List (List UInt8)} {evs : List (Ev E)} {cs : List (List (List UInt8))}
    (h : Reads ops c k0 file evs) (hc : Columns file cs) : evs.length = cs.length ∧ ∀ (k : Nat) (e : Ev E) (rest : List (List UInt8)), evs[k]? = some e → cs[k]? = some rest →
      ∃ tok, rest[j]? = some tok ∧ e.prop = ops.replaceRaw e.dst (ops.parse (c.wPos.bind (rest[·]?)) (some tok) (ops.defaultWeight ops.zero)) := by
  induction h generalizing cs with
  | nil k => cases hc; exact ⟨rfl, by intro k e rest h; simp at h⟩
  | comment k line file evs hcm _ ih =>
    cases hc with
    | comment _ _ _ _ hc => exact ih hc
    | edge _ _ _ _ _ _ hn _ _ => exact absurd hcm hn
  | edge k line file e evs hcm he _ ih =>
    cases hc with
    | comment _ _ _ h _ => exact absurd h hcm
    | edge _ _ cs a b rest _ ht hc =>
      obtain ⟨h1, h2⟩ := ih hc
      refine ⟨by simp [h1], ?_⟩
      intro i e' rest' hi hr
      cases i with
      | succ i => exact h2 i e' rest' (by simpa using hi) (by simpa using hr)
      | zero =>
        simp only [List.getElem?_cons_zero, Option.some.injEq] at hi hr
        subst hi hr
        obtain ⟨s, d, r, g1, g2, g3, g4, g5, p, g6, g7, g8⟩ := he
        have := tokens_unique ht g1
        injection this with _ this
        injection this with _ this
        subst this
        have hlt := g3.2 j hj
        refine ⟨rest[j], List.getElem?_eq_getElem hlt, ?_⟩
        rw [g7, g6, hl, hj, if_neg (by simp)]
        simp [List.getElem?_eq_getElem hlt]

/-- **C90**, for files that have numbers below 2^64 in the timestamp column. -/
theorem C90_times_partial (c : Cfg) (j : Nat) (file : List (List UInt8)) (evs : List (Ev TimeRange)) (cs : List (List (List UInt8))) (hj : c.tPos = some j) (hl : c.logicalTime = false)
    (h : Reads rangeOps c 0 file evs) (hc : Columns file cs) (hnum : ∀ rest ∈ cs, ∀ tok, rest[j]? = some tok → ∃ n < 2 ^ 64, Decimal tok n) :
    ∀ (k : Nat) (e : Ev TimeRange) (rest : List (List UInt8)), evs[k]? = some e → cs[k]? = some rest → ∃ tok, rest[j]? = some tok ∧ Decimal tok e.prop.ts.toNat ∧ e.prop.stop = 0 := by
  intro k e rest he hr
  obtain ⟨tok, h1, h2⟩ := (event_prop hj hl h hc).2 k e rest he hr
  obtain ⟨n, hn, hd⟩ := hnum rest (List.mem_of_getElem? hr) tok h1
  refine ⟨tok, h1, ?_, by rw [h2]; rfl⟩
  have : e.prop.ts = parseUint tok := by rw [h2]; rfl
  rw [this, C90_token tok n hd, Nat.min_eq_left (by omega)]
  exact hd

/-- The same for edges with a timestamp only. -/
theorem C90_stamps_partial (c : Cfg) (j : Nat) (file : List (List UInt8)) (evs : List (Ev UInt64)) (cs : List (List (List UInt8))) (hj : c.tPos = some j) (hl : c.logicalTime = false)
    (h : Reads stampOps c 0 file evs) (hc : Columns file cs) (hnum : ∀ rest ∈ cs, ∀ tok, rest[j]? = some tok → ∃ n < 2 ^ 64, Decimal tok n) :
    ∀ (k : Nat) (e : Ev UInt64) (rest : List (List UInt8)), evs[k]? = some e → cs[k]? = some rest → ∃ tok, rest[j]? = some tok ∧ Decimal tok e.prop.toNat := by
  intro k e rest he hr
  obtain ⟨tok, h1, h2⟩ := (event_prop hj hl h hc).2 k e rest he hr
  obtain ⟨n, hn, hd⟩ := hnum rest (List.mem_of_getElem? hr) tok h1
  refine ⟨tok, h1, ?_⟩
  have : e.prop = parseUint tok := by rw [h2]; rfl
  rw [this, C90_token tok n hd, Nat.min_eq_left (by omega)]
  exact hd

/-! ## Cases -/

/-- "1 2 007" and "2 3 1.5". -/
def good : List UInt8 := [49, 32, 50, 32, 48, 48, 55]
def bad : List UInt8 := [50, 32, 51, 32, 49, 46, 53]

theorem tokens_good : Tokens good [[49], [50], [48, 48, 55]] :=
  Tokens.cons [] [49] [32, 50, 32, 48, 48, 55] _ (by simp) (by simp) (by simp [Props.Io.IsSpace]) (by simp [Props.Io.IsSpace])
    (Tokens.cons [32] [50] [32, 48, 48, 55] _ (by simp [Props.Io.IsSpace]) (by simp) (by simp [Props.Io.IsSpace]) (by simp [Props.Io.IsSpace])
      (Tokens.cons [32] [48, 48, 55] [] [] (by simp [Props.Io.IsSpace]) (by simp) (by simp [Props.Io.IsSpace]) (by simp) (Tokens.none [] (by simp))))

theorem tokens_bad : Tokens bad [[50], [51], [49, 46, 53]] :=
  Tokens.cons [] [50] [32, 51, 32, 49, 46, 53] _ (by simp) (by simp) (by simp [Props.Io.IsSpace]) (by simp [Props.Io.IsSpace])
    (Tokens.cons [32] [51] [32, 49, 46, 53] _ (by simp [Props.Io.IsSpace]) (by simp) (by simp [Props.Io.IsSpace]) (by simp [Props.Io.IsSpace])
      (Tokens.cons [32] [49, 46, 53] [] [] (by simp [Props.Io.IsSpace]) (by simp) (by simp [Props.Io.IsSpace]) (by simp) (Tokens.none [] (by simp))))

/-- The timestamp is the first column after the vertices. -/
def withTime : Cfg := ⟨none, some 0, false, false, false⟩

theorem reads_good : Reads rangeOps withTime 0 [good] [⟨.add, 0, 1, 2, ⟨7, 0⟩⟩] :=
  Reads.edge 0 good [] _ [] (by simp [IsComment, good])
    ⟨[49], [50], [[48, 48, 55]], tokens_good, by simp, ⟨by simp [withTime], by simp [withTime]⟩, rfl, by decide, _, rfl, by decide +kernel, rfl⟩ (Reads.nil 1)

theorem reads_bad : Reads rangeOps withTime 0 [bad] [⟨.add, 0, 2, 3, ⟨0, 0⟩⟩] :=
  Reads.edge 0 bad [] _ [] (by simp [IsComment, bad])
    ⟨[50], [51], [[49, 46, 53]], tokens_bad, by simp, ⟨by simp [withTime], by simp [withTime]⟩, rfl, by decide, _, rfl, by decide +kernel, rfl⟩ (Reads.nil 1)

theorem decimal007 : Decimal [48, 48, 55] 7 := Decimal.more [48, 48] 0 7 (Decimal.more [48] 0 0 (Decimal.one 0 (by decide)) (by decide)) (by decide)

/-- The hypotheses of `C90_times_partial` are met. -/
example : ∃ tok, ([[48, 48, 55]] : List (List UInt8))[0]? = some tok ∧ Decimal tok (7 : UInt64).toNat ∧ (0 : UInt64) = 0 :=
  C90_times_partial withTime 0 [good] _ [[[48, 48, 55]]] rfl rfl reads_good (.edge good [] [] _ _ _ (by simp [IsComment, good]) tokens_good .nil)
    (by intro rest hr tok ht
        rcases List.mem_singleton.1 hr with rfl
        cases ht
        exact ⟨7, by decide, decimal007⟩) 0 _ _ rfl rfl

theorem not_decimal : ∀ n, ¬ Decimal [49, 46, 53] n := by
  intro n h
  obtain ⟨ds, h1, h2, -⟩ := h.digits
  have h3 : (46 : UInt8) ∈ ds.map fun d => UInt8.ofNat (48 + d) := by rw [← h2]; simp
  obtain ⟨d, hd, h4⟩ := List.mem_map.1 h3
  have := (digit_ok d (h1 d hd)).1
  rw [h4] at this
  exact absurd this (by decide)

/-- The hypothesis of `C90_not_a_number` is met by "1.5". -/
example : parseUint [49, 46, 53] = 0 ∨ parseUint [49, 46, 53] = 18446744073709551615 := C90_not_a_number _ not_decimal

/-- **C90** fails: the line "2 3 1.5" is read as an edge at time 0. -/
theorem C90_statement_false : ¬ C90Statement := by
  intro h
  obtain ⟨tok, h1, h2⟩ := h withTime 0 [bad] _ [[[49, 46, 53]]] rfl rfl reads_bad (.edge bad [] [] _ _ _ (by simp [IsComment, bad]) tokens_bad .nil) 0 _ _ rfl rfl
  cases h1
  exact not_decimal _ h2

/-- 2^64, the first number that is too large. -/
example : parseUint [49, 56, 52, 52, 54, 55, 52, 52, 48, 55, 51, 55, 48, 57, 53, 53, 49, 54, 49, 54] = 18446744073709551615 := by decide +kernel

end Verif.Props.EdgeProps
