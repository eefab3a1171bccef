import Verif.Weights
import Verif.Props.EdgeProps
import Mathlib.Tactic.Linarith
import Mathlib.Tactic.Ring
import Mathlib.Tactic.NormNum
import Mathlib.Tactic.FieldSimp
import Mathlib.Algebra.Order.Floor.Ring
import Mathlib.Algebra.Order.Field.Power
import Mathlib.Tactic.Positivity

/-!
# C91: weights are read as they are written
-/

namespace Verif.Props.Weights

open Verif.Weights Verif.EdgeProps
open Verif.Loader (Ops Cfg Ev)
open Verif.Props.Loader (Reads IsComment)
open Verif.Props.EdgeProps (Columns tokens_unique)

/-! ## Numbers as they are written -/

/-- Digits as text. -/
def digits (ds : List Nat) : List UInt8 := ds.map fun d => UInt8.ofNat (48 + d)

/-- The number with these digits. -/
def num (ds : List Nat) : Nat := ds.foldl (fun a d => 10 * a + d) 0

/-- A sign, or none. -/
inductive Sign : List UInt8 → ℤ → Prop where
  | none : Sign [] 1
  | plus : Sign [43] 1
  | minus : Sign [45] (-1)

/-- Digits with or without a decimal point. -/
inductive Mantissa : List UInt8 → ℚ → Prop where
  | whole (ds : List Nat) : ds ≠ [] → (∀ d ∈ ds, d < 10) → Mantissa (digits ds) (num ds)
  | point (a b : List Nat) : a ++ b ≠ [] → (∀ d ∈ a ++ b, d < 10) → Mantissa (digits a ++ 46 :: digits b) (num a + num b / 10 ^ b.length)

/-- An exponent, or none. -/
inductive Exponent : List UInt8 → ℤ → Prop where
  | none : Exponent [] 0
  | power (c : UInt8) (t : List UInt8) (k : ℤ) (ds : List Nat) : c = 101 ∨ c = 69 → Sign t k → ds ≠ [] → (∀ d ∈ ds, d < 10) → Exponent (c :: (t ++ digits ds)) (k * num ds)

/-- A number in decimal, in the parts it is made of. -/
def Form (tok : List UInt8) (k : ℤ) (x : ℚ) (e : ℤ) : Prop := ∃ s m t, Sign s k ∧ Mantissa m x ∧ Exponent t e ∧ tok = s ++ (m ++ t)

/-- The text is the number. (Exponents from 100000 are left out.) -/
def Numeral (tok : List UInt8) (q : ℚ) : Prop := ∃ k x e, Form tok k x e ∧ e.natAbs < 100000 ∧ q = k * x * 10 ^ e

/-! ## Rounding -/

theorem roundEven_err (x : ℚ) : |(roundEven x : ℚ) - x| ≤ 1 / 2 := by
  have h1 := Int.floor_le x
  have h2 := Int.lt_floor_add_one x
  unfold roundEven
  rw [abs_le]
  split
  · constructor <;> linarith
  · split
    · push_cast; constructor <;> linarith
    · split
      · constructor <;> linarith
      · push_cast; constructor <;> linarith

theorem roundEven_int (n : ℤ) : roundEven (n : ℚ) = n := by simp [roundEven]

theorem roundEven_bounds (x : ℚ) : ⌊x⌋ ≤ roundEven x ∧ roundEven x ≤ ⌊x⌋ + 1 := by
  unfold roundEven
  split
  · omega
  · split
    · omega
    · split <;> omega

theorem roundEven_mono {x y : ℚ} (h : x ≤ y) : roundEven x ≤ roundEven y := by
  rcases lt_or_eq_of_le (Int.floor_mono h) with h1 | h1
  · have := roundEven_bounds x
    have := roundEven_bounds y
    omega
  · have e : (⌊x⌋ : ℚ) = ⌊y⌋ := by rw [h1]
    unfold roundEven
    rw [← h1]
    by_cases a1 : x - ⌊x⌋ < 1 / 2
    · rw [if_pos a1]
      split
      · omega
      · split
        · omega
        · split <;> omega
    · rw [if_neg a1, if_neg (show ¬ y - (⌊x⌋ : ℚ) < 1 / 2 by linarith)]
      by_cases a2 : 1 / 2 < x - ⌊x⌋
      · rw [if_pos a2, if_pos (show 1 / 2 < y - (⌊x⌋ : ℚ) by linarith)]
      · rw [if_neg a2]
        split
        · split <;> omega
        · omega

theorem roundEven_neg (x : ℚ) : roundEven (-x) = - roundEven x := by
  by_cases hx : x = ⌊x⌋
  · rw [hx, ← Int.cast_neg, roundEven_int, roundEven_int]
  · have h1 := Int.floor_le x
    have h2 := Int.lt_floor_add_one x
    have h3 : (⌊x⌋ : ℚ) < x := lt_of_le_of_ne h1 (Ne.symm hx)
    have h4 : ⌊-x⌋ = -⌊x⌋ - 1 := by
      rw [Int.floor_eq_iff]
      push_cast
      constructor <;> linarith
    unfold roundEven
    rw [h4]
    push_cast
    by_cases a : x - ⌊x⌋ < 1 / 2
    · rw [if_pos a, if_neg (by linarith), if_pos (by linarith)]; omega
    · by_cases b : 1 / 2 < x - ⌊x⌋
      · rw [if_neg a, if_pos b, if_pos (by linarith)]; omega
      · rw [if_neg a, if_neg b, if_neg (by linarith), if_neg (by linarith)]
        split <;> split <;> omega

/-- The rounded number, before the check of its size. -/
def near (q : ℚ) : ℚ := roundEven (q / ulp q) * ulp q

theorem ulp_pos (q : ℚ) : 0 < ulp q := by unfold ulp; positivity

theorem ulp_neg (q : ℚ) : ulp (-q) = ulp q := by unfold ulp; rw [abs_neg]

theorem near_neg (q : ℚ) : near (-q) = - near q := by
  unfold near; rw [ulp_neg, neg_div, roundEven_neg]; push_cast; ring

theorem near_err (q : ℚ) : |near q - q| ≤ ulp q / 2 := by
  have h := roundEven_err (q / ulp q)
  have hu := ulp_pos q
  have e : near q - q = ((roundEven (q / ulp q) : ℚ) - q / ulp q) * ulp q := by unfold near; field_simp
  rw [e, abs_mul, abs_of_pos hu]
  have := mul_le_mul_of_nonneg_right h hu.le
  linarith

/-- A multiple of the distance above `q` stays above. -/
theorem near_le {q y : ℚ} (n : ℤ) (hy : y = n * ulp q) (h : q ≤ y) : near q ≤ y := by
  have hu := ulp_pos q
  have h1 : q / ulp q ≤ n := by rw [div_le_iff₀ hu]; linarith
  have h2 := roundEven_mono h1
  rw [roundEven_int] at h2
  unfold near
  rw [hy]
  exact mul_le_mul_of_nonneg_right (by exact_mod_cast h2) hu.le

theorem le_near {q y : ℚ} (n : ℤ) (hy : y = n * ulp q) (h : y ≤ q) : y ≤ near q := by
  have hu := ulp_pos q
  have h1 : (n : ℚ) ≤ q / ulp q := by rw [le_div_iff₀ hu]; linarith
  have h2 := roundEven_mono h1
  rw [roundEven_int] at h2
  unfold near
  rw [hy]
  exact mul_le_mul_of_nonneg_right (by exact_mod_cast h2) hu.le

/-- Powers of two from the smallest exponent on are multiples. -/
theorem pow_multiple (q : ℚ) (m : ℤ) (h : max (Int.log 2 |q|) (-126) - 23 ≤ m) : ∃ n : ℤ, (2 : ℚ) ^ m = n * ulp q := by
  unfold ulp
  generalize max (Int.log 2 |q|) (-126) - 23 = u at *
  refine ⟨2 ^ (m - u).toNat, ?_⟩
  push_cast
  rw [← zpow_natCast, Int.toNat_of_nonneg (by omega), ← zpow_add₀ (by norm_num)]
  congr 1; ring

theorem near_mono_nonneg {q r : ℚ} (h0 : 0 ≤ q) (h : q ≤ r) : near q ≤ near r := by
  rcases eq_or_lt_of_le h0 with rfl | hq
  · have : near 0 = 0 := by simp [near, roundEven]
    rw [this]
    exact le_near 0 (by simp) h
  · have hr : 0 < r := lt_of_lt_of_le hq h
    have hl : Int.log 2 |q| ≤ Int.log 2 |r| := by
      rw [abs_of_pos hq, abs_of_pos hr]; exact Int.log_mono_right hq h
    by_cases e : max (Int.log 2 |q|) (-126) = max (Int.log 2 |r|) (-126)
    · have e' : ulp q = ulp r := by unfold ulp; rw [e]
      unfold near
      rw [e']
      have hu := ulp_pos r
      exact mul_le_mul_of_nonneg_right (by exact_mod_cast roundEven_mono (div_le_div_of_nonneg_right h hu.le)) hu.le
    · have h1 : max (Int.log 2 |q|) (-126) + 1 ≤ Int.log 2 |r| := by omega
      obtain ⟨n, hn⟩ := pow_multiple q (max (Int.log 2 |q|) (-126) + 1) (by omega)
      obtain ⟨n', hn'⟩ := pow_multiple r (Int.log 2 |r|) (by omega)
      have a1 : q ≤ (2 : ℚ) ^ (max (Int.log 2 |q|) (-126) + 1) := by
        have := Int.lt_zpow_succ_log_self (b := 2) (by norm_num) |q|
        rw [abs_of_pos hq] at *
        refine this.le.trans ?_
        exact_mod_cast zpow_le_zpow_right₀ (by norm_num : (1 : ℚ) ≤ 2) (by omega)
      have a2 : (2 : ℚ) ^ (max (Int.log 2 |q|) (-126) + 1) ≤ (2 : ℚ) ^ Int.log 2 |r| := zpow_le_zpow_right₀ (by norm_num) h1
      have a3 : (2 : ℚ) ^ Int.log 2 |r| ≤ r := by
        have := Int.zpow_log_le_self (b := 2) (r := |r|) (by norm_num) (by rw [abs_of_pos hr]; exact hr)
        rw [abs_of_pos hr] at *
        exact_mod_cast this
      exact ((near_le n hn a1).trans a2).trans (le_near n' hn' a3)

theorem near_nonneg {q : ℚ} (h : 0 ≤ q) : 0 ≤ near q := le_near 0 (by simp) h

theorem near_mono {q r : ℚ} (h : q ≤ r) : near q ≤ near r := by
  rcases le_total 0 q with h0 | h0
  · exact near_mono_nonneg h0 h
  · rcases le_total 0 r with h1 | h1
    · have := near_nonneg (q := -q) (by linarith)
      rw [near_neg] at this
      have := near_nonneg h1
      linarith
    · have := near_mono_nonneg (q := -r) (r := -q) (by linarith) (by linarith)
      rw [near_neg, near_neg] at this
      linarith

theorem near_abs (q : ℚ) : |near q| = near |q| := by
  rcases le_total 0 q with h | h
  · rw [abs_of_nonneg h, abs_of_nonneg (near_nonneg h)]
  · rw [abs_of_nonpos h, near_neg, abs_of_nonpos]
    have := near_nonneg (q := -q) (by linarith)
    rw [near_neg] at this
    linarith

theorem round32_eq (q : ℚ) : round32 q = if 2 ^ 128 ≤ |near q| then .inf (q < 0) else .fin (near q) := rfl

theorem near_exact (n k : ℤ) (hn : |n| < 2 ^ 24) (hk : -149 ≤ k) : near (n * 2 ^ k) = n * 2 ^ k := by
  by_cases h0 : n = 0
  · subst h0; simp [near, roundEven]
  · have hp : (0 : ℚ) < |(n : ℚ) * 2 ^ k| := by rw [abs_pos]; positivity
    have hlt : |(n : ℚ) * 2 ^ k| < (2 : ℚ) ^ (24 + k) := by
      rw [abs_mul, abs_of_pos (show (0 : ℚ) < 2 ^ k by positivity), zpow_add₀ (by norm_num)]
      refine mul_lt_mul_of_pos_right ?_ (by positivity)
      have : ((|n| : ℤ) : ℚ) < ((2 ^ 24 : ℤ) : ℚ) := by exact_mod_cast hn
      rw [Int.cast_abs] at this
      refine this.trans_le ?_
      norm_num
    have hlog : Int.log 2 |(n : ℚ) * 2 ^ k| < 24 + k := by
      have := (Int.lt_zpow_iff_log_lt (b := 2) (by norm_num) hp (x := 24 + k)).1 (by exact_mod_cast hlt)
      exact this
    obtain ⟨m, hm⟩ := pow_multiple ((n : ℚ) * 2 ^ k) k (by omega)
    have e : (n : ℚ) * 2 ^ k = ((n * m : ℤ) : ℚ) * ulp ((n : ℚ) * 2 ^ k) := by push_cast; rw [mul_assoc, ← hm]
    exact le_antisymm (near_le _ e le_rfl) (le_near _ e le_rfl)

theorem near_rel (q : ℚ) : |near q - q| ≤ max (|q| / 2 ^ 24) (1 / 2 ^ 150) := by
  by_cases h0 : q = 0
  · subst h0; simp [near, roundEven]
  refine (near_err q).trans ?_
  by_cases h : Int.log 2 |q| ≤ -126
  · refine le_trans (le_of_eq ?_) (le_max_right _ _)
    unfold ulp
    rw [max_eq_right h]
    norm_num
  · refine le_trans ?_ (le_max_left _ _)
    have := Int.zpow_log_le_self (b := 2) (r := |q|) (by norm_num) (abs_pos.2 h0)
    unfold ulp
    rw [max_eq_left (by omega), zpow_sub₀ (by norm_num)]
    push_cast at this
    have e : ((2 : ℚ) ^ (23 : ℤ)) = 2 ^ 23 := by norm_cast
    rw [e]
    have : (2 : ℚ) ^ Int.log 2 |q| / 2 ^ 23 / 2 = (2 : ℚ) ^ Int.log 2 |q| / 2 ^ 24 := by ring
    rw [this]
    gcongr

theorem near_close (q : ℚ) (h : q = 0 ∨ 1 / 2 ^ 126 ≤ |q|) : |near q - q| ≤ |q| / 2 ^ 24 := by
  rcases h with rfl | h
  · simp [near, roundEven]
  · refine (near_rel q).trans (max_le le_rfl ?_)
    have : (1 : ℚ) / 2 ^ 150 = 1 / 2 ^ 126 / 2 ^ 24 := by norm_num
    rw [this]
    gcongr

/-! ## Reading -/

theorem digit_ok (d : Nat) (h : d < 10) : isDigit (UInt8.ofNat (48 + d)) = true ∧ digitVal (UInt8.ofNat (48 + d)) = d ∧ UInt8.ofNat (48 + d) ≠ 46 ∧
    UInt8.ofNat (48 + d) ≠ 43 ∧ UInt8.ofNat (48 + d) ≠ 45 ∧ UInt8.ofNat (48 + d) ≠ 95 ∧ UInt8.ofNat (48 + d) ≠ 120 ∧ UInt8.ofNat (48 + d) ≠ 88 ∧
    lower (UInt8.ofNat (48 + d)) ≠ 105 ∧ lower (UInt8.ofNat (48 + d)) ≠ 110 ∧ lower (UInt8.ofNat (48 + d)) ≠ 101 := by
  have : ∀ d : Fin 10, isDigit (UInt8.ofNat (48 + d.val)) = true ∧ digitVal (UInt8.ofNat (48 + d.val)) = d.val ∧ UInt8.ofNat (48 + d.val) ≠ 46 ∧
    UInt8.ofNat (48 + d.val) ≠ 43 ∧ UInt8.ofNat (48 + d.val) ≠ 45 ∧ UInt8.ofNat (48 + d.val) ≠ 95 ∧ UInt8.ofNat (48 + d.val) ≠ 120 ∧ UInt8.ofNat (48 + d.val) ≠ 88 ∧
    lower (UInt8.ofNat (48 + d.val)) ≠ 105 ∧ lower (UInt8.ofNat (48 + d.val)) ≠ 110 ∧ lower (UInt8.ofNat (48 + d.val)) ≠ 101 := by decide
  exact this ⟨d, h⟩

theorem digit_of (c : UInt8) (h : isDigit c = true) : ∃ d < 10, c = UInt8.ofNat (48 + d) := by
  have h2 := of_decide_eq_true h
  have h3 : 48 ≤ c.toNat := UInt8.le_iff_toNat_le.1 h2.1
  have h4 : c.toNat ≤ 57 := UInt8.le_iff_toNat_le.1 h2.2
  exact ⟨c.toNat - 48, by omega, by rw [show 48 + (c.toNat - 48) = c.toNat by omega]; simp⟩

/-- Going on with digits. -/
def more (n : Nat) (ds : List Nat) : Nat := ds.foldl (fun a d => 10 * a + d) n

theorem more_eq (ds : List Nat) : ∀ n, more n ds = n * 10 ^ ds.length + num ds := by
  induction ds with
  | nil => intro n; simp [more, num]
  | cons d ds ih =>
    intro n
    have e1 : more n (d :: ds) = more (10 * n + d) ds := rfl
    have e2 : num (d :: ds) = more (10 * 0 + d) ds := rfl
    rw [e1, e2, ih, ih, List.length_cons, pow_succ]
    ring

theorem mantissa_digits (ds : List Nat) (rest : List UInt8) : ∀ (n f : Nat) (dot seen : Bool), (∀ d ∈ ds, d < 10) →
    mantissa (digits ds ++ rest) n f dot seen = mantissa rest (more n ds) (if dot then f + ds.length else f) dot (seen || !ds.isEmpty) := by
  induction ds with
  | nil => intro n f dot seen _; cases dot <;> simp [digits, more]
  | cons d ds ih =>
    intro n f dot seen h
    obtain ⟨h1, h2, h3, -⟩ := digit_ok d (h d (by simp))
    have e : digits (d :: ds) ++ rest = UInt8.ofNat (48 + d) :: (digits ds ++ rest) := rfl
    rw [e, mantissa, if_neg h3, if_pos h1, h2, ih _ _ _ _ fun x hx => h x (by simp [hx])]
    cases dot
    · simp [more]
    · simp [more]; congr 1; omega

/-- What follows a mantissa. -/
def Ends (t : List UInt8) : Prop := ∀ c ∈ t.head?, c = 101 ∨ c = 69

theorem mantissa_end (t : List UInt8) (h : Ends t) (n f : Nat) (dot seen : Bool) : mantissa t n f dot seen = (n, f, seen, t) := by
  cases t with
  | nil => rfl
  | cons c t =>
    have hc := h c (by simp)
    rw [mantissa, if_neg (by rcases hc with rfl | rfl <;> decide), if_neg (by rcases hc with rfl | rfl <;> decide)]

theorem Exponent.ends {t : List UInt8} {e : ℤ} (h : Exponent t e) : Ends t := by
  cases h with
  | none => intro c hc; simp at hc
  | power c t k ds hc _ _ _ => intro x hx; simp at hx; subst hx; exact hc

theorem sign_none {t : List UInt8} (h : ∀ c ∈ t.head?, c ≠ 43 ∧ c ≠ 45) : sign t = (false, t) := by
  cases t with
  | nil => rfl
  | cons c t =>
    have := h c (by simp)
    simp [sign, this.1, this.2]

theorem sign_eq {s : List UInt8} {k : ℤ} (h : Sign s k) (t : List UInt8) (ht : ∀ c ∈ t.head?, c ≠ 43 ∧ c ≠ 45) : sign (s ++ t) = (decide (k = -1), t) := by
  cases h with
  | none => exact sign_none ht
  | plus => simp [sign]
  | minus => simp [sign]

theorem digits_head {ds : List Nat} (h : ds ≠ []) (hd : ∀ d ∈ ds, d < 10) (t : List UInt8) : ∃ d < 10, ∃ r, digits ds ++ t = UInt8.ofNat (48 + d) :: r := by
  cases ds with
  | nil => exact absurd rfl h
  | cons d ds => exact ⟨d, hd d (by simp), digits ds ++ t, rfl⟩

theorem Mantissa.head {m : List UInt8} {x : ℚ} (h : Mantissa m x) (t : List UInt8) : ∃ c r, m ++ t = c :: r ∧ (c = 46 ∨ ∃ d < 10, c = UInt8.ofNat (48 + d)) := by
  cases h with
  | whole ds h hd =>
    obtain ⟨d, h1, r, h2⟩ := digits_head h hd t
    exact ⟨_, r, h2, .inr ⟨d, h1, rfl⟩⟩
  | point a b h hd =>
    by_cases ha : a = []
    · subst ha; exact ⟨46, _, rfl, .inl rfl⟩
    · obtain ⟨d, h1, r, h2⟩ := digits_head ha (fun d hx => hd d (by simp [hx])) (46 :: digits b ++ t)
      exact ⟨_, r, by simpa using h2, .inr ⟨d, h1, rfl⟩⟩

theorem Mantissa.sign {m : List UInt8} {x : ℚ} (h : Mantissa m x) (t : List UInt8) : ∀ c ∈ (m ++ t).head?, c ≠ 43 ∧ c ≠ 45 := by
  obtain ⟨c, r, h1, h2⟩ := h.head t
  rw [h1]
  intro c' hc
  simp at hc
  subst hc
  rcases h2 with rfl | ⟨d, hd, rfl⟩
  · decide
  · have := digit_ok d hd; exact ⟨this.2.2.2.1, this.2.2.2.2.1⟩

theorem Mantissa.read {m : List UInt8} {x : ℚ} (h : Mantissa m x) (t : List UInt8) (ht : Ends t) :
    ∃ n f, mantissa (m ++ t) 0 0 false false = (n, f, true, t) ∧ x = n / 10 ^ f := by
  cases h with
  | whole ds h hd =>
    refine ⟨num ds, 0, ?_, by simp⟩
    rw [mantissa_digits ds t 0 0 false false hd, mantissa_end t ht]
    cases ds with
    | nil => exact absurd rfl h
    | cons d ds => rfl
  | point a b h hd =>
    refine ⟨more (num a) b, b.length, ?_, ?_⟩
    · rw [List.append_assoc, mantissa_digits a _ 0 0 false false fun d hx => hd d (by simp [hx]), List.cons_append, mantissa, if_pos rfl, if_neg (by simp),
        mantissa_digits b t _ _ _ _ fun d hx => hd d (by simp [hx]), mantissa_end t ht]
      have : (false || !a.isEmpty || !b.isEmpty) = true := by
        cases a with
        | nil => cases b with
          | nil => exact absurd rfl h
          | cons => rfl
        | cons => rfl
      rw [this]
      simp [more, num]
    · rw [more_eq]
      push_cast
      field_simp

theorem expDigits_digits (ds : List Nat) : ∀ e, (∀ d ∈ ds, d < 10) → more e ds < 100000 → expDigits (digits ds) e = (more e ds, []) := by
  induction ds with
  | nil => intro e _ _; rfl
  | cons d ds ih =>
    intro e h hs
    obtain ⟨h1, h2, -⟩ := digit_ok d (h d (by simp))
    have e0 : digits (d :: ds) = UInt8.ofNat (48 + d) :: digits ds := rfl
    have e1 : more e (d :: ds) = more (10 * e + d) ds := rfl
    have hle : 10 * e + d ≤ more (10 * e + d) ds := by
      rw [more_eq]
      have : 1 ≤ 10 ^ ds.length := Nat.one_le_pow _ _ (by norm_num)
      nlinarith
    rw [e1] at hs
    rw [e0, expDigits, if_pos h1, h2, if_pos (by omega), ih _ (fun x hx => h x (by simp [hx])) hs, e1]

theorem Exponent.read {t : List UInt8} {e : ℤ} (h : Exponent t e) (hs : e.natAbs < 100000) : exponent t = some (e, []) := by
  cases h with
  | none => rfl
  | power c t k ds hc hk hd hx =>
    obtain ⟨d, h1, r, h2⟩ := digits_head hd hx []
    rw [List.append_nil] at h2
    obtain ⟨g1, -, -, g4, g5, -⟩ := digit_ok d h1
    have hn : (num ds) < 100000 := by
      rw [Int.natAbs_mul] at hs
      cases hk <;> simpa using hs
    have e1 : sign (t ++ digits ds) = (decide (k = -1), digits ds) := sign_eq hk _ (by rw [h2]; intro x hx; obtain rfl := Option.some.inj hx; exact ⟨g4, g5⟩)
    have e2 : expDigits (digits ds) 0 = (num ds, []) := expDigits_digits ds 0 hx hn
    rw [exponent, if_pos hc, e1]
    dsimp only
    rw [h2]
    dsimp only
    rw [if_pos g1, ← h2, e2]
    cases hk <;> simp

theorem Numeral.read {tok : List UInt8} {q : ℚ} (h : Numeral tok q) : readFloat tok = some q := by
  obtain ⟨k, x, e, ⟨s, m, t, h1, h2, h3, rfl⟩, h4, rfl⟩ := h
  obtain ⟨n, f, h5, h6⟩ := h2.read t h3.ends
  unfold readFloat
  rw [sign_eq h1 (m ++ t) (h2.sign t)]
  dsimp only
  rw [h5]
  dsimp only
  rw [if_pos rfl, h3.read h4]
  dsimp only
  rw [h6, zpow_sub₀ (by norm_num)]
  cases h1
  · simp; ring
  · simp; ring
  · simp; ring

theorem Numeral.plain {tok : List UInt8} {q : ℚ} (h : Numeral tok q) : tok.any (fun c => c == 95 || c == 120 || c == 88) = false ∧ special tok = none := by
  obtain ⟨k, x, e, ⟨s, m, t, h1, h2, h3, rfl⟩, h4, rfl⟩ := h
  have hds : ∀ ds : List Nat, (∀ d ∈ ds, d < 10) → ∀ c ∈ digits ds, c ≠ 95 ∧ c ≠ 120 ∧ c ≠ 88 := by
    intro ds hd c hc
    obtain ⟨d, h5, rfl⟩ := List.mem_map.1 hc
    have := digit_ok d (hd d h5)
    exact ⟨this.2.2.2.2.2.1, this.2.2.2.2.2.2.1, this.2.2.2.2.2.2.2.1⟩
  have hsg : ∀ (s : List UInt8) (k : ℤ), Sign s k → ∀ c ∈ s, c ≠ 95 ∧ c ≠ 120 ∧ c ≠ 88 := by
    intro s k h c hc
    cases h
    · simp at hc
    · simp at hc; subst hc; decide
    · simp at hc; subst hc; decide
  constructor
  · rw [List.any_eq_false]
    intro c hc
    have : c ≠ 95 ∧ c ≠ 120 ∧ c ≠ 88 := by
      rcases List.mem_append.1 hc with hc | hc
      · exact hsg s k h1 c hc
      · rcases List.mem_append.1 hc with hc | hc
        · cases h2 with
          | whole ds _ hd => exact hds ds hd c hc
          | point a b _ hd =>
            rcases List.mem_append.1 hc with hc | hc
            · exact hds a (fun d hx => hd d (by simp [hx])) c hc
            · rcases List.mem_cons.1 hc with rfl | hc
              · decide
              · exact hds b (fun d hx => hd d (by simp [hx])) c hc
        · cases h3 with
          | none => simp at hc
          | power c' t k' ds h5 h6 _ hd =>
            rcases List.mem_cons.1 hc with rfl | hc
            · rcases h5 with rfl | rfl <;> decide
            · rcases List.mem_append.1 hc with hc | hc
              · exact hsg t k' h6 c hc
              · exact hds ds hd c hc
    simp [this.1, this.2.1, this.2.2]
  · obtain ⟨c, r, h5, h6⟩ := h2.head t
    have h7 : lower c ≠ 105 ∧ lower c ≠ 110 := by
      rcases h6 with rfl | ⟨d, hd, rfl⟩
      · decide
      · have := digit_ok d hd; exact ⟨this.2.2.2.2.2.2.2.2.1, this.2.2.2.2.2.2.2.2.2.1⟩
    unfold special
    rw [sign_eq h1 (m ++ t) (h2.sign t), h5]
    simp only [List.map_cons, List.cons.injEq, h7.1, false_and, or_self, if_false]
    rw [if_neg]
    intro h8
    cases h1 with
    | none => simp [h7.2] at h8
    | plus => simp at h8; exact absurd h8.1 (by decide)
    | minus => simp at h8; exact absurd h8.1 (by decide)

/-- **C91** for a token: a decimal number is read as the `float32` next to it. -/
theorem C91_token (other : List UInt8 → Flt) (tok : List UInt8) (q : ℚ) (h : Numeral tok q) : parseFloat other tok = round32 q := by
  unfold parseFloat
  rw [if_neg (by rw [h.plain.1]; simp), h.plain.2, h.read]

/-- **C91** for a token: numbers of at most 24 bits are read exactly, among them the integers below 2^24. -/
theorem C91_exact (other : List UInt8 → Flt) (tok : List UInt8) (n k : ℤ) (h : Numeral tok (n * 2 ^ k)) (hn : |n| < 2 ^ 24) (hk : -149 ≤ k) (hk' : k ≤ 104) :
    parseFloat other tok = .fin (n * 2 ^ k) := by
  rw [C91_token other tok _ h, round32_eq, near_exact n k hn hk, if_neg]
  rw [not_le, abs_mul, abs_of_pos (show (0 : ℚ) < 2 ^ k by positivity)]
  have h1 : |(n : ℚ)| < 2 ^ 24 := by exact_mod_cast hn
  have h2 : (2 : ℚ) ^ k ≤ 2 ^ (104 : ℤ) := zpow_le_zpow_right₀ (by norm_num) hk'
  calc |(n : ℚ)| * 2 ^ k < 2 ^ 24 * 2 ^ k := mul_lt_mul_of_pos_right h1 (by positivity)
    _ ≤ 2 ^ 24 * 2 ^ (104 : ℤ) := by gcongr
    _ = 2 ^ 128 := by norm_num

/-- Up to 2^127 nothing overflows. -/
theorem near_lt (q : ℚ) (h : |q| ≤ 2 ^ 127) : |near q| < 2 ^ 128 := by
  rw [near_abs]
  have := near_mono h
  have e : near (2 ^ 127) = 2 ^ 127 := by
    have := near_exact 1 127 (by norm_num) (by norm_num)
    norm_num at this ⊢
    exact this
  rw [e] at this
  exact lt_of_le_of_lt this (by norm_num)

/-- **C91** for a token: what is read differs from the number by at most one part in 2^24 (for very small numbers, by 2^-150). -/
theorem C91_close (other : List UInt8 → Flt) (tok : List UInt8) (q : ℚ) (h : Numeral tok q) (hq : |q| ≤ 2 ^ 127) :
    ∃ r, parseFloat other tok = .fin r ∧ |r - q| ≤ max (|q| / 2 ^ 24) (1 / 2 ^ 150) :=
  ⟨near q, by rw [C91_token other tok q h, round32_eq, if_neg (not_le.2 (near_lt q hq))], near_rel q⟩

/-- **C91** for a token: the order of numbers is kept. -/
theorem C91_order (other : List UInt8 → Flt) (tok tok' : List UInt8) (q q' : ℚ) (h : Numeral tok q) (h' : Numeral tok' q') (hq : |q| ≤ 2 ^ 127) (hq' : |q'| ≤ 2 ^ 127) (hle : q ≤ q') :
    ∃ r r', parseFloat other tok = .fin r ∧ parseFloat other tok' = .fin r' ∧ r ≤ r' :=
  ⟨near q, near q', by rw [C91_token other tok q h, round32_eq, if_neg (not_le.2 (near_lt q hq))],
    by rw [C91_token other tok' q' h', round32_eq, if_neg (not_le.2 (near_lt q' hq'))], near_mono hle⟩

/-- **C91** for a token: a number of 2^128 and more is read as infinity. -/
theorem C91_large (other : List UInt8 → Flt) (tok : List UInt8) (q : ℚ) (h : Numeral tok q) (hq : 2 ^ 128 ≤ |q|) : parseFloat other tok = .inf (decide (q < 0)) := by
  rw [C91_token other tok q h, round32_eq, if_pos]
  rw [near_abs]
  have := near_mono hq
  have e : near (2 ^ 128) = 2 ^ 128 := by
    have := near_exact 1 128 (by norm_num) (by norm_num)
    norm_num at this ⊢
    exact this
  rwa [e] at this

/-! ## What is not a number -/

theorem mantissa_dot : ∀ (s : List UInt8) (n f : Nat) (seen : Bool), ∃ ds : List Nat, (∀ d ∈ ds, d < 10) ∧ s = digits ds ++ (mantissa s n f true seen).2.2.2 ∧
    ((mantissa s n f true seen).2.2.1 = (seen || !ds.isEmpty)) := by
  intro s
  induction s with
  | nil => intro n f seen; exact ⟨[], by simp, by simp [mantissa, digits], by simp [mantissa]⟩
  | cons c s ih =>
    intro n f seen
    rw [mantissa]
    split
    · exact ⟨[], by simp, by simp [digits], by simp⟩
    · split
      · next hd =>
        obtain ⟨d, h1, rfl⟩ := digit_of c hd
        obtain ⟨ds, h2, h3, h4⟩ := ih (10 * n + digitVal (UInt8.ofNat (48 + d))) (f + 1) true
        refine ⟨d :: ds, by intro x hx; rcases List.mem_cons.1 hx with rfl | hx; exact h1; exact h2 x hx, ?_, ?_⟩
        · simp only [if_true]
          nth_rewrite 1 [h3]
          rfl
        · simp only [if_true]
          rw [h4]
          simp
      · exact ⟨[], by simp, by simp [digits], by simp⟩

theorem mantissa_form : ∀ (s : List UInt8) (n f : Nat) (seen : Bool),
    (∃ ds : List Nat, (∀ d ∈ ds, d < 10) ∧ s = digits ds ++ (mantissa s n f false seen).2.2.2 ∧ (mantissa s n f false seen).2.2.1 = (seen || !ds.isEmpty)) ∨
    (∃ a b : List Nat, (∀ d ∈ a ++ b, d < 10) ∧ s = digits a ++ 46 :: digits b ++ (mantissa s n f false seen).2.2.2 ∧ (mantissa s n f false seen).2.2.1 = (seen || !(a ++ b).isEmpty)) := by
  intro s
  induction s with
  | nil => intro n f seen; exact .inl ⟨[], by simp, by simp [mantissa, digits], by simp [mantissa]⟩
  | cons c s ih =>
    intro n f seen
    rw [mantissa]
    split
    · next hc =>
      subst hc
      simp only [Bool.false_eq_true, if_false]
      obtain ⟨ds, h1, h2, h3⟩ := mantissa_dot s n f seen
      right
      refine ⟨[], ds, by simpa using h1, ?_, by simpa using h3⟩
      nth_rewrite 1 [h2]
      simp [digits]
    · split
      · next hd =>
        obtain ⟨d, h1, rfl⟩ := digit_of c hd
        simp only [Bool.false_eq_true, if_false]
        rcases ih (10 * n + digitVal (UInt8.ofNat (48 + d))) f true with ⟨ds, h2, h3, h4⟩ | ⟨a, b, h2, h3, h4⟩
        · left
          refine ⟨d :: ds, by intro x hx; rcases List.mem_cons.1 hx with rfl | hx; exact h1; exact h2 x hx, ?_, by rw [h4]; simp⟩
          nth_rewrite 1 [h3]
          rfl
        · right
          refine ⟨d :: a, b, by intro x hx; rcases List.mem_cons.1 hx with rfl | hx; exact h1; exact h2 x hx, ?_, by rw [h4]; simp⟩
          nth_rewrite 1 [h3]
          rfl
      · exact .inl ⟨[], by simp, by simp [digits], by simp⟩

theorem sign_form (s : List UInt8) : ∃ t k, Sign t k ∧ s = t ++ (sign s).2 := by
  cases s with
  | nil => exact ⟨[], 1, .none, rfl⟩
  | cons c s =>
    rw [sign]
    split
    · next h => exact ⟨[43], 1, .plus, by simp [h]⟩
    · split
      · next h => exact ⟨[45], -1, .minus, by simp [h]⟩
      · exact ⟨[], 1, .none, rfl⟩

theorem expDigits_form : ∀ (s : List UInt8) (e : Nat), (expDigits s e).2 = [] → ∃ ds : List Nat, (∀ d ∈ ds, d < 10) ∧ s = digits ds := by
  intro s
  induction s with
  | nil => intro e _; exact ⟨[], by simp, rfl⟩
  | cons c s ih =>
    intro e h
    rw [expDigits] at h
    split at h
    · next hd =>
      obtain ⟨d, h1, rfl⟩ := digit_of c hd
      obtain ⟨ds, h2, rfl⟩ := ih _ h
      exact ⟨d :: ds, by intro x hx; rcases List.mem_cons.1 hx with rfl | hx; exact h1; exact h2 x hx, rfl⟩
    · cases h

theorem exponent_form (s : List UInt8) (e : ℤ) (h : exponent s = some (e, [])) : ∃ e', Exponent s e' := by
  cases s with
  | nil => exact ⟨0, .none⟩
  | cons c s =>
    rw [exponent] at h
    split at h
    · next hc =>
      obtain ⟨t, k, h1, h2⟩ := sign_form s
      cases hs : (sign s).2 with
      | nil => rw [hs] at h; cases h
      | cons d ds =>
        rw [hs] at h
        dsimp only at h
        split at h
        · next hd =>
          simp only [Option.some.injEq, Prod.mk.injEq] at h
          obtain ⟨xs, h3, h4⟩ := expDigits_form (d :: ds) 0 h.2
          rw [hs, h4] at h2
          subst h2
          exact ⟨_, .power c t k xs hc h1 (by rintro rfl; cases h4) h3⟩
        · cases h
    · cases h

/-- **C91** for a token: what is neither a number nor an infinity nor "nan" is read as 0. -/
theorem C91_not_a_number (other : List UInt8 → Flt) (tok : List UInt8) (hx : ∀ c ∈ tok, c ≠ 95 ∧ c ≠ 120 ∧ c ≠ 88) (hs : special tok = none)
    (h : ∀ k x e, ¬ Form tok k x e) : parseFloat other tok = .fin 0 := by
  unfold parseFloat
  rw [if_neg, hs]
  · dsimp only
    cases hr : readFloat tok with
    | none => rfl
    | some q =>
      exfalso
      unfold readFloat at hr
      dsimp only at hr
      split at hr
      · next hseen =>
        obtain ⟨t, k, h1, h2⟩ := sign_form tok
        split at hr
        · next e he =>
          obtain ⟨e', he'⟩ := exponent_form _ _ he
          rcases mantissa_form (sign tok).2 0 0 false with ⟨ds, h3, h4, h5⟩ | ⟨a, b, h3, h4, h5⟩
          · refine h k (num ds) e' ⟨t, digits ds, _, h1, .whole ds ?_ h3, he', ?_⟩
            · rintro rfl; rw [h5] at hseen; simp at hseen
            · rw [← h4]; exact h2
          · refine h k _ e' ⟨t, _, _, h1, .point a b ?_ h3, he', ?_⟩
            · intro h6; rw [h5, h6] at hseen; simp at hseen
            · rw [← h4]; exact h2
        · cases hr
      · cases hr
  · rw [List.any_eq_true]
    rintro ⟨c, hc, h1⟩
    obtain ⟨a, b, d⟩ := hx c hc
    simp [a, b, d] at h1

/-- The word `w` in small and capital letters. -/
def Word (w tok : List UInt8) : Prop := List.Forall₂ (fun c l => c = l ∨ c = l - 32) tok w

theorem word_spec {w tok : List UInt8} (h : Word w tok) (hw : ∀ l ∈ w, 97 ≤ l ∧ l ≤ 119) :
    tok.map lower = w ∧ (∀ c ∈ tok, c ≠ 95 ∧ c ≠ 120 ∧ c ≠ 88 ∧ c ≠ 43 ∧ c ≠ 45) := by
  have key : ∀ l : UInt8, 97 ≤ l → l ≤ 119 → ∀ c : UInt8, c = l ∨ c = l - 32 → lower c = l ∧ c ≠ 95 ∧ c ≠ 120 ∧ c ≠ 88 ∧ c ≠ 43 ∧ c ≠ 45 := by
    intro l h1 h2 c hc
    have : ∀ n : Fin 256, 97 ≤ n.val → n.val ≤ 119 → ∀ c : UInt8, c = UInt8.ofNat n.val ∨ c = UInt8.ofNat n.val - 32 →
        lower c = UInt8.ofNat n.val ∧ c ≠ 95 ∧ c ≠ 120 ∧ c ≠ 88 ∧ c ≠ 43 ∧ c ≠ 45 := by
      intro n h1 h2 c hc
      rcases hc with rfl | rfl <;> revert n <;> decide +kernel
    have hl : UInt8.ofNat l.toNat = l := UInt8.ofNat_toNat
    have := this ⟨l.toNat, l.toNat_lt⟩ (UInt8.le_iff_toNat_le.1 h1) (UInt8.le_iff_toNat_le.1 h2) c
    simp only [hl] at this
    exact this hc
  unfold Word at h
  induction h with
  | nil => simp
  | @cons c l tok w hc _ ih =>
    obtain ⟨i1, i2⟩ := ih (fun x hx => hw x (List.mem_cons_of_mem _ hx))
    obtain ⟨a, b⟩ := hw l (List.mem_cons_self ..)
    obtain ⟨k1, k2⟩ := key l a b c hc
    exact ⟨by simp [k1, i1], fun x hx => by rcases List.mem_cons.1 hx with rfl | hx; exacts [k2, i2 x hx]⟩

/-- **C91** for a token: "inf" and "infinity", in small or capital letters, are read as the infinity with the sign before them. -/
theorem C91_infinity (other : List UInt8 → Flt) (s tok : List UInt8) (k : ℤ) (hs : Sign s k)
    (h : Word [105, 110, 102] tok ∨ Word [105, 110, 102, 105, 110, 105, 116, 121] tok) : parseFloat other (s ++ tok) = .inf (decide (k = -1)) := by
  have hb : (tok.map lower = [105, 110, 102] ∨ tok.map lower = [105, 110, 102, 105, 110, 105, 116, 121]) ∧
      (∀ c ∈ tok, c ≠ 95 ∧ c ≠ 120 ∧ c ≠ 88 ∧ c ≠ 43 ∧ c ≠ 45) := by
    rcases h with h | h
    · exact ⟨.inl (word_spec h (by decide)).1, (word_spec h (by decide)).2⟩
    · have hy : tok.map lower = [105, 110, 102, 105, 110, 105, 116, 121] ∧ (∀ c ∈ tok, c ≠ 95 ∧ c ≠ 120 ∧ c ≠ 88 ∧ c ≠ 43 ∧ c ≠ 45) := by
        unfold Word at h
        cases h with | cons h1 h => cases h with | cons h2 h => cases h with | cons h3 h => cases h with | cons h4 h => cases h with | cons h5 h => cases h with | cons h6 h => cases h with | cons h7 h => cases h with | cons h8 h =>
        cases h
        rcases h1 with rfl | rfl <;> rcases h2 with rfl | rfl <;> rcases h3 with rfl | rfl <;> rcases h4 with rfl | rfl <;>
          rcases h5 with rfl | rfl <;> rcases h6 with rfl | rfl <;> rcases h7 with rfl | rfl <;> rcases h8 with rfl | rfl <;> decide
      exact ⟨.inr hy.1, hy.2⟩
  have hsig : sign (s ++ tok) = (decide (k = -1), tok) := sign_eq hs tok (fun c hc => by
    have := hb.2 c (List.mem_of_mem_head? hc)
    exact ⟨this.2.2.2.1, this.2.2.2.2⟩)
  unfold parseFloat
  rw [if_neg]
  · unfold special
    rw [hsig, if_pos hb.1]
  · rw [List.any_eq_true]
    rintro ⟨c, hc, h1⟩
    rcases List.mem_append.1 hc with hc | hc
    · cases hs <;> simp at hc <;> subst hc <;> revert h1 <;> decide
    · obtain ⟨a, b, d, -⟩ := hb.2 c hc
      simp [a, b, d] at h1

/-- **C91** for a token: "nan" is read as not a number; with a sign it is no number at all and read as 0. -/
theorem C91_nan (other : List UInt8 → Flt) (tok : List UInt8) (h : Word [110, 97, 110] tok) :
    parseFloat other tok = .nan ∧ parseFloat other (45 :: tok) = .fin 0 := by
  unfold Word at h
  cases h with | cons h1 h => cases h with | cons h2 h => cases h with | cons h3 h =>
  cases h
  rcases h1 with rfl | rfl <;> rcases h2 with rfl | rfl <;> rcases h3 with rfl | rfl <;> exact ⟨by rfl, by rfl⟩

/-- "-Inf" and "NaN". -/
example : Word [105, 110, 102] [73, 110, 102] ∧ Word [110, 97, 110] [78, 97, 78] := by
  simp [Word]

/-! ## Files -/

/-- The `k`-th edge of the file has the number in column `j` of the `k`-th edge line as its weight. -/
def C91Statement : Prop :=
  ∀ (other : List UInt8 → Flt) (c : Cfg) (j : Nat) (file : List (List UInt8)) (evs : List (Ev Flt)) (cs : List (List (List UInt8))), c.wPos = some j →
  Reads (weightOps other) c 0 file evs → Columns file cs → ∀ (k : Nat) (e : Ev Flt) (rest : List (List UInt8)), evs[k]? = some e → cs[k]? = some rest →
    ∃ tok q, rest[j]? = some tok ∧ Numeral tok q ∧ e.prop = .fin q

/-- What is read from the columns of a line. -/
theorem event_prop {other : List UInt8 → Flt} {c : Cfg} {j : Nat} (hj : c.wPos = some j) {k0 : Nat} {file : List (List UInt8)} {evs : List (Ev Flt)} {cs : List (List (List UInt8))}
    (h : Reads (weightOps other) c k0 file evs) (hc : Columns file cs) : evs.length = cs.length ∧ ∀ (k : Nat) (e : Ev Flt) (rest : List (List UInt8)), evs[k]? = some e → cs[k]? = some rest →
      ∃ tok, rest[j]? = some tok ∧ e.prop = parseFloat other tok := by
  induction h generalizing cs with
  | nil k => cases hc; exact ⟨rfl, by intro k e rest h; simp at h⟩
  | comment k line file evs hcm _ ih =>
    cases hc with
    | comment _ _ _ _ hc => exact ih hc
    | edge _ _ _ _ _ _ hn _ _ => exact absurd hcm hn
  | edge k line file e evs hcm he _ ih =>
    cases hc with
    | comment _ _ _ h _ => exact absurd h hcm
    | edge _ _ cs a b rest _ ht hc =>
      obtain ⟨h1, h2⟩ := ih hc
      refine ⟨by simp [h1], ?_⟩
      intro i e' rest' hi hr
      cases i with
      | succ i => exact h2 i e' rest' (by simpa using hi) (by simpa using hr)
      | zero =>
        simp only [List.getElem?_cons_zero, Option.some.injEq] at hi hr
        subst hi hr
        obtain ⟨s, d, r, g1, g2, g3, g4, g5, p, g6, g7, g8⟩ := he
        have := tokens_unique ht g1
        injection this with _ this
        injection this with _ this
        subst this
        have hlt := g3.1 j hj
        refine ⟨rest[j], List.getElem?_eq_getElem hlt, ?_⟩
        rw [g7, g6, hj]
        simp [List.getElem?_eq_getElem hlt, weightOps]

/-- **C91** for files with decimal numbers up to 2^127 in the weight column: the weights are these, up to one part in
2^24; exactly, if they have at most 24 bits. -/
theorem C91_weights_partial (other : List UInt8 → Flt) (c : Cfg) (j : Nat) (file : List (List UInt8)) (evs : List (Ev Flt)) (cs : List (List (List UInt8))) (hj : c.wPos = some j)
    (h : Reads (weightOps other) c 0 file evs) (hc : Columns file cs) (hnum : ∀ rest ∈ cs, ∀ tok, rest[j]? = some tok → ∃ q, Numeral tok q ∧ |q| ≤ 2 ^ 127) :
    ∀ (k : Nat) (e : Ev Flt) (rest : List (List UInt8)), evs[k]? = some e → cs[k]? = some rest → ∃ tok q r, rest[j]? = some tok ∧ Numeral tok q ∧ e.prop = .fin r ∧
      |r - q| ≤ max (|q| / 2 ^ 24) (1 / 2 ^ 150) ∧ ∀ n i : ℤ, q = n * 2 ^ i → |n| < 2 ^ 24 → -149 ≤ i → i ≤ 104 → r = q := by
  intro k e rest he hr
  obtain ⟨tok, h1, h2⟩ := (event_prop hj h hc).2 k e rest he hr
  obtain ⟨q, h3, h4⟩ := hnum rest (List.mem_of_getElem? hr) tok h1
  obtain ⟨r, h5, h6⟩ := C91_close other tok q h3 h4
  refine ⟨tok, q, r, h1, h3, h2.trans h5, h6, ?_⟩
  rintro n i rfl a b d
  have := C91_exact other tok n i h3 a b d
  rw [h5] at this
  injection this

/-- Without a weight column every edge has weight 1. -/
theorem C91_default (other : List UInt8 → Flt) (c : Cfg) (k0 : Nat) (file : List (List UInt8)) (evs : List (Ev Flt)) (hj : c.wPos = none)
    (h : Reads (weightOps other) c k0 file evs) : ∀ e ∈ evs, e.prop = .fin 1 := by
  induction h with
  | nil k => simp
  | comment k line file evs hcm _ ih => exact ih
  | edge k line file e evs hcm he _ ih =>
    intro x hx
    rcases List.mem_cons.1 hx with rfl | hx
    · obtain ⟨s, d, r, g1, g2, g3, g4, g5, p, g6, g7, g8⟩ := he
      rw [g7, g6, hj]
      simp [weightOps]
    · exact ih x hx

/-! ## Cases -/

/-- "1 2 0.1". -/

def tenth : List UInt8 := [49, 32, 50, 32, 48, 46, 49]

theorem tokens_of (c : UInt8) (hs : ¬ Props.Io.IsSpace c) :
    Props.Io.Tokens [49, 32, 50, 32, 48, 46, c] [[49], [50], [48, 46, c]] :=
  Props.Io.Tokens.cons [] [49] [32, 50, 32, 48, 46, c] _ (by simp) (by simp) (by simp [Props.Io.IsSpace]) (by simp [Props.Io.IsSpace])
    (Props.Io.Tokens.cons [32] [50] [32, 48, 46, c] _ (by simp [Props.Io.IsSpace]) (by simp) (by simp [Props.Io.IsSpace]) (by simp [Props.Io.IsSpace])
      (Props.Io.Tokens.cons [32] [48, 46, c] [] [] (by simp [Props.Io.IsSpace]) (by simp) (by
        intro x hx
        simp only [List.mem_cons, List.not_mem_nil, or_false] at hx
        rcases hx with rfl | rfl | rfl
        · simp [Props.Io.IsSpace]
        · simp [Props.Io.IsSpace]
        · exact hs) (by simp) (Props.Io.Tokens.none [] (by simp))))

/-- The weight is the first column after the vertices. -/
def withWeight : Cfg := ⟨some 0, none, false, false, false⟩

/-- The model used for the cases has no numbers of the other kinds. -/
def noOther : List UInt8 → Flt := fun _ => .nan

theorem numeral_half : Numeral [48, 46, 53] (1 / 2) :=
  ⟨1, _, 0, ⟨[], [48, 46, 53], [], .none, .point [0] [5] (by simp) (by decide), .none, by simp⟩, by decide, by norm_num [num]⟩

theorem numeral_tenth : Numeral [48, 46, 49] (1 / 10) :=
  ⟨1, _, 0, ⟨[], [48, 46, 49], [], .none, .point [0] [1] (by simp) (by decide), .none, by simp⟩, by decide, by norm_num [num]⟩

/-- "-12.5e-1". -/
example : Numeral [45, 49, 50, 46, 53, 101, 45, 49] (-5 / 4) :=
  ⟨-1, _, _, ⟨[45], [49, 50, 46, 53], [101, 45, 49], .minus, .point [1, 2] [5] (by simp) (by decide), .power 101 [45] (-1) [1] (by simp) .minus (by simp) (by decide), rfl⟩, by decide, by norm_num [num]⟩

theorem reads_of (c : UInt8) (hs : ¬ Props.Io.IsSpace c) : Reads (weightOps noOther) withWeight 0 [[49, 32, 50, 32, 48, 46, c]] [⟨.add, 0, 1, 2, parseFloat noOther [48, 46, c]⟩] :=
  Reads.edge 0 _ [] _ [] (by simp [IsComment])
    ⟨[49], [50], [[48, 46, c]], tokens_of c hs, by simp, ⟨by simp [withWeight], by simp [withWeight]⟩, rfl, rfl, _, rfl, rfl, rfl⟩ (Reads.nil 1)

theorem columns_of (c : UInt8) (hs : ¬ Props.Io.IsSpace c) : Columns [[49, 32, 50, 32, 48, 46, c]] [[[48, 46, c]]] :=
  .edge _ [] [] _ _ _ (by simp [IsComment]) (tokens_of c hs) .nil

/-- The hypotheses of `C91_weights_partial` are met by "1 2 0.1". -/
example : ∃ tok q r, ([[48, 46, 49]] : List (List UInt8))[0]? = some tok ∧ Numeral tok q ∧ parseFloat noOther [48, 46, 49] = .fin r ∧
    |r - q| ≤ max (|q| / 2 ^ 24) (1 / 2 ^ 150) ∧ ∀ n i : ℤ, q = n * 2 ^ i → |n| < 2 ^ 24 → -149 ≤ i → i ≤ 104 → r = q :=
  C91_weights_partial noOther withWeight 0 [tenth] _ _ rfl (reads_of 49 (by simp [Props.Io.IsSpace])) (columns_of 49 (by simp [Props.Io.IsSpace]))
    (by intro rest hr tok ht
        rcases List.mem_singleton.1 hr with rfl
        cases ht
        exact ⟨1 / 10, numeral_tenth, by norm_num [abs_of_pos]⟩) 0 _ _ rfl rfl

/-- The hypotheses of `C91_exact` are met by "0.5". -/
example : parseFloat noOther [48, 46, 53] = .fin (1 / 2) := by
  have := C91_exact noOther [48, 46, 53] 1 (-1) (by have := numeral_half; norm_num at this ⊢; exact this) (by norm_num) (by norm_num) (by norm_num)
  norm_num at this ⊢
  exact this

theorem tenth_read : parseFloat noOther [48, 46, 49] = .fin (13421773 / 134217728) := by decide +kernel

/-- Numbers can be written in one way only. -/
theorem Numeral.unique {tok : List UInt8} {q q' : ℚ} (h : Numeral tok q) (h' : Numeral tok q') : q = q' := by
  have := h.read
  rw [h'.read] at this
  exact (Option.some.inj this).symm

/-- **C91** fails: the line "1 2 0.1" is read as an edge of weight 13421773 / 134217728. -/
theorem C91_statement_false : ¬ C91Statement := by
  intro h
  obtain ⟨tok, q, h1, h2, h3⟩ := h noOther withWeight 0 [tenth] _ _ rfl (reads_of 49 (by simp [Props.Io.IsSpace])) (columns_of 49 (by simp [Props.Io.IsSpace])) 0 _ _ rfl rfl
  cases h1
  obtain rfl := h2.unique numeral_tenth
  rw [tenth_read] at h3
  injection h3 with h3
  norm_num at h3

/-- "a1" is 0; 2^24 + 1 is 2^24; "1e39" and "inf" are infinite. -/
example : parseFloat noOther [97, 49] = .fin 0 := by decide +kernel
example : parseFloat noOther [49, 54, 55, 55, 55, 50, 49, 55] = .fin 16777216 := by decide +kernel
example : parseFloat noOther [49, 101, 51, 57] = .inf false := by decide +kernel
example : parseFloat noOther [45, 73, 110, 102] = .inf true := by decide +kernel

theorem not_form (c : UInt8) (t : List UInt8) (h : c ≠ 43 ∧ c ≠ 45 ∧ c ≠ 46 ∧ isDigit c = false) (k : ℤ) (x : ℚ) (e : ℤ) : ¬ Form (c :: t) k x e := by
  rintro ⟨s, m, r, h1, h2, h3, h4⟩
  obtain ⟨c', r', h5, h6⟩ := h2.head r
  rw [h5] at h4
  cases h1 with
  | none =>
    injection h4 with h4 _
    subst h4
    rcases h6 with rfl | ⟨d, hd, rfl⟩
    · exact h.2.2.1 rfl
    · rw [(digit_ok d hd).1] at h; exact absurd h.2.2.2 (by simp)
  | plus => injection h4 with h4 _; exact h.1 h4
  | minus => injection h4 with h4 _; exact h.2.1 h4

/-- The hypotheses of `C91_not_a_number` are met by "abc". -/
example : parseFloat noOther [97, 98, 99] = .fin 0 :=
  C91_not_a_number noOther _ (by decide) (by decide +kernel) (not_form 97 _ (by decide))

end Verif.Props.Weights
