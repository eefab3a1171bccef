import Verif.Asks
import Verif.Props.Loader
import Verif.Props.Pipeline
import Verif.Props.MinLabel

/-!
# C86: the moments of the time series
-/

namespace Verif.Props.Asks

open Verif Verif.Asks
open Verif.Loader (Ev Ops Cfg Typ)
open Verif.Props.Loader (IsStream)

/-- By timestamp. -/
def Timed (o : Opts) : Prop := o.log = true ∧ o.byCount = false ∧ 0 < o.interval.toNat

/-- By number of events. -/
def Counted (o : Opts) : Prop := o.log = true ∧ o.byCount = true ∧ 0 < o.interval.toNat

/-- No timestamp is so large that the next target overflows. -/
def Fits (o : Opts) (tss : List UInt64) : Prop := ∀ ts ∈ tss, ts.toNat + o.interval.toNat < 2 ^ 64

theorem asks_snoc (o : Opts) (tss : List UInt64) (ts : UInt64) :
    (tss ++ [ts]).foldl (pass o) (start o) = pass o (tss.foldl (pass o) (start o)) ts := by
  rw [List.foldl_append]; rfl

theorem pass_prefix (o : Opts) (s : St) (ts : UInt64) : s.asked <+: (pass o s ts).asked := by
  unfold pass
  dsimp only
  repeat' split
  all_goals simp

theorem foldl_prefix (o : Opts) : ∀ (tss : List UInt64) (s : St), s.asked <+: (tss.foldl (pass o) s).asked
  | [], _ => List.prefix_refl _
  | ts :: tss, s => (pass_prefix o s ts).trans (foldl_prefix o tss (pass o s ts))

/-- Later events do not change what has been asked. -/
theorem asks_prefix (o : Opts) {a b : List UInt64} (h : a <+: b) : asks o a <+: asks o b := by
  obtain ⟨c, rfl⟩ := h
  unfold asks
  rw [List.foldl_append]
  exact foldl_prefix o c _

/-- What holds between two events, by timestamp. -/
structure Inv (o : Opts) (tss : List UInt64) (s : St) : Prop where
  passed : s.passed = tss.length
  pos : ∀ x ∈ s.asked, 1 ≤ x.1 ∧ x.1 ≤ tss.length ∧ tss[x.1 - 1]? = some x.2
  next : (s.asked = [] ∧ s.next = o.interval) ∨ ∃ l x, s.asked = l ++ [x] ∧ s.next.toNat = x.2.toNat + o.interval.toNat
  apart : s.asked.Pairwise fun a b => a.1 < b.1 ∧ a.2.toNat + o.interval.toNat ≤ b.2.toNat
  first : ∀ x ∈ s.asked, o.interval.toNat ≤ x.2.toNat
  below : ∀ ts ∈ tss, ts.toNat < s.next.toNat
  upto : ∀ x ∈ s.asked, x.2.toNat + o.interval.toNat ≤ s.next.toNat
  least : o.interval.toNat ≤ s.next.toNat

theorem inv_start (o : Opts) : Inv o [] (start o) :=
  ⟨rfl, fun _ h => absurd h List.not_mem_nil, .inl ⟨rfl, rfl⟩, .nil, fun _ h => absurd h List.not_mem_nil, fun _ h => absurd h List.not_mem_nil,
    fun _ h => absurd h List.not_mem_nil, Nat.le_refl _⟩

theorem inv_pass (o : Opts) (ho : Timed o) (tss : List UInt64) (s : St) (ts : UInt64) (hf : ts.toNat + o.interval.toNat < 2 ^ 64) (h : Inv o tss s) :
    Inv o (tss ++ [ts]) (pass o s ts) := by
  obtain ⟨h1, h2, h3, h4, h5, h6, h7, h8⟩ := h
  obtain ⟨o1, o2, o3⟩ := ho
  have hold : ∀ x ∈ s.asked, 1 ≤ x.1 ∧ x.1 ≤ (tss ++ [ts]).length ∧ (tss ++ [ts])[x.1 - 1]? = some x.2 := by
    intro x hx
    obtain ⟨a, b, c⟩ := h2 x hx
    refine ⟨a, by rw [List.length_append]; omega, ?_⟩
    rw [List.getElem?_append_left (by omega)]; exact c
  simp only [pass, o1, o2, Bool.true_and, Bool.false_and, Bool.false_eq_true, if_false, Bool.not_false, if_true]
  by_cases hn : s.next ≤ ts
  · rw [if_pos hn]
    have hn' : s.next.toNat ≤ ts.toNat := UInt64.le_iff_toNat_le.1 hn
    have hsum : (ts + o.interval).toNat = ts.toNat + o.interval.toNat := by
      rw [UInt64.toNat_add, Nat.mod_eq_of_lt hf]
    refine ⟨by simp [h1], ?_, .inr ⟨s.asked, _, rfl, hsum⟩, ?_, ?_, ?_, ?_, ?_⟩
    · intro x hx
      rcases List.mem_append.1 hx with hx | hx
      · exact hold x hx
      · rw [List.mem_singleton] at hx
        subst hx
        simp [h1]
    · rw [List.pairwise_append]
      refine ⟨h4, List.pairwise_singleton _ _, ?_⟩
      intro a ha b hb
      rw [List.mem_singleton] at hb
      subst hb
      have := h2 a ha
      have := h7 a ha
      constructor <;> dsimp only <;> omega
    · intro x hx
      rcases List.mem_append.1 hx with hx | hx
      · exact h5 x hx
      · rw [List.mem_singleton] at hx
        subst hx
        dsimp only; omega
    · intro x hx
      dsimp only
      rw [hsum]
      rcases List.mem_append.1 hx with hx | hx
      · have := h6 x hx; omega
      · rw [List.mem_singleton] at hx
        subst hx; omega
    · intro x hx
      dsimp only
      rw [hsum]
      rcases List.mem_append.1 hx with hx | hx
      · have := h7 x hx; omega
      · rw [List.mem_singleton] at hx
        subst hx; exact Nat.le_refl _
    · dsimp only
      rw [hsum]; omega
  · rw [if_neg hn]
    have hn' : ¬ s.next.toNat ≤ ts.toNat := fun h => hn (UInt64.le_iff_toNat_le.2 h)
    refine ⟨by simp [h1], hold, h3, h4, h5, ?_, h7, h8⟩
    intro x hx
    rcases List.mem_append.1 hx with hx | hx
    · exact h6 x hx
    · rw [List.mem_singleton] at hx
      subst hx; dsimp only; omega

theorem inv_foldl (o : Opts) (ho : Timed o) (tss : List UInt64) (hf : Fits o tss) : Inv o tss (tss.foldl (pass o) (start o)) := by
  induction tss using List.reverseRecOn with
  | nil => exact inv_start o
  | append_singleton l ts ih =>
    rw [asks_snoc]
    exact inv_pass o ho l _ ts (hf ts (by simp)) (ih fun x hx => hf x (List.mem_append_left _ hx))

/-- **C86** by timestamp: a query is named after the event it follows; names are at least an interval apart; and no event is
passed on that is an interval or more after the last query. -/
theorem C86_timed (o : Opts) (ho : Timed o) (tss : List UInt64) (hf : Fits o tss) :
    (∀ x ∈ asks o tss, 1 ≤ x.1 ∧ tss[x.1 - 1]? = some x.2 ∧ o.interval.toNat ≤ x.2.toNat) ∧
    ((asks o tss).Pairwise fun a b => a.1 < b.1 ∧ a.2.toNat + o.interval.toNat ≤ b.2.toNat) ∧
    ∀ (j : Nat) (ts : UInt64), tss[j]? = some ts → o.interval.toNat ≤ ts.toNat → ∃ x ∈ asks o tss, x.1 ≤ j + 1 ∧ ts.toNat < x.2.toNat + o.interval.toNat := by
  have hi := inv_foldl o ho tss hf
  refine ⟨fun x hx => ⟨(hi.pos x hx).1, (hi.pos x hx).2.2, hi.first x hx⟩, hi.apart, ?_⟩
  intro j ts hj hts
  have hp := inv_foldl o ho (tss.take (j + 1)) (fun x hx => hf x (List.mem_of_mem_take hx))
  have hb := hp.below ts (List.mem_iff_getElem?.2 ⟨j, by rw [List.getElem?_take_of_lt (by omega), hj]⟩)
  rcases hp.next with ⟨-, h2⟩ | ⟨l, x, h1, h2⟩
  · rw [h2] at hb; omega
  · have hx : x ∈ asks o (tss.take (j + 1)) := by
      unfold asks; rw [h1]; simp
    refine ⟨x, (asks_prefix o (List.take_prefix _ _)).subset hx, ?_, by omega⟩
    have := (hp.pos x hx).2.1
    rw [List.length_take] at this
    omega

/-- **C86**, full statement by timestamp: with events in order of time, the query named `t` is asked after exactly the events
up to `t`. -/
def C86Statement : Prop := ∀ (o : Opts) (tss : List UInt64), Timed o → Fits o tss → tss.Pairwise (· ≤ ·) →
    ∀ x ∈ asks o tss, ∀ (j : Nat) (ts : UInt64), tss[j]? = some ts → (j < x.1 ↔ ts ≤ x.2)

/-- **C86** by timestamp, events at different times. -/
theorem C86_cut_partial (o : Opts) (ho : Timed o) (tss : List UInt64) (hf : Fits o tss) (hs : tss.Pairwise (· < ·)) (x : Nat × UInt64) (hx : x ∈ asks o tss)
    (j : Nat) (ts : UInt64) (hj : tss[j]? = some ts) : j < x.1 ↔ ts ≤ x.2 := by
  obtain ⟨h1, h2, -⟩ := (C86_timed o ho tss hf).1 x hx
  obtain ⟨hl, he⟩ := List.getElem?_eq_some_iff.1 h2
  obtain ⟨hl', he'⟩ := List.getElem?_eq_some_iff.1 hj
  have hmono := List.pairwise_iff_getElem.1 hs
  constructor
  · intro h
    rcases Nat.lt_or_ge j (x.1 - 1) with h3 | h3
    · rw [← he, ← he']
      exact UInt64.le_of_lt (hmono j (x.1 - 1) hl' hl h3)
    · obtain rfl : j = x.1 - 1 := by omega
      rw [← he', he]; exact UInt64.le_refl _
  · intro h
    by_contra hc
    have := hmono (x.1 - 1) j hl hl' (by omega)
    rw [he, he'] at this
    exact absurd h (UInt64.not_le.2 this)

/-- **C86** by timestamp, events at the same time: all events before `t` are in, none after `t`. -/
theorem C86_ties_partial (o : Opts) (ho : Timed o) (tss : List UInt64) (hf : Fits o tss) (hs : tss.Pairwise (· ≤ ·)) (x : Nat × UInt64) (hx : x ∈ asks o tss)
    (j : Nat) (ts : UInt64) (hj : tss[j]? = some ts) : (j < x.1 → ts ≤ x.2) ∧ (ts < x.2 → j < x.1) := by
  obtain ⟨h1, h2, -⟩ := (C86_timed o ho tss hf).1 x hx
  obtain ⟨hl, he⟩ := List.getElem?_eq_some_iff.1 h2
  obtain ⟨hl', he'⟩ := List.getElem?_eq_some_iff.1 hj
  have hmono := List.pairwise_iff_getElem.1 hs
  constructor
  · intro h
    rcases Nat.lt_or_ge j (x.1 - 1) with h3 | h3
    · rw [← he, ← he']
      exact hmono j (x.1 - 1) hl' hl h3
    · obtain rfl : j = x.1 - 1 := by omega
      rw [← he', he]; exact UInt64.le_refl _
  · intro h
    by_contra hc
    rcases Nat.lt_or_ge (x.1 - 1) j with h3 | h3
    · have := hmono (x.1 - 1) j hl hl' h3
      rw [he, he'] at this
      exact absurd this (UInt64.not_le.2 h)
    · omega

/-- Violated: of two events at one time only the first is in. -/
theorem C86_false : ¬ C86Statement := by
  intro h
  have := (h ⟨true, false, 5⟩ [10, 10] ⟨rfl, rfl, by decide⟩ (by unfold Fits; decide) (by decide) (1, 10) (by decide) 1 10 rfl).2 (by decide)
  exact absurd this (by decide)

/-! ## By number of events -/

structure CInv (o : Opts) (n : Nat) (s : St) : Prop where
  passed : s.passed = n
  remitted : s.remitted.toNat = n
  next : s.next.toNat = (n / o.interval.toNat + 1) * o.interval.toNat
  asked : s.asked = (List.range (n / o.interval.toNat)).map fun m => ((m + 1) * o.interval.toNat, UInt64.ofNat ((m + 1) * o.interval.toNat))

theorem cinv_pass (o : Opts) (ho : Counted o) (n : Nat) (hn : n + 1 + o.interval.toNat < 2 ^ 64) (s : St) (ts : UInt64) (h : CInv o n s) : CInv o (n + 1) (pass o s ts) := by
  obtain ⟨h1, h2, h3, h4⟩ := h
  obtain ⟨o1, o2, o3⟩ := ho
  have hr : (s.remitted + 1).toNat = n + 1 := by
    rw [UInt64.toNat_add, h2]; exact Nat.mod_eq_of_lt (by change n + 1 < 2 ^ 64; omega)
  simp only [pass, o1, o2, Bool.and_self, Bool.true_and, Bool.not_true, Bool.and_false, Bool.false_eq_true, if_false, decide_eq_true_eq]
  generalize hk : o.interval.toNat = k at *
  have hd := Nat.div_add_mod n k
  have hm := Nat.mod_lt n o3
  have e : (n / k + 1) * k = k * (n / k) + k := by rw [Nat.succ_mul, Nat.mul_comm]
  by_cases hc : s.next ≤ s.remitted + 1
  · rw [if_pos hc]
    have hc' := UInt64.le_iff_toNat_le.1 hc
    rw [h3, hr] at hc'
    have hn1 : n + 1 = (n / k + 1) * k := by omega
    have hq : (n + 1) / k = n / k + 1 := by
      rw [hn1, Nat.mul_div_cancel _ o3]
    refine ⟨by simp [h1], hr, ?_, ?_⟩
    · dsimp only
      rw [UInt64.toNat_add, h3, hk, hq, Nat.mod_eq_of_lt (by rw [← hn1]; exact hn)]
      exact (Nat.succ_mul _ _).symm
    · dsimp only
      rw [hk, hq, List.range_succ, List.map_append, h4]
      congr 1
      simp only [List.map_cons, List.map_nil, List.cons.injEq, and_true, Prod.mk.injEq]
      refine ⟨by omega, ?_⟩
      rw [← hn1, ← hr, UInt64.ofNat_toNat]
  · rw [if_neg hc]
    have hc' : ¬ s.next.toNat ≤ (s.remitted + 1).toNat := fun h => hc (UInt64.le_iff_toNat_le.2 h)
    rw [h3, hr] at hc'
    have hq : (n + 1) / k = n / k := by
      apply Nat.div_eq_of_lt_le
      · have := Nat.div_mul_le_self n k; omega
      · omega
    refine ⟨by simp [h1], hr, ?_, ?_⟩
    · dsimp only; rw [hk, hq]; exact h3
    · dsimp only; rw [hk, hq]; exact h4

/-- **C86** by number: a query after every `k` events, named after their number. -/
theorem C86_counted (o : Opts) (ho : Counted o) (tss : List UInt64) (hn : tss.length + o.interval.toNat < 2 ^ 64) :
    asks o tss = (List.range (tss.length / o.interval.toNat)).map fun m => ((m + 1) * o.interval.toNat, UInt64.ofNat ((m + 1) * o.interval.toNat)) := by
  have : CInv o tss.length (tss.foldl (pass o) (start o)) := by
    induction tss using List.reverseRecOn with
    | nil => exact ⟨rfl, rfl, by simp [start], by simp [start]⟩
    | append_singleton l ts ih =>
      rw [asks_snoc, List.length_append]
      rw [List.length_append, List.length_singleton] at hn
      exact cinv_pass o ho l.length hn _ ts (ih (by omega))
  exact this.asked

structure LInv (o : Opts) (n : Nat) (s : St) : Prop where
  passed : s.passed = n
  next : s.next.toNat = ((n - 1) / o.interval.toNat + 1) * o.interval.toNat
  asked : s.asked = (List.range ((n - 1) / o.interval.toNat)).map fun m => ((m + 1) * o.interval.toNat + 1, UInt64.ofNat ((m + 1) * o.interval.toNat))

theorem linv_pass (o : Opts) (ho : Timed o) (n : Nat) (hn : n + o.interval.toNat < 2 ^ 64) (s : St) (h : LInv o n s) : LInv o (n + 1) (pass o s (UInt64.ofNat n)) := by
  obtain ⟨h1, h3, h4⟩ := h
  obtain ⟨o1, o2, o3⟩ := ho
  have hr : (UInt64.ofNat n).toNat = n := by
    rw [UInt64.toNat_ofNat']; exact Nat.mod_eq_of_lt (by omega)
  simp only [pass, o1, o2, Bool.true_and, Bool.false_and, Bool.false_eq_true, if_false, Bool.not_false, if_true]
  generalize hk : o.interval.toNat = k at *
  have hd := Nat.div_add_mod (n - 1) k
  have hm := Nat.mod_lt (n - 1) o3
  have e : ((n - 1) / k + 1) * k = k * ((n - 1) / k) + k := by rw [Nat.succ_mul, Nat.mul_comm]
  by_cases hc : s.next ≤ UInt64.ofNat n
  · rw [if_pos hc]
    have hc' := UInt64.le_iff_toNat_le.1 hc
    rw [h3, hr] at hc'
    have hn1 : n = ((n - 1) / k + 1) * k := by omega
    have hq : n / k = (n - 1) / k + 1 := by
      conv => lhs; rw [hn1]
      exact Nat.mul_div_cancel _ o3
    refine ⟨by simp [h1], ?_, ?_⟩
    · dsimp only
      rw [UInt64.toNat_add, hr, hk, Nat.mod_eq_of_lt hn, Nat.add_sub_cancel, hq, Nat.succ_mul, ← hn1]
    · dsimp only
      rw [hk, Nat.add_sub_cancel, hq, List.range_succ, List.map_append, h4]
      congr 1
      simp only [List.map_cons, List.map_nil, List.cons.injEq, and_true, Prod.mk.injEq]
      rw [← hn1, h1]
      exact ⟨rfl, rfl⟩
  · rw [if_neg hc]
    have hc' : ¬ s.next.toNat ≤ (UInt64.ofNat n).toNat := fun h => hc (UInt64.le_iff_toNat_le.2 h)
    rw [h3, hr] at hc'
    have hq : n / k = (n - 1) / k := by
      apply Nat.div_eq_of_lt_le
      · have := Nat.div_mul_le_self (n - 1) k; omega
      · omega
    refine ⟨by simp [h1], ?_, ?_⟩
    · dsimp only; rw [hk, Nat.add_sub_cancel, hq]; exact h3
    · dsimp only; rw [hk, Nat.add_sub_cancel, hq]; exact h4

/-- Without a time series nothing is asked. -/
theorem C86_off (o : Opts) (ho : o.log = false) (tss : List UInt64) : asks o tss = [] := by
  induction tss using List.reverseRecOn with
  | nil => rfl
  | append_singleton l ts ih =>
    unfold asks at ih ⊢
    rw [asks_snoc]
    simpa [pass, ho] using ih

/-- **C86** by logical time (`LogicalTime`: the timestamp of an event is its number, from 0): the query named `m` times `k` is asked after
one event more. -/
theorem C86_logical (o : Opts) (ho : Timed o) (n : Nat) (hn : n + o.interval.toNat < 2 ^ 64) :
    asks o ((List.range n).map UInt64.ofNat) =
      (List.range ((n - 1) / o.interval.toNat)).map fun m => ((m + 1) * o.interval.toNat + 1, UInt64.ofNat ((m + 1) * o.interval.toNat)) := by
  have : LInv o n (((List.range n).map UInt64.ofNat).foldl (pass o) (start o)) := by
    induction n with
    | zero => exact ⟨rfl, by simp [start], by simp [start]⟩
    | succ n ih =>
      rw [List.range_succ, List.map_append, List.map_singleton, asks_snoc]
      exact linv_pass o ho n (by omega) _ (ih (by omega))
  exact this.asked

/-! ## Undirected graphs -/

variable {E : Type}

/-- The second of two events at one time is never the one that a query follows. -/
theorem pass_pair (o : Opts) (ho : Timed o) (s : St) (ts : UInt64) (hf : ts.toNat + o.interval.toNat < 2 ^ 64) :
    (pass o (pass o s ts) ts).asked = (pass o s ts).asked := by
  obtain ⟨o1, o2, o3⟩ := ho
  simp only [pass, o1, o2, Bool.true_and, Bool.false_and, Bool.false_eq_true, if_false, Bool.not_false, if_true]
  by_cases hn : s.next ≤ ts
  · rw [if_pos hn]
    have : ¬ ts + o.interval ≤ ts := by
      rw [UInt64.le_iff_toNat_le, UInt64.toNat_add, Nat.mod_eq_of_lt hf]; omega
    dsimp only
    rw [if_neg this]
  · rw [if_neg hn]
    dsimp only
    rw [if_neg hn]

theorem pass_passed (o : Opts) (s : St) (ts : UInt64) : (pass o s ts).passed = s.passed + 1 ∧ ∀ x ∈ (pass o s ts).asked, x ∈ s.asked ∨ x.1 = s.passed + 1 := by
  unfold pass
  dsimp only
  repeat' split
  all_goals
    refine ⟨rfl, fun x hx => ?_⟩
    dsimp only at hx
    first
      | exact .inl hx
      | (rcases List.mem_append.1 hx with hx | hx
         · exact .inl hx
         · rw [List.mem_singleton] at hx; exact .inr (by rw [hx]))

theorem pairs (o : Opts) (ho : Timed o) : ∀ (l : List UInt64) (s : St) (k : Nat), Fits o l → s.passed = 2 * k → (∀ x ∈ s.asked, x.1 % 2 = 1) →
    ∀ x ∈ ((l.flatMap fun t => [t, t]).foldl (pass o) s).asked, x.1 % 2 = 1
  | [], s, _, _, _, h => h
  | t :: l, s, k, hf, hp, h => by
    rw [List.flatMap_cons, List.foldl_append]
    refine pairs o ho l _ (k + 1) (fun x hx => hf x (List.mem_cons_of_mem _ hx)) ?_ ?_
    · change (pass o (pass o s t) t).passed = _
      rw [(pass_passed o _ t).1, (pass_passed o s t).1]; omega
    · intro x hx
      change x ∈ (pass o (pass o s t) t).asked at hx
      rw [pass_pair o ho s t (hf t List.mem_cons_self)] at hx
      rcases (pass_passed o s t).2 x hx with hx | hx
      · exact h x hx
      · omega

theorem times (ops : Ops E) (c : Cfg) (hu : c.undirected = true) (hl : c.logicalTime = false) (ts : E → UInt64) (hts : ∀ r p, ts (ops.replaceRaw r p) = ts p) :
    ∀ (evs : List (Ev E)) (k : Nat), (Props.Loader.emitAll ops c k evs).map (fun e => ts e.prop) = (evs.map fun e => ts e.prop).flatMap fun t => [t, t]
  | [], _ => rfl
  | e :: evs, k => by
    rw [Props.Loader.emitAll, List.map_append, times ops c hu hl ts hts evs]
    simp [Verif.Loader.emitOne, hu, hl, hts]

/-- The number of events from `u` to `v`. -/
def count (l : List (Ev E)) (u v : UInt32) : Nat := (l.filter fun e => decide (e.src = u ∧ e.dst = v)).length

theorem count_emitAll (ops : Ops E) (c : Cfg) (hu : c.undirected = true) (u v : UInt32) :
    ∀ (evs : List (Ev E)) (k : Nat), count (Props.Loader.emitAll ops c k evs) u v = count (Props.Loader.emitAll ops c k evs) v u
  | [], _ => rfl
  | e :: evs, k => by
    have ih := count_emitAll ops c hu u v evs (k + 2)
    unfold count at ih ⊢
    rw [Props.Loader.emitAll, if_pos hu, List.filter_append, List.filter_append, List.length_append, List.length_append, ih]
    congr 1
    have two : ∀ (p : Ev E → Bool) (x y : Ev E), (List.filter p [x, y]).length = (if p x then 1 else 0) + if p y then 1 else 0 := by
      intro p x y
      cases hx : p x <;> cases hy : p y <;> simp [hx, hy]
    simp only [Verif.Loader.emitOne, hu, if_true, two, decide_eq_true_eq]
    rw [Nat.add_comm]
    congr 1 <;> simp only [And.comm]

/-- **C86**, undirected graphs by timestamp: every query is asked between the two directions of an edge. The graph asked
about has one more edge from `u` to `v` than back. -/
theorem C86_half (o : Opts) (ho : Timed o) (ops : Ops E) (c : Cfg) (hu : c.undirected = true) (hl : c.logicalTime = false) (ts : E → UInt64)
    (hts : ∀ r p, ts (ops.replaceRaw r p) = ts p) (evs stream : List (Ev E)) (hst : IsStream ops c evs stream)
    (hf : Fits o (stream.map fun e => ts e.prop)) (x : Nat × UInt64) (hx : x ∈ asks o (stream.map fun e => ts e.prop)) :
    ∃ k e, evs[k]? = some e ∧ x = (2 * k + 1, ts e.prop) ∧
      (e.src ≠ e.dst → count (stream.take x.1) e.src e.dst = count (stream.take x.1) e.dst e.src + 1) := by
  have hstream := Props.Loader.isStream_unique ops c evs stream hst
  obtain ⟨h1, h2, -⟩ := (C86_timed o ho _ hf).1 x hx
  have hodd : x.1 % 2 = 1 := by
    rw [hstream, times ops c hu hl ts hts] at hx
    refine pairs o ho (evs.map fun (e : Ev E) => ts e.prop) (start o) 0 ?_ rfl (fun _ h => absurd h List.not_mem_nil) x hx
    intro t ht
    refine hf t ?_
    rw [hstream, times ops c hu hl ts hts]
    exact List.mem_flatMap.2 ⟨t, ht, List.mem_cons_self⟩
  obtain ⟨k, hk⟩ : ∃ k, x.1 = 2 * k + 1 := ⟨x.1 / 2, by omega⟩
  rw [hk, Nat.add_sub_cancel, List.getElem?_map, ((hst.2 hu) k).1, Option.map_map] at h2
  obtain ⟨e, he, h3⟩ := Option.map_eq_some_iff.1 h2
  refine ⟨k, e, he, Prod.ext hk h3.symm, fun hne => ?_⟩
  have htake : stream.take x.1 = Props.Loader.emitAll ops c 0 (evs.take k) ++ [Props.Loader.numbered e (2 * k)] := by
    have hke : evs = evs.take k ++ e :: evs.drop (k + 1) := by
      obtain ⟨hlt, rfl⟩ := List.getElem?_eq_some_iff.1 he
      rw [List.getElem_cons_drop, List.take_append_drop]
    have hlen : (evs.take k).length = k := by
      rw [List.length_take]; have := (List.getElem?_eq_some_iff.1 he).1; omega
    have hl2 : (Props.Loader.emitAll ops c 0 (evs.take k)).length = 2 * k := by
      rw [Props.Loader.emitAll_length, if_pos hu, hlen]; omega
    rw [hstream]
    conv => lhs; rw [hke]
    rw [Props.Loader.emitAll_append, List.take_append, hl2, List.take_of_length_le (by omega), hk, Props.Loader.emitAll, hlen, if_pos hu]
    congr 1
    rw [show 2 * k + 1 - 2 * k = 1 by omega, show 0 + k * 2 = 2 * k by omega]
    simp [Verif.Loader.emitOne, hu, Props.Loader.numbered]
  have hc := count_emitAll ops c hu e.src e.dst (evs.take k) 0
  rw [htake]
  unfold count at hc ⊢
  rw [List.filter_append, List.filter_append, List.length_append, List.length_append, hc]
  simp [Props.Loader.numbered, hne]

/-- **C86**, undirected graphs by number, when that is even: every query is asked about a graph with both directions of each edge. -/
theorem C86_even_partial (o : Opts) (ho : Counted o) (hev : 2 ∣ o.interval.toNat) (ops : Ops E) (c : Cfg) (hu : c.undirected = true) (ts : E → UInt64)
    (evs stream : List (Ev E)) (hst : IsStream ops c evs stream) (hn : stream.length + o.interval.toNat < 2 ^ 64) (x : Nat × UInt64)
    (hx : x ∈ asks o (stream.map fun e => ts e.prop)) (u v : UInt32) : count (stream.take x.1) u v = count (stream.take x.1) v u := by
  have hstream := Props.Loader.isStream_unique ops c evs stream hst
  rw [C86_counted o ho _ (by rw [List.length_map]; exact hn)] at hx
  obtain ⟨m, -, rfl⟩ := List.mem_map.1 hx
  obtain ⟨h, hh⟩ := hev
  have hk : (m + 1) * o.interval.toNat = 2 * ((m + 1) * h) := by rw [hh, Nat.mul_left_comm]
  have htake : stream.take (2 * ((m + 1) * h)) = Props.Loader.emitAll ops c 0 (evs.take ((m + 1) * h)) := by
    rw [hstream]
    conv => lhs; rw [← List.take_append_drop ((m + 1) * h) evs]
    rw [Props.Loader.emitAll_append]
    have hl : (Props.Loader.emitAll ops c 0 (evs.take ((m + 1) * h))).length = 2 * min ((m + 1) * h) evs.length := by
      rw [Props.Loader.emitAll_length, if_pos hu, List.length_take]; omega
    by_cases hle : (m + 1) * h ≤ evs.length
    · rw [Nat.min_eq_left hle] at hl
      rw [← hl, List.take_left]
    · rw [List.drop_eq_nil_of_le (by omega), Props.Loader.emitAll, List.append_nil, List.take_of_length_le (by omega)]
  dsimp only
  rw [hk, htake]
  exact count_emitAll ops c hu u v _ 0

/-- What the option says (`graph-options.go:29`): the interval is a number of added edges. -/
def AddsStatement : Prop := ∀ (o : Opts) (l : List (Typ × UInt64)), Counted o → l.length + o.interval.toNat < 2 ^ 64 →
    ∀ x ∈ asks o (l.map (·.2)), o.interval.toNat ∣ ((l.take x.1).filter fun e => decide (e.1 = .add)).length

/-- Violated: deletions are counted as well. -/
theorem C86_adds_false : ¬ AddsStatement := by
  intro h
  have := h ⟨true, true, 2⟩ [(.add, 0), (.del, 0)] ⟨rfl, rfl, by decide⟩ (by decide) (2, 2) (by decide)
  exact absurd this (by decide)

theorem C86_adds_partial (o : Opts) (ho : Counted o) (l : List (Typ × UInt64)) (hn : l.length + o.interval.toNat < 2 ^ 64) (hadd : ∀ e ∈ l, e.1 = .add)
    (x : Nat × UInt64) (hx : x ∈ asks o (l.map (·.2))) : o.interval.toNat ∣ ((l.take x.1).filter fun e => decide (e.1 = .add)).length := by
  rw [C86_counted o ho _ (by rw [List.length_map]; exact hn)] at hx
  obtain ⟨m, hm, rfl⟩ := List.mem_map.1 hx
  rw [List.filter_eq_self.2 fun e he => by rw [hadd e (List.mem_of_mem_take he)]; rfl, List.length_take, Nat.min_eq_left]
  · exact ⟨m + 1, Nat.mul_comm _ _⟩
  · rw [List.mem_range, List.length_map] at hm
    exact (Nat.le_div_iff_mul_le ho.2.2).1 hm

open Verif.Props.Pipeline (strip) in
/-- **C86** in the pipeline: whatever the schedule, as long as the race of C52 does not happen, what has been asked at any moment is
the beginning of what is asked for the stream of the file; at the end it is all of it. -/
theorem C86_stream_partial (o : Opts) (ts : E → UInt64) (p : Verif.Pipeline.Params E) (stream : List (Ev E)) (as : List Verif.Pipeline.Act) (s : Verif.Pipeline.St E)
    (hn : Verif.Pipeline.Act.remGiveUp ∉ as) (h : Verif.Pipeline.run p stream (Verif.Pipeline.start p) as = some s) :
    asks o (s.remitted.map fun r => ts r.prop) <+: asks o (stream.map fun e => ts e.prop) ∧
    (s.rem = .stopped → asks o (s.remitted.map fun r => ts r.prop) = asks o (stream.map fun e => ts e.prop)) := by
  have e : (s.remitted.map fun r => ts r.prop) = (s.remitted.map strip).map fun e => ts e.prop := by
    rw [List.map_map]; rfl
  rw [e]
  refine ⟨asks_prefix o ((Props.Pipeline.C52_stream_order_partial p stream as s hn h).1.map _), fun hs => ?_⟩
  rw [(Props.Pipeline.C52_complete_partial p stream as s hn h hs).1]

/-! ## Components of half an edge

The file has the one line `7 3 100000`, undirected; a query each day. -/

/-- An edge property that is a timestamp. -/
def tsOps : Ops UInt64 where
  zero := 0
  defaultWeight := id
  parse := fun _ _ p => p
  replaceTs := fun n _ => UInt64.ofNat n
  getTs := UInt64.toNat
  replaceRaw := fun _ p => p

def undir : Cfg := ⟨none, some 0, false, true, false⟩
def daily : Opts := ⟨true, false, 86400⟩
def line : List (Ev UInt64) := [⟨.add, 0, 7, 3, 100000⟩]
def events : List (Ev UInt64) := [⟨.add, 0, 7, 3, 100000⟩, ⟨.add, 1, 3, 7, 100000⟩]

open Verif.MinLabel (cc Label) in
/-- The vertices have their raw ids. -/
def cLine : Async.Cfg Label Unit := ⟨1, fun _ => 0, fun v => some (Fin.ofNat _ v), fun _ => none⟩

theorem line_stream : IsStream tsOps undir line events := by
  have : events = Props.Loader.emitAll tsOps undir 0 line := by decide
  rw [this]
  exact Props.Loader.isStream_emitAll _ _ _

open Verif.MinLabel (cc Label) in
/-- The query is asked after the first event; connected components converge on the graph at that moment, with 7 not
connected to 3. -/
theorem C86_components_false : asks daily (events.map (·.prop)) = [(1, 100000)] ∧
    ∃ s, Async.run cc cLine (Async.start cc) [.init 0 7, .go 0, .go 0, .init 0 3, .go 0, .go 0, .add 0 7 [⟨3, ()⟩], .go 0, .go 0, .go 0] = some s ∧
      Async.Quiet cLine s ∧ s.edges 7 = [⟨3, ()⟩] ∧ s.edges 3 = [] ∧ s.prop 7 = 7 ∧ s.prop 3 = 3 := by
  refine ⟨by decide, ?_⟩
  have h : (Async.run cc cLine (Async.start cc) [.init 0 7, .go 0, .go 0, .init 0 3, .go 0, .go 0, .add 0 7 [⟨3, ()⟩], .go 0, .go 0, .go 0]).any
      (fun s => (match s.task 0 with | .idle => true | _ => false) && (List.range 8).all (fun v => (s.pend v).isEmpty) && decide (s.edges 7 = [⟨3, ()⟩]) &&
        decide (s.edges 3 = []) && decide (s.prop 7 = 7) && decide (s.prop 3 = 3)) = true := by
    decide +kernel
  obtain ⟨s, hs, h⟩ := Option.any_eq_true _ _ |>.1 h
  simp only [Bool.and_eq_true, decide_eq_true_eq, List.all_eq_true] at h
  obtain ⟨⟨⟨⟨⟨h1, h2⟩, h3⟩, h4⟩, h5⟩, h6⟩ := h
  have hsup := Async.supp_run (n := 8) (Verif.MinLabel.cc_eq ▸ Verif.MinLabel.minAlg_local _ _ 8) (by decide)
    (Async.supp_loaded cc 8 (fun _ => []) (fun _ _ => rfl) (fun _ _ he => by cases he)) hs
  refine ⟨s, hs, ⟨fun t ht => ?_, fun v => ?_⟩, h3, h4, h5, h6⟩
  · obtain rfl : t = 0 := by simp only [cLine] at ht; omega
    revert h1; cases s.task 0 <;> simp
  · by_cases hv : v < 8
    · exact List.isEmpty_iff.1 (h2 v (List.mem_range.2 hv))
    · exact hsup.pend v (by omega)

/-- The hypotheses of `C86_half` are met. -/
example : ∃ x, x ∈ asks daily (events.map fun e => id e.prop) ∧ x.1 = 1 ∧ Timed daily ∧ Fits daily (events.map fun e => id e.prop) ∧
    count (events.take 1) 7 3 = 1 ∧ count (events.take 1) 3 7 = 0 :=
  ⟨(1, 100000), by decide, rfl, ⟨rfl, rfl, by decide⟩, by unfold Fits; decide, by decide, by decide⟩

/-- The hypotheses of `C86_cut_partial` are met, with two queries and events between and after them. -/
example : asks ⟨true, false, 10⟩ [3, 12, 15, 21, 22, 30, 31] = [(2, 12), (5, 22)] ∧ Timed ⟨true, false, 10⟩ ∧ ([3, 12, 15, 21, 22, 30, 31] : List UInt64).Pairwise (· < ·) :=
  ⟨by decide, ⟨rfl, rfl, by decide⟩, by decide⟩

/-- The hypotheses of `C86_ties_partial` and `C86_timed` are met; also with events out of order. -/
example : asks ⟨true, false, 10⟩ [3, 12, 12, 12, 22, 22] = [(2, 12), (5, 22)] ∧ asks ⟨true, false, 10⟩ [12, 3, 21, 22, 5] = [(1, 12), (4, 22)] := by decide

example : asks ⟨true, true, 2⟩ [3, 12, 12, 12, 22] = [(2, 2), (4, 4)] ∧ asks ⟨true, false, 2⟩ ((List.range 6).map UInt64.ofNat) = [(3, 2), (5, 4)] ∧
    asks ⟨false, false, 2⟩ [3, 12] = [] := by decide

end Verif.Props.Asks
