import Verif.Stats
import Verif.Props.Sorting
import Mathlib.Data.List.Perm.Basic
import Mathlib.Data.List.Perm.Subperm
import Mathlib.Data.List.Nodup
import Mathlib.Data.List.Sort
import Mathlib.Tactic.Linarith
import Mathlib.Tactic.Positivity
import Mathlib.Tactic.FieldSimp

/-!
# Statistics of queries (C76)
-/

namespace Verif.Stats

/-- The vertices that existed at the query. -/
def live (at_ : Nat) (threads : List (List Vertex)) : List Vertex := threads.flatten.filter fun v => decide (v.create ≤ at_)

/-- Some window is still open. -/
def isOpen (v : Vertex) : Bool := v.windows.any fun w => w.stop == maxU

/-- The start of the first window. -/
def starts (vs : List Vertex) : List Nat := vs.filterMap fun v => v.windows.head?.map (·.start)

/-! ## Folds -/

theorem part_spec (at_ : Nat) (vs : List Vertex) : ∀ p, vs.foldl (visit at_) p =
    let l := vs.filter fun v => decide (v.create ≤ at_)
    ⟨p.visit + l.countP (fun v => !v.windows.isEmpty), p.now + l.countP (fun v => isOpen v), p.count + l.length,
      p.active + l.countP (fun v => v.ends.any (· == 0)), p.both + l.countP (fun v => v.ends.any (· == 0) && !v.windows.isEmpty),
      (l.map fun v => v.windows.length).foldl max p.maxWin⟩ := by
  induction vs with
  | nil => intro p; simp
  | cons v vs ih =>
    intro p
    rw [List.foldl_cons, ih]
    by_cases hc : v.create ≤ at_
    · have hn : ¬ v.create > at_ := by omega
      cases hw : v.windows with
      | nil =>
        simp only [visit, hn, hc, if_false, hw, List.length_nil, Nat.lt_irrefl, List.filter_cons, decide_true, if_true, List.countP_cons,
          List.isEmpty_nil, isOpen, List.any_nil, List.length_cons, List.map_cons, List.foldl_cons, Nat.max_zero, Bool.not_true,
          Bool.and_false, Bool.false_eq_true, Part.mk.injEq]
        refine ⟨by omega, by omega, by omega, ?_, by omega, trivial⟩
        split <;> omega
      | cons w ws =>
        simp only [visit, hn, hc, if_false, hw, List.length_cons, Nat.zero_lt_succ, List.filter_cons, decide_true, if_true, List.countP_cons,
          List.isEmpty_cons, isOpen, List.map_cons, List.foldl_cons, Bool.not_false, Bool.and_true, Part.mk.injEq]
        refine ⟨by omega, ?_, by omega, ?_, ?_, trivial⟩ <;> split <;> omega
    · have hn : v.create > at_ := by omega
      simp [visit, hn, hc]

theorem zero_spec (at_ : Nat) (vs : List Vertex) : ∀ z, vs.foldl (zeroStep at_) z =
    let l := starts (vs.filter fun v => decide (v.create ≤ at_))
    ⟨l.foldl max z.maxStart, (l.filter fun n => decide (n ≠ 0)).foldl min z.minStart, z.all ++ l⟩ := by
  induction vs with
  | nil => intro z; simp [starts]
  | cons v vs ih =>
    intro z
    rw [List.foldl_cons, ih]
    by_cases hc : v.create ≤ at_
    · have hn : ¬ v.create > at_ := by omega
      cases hw : v.windows with
      | nil => simp [zeroStep, hn, hc, hw, starts]
      | cons w ws =>
        by_cases h0 : w.start = 0
        · simp [zeroStep, hn, hc, hw, starts, h0]
        · simp [zeroStep, hn, hc, hw, starts, h0]
    · have hn : v.create > at_ := by omega
      simp [zeroStep, hn, hc]

theorem fold_flatten (f : Nat → Nat → Nat) [Std.Associative f] [Std.Commutative f] (e : Nat) (L : List (List Nat)) :
    ∀ a, f a e = a → (L.map fun l => l.foldl f e).foldl f a = L.flatten.foldl f a := by
  induction L with
  | nil => intro a _; rfl
  | cons l L ih =>
    intro a ha
    have h1 : f a (l.foldl f e) = l.foldl f a := by rw [← List.foldl_assoc (op := f), ha]
    have h2 : f (l.foldl f a) e = l.foldl f a := by
      rw [Std.Commutative.comm (op := f), ← List.foldl_assoc (op := f), Std.Commutative.comm (op := f) e a, ha]
    rw [List.map_cons, List.foldl_cons, h1, List.flatten_cons, List.foldl_append]
    exact ih _ h2

theorem le_foldl_max (l : List Nat) : ∀ a, a ≤ l.foldl max a ∧ (∀ x ∈ l, x ≤ l.foldl max a) ∧ (l.foldl max a = a ∨ l.foldl max a ∈ l) := by
  induction l with
  | nil => intro a; simp
  | cons y l ih =>
    intro a
    obtain ⟨h1, h2, h3⟩ := ih (max a y)
    refine ⟨by rw [List.foldl_cons]; omega, ?_, ?_⟩
    · intro x hx
      rcases List.mem_cons.1 hx with rfl | hx
      · rw [List.foldl_cons]; omega
      · exact h2 x hx
    · rw [List.foldl_cons, List.mem_cons]
      rcases h3 with h3 | h3
      · rw [h3]; omega
      · exact .inr (.inr h3)

theorem foldl_min_le (l : List Nat) : ∀ a, l.foldl min a ≤ a ∧ (∀ x ∈ l, l.foldl min a ≤ x) ∧ (l.foldl min a = a ∨ l.foldl min a ∈ l) := by
  induction l with
  | nil => intro a; simp
  | cons y l ih =>
    intro a
    obtain ⟨h1, h2, h3⟩ := ih (min a y)
    refine ⟨by rw [List.foldl_cons]; omega, ?_, ?_⟩
    · intro x hx
      rcases List.mem_cons.1 hx with rfl | hx
      · rw [List.foldl_cons]; omega
      · exact h2 x hx
    · rw [List.foldl_cons, List.mem_cons]
      rcases h3 with h3 | h3
      · rw [h3]; omega
      · exact .inr (.inr h3)

theorem median_perm {a b : List Int} (h : a.Perm b) : Sorting.median a = Sorting.median b := by
  have hs : Props.Sorting.sortedCopy a = Props.Sorting.sortedCopy b := by
    have hp : ∀ l : List Int, (Props.Sorting.sortedCopy l).Pairwise (fun a b => a ≤ b) := fun l => by
      have := List.pairwise_mergeSort (le := fun a b : Int => decide (a ≤ b)) (by simp; omega) (by simp; omega) l
      exact this.imp (by simp)
    refine List.Perm.eq_of_pairwise (le := fun a b : Int => a ≤ b) (fun x y _ _ h1 h2 => Int.le_antisymm h1 h2) (hp a) (hp b) ?_
    exact ((List.mergeSort_perm a _).trans h).trans (List.mergeSort_perm b _).symm
  match a, b, h.length_eq with
  | [], [], _ => rfl
  | [x], [y], _ => rw [List.perm_singleton] at h; cases h; rfl
  | x :: y :: r, x' :: y' :: r', _ =>
    rw [Sorting.median, Sorting.median, Props.Sorting.percentile_eq _ _ (by simp), Props.Sorting.percentile_eq _ _ (by simp), hs]

/-- The statistics of a list of vertices. -/
theorem stats_eq (at_ : Nat) (threads : List (List Vertex)) :
    funStatistics at_ threads =
      let l := live at_ threads
      let maxWC : Nat := (l.map fun v => v.windows.length).foldl max 0
      let vis := l.countP fun v => !v.windows.isEmpty
      let now := l.countP fun v => isOpen v
      let act := l.countP fun v => v.ends.any (· == 0)
      (if 0 < maxWC then Sorting.median ((starts l).map Int.ofNat) else some 0).map fun med =>
        { wZMin := if 0 < maxWC then ((starts l).filter fun n => decide (n ≠ 0)).foldl min maxU else 0
          wZMedian := med
          wZMax := if 0 < maxWC then (starts l).foldl max 0 else 0
          maxWC := maxWC
          pctVisitedNow := pct now vis
          visited := vis
          wZPctCurrVCould := pct vis l.length
          realVertexCount := l.length
          activeVertices := act
          pctOfActiveIsCurrentVisitable := pct now act } := by
  have hl : live at_ threads = (threads.map fun vs => vs.filter fun v => decide (v.create ≤ at_)).flatten := by
    rw [live, List.filter_flatten]
  have hcount : ∀ q : Vertex → Bool, (threads.map fun vs => (vs.filter fun v => decide (v.create ≤ at_)).countP q).sum = (live at_ threads).countP q := by
    intro q; rw [hl, List.countP_flatten, List.map_map]; rfl
  have hlen : (threads.map fun vs => (vs.filter fun v => decide (v.create ≤ at_)).length).sum = (live at_ threads).length := by
    rw [hl, List.length_flatten, List.map_map]; rfl
  have hst : (threads.map fun vs => starts (vs.filter fun v => decide (v.create ≤ at_))).flatten = starts (live at_ threads) := by
    rw [hl, starts, List.filterMap_flatten, List.map_map]; rfl
  have hmax : (threads.map fun vs => ((vs.filter fun v => decide (v.create ≤ at_)).map fun v => v.windows.length).foldl max 0).foldl max 0 =
      ((live at_ threads).map fun v => v.windows.length).foldl max 0 := by
    rw [hl, List.map_flatten, List.map_map, ← fold_flatten max 0 _ 0 rfl, List.map_map]; rfl
  have hzmax : (threads.map fun vs => (starts (vs.filter fun v => decide (v.create ≤ at_))).foldl max 0).foldl max 0 =
      (starts (live at_ threads)).foldl max 0 := by
    rw [← hst, ← fold_flatten max 0 _ 0 rfl, List.map_map]; rfl
  have hzmin : (threads.map fun vs => ((starts (vs.filter fun v => decide (v.create ≤ at_))).filter fun n => decide (n ≠ 0)).foldl min maxU).foldl min maxU =
      ((starts (live at_ threads)).filter fun n => decide (n ≠ 0)).foldl min maxU := by
    rw [← hst, List.filter_flatten, ← fold_flatten min maxU _ maxU (Nat.min_self _), List.map_map, List.map_map]; rfl
  simp only [funStatistics, List.map_map, Function.comp_def, part, zero, part_spec, zero_spec, Nat.zero_add, List.nil_append, hcount, hlen, hst,
    hmax, hzmax, hzmin]
  split <;> rename_i h <;> rw [h] <;> rfl

/-! ## Temporal paths -/

/-- **C76**: there is always a result. -/
theorem C76_total (at_ : Nat) (threads : List (List Vertex)) : ∃ r, funStatistics at_ threads = some r := by
  rw [stats_eq]
  dsimp only
  split
  · rename_i hm
    have hne : (starts (live at_ threads)).map Int.ofNat ≠ [] := by
      rcases (le_foldl_max ((live at_ threads).map fun v => v.windows.length) 0).2.2 with h | h
      · omega
      · obtain ⟨v, hv, he⟩ := List.mem_map.1 h
        have : v.windows ≠ [] := fun h0 => by rw [h0] at he; simp only [List.length_nil] at he; omega
        obtain ⟨w, ws, hw⟩ := List.exists_cons_of_ne_nil this
        have : w.start ∈ starts (live at_ threads) := List.mem_filterMap.2 ⟨v, hv, by simp [hw]⟩
        exact fun h0 => by rw [List.map_eq_nil_iff.1 h0] at this; cases this
    obtain ⟨r, _, _, h, _⟩ := Props.Sorting.C15_percentile_between_partial _ 50 hne (by decide)
    rw [Sorting.median, h]
    exact ⟨_, rfl⟩
  · exact ⟨_, rfl⟩

/-- **C76**: the statistics do not depend on the number of threads or on which of them has a vertex. -/
theorem C76_threads (at_ : Nat) {threads threads' : List (List Vertex)} (h : threads.flatten.Perm threads'.flatten) :
    funStatistics at_ threads = funStatistics at_ threads' := by
  have hl : (live at_ threads).Perm (live at_ threads') := h.filter _
  have hs : (starts (live at_ threads)).Perm (starts (live at_ threads')) := hl.filterMap _
  rw [stats_eq, stats_eq]
  dsimp only
  rw [(hl.map fun v => v.windows.length).foldl_eq, hl.countP_eq, hl.countP_eq, hl.countP_eq, hl.length_eq, median_perm (hs.map _), hs.foldl_eq,
    (hs.filter _).foldl_eq]

/-- **C76**: what the numbers are, for the vertices that existed at the query. -/
theorem C76_counts {at_ : Nat} {threads : List (List Vertex)} {r : Result} (h : funStatistics at_ threads = some r) :
    r.realVertexCount = (live at_ threads).length ∧
    r.visited = ((live at_ threads).filter fun v => decide (v.windows ≠ [])).length ∧
    r.activeVertices = ((live at_ threads).filter fun v => decide (0 ∈ v.ends)).length ∧
    (∀ v ∈ live at_ threads, v.windows.length ≤ r.maxWC) ∧
    (r.maxWC = 0 ∨ ∃ v ∈ live at_ threads, v.windows.length = r.maxWC) ∧
    (∀ v ∈ live at_ threads, ∀ w, v.windows[0]? = some w → w.start ≤ r.wZMax ∧ (w.start ≠ 0 → r.wZMin ≤ w.start)) ∧
    (0 < r.visited → (r.wZMax = 0 ∨ ∃ v ∈ live at_ threads, ∃ w, v.windows[0]? = some w ∧ w.start = r.wZMax) ∧
      (r.wZMin = maxU ∨ ∃ v ∈ live at_ threads, ∃ w, v.windows[0]? = some w ∧ w.start = r.wZMin ∧ w.start ≠ 0)) := by
  rw [stats_eq] at h
  dsimp only at h
  obtain ⟨med, -, rfl⟩ := Option.map_eq_some_iff.1 h
  have hv : ∀ v : Vertex, (!v.windows.isEmpty) = decide (v.windows ≠ []) := fun v => by cases v.windows <;> simp
  have ha : ∀ v : Vertex, v.ends.any (· == 0) = decide (0 ∈ v.ends) := fun v => by
    rw [Bool.eq_iff_iff]; simp
  have hpos : ∀ v ∈ live at_ threads, v.windows ≠ [] → 0 < ((live at_ threads).map fun v => v.windows.length).foldl max 0 := fun v hm hne =>
    Nat.lt_of_lt_of_le (List.length_pos_iff.2 hne) ((le_foldl_max _ 0).2.1 _ (List.mem_map.2 ⟨v, hm, rfl⟩))
  have hstart : ∀ v ∈ live at_ threads, ∀ w, v.windows[0]? = some w → w.start ∈ starts (live at_ threads) := fun v hm w hw =>
    List.mem_filterMap.2 ⟨v, hm, by rw [List.head?_eq_getElem?, hw]; rfl⟩
  have hback : ∀ n ∈ starts (live at_ threads), ∃ v ∈ live at_ threads, ∃ w, v.windows[0]? = some w ∧ w.start = n := fun n hn => by
    obtain ⟨v, hm, he⟩ := List.mem_filterMap.1 hn
    obtain ⟨w, hw, he⟩ := Option.map_eq_some_iff.1 he
    exact ⟨v, hm, w, by rw [← List.head?_eq_getElem?, hw], he⟩
  refine ⟨rfl, ?_, ?_, fun v hm => (le_foldl_max _ 0).2.1 _ (List.mem_map.2 ⟨v, hm, rfl⟩), ?_, fun v hm w hw => ?_, fun hvis => ?_⟩
  · simp only [List.countP_eq_length_filter, hv]
  · simp only [List.countP_eq_length_filter, ha]
  · rcases (le_foldl_max ((live at_ threads).map fun v => v.windows.length) 0).2.2 with h | h
    · exact .inl h
    · exact .inr (List.mem_map.1 h)
  · have hm0 := hpos v hm (fun h0 => by rw [h0] at hw; cases hw)
    simp only [if_pos hm0]
    refine ⟨(le_foldl_max _ 0).2.1 _ (hstart v hm w hw), fun h0 => (foldl_min_le _ _).2.1 _ (List.mem_filter.2 ⟨hstart v hm w hw, by simpa using h0⟩)⟩
  · obtain ⟨v, hm, hne⟩ := List.countP_pos_iff.1 hvis
    have hm0 := hpos v hm (by simpa using hne)
    simp only [if_pos hm0]
    refine ⟨?_, ?_⟩
    · rcases (le_foldl_max (starts (live at_ threads)) 0).2.2 with h | h
      · exact .inl h
      · exact .inr (hback _ h)
    · rcases (foldl_min_le ((starts (live at_ threads)).filter fun n => decide (n ≠ 0)) maxU).2.2 with h | h
      · exact .inl h
      · obtain ⟨h1, h2⟩ := List.mem_filter.1 h
        obtain ⟨v, hm, w, hw, he⟩ := hback _ h1
        exact .inr ⟨v, hm, w, hw, he, by rw [he]; simpa using h2⟩

/-- A percentage: between 0 and 100, or a division by 0. -/
def IsPct (p : Option ℚ) : Prop := ∀ x, p = some x → 0 ≤ x ∧ x ≤ 100

theorem isPct {a b : Nat} (h : a ≤ b) : IsPct (pct a b) := by
  intro x hx
  simp only [pct] at hx
  split at hx
  · cases hx
  · rename_i hb
    cases hx
    have hb' : (0 : ℚ) < b := by exact_mod_cast Nat.pos_of_ne_zero hb
    have hab : (a : ℚ) ≤ b := by exact_mod_cast h
    have h1 : (0 : ℚ) ≤ (a : ℚ) / b := by positivity
    have h2 : (a : ℚ) / b ≤ 1 := (div_le_one hb').2 hab
    constructor <;> linarith

/-- **C76**, full statement: percentages are percentages, and undefined only for an empty base. -/
def C76Statement : Prop := ∀ at_ threads r, funStatistics at_ threads = some r →
  IsPct r.pctVisitedNow ∧ IsPct r.wZPctCurrVCould ∧ IsPct r.pctOfActiveIsCurrentVisitable

/-- **C76**: the first two. Missing: the share of active vertices that can be visited now. -/
theorem C76_partial {at_ : Nat} {threads : List (List Vertex)} {r : Result} (h : funStatistics at_ threads = some r) :
    IsPct r.pctVisitedNow ∧ IsPct r.wZPctCurrVCould ∧ (0 < r.visited → r.pctVisitedNow.isSome ∧ r.wZPctCurrVCould.isSome) ∧
    (∀ x, r.pctVisitedNow = some x → x * r.visited = 100 * ((live at_ threads).filter fun v => decide (∃ w ∈ v.windows, w.stop = maxU)).length) := by
  rw [stats_eq] at h
  dsimp only at h
  obtain ⟨med, -, rfl⟩ := Option.map_eq_some_iff.1 h
  have hopen : ∀ v, isOpen v = true → (!v.windows.isEmpty) = true := fun v hv => by
    cases hw : v.windows with
    | nil => simp [isOpen, hw] at hv
    | cons => rfl
  have hlen : (live at_ threads).countP (fun v => !v.windows.isEmpty) ≤ (live at_ threads).length := List.countP_le_length
  refine ⟨isPct (List.countP_mono_left fun v _ => hopen v), isPct hlen, fun hv => ?_, fun x hx => ?_⟩
  · dsimp only at hv ⊢
    have h2 : (live at_ threads).length ≠ 0 := by omega
    simp only [pct, if_neg (Nat.pos_iff_ne_zero.1 hv), if_neg h2, Option.isSome_some, and_self]
  · dsimp only at hx ⊢
    have ho : ∀ v : Vertex, decide (∃ w ∈ v.windows, w.stop = maxU) = isOpen v := fun v => by
      rw [Bool.eq_iff_iff]; simp [isOpen]
    simp only [pct] at hx
    split at hx
    · cases hx
    · rename_i hb
      cases hx
      have hb' : (((live at_ threads).countP fun v => !v.windows.isEmpty : Nat) : ℚ) ≠ 0 := by exact_mod_cast hb
      simp only [ho, ← List.countP_eq_length_filter]
      field_simp

theorem stats_fields {at_ : Nat} {threads : List (List Vertex)} {r : Result} (h : funStatistics at_ threads = some r) :
    r.pctOfActiveIsCurrentVisitable = pct ((live at_ threads).countP fun v => isOpen v) ((live at_ threads).countP fun v => v.ends.any (· == 0)) ∧
    r.pctVisitedNow = pct ((live at_ threads).countP fun v => isOpen v) ((live at_ threads).countP fun v => !v.windows.isEmpty) := by
  rw [stats_eq] at h
  dsimp only at h
  obtain ⟨med, -, rfl⟩ := Option.map_eq_some_iff.1 h
  exact ⟨rfl, rfl⟩

/-- **C76** is violated: two vertices can be visited now, and one has an active edge: 200 % of the active vertices can be
visited. -/
theorem C76_false : ¬ C76Statement := by
  intro h
  obtain ⟨r, hr⟩ := C76_total 5 [[⟨1, [0], [⟨3, maxU⟩]⟩, ⟨1, [], [⟨4, maxU⟩]⟩]]
  have h1 := (h _ _ _ hr).2.2 200 (by rw [(stats_fields hr).1]; decide +kernel)
  exact absurd h1.2 (by decide +kernel)

/-- Three vertices on two threads, one of them created after the query. -/
def three : List (List Vertex) := [[⟨1, [0], [⟨3, 7⟩]⟩], [⟨9, [0], []⟩, ⟨1, [], [⟨4, maxU⟩, ⟨2, 3⟩]⟩]]

example : ∃ r, funStatistics 5 three = some r ∧ r.visited = 2 ∧ r.realVertexCount = 2 ∧ r.activeVertices = 1 ∧ r.maxWC = 2 ∧
    r.pctVisitedNow = some 50 := by
  obtain ⟨r, hr⟩ := C76_total 5 three
  obtain ⟨h1, h2, h3, h4, h5, -⟩ := C76_counts hr
  refine ⟨r, hr, by rw [h2]; decide +kernel, by rw [h1]; decide +kernel, by rw [h3]; decide +kernel, ?_,
    by rw [(stats_fields hr).2]; decide +kernel⟩
  have h6 := h4 ⟨1, [], [⟨4, maxU⟩, ⟨2, 3⟩]⟩ (by decide +kernel)
  rcases h5 with h5 | ⟨v, hv, h5⟩
  · rw [h5] at h6; exact absurd h6 (by decide)
  · rw [← h5]
    have : ∀ v ∈ live 5 three, v.windows.length ≤ 2 := by decide +kernel
    have := this v hv
    rw [← h5] at h6
    simp only [List.length_cons, List.length_nil] at h6
    omega

/-- The same vertices on one thread. -/
example : funStatistics 5 three = funStatistics 5 [[⟨1, [], [⟨4, maxU⟩, ⟨2, 3⟩]⟩, ⟨1, [0], [⟨3, 7⟩]⟩, ⟨9, [0], []⟩]] :=
  C76_threads 5 (by decide +kernel)

/-! ## Colouring -/

theorem lookup_mem {l : List (Nat × Nat)} {k c : Nat} (h : l.lookup k = some c) : (k, c) ∈ l := by
  induction l with
  | nil => cases h
  | cons p l ih =>
    rw [List.lookup_cons] at h
    split at h
    · rename_i hk
      have : k = p.1 := by simpa using hk
      cases h; subst this; simp
    · exact List.mem_cons_of_mem _ (ih h)

theorem lookup_none {l : List (Nat × Nat)} {k : Nat} (h : l.lookup k = none) : k ∉ l.map Prod.fst := by
  intro hm
  obtain ⟨p, hp, rfl⟩ := List.mem_map.1 hm
  exact (List.lookup_eq_none_iff.1 h p hp |> fun h => by simp at h)

theorem changes_spec (prev : List (Nat × Nat)) (hp : (prev.map Prod.fst).Nodup) (cur : List (Nat × Nat)) : ∀ n : Nat × Nat,
    cur.foldl (changeStep prev) n =
    (n.1 + (cur.filter fun p => decide (p ∈ prev)).length, n.2 + (cur.filter fun p => decide (p.1 ∈ prev.map Prod.fst ∧ p ∉ prev)).length) := by
  induction cur with
  | nil => intro n; rfl
  | cons p cur ih =>
    intro n
    rw [List.foldl_cons, ih]
    cases hl : prev.lookup p.1 with
    | none =>
      have h1 := lookup_none hl
      have h2 : p ∉ prev := fun h => h1 (List.mem_map.2 ⟨p, h, rfl⟩)
      simp only [changeStep, hl, List.filter_cons, h1, h2, decide_false, false_and, Bool.false_eq_true, if_false]
    | some c =>
      have h1 := lookup_mem hl
      have h2 : p.1 ∈ prev.map Prod.fst := List.mem_map.2 ⟨_, h1, rfl⟩
      by_cases hc : p.2 = c
      · have h3 : p ∈ prev := by subst hc; exact h1
        simp only [changeStep, hl, if_pos hc, List.filter_cons, h3, decide_true, if_true, not_true_eq_false, and_false, decide_false, Bool.false_eq_true,
          if_false, List.length_cons, Prod.mk.injEq]
        exact ⟨by omega, trivial⟩
      · have h3 : p ∉ prev := fun h => hc (congrArg Prod.snd (List.inj_on_of_nodup_map hp h h1 rfl))
        simp only [changeStep, hl, if_neg hc, List.filter_cons, h3, decide_false, Bool.false_eq_true, if_false, h2, not_false_eq_true, and_self, decide_true,
          if_true, List.length_cons, Prod.mk.injEq]
        exact ⟨trivial, by omega⟩

theorem colours_spec (cur : List (Nat × Nat)) : (colours cur).Nodup ∧ ∀ c, c ∈ colours cur ↔ ∃ p ∈ cur, p.2 = c := by
  have : ∀ (cur : List (Nat × Nat)) (m : List Nat), m.Nodup →
      (cur.foldl (fun m p => if p.2 ∈ m then m else m ++ [p.2]) m).Nodup ∧
      ∀ c, c ∈ cur.foldl (fun m p => if p.2 ∈ m then m else m ++ [p.2]) m ↔ c ∈ m ∨ ∃ p ∈ cur, p.2 = c := by
    intro cur
    induction cur with
    | nil => intro m h; exact ⟨h, by simp⟩
    | cons p cur ih =>
      intro m h
      rw [List.foldl_cons]
      by_cases hp : p.2 ∈ m
      · rw [if_pos hp]
        obtain ⟨h1, h2⟩ := ih m h
        refine ⟨h1, fun c => ?_⟩
        rw [h2]
        simp only [List.mem_cons, exists_eq_or_imp]
        constructor
        · rintro (h | h)
          · exact .inl h
          · exact .inr (.inr h)
        · rintro (h | h | h)
          · exact .inl h
          · exact .inl (h ▸ hp)
          · exact .inr h
      · rw [if_neg hp]
        obtain ⟨h1, h2⟩ := ih (m ++ [p.2]) (by
          rw [List.nodup_append]
          exact ⟨h, by simp, fun a ha b hb => by rw [List.mem_singleton] at hb; exact fun he => hp (hb ▸ he ▸ ha)⟩)
        refine ⟨h1, fun c => ?_⟩
        rw [h2]
        simp only [List.mem_append, List.mem_singleton, exists_eq_or_imp, or_assoc, List.mem_cons (a := _) (b := p)]
        constructor
        · rintro (h | h | h)
          · exact .inl h
          · exact .inr (.inl h.symm)
          · exact .inr (.inr h)
        · rintro (h | h | h)
          · exact .inl h
          · exact .inr (.inl h.symm)
          · exact .inr (.inr h)
  have h := this cur [] List.nodup_nil
  exact ⟨h.1, fun c => by rw [colours, h.2]; simp⟩

/-- **C76**, colouring: in every line but the first, `same` and `different` count the vertices of the query before whose
colour is the same and another; `matched` counts those present in both; and `colourCount` is the number of colours. -/
theorem C76_changes {db : List (List (Nat × Nat))} (hdb : ∀ e ∈ db, (e.map Prod.fst).Nodup) {i : Nat} {prev cur : List (Nat × Nat)}
    (hp : db[i]? = some prev) (hc : db[i + 1]? = some cur) :
    (line db (i + 1)).same = (cur.filter fun p => decide (p ∈ prev)).length ∧
    (line db (i + 1)).different = (cur.filter fun p => decide (p.1 ∈ prev.map Prod.fst ∧ p ∉ prev)).length ∧
    (line db (i + 1)).matched = (cur.filter fun p => decide (p.1 ∈ prev.map Prod.fst)).length ∧
    IsPct (line db (i + 1)).pctSame ∧
    ((∀ p ∈ prev, p.1 ∈ cur.map Prod.fst) → (line db (i + 1)).matched = prev.length) ∧
    ∃ cs : List Nat, cs.Nodup ∧ (∀ c, c ∈ cs ↔ ∃ p ∈ cur, p.2 = c) ∧ (line db (i + 1)).colourCount = cs.length := by
  have hpn := hdb prev (List.mem_of_getElem? hp)
  have hcn := hdb cur (List.mem_of_getElem? hc)
  have h1 := changes_spec prev hpn cur (0, 0)
  have hp' : db.getD i [] = prev := by simp [hp]
  have hc' : db.getD (i + 1) [] = cur := by simp [hc]
  have h2 : changes prev cur = ((cur.filter fun p => decide (p ∈ prev)).length,
      (cur.filter fun p => decide (p.1 ∈ prev.map Prod.fst ∧ p ∉ prev)).length) := by
    rw [changes, h1]; simp only [Nat.zero_add]
  have hsum : (cur.filter fun p => decide (p ∈ prev)).length + (cur.filter fun p => decide (p.1 ∈ prev.map Prod.fst ∧ p ∉ prev)).length =
      (cur.filter fun p => decide (p.1 ∈ prev.map Prod.fst)).length := by
    clear h1 hp' hc' h2 hcn hc
    induction cur with
    | nil => rfl
    | cons p cur ih =>
      by_cases hk : p ∈ prev
      · have : p.1 ∈ prev.map Prod.fst := List.mem_map.2 ⟨p, hk, rfl⟩
        simp only [List.filter_cons, hk, this, decide_true, if_true, not_true_eq_false, and_false, decide_false, Bool.false_eq_true, if_false,
          List.length_cons]
        omega
      · by_cases hk' : p.1 ∈ prev.map Prod.fst
        · simp only [List.filter_cons, hk, hk', decide_true, if_true, not_false_eq_true, and_self, decide_false, Bool.false_eq_true, if_false,
            List.length_cons]
          omega
        · simp only [List.filter_cons, hk, hk', not_false_eq_true, false_and, decide_false, Bool.false_eq_true, if_false]
          omega
  simp only [line, hp', hc', h2]
  refine ⟨trivial, trivial, hsum, isPct (Nat.le_add_right _ _), fun hall => ?_, colours cur, (colours_spec cur).1, (colours_spec cur).2, rfl⟩
  rw [hsum]
  have hperm : ((cur.filter fun p => decide (p.1 ∈ prev.map Prod.fst)).map Prod.fst).Perm (prev.map Prod.fst) := by
    refine (List.perm_ext_iff_of_nodup ?_ hpn).2 fun r => ⟨fun h => ?_, fun h => ?_⟩
    · exact List.Nodup.sublist (List.filter_sublist.map _) hcn
    · obtain ⟨p, hp, rfl⟩ := List.mem_map.1 h
      simpa using (List.mem_filter.1 hp).2
    · obtain ⟨p, hp, rfl⟩ := List.mem_map.1 h
      obtain ⟨q, hq, he⟩ := List.mem_map.1 (hall p hp)
      exact List.mem_map.2 ⟨q, List.mem_filter.2 ⟨hq, by simpa [he] using ⟨p.2, hp⟩⟩, he⟩
  simpa using hperm.length_eq

theorem entryAll_keys {at_ : Nat} {vs : List (Nat × Nat × Nat)} (h : (vs.map (·.1)).Nodup) : ((entryAll at_ vs).map Prod.fst).Nodup := by
  rw [entryAll, List.map_map]
  exact List.Nodup.sublist (List.filter_sublist.map _) h

/-- **C76**, colouring: vertices are never removed and keep the event that created them, so `matched` is the number of
vertices of the query before, those created by then. `views` is raw id, `CreateEvent` and colour of each vertex. -/
theorem C76_growing {views : Nat → List (Nat × Nat × Nat)} {at_ : Nat → Nat} {n : Nat} (hn : ∀ i, ((views i).map (·.1)).Nodup)
    (hg : ∀ i, i + 1 < n → ∀ v ∈ views i, ∃ c, (v.1, v.2.1, c) ∈ views (i + 1)) (ha : ∀ i, i + 1 < n → at_ i ≤ at_ (i + 1)) (i : Nat)
    (hi : i + 1 < n) : (line ((List.range n).map fun i => entryAll (at_ i) (views i)) (i + 1)).matched =
      ((views i).filter fun v => decide (v.2.1 ≤ at_ i)).length := by
  have hdb : ∀ e ∈ (List.range n).map fun i => entryAll (at_ i) (views i), (e.map Prod.fst).Nodup := by
    intro e he
    obtain ⟨j, -, rfl⟩ := List.mem_map.1 he
    exact entryAll_keys (hn j)
  have h1 : ((List.range n).map fun i => entryAll (at_ i) (views i))[i]? = some (entryAll (at_ i) (views i)) := by
    rw [List.getElem?_map, List.getElem?_range (by omega)]; rfl
  have h2 : ((List.range n).map fun i => entryAll (at_ i) (views i))[i + 1]? = some (entryAll (at_ (i + 1)) (views (i + 1))) := by
    rw [List.getElem?_map, List.getElem?_range hi]; rfl
  have h3 := (C76_changes hdb h1 h2).2.2.2.2.1 (fun p hp => by
    obtain ⟨v, hv, rfl⟩ := List.mem_map.1 hp
    obtain ⟨hv, hc⟩ := List.mem_filter.1 hv
    obtain ⟨c, hc'⟩ := hg i hi v hv
    refine List.mem_map.2 ⟨(v.1, c), List.mem_map.2 ⟨_, List.mem_filter.2 ⟨hc', ?_⟩, rfl⟩, rfl⟩
    simp only [decide_eq_true_eq] at hc ⊢
    exact Nat.le_trans hc (ha i hi))
  rw [h3, entryAll, List.length_map]

/-- **C76**, colouring, full statement: every line has the number of colours. -/
def C76ColoursStatement : Prop := ∀ db : List (List (Nat × Nat)), (∀ e ∈ db, (e.map Prod.fst).Nodup) → ∀ (i : Nat) e, db[i]? = some e →
  ∃ cs : List Nat, cs.Nodup ∧ (∀ c, c ∈ cs ↔ ∃ p ∈ e, p.2 = c) ∧ (line db i).colourCount = cs.length

/-- **C76** is violated for the first line: it says 0 colours. -/
theorem C76_colours_false : ¬ C76ColoursStatement := by
  intro h
  obtain ⟨cs, _, h2, h3⟩ := h [[(7, 0)]] (by simp) 0 [(7, 0)] rfl
  have : cs = [] := List.eq_nil_of_length_eq_zero h3.symm
  subst this
  exact absurd ((h2 0).2 ⟨(7, 0), by simp, rfl⟩) (by simp)

/-- Vertex 7 keeps its colour, 8 changes it, 9 is new. -/
example : line [[(7, 0), (8, 1)], [(7, 0), (8, 2), (9, 0)]] 1 = ⟨some 50, 2, 1, 1, 2⟩ := by decide +kernel

end Verif.Stats
