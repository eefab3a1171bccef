import Verif.Table
import Verif.Props.Sorting
import Mathlib.Data.List.Nodup
import Mathlib.Data.List.Perm.Subperm

/-!
# The table of top ranks over time (C75)
-/

namespace Verif.Table
open Verif.Sorting Verif.Props.Sorting

/-- The cell of vertex `r` in a line; blank if there is no column for it. -/
def cellOf (cols : List Nat) (line : List (Option ℚ)) (r : Nat) : Option ℚ := (line[cols.idxOf r]?).join

/-- What a reader takes from a cell: a number is the mass of the vertex at that query, which is not 0 and exceeded by at
most nine others; a blank says that the mass is 0 or at most that of ten others. -/
def Shows (v : View) (r : Nat) (c : Option ℚ) : Prop :=
  (∀ m, c = some m → (r, m) ∈ v ∧ m ≠ 0 ∧ (v.filter fun p => decide (m < p.2)).length ≤ 9) ∧
  (∀ m, (r, m) ∈ v → c = none → m = 0 ∨ 10 ≤ (v.filter fun p => decide (p.1 ≠ r ∧ m ≤ p.2)).length)

/-- **C75**, full statement. -/
def C75Statement : Prop :=
  ∀ views : List View, (∀ v ∈ views, (v.map Prod.fst).Nodup) →
    ∃ db, views.mapM capture = some db ∧ (columns db).Nodup ∧ (table db).length = views.length ∧
      ∀ (i : Nat) v line, views[i]? = some v → (table db)[i]? = some line → line.length = (columns db).length ∧
        ∀ r, Shows v r (cellOf (columns db) line r)

/-! ## Lines -/

/-- The last value written for `r`. -/
def val (e : Entry) (r : Nat) (d : ℚ) : ℚ := e.foldl (fun d p => if p.1 = r then p.2 else d) d

theorem fill_length (cols : List Nat) (e : Entry) : ∀ a, (fill cols a e).length = a.length := by
  induction e with
  | nil => intro a; rfl
  | cons p e ih => intro a; simp only [fill, List.foldl_cons] at ih ⊢; rw [ih]; simp

theorem fill_get {cols : List Nat} (e : Entry) {r : Nat} (hr : r ∈ cols) : ∀ a : List ℚ, a.length = cols.length →
    (fill cols a e)[cols.idxOf r]? = (a[cols.idxOf r]?).map (val e r) := by
  induction e with
  | nil => intro a _; cases h : a[cols.idxOf r]? <;> simp [fill, val, h]
  | cons p e ih =>
    intro a ha
    have hlt : cols.idxOf r < a.length := ha ▸ List.idxOf_lt_length_of_mem hr
    have h := ih (a.set (cols.idxOf p.1) p.2) (by simpa using ha)
    simp only [fill, List.foldl_cons] at h ⊢
    rw [h]
    by_cases hp : p.1 = r
    · subst hp
      rw [List.getElem?_set_self hlt]
      simp [List.getElem?_eq_getElem hlt, val]
    · have hne : cols.idxOf p.1 ≠ cols.idxOf r := fun he => hp ((List.idxOf_inj hr).1 he.symm).symm
      rw [List.getElem?_set_ne hne]
      simp [List.getElem?_eq_getElem hlt, val, hp]

theorem val_not_mem {e : Entry} {r : Nat} (h : r ∉ e.map Prod.fst) (d : ℚ) : val e r d = d := by
  induction e generalizing d with
  | nil => rfl
  | cons p e ih =>
    simp only [List.map_cons, List.mem_cons, not_or] at h
    simp only [val, List.foldl_cons, if_neg (Ne.symm h.1)] at ih ⊢
    exact ih h.2 d

theorem val_append (e f : Entry) (r : Nat) (d : ℚ) : val (e ++ f) r d = val f r (val e r d) := by simp [val]

theorem val_of_mem {e : Entry} (hn : (e.map Prod.fst).Nodup) {r : Nat} {m : ℚ} (h : (r, m) ∈ e) (d : ℚ) : val e r d = m := by
  induction e generalizing d with
  | nil => cases h
  | cons p e ih =>
    simp only [List.map_cons, List.nodup_cons] at hn
    rcases List.mem_cons.1 h with rfl | h
    · have := val_not_mem hn.1 m
      simpa [val] using this
    · have := ih hn.2 h (if p.1 = r then p.2 else d)
      simpa [val] using this

/-! ## Columns -/

theorem addColumns_spec (e : Entry) : ∀ cols : List Nat, cols.Nodup → (addColumns cols e).Nodup ∧
    ∀ r, r ∈ addColumns cols e ↔ r ∈ cols ∨ r ∈ e.map Prod.fst := by
  induction e with
  | nil => intro cols h; exact ⟨h, fun r => by simp [addColumns]⟩
  | cons p e ih =>
    intro cols h
    by_cases hp : p.1 ∈ cols
    · obtain ⟨h1, h2⟩ := ih cols h
      refine ⟨by simpa [addColumns, hp] using h1, fun r => ?_⟩
      have := h2 r
      simp only [addColumns, List.foldl_cons, if_pos hp, List.map_cons, List.mem_cons] at this ⊢
      rw [this]
      constructor
      · rintro (h | h)
        · exact .inl h
        · exact .inr (.inr h)
      · rintro (h | h | h)
        · exact .inl h
        · exact .inl (h ▸ hp)
        · exact .inr h
    · obtain ⟨h1, h2⟩ := ih (cols ++ [p.1]) (by
        rw [List.nodup_append]
        exact ⟨h, by simp, fun a ha b hb => by rw [List.mem_singleton] at hb; exact fun he => hp (hb ▸ he ▸ ha)⟩)
      refine ⟨by simpa [addColumns, hp] using h1, fun r => ?_⟩
      have := h2 r
      simp only [addColumns, List.foldl_cons, if_neg hp, List.map_cons, List.mem_cons] at this ⊢
      rw [this, List.mem_append, List.mem_singleton, or_assoc]

theorem columns_spec (db : List Entry) : (columns db).Nodup ∧ ∀ r, r ∈ columns db ↔ ∃ e ∈ db, r ∈ e.map Prod.fst := by
  have : ∀ (db : List Entry) (cols : List Nat), cols.Nodup → (db.foldl addColumns cols).Nodup ∧
      ∀ r, r ∈ db.foldl addColumns cols ↔ r ∈ cols ∨ ∃ e ∈ db, r ∈ e.map Prod.fst := by
    intro db
    induction db with
    | nil => intro cols h; exact ⟨h, fun r => by simp⟩
    | cons e db ih =>
      intro cols h
      obtain ⟨h1, h2⟩ := addColumns_spec e cols h
      obtain ⟨h3, h4⟩ := ih _ h1
      refine ⟨h3, fun r => ?_⟩
      rw [List.foldl_cons, h4, h2, or_assoc]
      simp only [List.mem_cons, exists_eq_or_imp]
  have h := this db [] List.nodup_nil
  exact ⟨h.1, fun r => by rw [columns, h.2]; simp⟩

theorem cellOf_row {db : List Entry} {e : Entry} (he : e ∈ db) (r : Nat) :
    cellOf (columns db) (row (columns db) e) r = cell (val e r 0) := by
  by_cases hr : r ∈ columns db
  · have hlt := List.idxOf_lt_length_of_mem hr
    simp only [cellOf, row, List.getElem?_map]
    rw [fill_get e hr _ (by simp)]
    simp [hlt]
  · have h1 : r ∉ e.map Prod.fst := fun h => hr ((columns_spec db).2 r |>.2 ⟨e, he, h⟩)
    have h2 : (columns db).length ≤ (columns db).idxOf r := by rw [List.idxOf_eq_length hr]
    rw [val_not_mem h1]
    simp [cellOf, row, fill_length, h2, cell]

/-! ## The entries -/

theorem lt_swo : PQ.SWO lt := by
  constructor <;> simp only [lt, decide_eq_true_eq, decide_eq_false_iff_not]
  · exact fun a b h h' => lt_irrefl _ (lt_trans h h')
  · exact fun a b c h h' h'' => h' (lt_of_le_of_lt (not_lt.1 h) h'')

/-- What is kept of a query: the vertices of the ranking, and pairs of zeros. -/
theorem capture_spec (v : View) : ∃ ranking : List (Nat × ℚ),
    capture v = some (ranking.map (fun p => ((v.getD p.1 (0, 0)).1, p.2)) ++ List.replicate (10 - ranking.length) (0, 0)) ∧
    IsTopN lt (v.map Prod.snd).toArray 10 ranking := by
  by_cases h0 : v.length = 0
  · have : v = [] := List.eq_nil_of_length_eq_zero h0
    subst this
    refine ⟨[], ?_, by simp, by simp, by simp, by simp, by simp⟩
    have : findTopN lt (#[] : Array ℚ) 0 = some [] := by rw [C13_zero]; rfl
    simp [capture, this]
  · obtain ⟨r, h1, h2⟩ := C13_findTopN_partial lt lt_swo (v.map Prod.snd).toArray (if v.length < 10 then v.length else 10) (by split <;> omega)
    refine ⟨r, ?_, ?_, h2.values, h2.nodup, h2.sorted, h2.largest⟩
    · simp only [capture, h1]
    · rw [h2.length]
      simp only [List.size_toArray, List.length_map]
      split <;> omega

/-- The vertices of a ranking. -/
structure Best (v : View) (best : Entry) : Prop where
  sub : ∀ p ∈ best, p ∈ v
  nodup : (best.map Prod.fst).Nodup
  few : best.length ≤ 10
  largest : ∀ p ∈ v, p ∉ best → best.length = 10 ∧ ∀ q ∈ best, p.2 ≤ q.2

theorem nodup_of_keys {v : View} (hv : (v.map Prod.fst).Nodup) : v.Nodup := List.Nodup.of_map _ hv

theorem best_of {v : View} (hv : (v.map Prod.fst).Nodup) {ranking : List (Nat × ℚ)}
    (h : IsTopN lt (v.map Prod.snd).toArray 10 ranking) : Best v (ranking.map (fun p => ((v.getD p.1 (0, 0)).1, p.2))) := by
  have hval : ∀ p ∈ ranking, ∃ h : p.1 < v.length, ((v.getD p.1 (0, 0)).1, p.2) = v[p.1] := by
    intro p hp
    have := h.values p hp
    simp only [List.getElem?_toArray, List.getElem?_map, Option.map_eq_some_iff] at this
    obtain ⟨q, h1, h2⟩ := this
    obtain ⟨h3, h4⟩ := List.getElem?_eq_some_iff.1 h1
    refine ⟨h3, ?_⟩
    simp [List.getElem?_eq_getElem h3, h4, ← h2]
  have hlen : ranking.length = min 10 v.length := by simpa using h.length
  refine ⟨?_, ?_, ?_, ?_⟩
  · intro q hq
    obtain ⟨p, hp, rfl⟩ := List.mem_map.1 hq
    obtain ⟨h1, h2⟩ := hval p hp
    rw [h2]
    exact List.getElem_mem h1
  · rw [List.map_map]
    have : ranking.map (Prod.fst ∘ fun p => ((v.getD p.1 (0, 0)).1, p.2)) = (ranking.map Prod.fst).map (fun i => (v.getD i (0, 0)).1) := by
      simp [List.map_map, Function.comp_def]
    rw [this]
    refine List.Nodup.map_on (fun i hi j hj he => ?_) h.nodup
    obtain ⟨p, hp, rfl⟩ := List.mem_map.1 hi
    obtain ⟨q, hq, rfl⟩ := List.mem_map.1 hj
    obtain ⟨h1, _⟩ := hval p hp
    obtain ⟨h2, _⟩ := hval q hq
    simp only [List.getD_eq_getElem?_getD, List.getElem?_eq_getElem h1, List.getElem?_eq_getElem h2, Option.getD_some] at he
    have := (List.Nodup.getElem_inj_iff hv (i := p.1) (j := q.1) (hi := by simpa using h1) (hj := by simpa using h2)).1 (by simpa using he)
    exact this
  · rw [List.length_map, hlen]; omega
  · intro p hp hnot
    obtain ⟨i, hi, rfl⟩ := List.mem_iff_getElem.1 hp
    have hni : i ∉ ranking.map Prod.fst := by
      intro hm
      obtain ⟨q, hq, rfl⟩ := List.mem_map.1 hm
      obtain ⟨_, h2⟩ := hval q hq
      exact hnot (List.mem_map.2 ⟨q, hq, h2⟩)
    refine ⟨?_, ?_⟩
    · rw [List.length_map, hlen]
      by_contra hne
      have hsub : (ranking.map Prod.fst) ⊆ (List.range v.length).erase i := by
        intro j hj
        obtain ⟨q, hq, rfl⟩ := List.mem_map.1 hj
        obtain ⟨h1, _⟩ := hval q hq
        exact (List.mem_erase_of_ne (fun he : q.1 = i => hni (he ▸ hj))).2 (List.mem_range.2 h1)
      have := (List.subperm_of_subset h.nodup hsub).length_le
      rw [List.length_map, List.length_erase_of_mem (List.mem_range.2 hi), List.length_range, hlen] at this
      omega
    · intro q hq
      obtain ⟨q, hq', rfl⟩ := List.mem_map.1 hq
      have := h.largest i v[i].2 (by simp [List.getElem?_eq_getElem hi]) hni q hq'
      simpa [lt] using this

theorem keys_inj {v : View} (hv : (v.map Prod.fst).Nodup) {r : Nat} {m m' : ℚ} (h : (r, m) ∈ v) (h' : (r, m') ∈ v) : m = m' := by
  have := List.inj_on_of_nodup_map hv h h' rfl
  exact congrArg Prod.snd this

/-- The best ten, printed. -/
theorem shows_best {v : View} (hv : (v.map Prod.fst).Nodup) {best : Entry} (hb : Best v best) (r : Nat) : Shows v r (cell (val best r 0)) := by
  by_cases hr : r ∈ best.map Prod.fst
  · obtain ⟨⟨r', m⟩, hp, rfl⟩ := List.mem_map.1 hr
    rw [val_of_mem hb.nodup hp]
    refine ⟨fun m' hm' => ?_, fun m' hm' hc => ?_⟩
    · simp only [cell, ne_eq, ite_not] at hm'
      split at hm'
      · cases hm'
      · rename_i hne
        cases hm'
        refine ⟨hb.sub _ hp, hne, ?_⟩
        have hsub : (v.filter fun p => decide (m < p.2)) ⊆ best.erase (r', m) := by
          intro p hpf
          obtain ⟨h1, h2⟩ := List.mem_filter.1 hpf
          simp only [decide_eq_true_eq] at h2
          refine (List.mem_erase_of_ne fun he => ?_).2 ?_
          · rw [he] at h2; exact lt_irrefl _ h2
          · by_contra hnot
            exact absurd ((hb.largest p h1 hnot).2 _ hp) (not_le.2 h2)
        have := (List.subperm_of_subset ((nodup_of_keys hv).filter _) hsub).length_le
        rw [List.length_erase_of_mem hp] at this
        have := hb.few
        omega
    · have := keys_inj hv (hb.sub _ hp) hm'
      subst this
      left
      by_contra hne
      simp [cell, hne] at hc
  · rw [val_not_mem hr]
    refine ⟨fun m hm => by simp [cell] at hm, fun m hm _ => .inr ?_⟩
    have hnot : (r, m) ∉ best := fun h => hr (List.mem_map.2 ⟨_, h, rfl⟩)
    obtain ⟨h1, h2⟩ := hb.largest _ hm hnot
    rw [← h1]
    refine (List.subperm_of_subset (nodup_of_keys hb.nodup) fun q hq => ?_).length_le
    refine List.mem_filter.2 ⟨hb.sub q hq, ?_⟩
    simp only [ne_eq, decide_eq_true_eq]
    exact ⟨fun he => hr (List.mem_map.2 ⟨q, hq, he⟩), h2 q hq⟩

theorem val_pad {k r : Nat} (h : k = 0 ∨ r ≠ 0) (d : ℚ) : val (List.replicate k (0, 0)) r d = d := by
  rcases h with rfl | h
  · rfl
  · refine val_not_mem (fun hm => ?_) d
    obtain ⟨p, hp, rfl⟩ := List.mem_map.1 hm
    rw [List.eq_of_mem_replicate hp] at h
    exact h rfl

/-- An entry as it is kept. -/
theorem capture_best {v : View} (hv : (v.map Prod.fst).Nodup) : ∃ best, capture v = some (best ++ List.replicate (10 - best.length) (0, 0)) ∧
    Best v best ∧ best.length = min 10 v.length := by
  obtain ⟨ranking, h1, h2⟩ := capture_spec v
  refine ⟨_, ?_, best_of hv h2, ?_⟩
  · rw [h1, List.length_map]
  · rw [List.length_map, h2.length]; simp

theorem mapM_capture : ∀ views : List View, (∀ v ∈ views, (v.map Prod.fst).Nodup) → ∃ db, views.mapM capture = some db ∧
    db.length = views.length ∧ ∀ (i : Nat) v e, views[i]? = some v → db[i]? = some e → capture v = some e := by
  intro views
  induction views with
  | nil => exact fun _ => ⟨[], rfl, rfl, by simp⟩
  | cons v vs ih =>
    intro h
    obtain ⟨db, h1, h2, h3⟩ := ih fun v hv => h v (List.mem_cons_of_mem _ hv)
    obtain ⟨best, h4, -⟩ := capture_best (h v (by simp))
    refine ⟨(best ++ List.replicate (10 - best.length) (0, 0)) :: db, ?_, by rw [List.length_cons, List.length_cons, h2], ?_⟩
    · simp only [List.mapM_cons, h4, h1]; rfl
    · intro i w e hw he
      cases i with
      | zero => simp only [List.getElem?_cons_zero, Option.some.injEq] at hw he; rw [← hw, ← he, h4]
      | succ i => simp only [List.getElem?_cons_succ] at hw he; exact h3 i w e hw he

/-- The shape of the table, and each cell for each vertex but raw id 0 in a small graph. -/
theorem C75_partial (views : List View) (hv : ∀ v ∈ views, (v.map Prod.fst).Nodup) :
    ∃ db, views.mapM capture = some db ∧ (columns db).Nodup ∧ (table db).length = views.length ∧
      ∀ (i : Nat) v line, views[i]? = some v → (table db)[i]? = some line → line.length = (columns db).length ∧
        ∀ r, 10 ≤ v.length ∨ 0 ∉ v.map Prod.fst ∨ r ≠ 0 → Shows v r (cellOf (columns db) line r) := by
  obtain ⟨db, h1, h2, h3⟩ := mapM_capture views hv
  refine ⟨db, h1, (columns_spec db).1, by rw [table, List.length_map, h2], fun i v line hi hl => ?_⟩
  simp only [table, List.getElem?_map, Option.map_eq_some_iff] at hl
  obtain ⟨e, he, rfl⟩ := hl
  refine ⟨by simp [row, fill_length], fun r hr => ?_⟩
  have hvi := hv v (List.mem_of_getElem? hi)
  obtain ⟨best, h4, h5, h6⟩ := capture_best hvi
  have hce := h3 i v e hi he
  rw [h4] at hce
  cases hce
  rw [cellOf_row (List.mem_of_getElem? he), val_append]
  rcases hr with hr | hr | hr
  · rw [val_pad (.inl (by omega))]; exact shows_best hvi h5 r
  · by_cases h0 : r = 0
    · subst h0
      have hnb : 0 ∉ best.map Prod.fst := fun hm => by
        obtain ⟨p, hp, he⟩ := List.mem_map.1 hm
        exact hr (List.mem_map.2 ⟨p, h5.sub p hp, he⟩)
      have h7 := shows_best hvi h5 0
      rw [val_not_mem hnb] at h7 ⊢
      have : val (List.replicate (10 - best.length) (0, 0)) 0 0 = 0 := by
        generalize 10 - best.length = k
        induction k with
        | zero => rfl
        | succ k ih => simpa [val, List.replicate_succ] using ih
      rw [this]; exact h7
    · rw [val_pad (.inr h0)]; exact shows_best hvi h5 r
  · rw [val_pad (.inr hr)]; exact shows_best hvi h5 r

/-- **C75**: in a graph with fewer than ten vertices, the vertex with raw id 0 is never shown. -/
theorem C75_zero (views : List View) (hv : ∀ v ∈ views, (v.map Prod.fst).Nodup) :
    ∃ db, views.mapM capture = some db ∧
      ∀ (i : Nat) v line, views[i]? = some v → (table db)[i]? = some line → v.length < 10 → cellOf (columns db) line 0 = none := by
  obtain ⟨db, h1, h2, h3⟩ := mapM_capture views hv
  refine ⟨db, h1, fun i v line hi hl hs => ?_⟩
  simp only [table, List.getElem?_map, Option.map_eq_some_iff] at hl
  obtain ⟨e, he, rfl⟩ := hl
  obtain ⟨best, h4, h5, h6⟩ := capture_best (hv v (List.mem_of_getElem? hi))
  have hce := h3 i v e hi he
  rw [h4] at hce
  cases hce
  rw [cellOf_row (List.mem_of_getElem? he), val_append]
  obtain ⟨k, hk⟩ : ∃ k, 10 - best.length = k + 1 := ⟨9 - best.length, by omega⟩
  have : ∀ k d, val (List.replicate (k + 1) (0, 0)) 0 d = 0 := by
    intro k
    induction k with
    | zero => intro d; rfl
    | succ k ih => intro d; rw [List.replicate_succ]; exact ih 0
  rw [hk, this]
  rfl

/-- **C75** is violated: a graph with one vertex, of raw id 0 and mass 1. -/
theorem C75_false : ¬ C75Statement := by
  intro h
  obtain ⟨db, h1, _, h2, h3⟩ := h [[(0, 1)]] (by simp)
  obtain ⟨db', h1', h3'⟩ := C75_zero [[(0, 1)]] (by simp)
  rw [h1] at h1'
  cases h1'
  obtain ⟨line, hl⟩ : ∃ line, (table db)[0]? = some line := ⟨_, List.getElem?_eq_getElem (by rw [h2]; simp)⟩
  have h4 := ((h3 0 [(0, 1)] line rfl hl).2 0).2 1 (by simp) (h3' 0 _ line rfl hl (by simp))
  rcases h4 with h4 | h4
  · exact absurd h4 (by decide)
  · simp at h4

/-! ## Rates of change -/

/-- The masses of a query by column. -/
def masses (db : List Entry) (i : Nat) : List ℚ := fill (columns db) (List.replicate (columns db).length 0) (db.getD i [])

theorem masses_length (db : List Entry) (i : Nat) : (masses db i).length = (columns db).length := by simp [masses, fill_length]

theorem rates_spec (db : List Entry) (name : Nat → ℚ) : ∀ k i last curr, i + k = db.length → last.length = (columns db).length →
    (0 < i → last = masses db (i - 1) ∧ curr = masses db i) → (i = 0 → curr = List.replicate (columns db).length 0) →
    (rates (columns db) db name k i last curr).length = k ∧
    ∀ j, i ≤ j → 0 < j → j + 1 < db.length → (rates (columns db) db name k i last curr)[j - i]? =
      some (some (List.zipWith (rate (name (j + 1) - name (j - 1))) (masses db (j - 1)) (masses db (j + 1)))) := by
  intro k
  induction k with
  | zero => intro i last curr hk _ _ _; exact ⟨rfl, fun j h1 h2 h3 => by omega⟩
  | succ k ih =>
    intro i last curr hk hl h1 h0
    simp only [rates]
    cases he : db[i + 1]? with
    | none =>
      have hle : db.length ≤ i + 1 := List.getElem?_eq_none_iff.1 he
      have hk0 : k = 0 := by omega
      subst hk0
      refine ⟨rfl, fun j hj h2 h3 => by omega⟩
    | some e =>
      have hlt : i + 1 < db.length := (List.getElem?_eq_some_iff.1 he).1
      have hnext : fill (columns db) (List.replicate last.length 0) e = masses db (i + 1) := by
        simp only [masses, hl, List.getD_eq_getElem?_getD, he, Option.getD_some]
      simp only [hnext]
      by_cases hi : 0 < i
      · obtain ⟨h2, h3⟩ := h1 hi
        rw [if_pos hi]
        obtain ⟨k1, k2⟩ := ih (i + 1) curr (masses db (i + 1)) (by omega) (by rw [h3, masses_length])
          (fun _ => ⟨by rw [h3, Nat.add_sub_cancel], rfl⟩) (fun h => by omega)
        refine ⟨by rw [List.length_cons, k1], fun j hj hj0 hjl => ?_⟩
        rcases Nat.eq_or_lt_of_le hj with rfl | hj
        · rw [Nat.sub_self, List.getElem?_cons_zero, h2]
        · have : j - i = (j - (i + 1)) + 1 := by omega
          rw [this, List.getElem?_cons_succ]
          exact k2 j hj hj0 hjl
      · have hi0 : i = 0 := by omega
        subst hi0
        rw [if_neg (Nat.lt_irrefl 0)]
        have hc : fill (columns db) curr (db.getD 0 []) = masses db 0 := by rw [h0 rfl]; rfl
        obtain ⟨k1, k2⟩ := ih 1 (fill (columns db) curr (db.getD 0 [])) (masses db 1) (by omega) (by rw [hc, masses_length])
          (fun _ => ⟨hc, rfl⟩) (fun h => by omega)
        refine ⟨by rw [List.length_cons, k1], fun j hj hj0 hjl => ?_⟩
        have : j - 0 = (j - 1) + 1 := by omega
        rw [this, List.getElem?_cons_succ]
        exact k2 j hj0 hj0 hjl

theorem cellOf_table {db : List Entry} {i : Nat} (hi : i < db.length) {line : List (Option ℚ)} (hl : (table db)[i]? = some line) (r : Nat)
    (hr : r ∈ columns db) : ∃ m, (masses db i)[(columns db).idxOf r]? = some m ∧ cellOf (columns db) line r = cell m := by
  have hlt := List.idxOf_lt_length_of_mem hr
  simp only [table, List.getElem?_map, List.getElem?_eq_getElem hi, Option.map_some, Option.some.injEq] at hl
  have h2 : (columns db).idxOf r < (masses db i).length := by rw [masses_length]; exact hlt
  refine ⟨_, List.getElem?_eq_getElem h2, ?_⟩
  subst hl
  have h3 : db.getD i [] = db[i] := by simp [List.getElem?_eq_getElem hi]
  simp only [cellOf, row, List.getElem?_map]
  have h4 : fill (columns db) (List.replicate (columns db).length 0) db[i] = masses db i := by rw [masses, h3]
  rw [h4, List.getElem?_eq_getElem h2]
  rfl

/-- **C75**, rates: there are as many lines as queries; the line of a query that has one before and one after it has, in each
column, a number if both of these show one in the plain table, and then it is the change per day in percent. -/
theorem C75_rates (db : List Entry) (name : Nat → ℚ) : (rateTable db name).length = db.length ∧
    ∀ i, 0 < i → i + 1 < db.length → name (i + 1) ≠ name (i - 1) → ∃ line before after, (rateTable db name)[i]? = some (some line) ∧
      (table db)[i - 1]? = some before ∧ (table db)[i + 1]? = some after ∧
      ∀ r ∈ columns db,
        (∀ d, cellOf (columns db) line r = some d → ∃ a b, cellOf (columns db) before r = some a ∧
          cellOf (columns db) after r = some b ∧ d * (name (i + 1) - name (i - 1)) = 100 * (b - a)) ∧
        (cellOf (columns db) line r = none → cellOf (columns db) before r = none ∨ cellOf (columns db) after r = none) := by
  obtain ⟨h1, h2⟩ := rates_spec db name db.length 0 (List.replicate (columns db).length 0) (List.replicate (columns db).length 0)
    (by omega) (by simp) (fun h => by omega) (fun _ => rfl)
  refine ⟨h1, fun i hi hl hn => ?_⟩
  have hb : (table db)[i - 1]? = some (row (columns db) (db[i - 1]'(by omega))) := by
    simp only [table, List.getElem?_map, List.getElem?_eq_getElem (show i - 1 < db.length by omega), Option.map_some]
  have ha : (table db)[i + 1]? = some (row (columns db) (db[i + 1]'hl)) := by
    simp only [table, List.getElem?_map, List.getElem?_eq_getElem hl, Option.map_some]
  refine ⟨_, _, _, h2 i (Nat.zero_le _) hi hl, hb, ha, fun r hr => ?_⟩
  obtain ⟨a, a1, a2⟩ := cellOf_table (by omega) hb r hr
  obtain ⟨b, b1, b2⟩ := cellOf_table hl ha r hr
  have hc : cellOf (columns db) (List.zipWith (rate (name (i + 1) - name (i - 1))) (masses db (i - 1)) (masses db (i + 1))) r =
      rate (name (i + 1) - name (i - 1)) a b := by
    simp only [cellOf, List.getElem?_zipWith, a1, b1]
    rfl
  have hd : name (i + 1) - name (i - 1) ≠ 0 := sub_ne_zero.2 hn
  rw [hc, a2, b2]
  simp only [rate, cell]
  by_cases h3 : b ≠ 0 ∧ a ≠ 0
  · rw [if_pos h3, if_pos h3.1, if_pos h3.2]
    refine ⟨fun d hd' => ⟨a, b, rfl, rfl, ?_⟩, fun h => by cases h⟩
    cases hd'
    exact div_mul_cancel₀ _ hd
  · rw [if_neg h3]
    refine ⟨fun d hd' => (by cases hd'), fun _ => ?_⟩
    by_cases ha0 : a = 0
    · left; rw [if_neg (fun h => h ha0)]
    · right; rw [if_neg (fun h => h3 ⟨h, ha0⟩)]

/-- Three queries a day apart; vertex 5 gains 30, then 30; the column of vertex 6 has nothing to compare with. -/
example : (rateTable [[(5, 10)], [(5, 40), (6, 1)], [(5, 70), (6, 2)]] fun i => i) =
    [some [], some [some 3000, none], none] := by decide +kernel

/-- Twelve vertices, then thirteen: two columns too many for ten, the smallest masses are blank. -/
def twelve : View := (List.range 12).map fun i => (i, (i : ℚ))

example : (twelve.map Prod.fst).Nodup ∧ 10 ≤ twelve.length := by decide +kernel

example : ([twelve, (12, 20) :: twelve].mapM capture).map (fun db => (columns db, (table db).map fun l => l.map Option.isSome)) =
    some ([11, 10, 9, 8, 7, 6, 5, 4, 3, 2, 12], [[true, true, true, true, true, true, true, true, true, true, false],
      [true, true, true, true, true, true, true, true, true, false, true]]) := by decide +kernel

end Verif.Table
