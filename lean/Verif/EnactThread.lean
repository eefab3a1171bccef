import Verif.EnactLemmas

/-!
# Lemmas about a thread's batches
-/

namespace Verif.Enact

open Verif.Loader (Typ)

variable {D : Type}

/-- Events with their place in the buffer, from `i` on. -/
def entsOf (i : Nat) : List (Nat × Change D) → List (Nat × Nat)
  | [] => []
  | x :: xs => (x.1, i) :: entsOf (i + 1) xs

theorem entsOf_append (i : Nat) (a b : List (Nat × Change D)) : entsOf i (a ++ b) = entsOf i a ++ entsOf (i + a.length) b := by
  induction a generalizing i with
  | nil => simp [entsOf]
  | cons x a ih =>
    simp only [List.cons_append, entsOf, ih, List.length_cons]
    rw [show i + 1 + a.length = i + (a.length + 1) by omega]

/-- Pending list of vertex `v`. -/
def pendOf (ents : List (Nat × Nat)) (v : Nat) : List Nat := (ents.filter (fun x => decide (x.1 = v))).map (·.2)

/-- The pending buffers hold `ents`, grouped by source; `us` are the sources. -/
structure GInv (s : Th D) (uniq : Nat) (ents : List (Nat × Nat)) (us : List Nat) : Prop where
  len : us.length = uniq
  nodup : us.Nodup
  slot : ∀ (j v : Nat), us[j]? = some v → s.pend[j]? = some (v :: pendOf ents v)
  idx : ∀ (j v : Nat), us[j]? = some v → s.pendIdx v = j + s.numUnique
  free : ∀ (j : Nat) (l : List Nat), uniq ≤ j → s.pend[j]? = some l → l = []
  old : ∀ v, v ∉ us → s.pendIdx v < s.numUnique
  mem : ∀ v, v ∈ us ↔ ∃ i, (v, i) ∈ ents

/-- Everything else is the same. -/
structure Rest (s s' : Th D) : Prop where
  verts : s'.verts = s.verts
  numUnique : s'.numUnique = s.numUnique
  warn : s'.warn = s.warn
  runs : s'.runs = s.runs
  calls : s'.calls = s.calls

theorem Rest.refl (s : Th D) : Rest s s := ⟨rfl, rfl, rfl, rfl, rfl⟩
theorem Rest.trans {a b c : Th D} (h : Rest a b) (k : Rest b c) : Rest a c :=
  ⟨k.verts.trans h.verts, k.numUnique.trans h.numUnique, k.warn.trans h.warn, k.runs.trans h.runs, k.calls.trans h.calls⟩

theorem GInv.congr {s s' : Th D} {uniq : Nat} {ents : List (Nat × Nat)} {us : List Nat} (h : GInv s uniq ents us)
    (h1 : s'.pend = s.pend) (h2 : s'.pendIdx = s.pendIdx) (h3 : s'.numUnique = s.numUnique) : GInv s' uniq ents us :=
  ⟨h.len, h.nodup, by rw [h1]; exact h.slot, by rw [h2, h3]; exact h.idx, by rw [h1]; exact h.free, by rw [h2, h3]; exact h.old, h.mem⟩

theorem pendOf_snoc_self (ents : List (Nat × Nat)) (v i : Nat) : pendOf (ents ++ [(v, i)]) v = pendOf ents v ++ [i] := by
  simp [pendOf]

theorem pendOf_snoc_ne (ents : List (Nat × Nat)) {v w : Nat} (i : Nat) (h : v ≠ w) : pendOf (ents ++ [(v, i)]) w = pendOf ents w := by
  simp [pendOf, h]

theorem get_lt {α : Type} {l : List α} {i : Nat} {a : α} (h : l[i]? = some a) : i < l.length := (List.getElem?_eq_some_iff.1 h).1

theorem insertPending_spec {s : Th D} {uniq : Nat} {ents : List (Nat × Nat)} {us : List Nat} (hi : GInv s uniq ents us) (v i : Nat) :
    ∃ s' uniq' us', insertPending s v i uniq = some (s', uniq') ∧ GInv s' uniq' (ents ++ [(v, i)]) us' ∧ Rest s s' ∧ s'.buff = s.buff ∧ s'.expired = s.expired := by
  unfold insertPending
  by_cases hlt : s.pendIdx v < s.numUnique
  · rw [if_pos hlt]
    have hv : v ∉ us := by
      intro hm
      obtain ⟨j, hj⟩ := List.mem_iff_getElem?.1 hm
      have := hi.idx j v hj; omega
    have hvn : pendOf ents v = [] := by
      unfold pendOf
      rw [List.map_eq_nil_iff, List.filter_eq_nil_iff]
      intro x hx
      simp only [decide_eq_true_eq]
      intro e
      exact hv ((hi.mem v).2 ⟨x.2, by rw [← e]; exact hx⟩)
    have hlen : us.length ≤ s.pend.length := by
      cases hu : us.length with
      | zero => omega
      | succ m =>
        have h1 : us[m]? = some (us[m]'(by omega)) := List.getElem?_eq_getElem (by omega)
        have := get_lt (hi.slot m _ h1); omega
    -- the new pending buffers
    have hpend : ∀ j, (if s.pend.length ≤ uniq then s.pend ++ [[v, i]] else s.pend.modify uniq (· ++ [v, i]))[j]? =
        if j = uniq then some [v, i] else s.pend[j]? := by
      intro j
      have hl := hi.len
      by_cases hp : s.pend.length ≤ uniq
      · rw [if_pos hp]
        have hpl : s.pend.length = uniq := by omega
        by_cases hj : j = uniq
        · rw [if_pos hj, hj, ← hpl, List.getElem?_concat_length]
        · rw [if_neg hj]
          by_cases hj2 : j < s.pend.length
          · rw [List.getElem?_append_left hj2]
          · rw [List.getElem?_eq_none (by simp; omega), List.getElem?_eq_none (by omega)]
      · rw [if_neg hp, List.getElem?_modify]
        by_cases hj : j = uniq
        · rw [if_pos hj, hj]
          have hg : s.pend[uniq]? = some (s.pend[uniq]'(by omega)) := List.getElem?_eq_getElem (by omega)
          have he := hi.free uniq _ (Nat.le_refl _) hg
          rw [hg, he]
          simp
        · rw [if_neg hj]
          have : ¬ uniq = j := fun e => hj e.symm
          simp [this]
    refine ⟨_, _, us ++ [v], rfl, ⟨?_, ?_, ?_, ?_, ?_, ?_, ?_⟩, ⟨rfl, rfl, rfl, rfl, rfl⟩, rfl, rfl⟩
    · simp [hi.len]
    · rw [List.nodup_append]
      refine ⟨hi.nodup, by simp, ?_⟩
      intro a ha b hb
      rw [List.mem_singleton] at hb
      intro e; subst e; subst hb; exact hv ha
    · intro j w hj
      simp only
      rw [hpend]
      by_cases hju : j < us.length
      · rw [List.getElem?_append_left hju] at hj
        have hw : w ∈ us := List.mem_of_getElem? hj
        rw [if_neg (by have := hi.len; omega), hi.slot j w hj, pendOf_snoc_ne]
        intro e; subst e; exact hv hw
      · have := get_lt hj
        simp only [List.length_append, List.length_singleton] at this
        obtain rfl : j = us.length := by omega
        rw [List.getElem?_concat_length] at hj
        injection hj with hj; subst hj
        rw [if_pos hi.len, pendOf_snoc_self, hvn]; rfl
    · intro j w hj
      simp only
      by_cases hju : j < us.length
      · rw [List.getElem?_append_left hju] at hj
        have hw : w ∈ us := List.mem_of_getElem? hj
        rw [upd_ne]
        · exact hi.idx j w hj
        · intro e; subst e; exact hv hw
      · have := get_lt hj
        simp only [List.length_append, List.length_singleton] at this
        obtain rfl : j = us.length := by omega
        rw [List.getElem?_concat_length] at hj
        injection hj with hj; subst hj
        rw [upd_same, hi.len]
    · intro j l hj hl
      simp only at hl
      rw [hpend, if_neg (by omega)] at hl
      exact hi.free j l (by omega) hl
    · intro w hw
      simp only
      rw [List.mem_append, List.mem_singleton, not_or] at hw
      rw [upd_ne _ _ hw.2]
      exact hi.old w hw.1
    · intro w
      rw [List.mem_append, List.mem_singleton, hi.mem]
      constructor
      · rintro (⟨j, h⟩ | h)
        · exact ⟨j, List.mem_append_left _ h⟩
        · exact ⟨i, by rw [h]; simp⟩
      · rintro ⟨j, h⟩
        rw [List.mem_append, List.mem_singleton] at h
        rcases h with h | h
        · exact .inl ⟨j, h⟩
        · injection h with h1 h2; exact .inr h1
  · rw [if_neg hlt]
    have hv : v ∈ us := by
      apply Classical.byContradiction
      intro h; exact hlt (hi.old v h)
    obtain ⟨j, hj⟩ := List.mem_iff_getElem?.1 hv
    have h1 := hi.idx j v hj
    have h2 := hi.slot j v hj
    have e1 : s.pendIdx v - s.numUnique = j := by omega
    rw [e1, h2]
    have hjl := get_lt h2
    refine ⟨_, _, us, rfl, ⟨hi.len, hi.nodup, ?_, hi.idx, ?_, hi.old, ?_⟩, ⟨rfl, rfl, rfl, rfl, rfl⟩, rfl, rfl⟩
    · intro k w hk
      simp only
      by_cases ek : j = k
      · subst ek
        rw [hj] at hk; injection hk with hk; subst hk
        rw [List.getElem?_set_self hjl, pendOf_snoc_self]; rfl
      · rw [List.getElem?_set_ne ek, hi.slot k w hk, pendOf_snoc_ne]
        intro e; subst e
        have a1 := get_lt hj
        have a2 := get_lt hk
        have := (List.getElem?_inj a1 hi.nodup).1 (hj.trans hk.symm)
        exact ek this
    · intro k l hk hl
      simp only at hl
      have := get_lt hj
      rw [List.getElem?_set_ne (by have := hi.len; omega)] at hl
      exact hi.free k l hk hl
    · intro w
      rw [hi.mem]
      constructor
      · rintro ⟨k, h⟩; exact ⟨k, List.mem_append_left _ h⟩
      · rintro ⟨k, h⟩
        rw [List.mem_append, List.mem_singleton] at h
        rcases h with h | h
        · exact ⟨k, h⟩
        · injection h with h1 h2
          subst h1; exact (hi.mem w).1 hv

/-- What the first loop appends to `ExpiredEdges`. -/
def newExpired (o : Opts) (batch : List (Nat × Change D)) : List (Nat × Change D) :=
  if 0 < o.window then batch.filter (fun x => isAdd x.2) else []

theorem group_spec (o : Opts) : ∀ (batch : List (Nat × Change D)) (s : Th D) (i uniq : Nat) (ents : List (Nat × Nat)) (us : List Nat), GInv s uniq ents us →
    ∃ s' uniq' us', group o s i uniq batch = some (s', uniq') ∧ GInv s' uniq' (ents ++ entsOf i batch) us' ∧ Rest s s' ∧ s'.buff = s.buff ∧
      s'.expired = s.expired ++ newExpired o batch := by
  intro batch
  induction batch with
  | nil => intro s i uniq ents us hi; exact ⟨s, uniq, us, rfl, by simpa [entsOf] using hi, Rest.refl s, rfl, by simp [newExpired]⟩
  | cons x batch ih =>
    intro s i uniq ents us hi
    obtain ⟨v, c⟩ := x
    obtain ⟨s1, u1, us1, h1, h2, h3, h4, h5⟩ := insertPending_spec hi v i
    simp only [group, h1, Option.bind_some]
    by_cases hc : 0 < o.window ∧ c.typ = .add
    · rw [if_pos hc]
      obtain ⟨s2, u2, us2, g1, g2, g3, g4, g5⟩ := ih { s1 with expired := s1.expired ++ [(v, c)] } (i + 1) u1 _ us1 (h2.congr rfl rfl rfl)
      refine ⟨s2, u2, us2, g1, ?_, ?_, ?_, ?_⟩
      · rw [List.append_assoc] at g2; exact g2
      · exact h3.trans ⟨g3.verts, g3.numUnique, g3.warn, g3.runs, g3.calls⟩
      · rw [g4]; exact h4
      · rw [g5]
        simp only [newExpired, hc.1, if_true, h5]
        rw [List.filter_cons_of_pos (by simp [isAdd, hc.2])]
        simp
    · rw [if_neg hc]
      obtain ⟨s2, u2, us2, g1, g2, g3, g4, g5⟩ := ih s1 (i + 1) u1 _ us1 h2
      refine ⟨s2, u2, us2, g1, ?_, ?_, ?_, ?_⟩
      · rw [List.append_assoc] at g2; exact g2
      · exact h3.trans g3
      · rw [g4]; exact h4
      · rw [g5, h5]
        congr 1
        unfold newExpired
        by_cases hw : 0 < o.window
        · have : isAdd c = false := by
            cases ht : c.typ with
            | add => exact absurd ⟨hw, ht⟩ hc
            | del => simp [isAdd, ht]
          rw [if_pos hw, if_pos hw, List.filter_cons_of_neg (by simp [this])]
        · rw [if_neg hw, if_neg hw]

/-- Changes of vertex `v`. -/
def ownChanges (xs : List (Nat × Change D)) (v : Nat) : List (Change D) := (xs.filter (fun x => decide (x.1 = v))).map (·.2)

theorem ownChanges_append (a b : List (Nat × Change D)) (v : Nat) : ownChanges (a ++ b) v = ownChanges a v ++ ownChanges b v := by
  simp [ownChanges]

theorem fetch_own (buff : List (Change D)) (v : Nat) : ∀ (xs : List (Nat × Change D)) (i : Nat), (∀ (j : Nat) (x : Nat × Change D), xs[j]? = some x → buff[i + j]? = some x.2) →
    fetch buff (pendOf (entsOf i xs) v) = some (ownChanges xs v) := by
  intro xs
  induction xs with
  | nil => intro i _; simp [entsOf, pendOf, fetch, ownChanges]
  | cons x xs ih =>
    intro i h
    have ih' := ih (i + 1) (fun j y hy => by
      have := h (j + 1) y (by simpa using hy)
      rwa [show i + (j + 1) = i + 1 + j by omega] at this)
    by_cases e : x.1 = v
    · have hx := h 0 x rfl
      rw [Nat.add_zero] at hx
      simp only [entsOf, pendOf, ownChanges] at ih' ⊢
      rw [List.filter_cons_of_pos (by simp [e]), List.filter_cons_of_pos (by simp [e])]
      simp only [List.map_cons, fetch, hx, Option.bind_some]
      rw [ih']; rfl
    · simp only [entsOf, pendOf, ownChanges] at ih' ⊢
      rw [List.filter_cons_of_neg (by simp [e]), List.filter_cons_of_neg (by simp [e])]
      exact ih'

/-- The callbacks for vertex `v`. -/
def callsOf (s : Th D) (v : Nat) : List (Call D) := (s.calls.filter (fun x => decide (x.1 = v))).map (·.2)

/-- The changes `cs` have been applied to vertex `v`. -/
def Applied (o : Opts) (others : Nat → Bool) (s s' : Th D) (v : Nat) (cs : List (Change D)) : Prop :=
  ∃ (w : Bool) (n : Nat) (r : VSt D), applyAll o others { edges := s.verts v, calls := [], warn := w, runs := n } cs = some r ∧
    s'.verts v = r.edges ∧ callsOf s' v = callsOf s v ++ r.calls

theorem applied_nil (o : Opts) (others : Nat → Bool) {s s' : Th D} {v : Nat} (h1 : s'.verts v = s.verts v) (h2 : callsOf s' v = callsOf s v) :
    Applied o others s s' v [] :=
  ⟨false, 0, _, by rw [applyAll], h1, by rw [h2]; simp⟩

/-- The loop over the groups. -/
theorem applyGroups_spec (o : Opts) (others : Nat → Bool) (buff : List (Change D)) (ents : List (Nat × Nat)) (f : Nat → List (Change D))
    (us : List Nat) (hnd : us.Nodup) (hf : ∀ v, fetch buff (pendOf ents v) = some (f v)) : ∀ (k u : Nat) (s : Th D), u + k = us.length → s.buff = buff →
    (∀ (j v : Nat), u ≤ j → us[j]? = some v → s.pend[j]? = some (v :: pendOf ents v)) → 
    (∀ s', applyGroups o others s u k = some s' → (∀ v, v ∉ us.drop u → s'.verts v = s.verts v ∧ callsOf s' v = callsOf s v) ∧
      (∀ v, v ∈ us.drop u → Applied o others s s' v (f v)) ∧
      s'.pendIdx = s.pendIdx ∧ s'.numUnique = s.numUnique ∧ s'.buff = s.buff ∧ s'.expired = s.expired ∧ s'.pend.length = s.pend.length ∧
      ∀ (j : Nat) (l : List Nat), s'.pend[j]? = some l → (u ≤ j ∧ j < us.length → l = []) ∧ (j < u ∨ us.length ≤ j → s.pend[j]? = some l)) ∧
    (applyGroups o others s u k = none → ∃ v ∈ us.drop u, ∃ w n, applyAll o others { edges := s.verts v, calls := [], warn := w, runs := n } (f v) = none) := by
  intro k
  induction k with
  | zero =>
    intro u s hu hb hp
    refine ⟨?_, by intro h; cases h⟩
    intro s' h
    injection h with h; subst h
    refine ⟨fun v _ => ⟨rfl, rfl⟩, ?_, rfl, rfl, rfl, rfl, rfl, ?_⟩
    · intro v hv; rw [List.drop_eq_nil_of_le (by omega)] at hv; cases hv
    · intro j l hl
      exact ⟨fun h => by omega, fun _ => hl⟩
  | succ k ih =>
    intro u s hu hb hp
    have hul : u < us.length := by omega
    have hget : us[u]? = some us[u] := List.getElem?_eq_getElem hul
    have hdrop : us.drop u = us[u] :: us.drop (u + 1) := (List.getElem_cons_drop hul).symm
    have hne : ∀ v, v ∈ us.drop (u + 1) → v ≠ us[u] := by
      intro v hv e
      have := hnd.sublist (List.drop_sublist u us)
      rw [hdrop, List.nodup_cons] at this
      exact this.1 (e ▸ hv)
    generalize hv0 : us[u] = v0 at *
    have hslot := hp u v0 (Nat.le_refl _) hget
    have hone : applyOne o others s u = (applyAll o others { edges := s.verts v0, calls := [], warn := s.warn, runs := s.runs } (f v0)).map fun r =>
        { s with verts := upd s.verts v0 r.edges, warn := r.warn, runs := r.runs,
                 calls := s.calls ++ r.calls.map (fun c => (v0, c)), pend := s.pend.set u [] } := by
      unfold applyOne
      rw [hslot]
      simp only
      rw [hb, hf v0, Option.bind_some]
    simp only [applyGroups]
    cases ha : applyAll o others { edges := s.verts v0, calls := [], warn := s.warn, runs := s.runs } (f v0) with
    | none =>
      rw [hone, ha]
      refine ⟨(fun s' h => by cases h), ?_⟩
      intro _
      exact ⟨v0, by rw [hdrop]; exact List.mem_cons_self .., s.warn, s.runs, ha⟩
    | some r =>
      rw [hone, ha, Option.map_some, Option.bind_some]
      generalize hs1 : ({ s with verts := upd s.verts v0 r.edges, warn := r.warn, runs := r.runs, calls := s.calls ++ r.calls.map (fun c => (v0, c)), pend := s.pend.set u [] } : Th D) = s1
      have hv1 : s1.verts = upd s.verts v0 r.edges := by rw [← hs1]
      have hc1 : ∀ v, callsOf s1 v = callsOf s v ++ if v = v0 then r.calls else [] := by
        intro v
        rw [← hs1]
        simp only [callsOf, List.filter_append, List.map_append]
        congr 1
        by_cases e : v = v0
        · subst e
          rw [if_pos rfl, List.filter_map]
          simp [Function.comp_def]
        · rw [if_neg e, List.map_eq_nil_iff, List.filter_eq_nil_iff]
          intro x hx
          obtain ⟨c, -, rfl⟩ := List.mem_map.1 hx
          simp only [decide_eq_true_eq]
          exact fun h => e h.symm
      have hpd : s1.pend = s.pend.set u [] := by rw [← hs1]
      obtain ⟨i1, i2⟩ := ih (u + 1) s1 (by omega) (by rw [← hs1]; exact hb) (by
        intro j v hj hjv
        rw [hpd, List.getElem?_set_ne (by omega)]
        exact hp j v (by omega) hjv)
      refine ⟨?_, ?_⟩
      · intro s' h
        obtain ⟨a1, a2, a3, a4, a5, a6, a7, a8⟩ := i1 s' h
        refine ⟨?_, ?_, by rw [a3, ← hs1], by rw [a4, ← hs1], by rw [a5, ← hs1], by rw [a6, ← hs1], by rw [a7, hpd, List.length_set], ?_⟩
        · intro v hv
          rw [hdrop, List.mem_cons, not_or] at hv
          obtain ⟨b1, b2⟩ := a1 v hv.2
          rw [b1, b2, hv1, upd_ne _ _ hv.1, hc1, if_neg hv.1, List.append_nil]
          exact ⟨rfl, rfl⟩
        · intro v hv
          rw [hdrop, List.mem_cons] at hv
          rcases hv with hv | hv
          · subst hv
            obtain ⟨b1, b2⟩ := a1 v (fun h => hne v h rfl)
            exact ⟨s.warn, s.runs, r, ha, by rw [b1, hv1, upd_same], by rw [b2, hc1, if_pos rfl]⟩
          · have hvv := hne v hv
            obtain ⟨w, n, r', b1, b2, b3⟩ := a2 v hv
            rw [hv1, upd_ne _ _ hvv] at b1
            rw [hc1, if_neg hvv, List.append_nil] at b3
            exact ⟨w, n, r', b1, b2, b3⟩
        · intro j l hl
          obtain ⟨c1, c2⟩ := a8 j l hl
          constructor
          · intro hj
            by_cases e : j = u
            · subst e
              have := c2 (.inl (by omega))
              rw [hpd, List.getElem?_set_self (get_lt hslot)] at this
              injection this with this; exact this.symm
            · exact c1 ⟨by omega, hj.2⟩
          · intro hj
            have := c2 (by omega)
            rw [hpd, List.getElem?_set_ne (by omega)] at this
            exact this
      · intro h
        obtain ⟨v, hv, w, n, b⟩ := i2 h
        rw [hv1, upd_ne _ _ (hne v hv)] at b
        exact ⟨v, by rw [hdrop]; exact List.mem_cons_of_mem _ hv, w, n, b⟩

/-- Between batches. -/
structure Rested (s : Th D) : Prop where
  pend : ∀ (j : Nat) (l : List Nat), s.pend[j]? = some l → l = []
  idx : ∀ v, s.pendIdx v < s.numUnique

theorem Rested.ginv {s : Th D} (h : Rested s) : GInv s 0 [] [] :=
  ⟨rfl, List.nodup_nil, by intro j v hj; simp at hj, by intro j v hj; simp at hj, fun j l _ hl => h.pend j l hl, fun v _ => h.idx v, by simp⟩

theorem rested_start (slots cap : Nat) (zero : Change D) : Rested (start slots cap zero) := by
  constructor
  · intro j l hl
    have := List.mem_of_getElem? hl
    exact (List.mem_replicate.1 this).2
  · intro v; simp [start]

/-- Grouping and applying a list `xs` of events that lies in the buffer. -/
theorem apply_spec (o : Opts) (others : Nat → Bool) {s : Th D} {uniq : Nat} {xs : List (Nat × Change D)} {us : List Nat}
    (hg : GInv s uniq (entsOf 0 xs) us) (hb : ∀ (j : Nat) (x : Nat × Change D), xs[j]? = some x → s.buff[j]? = some x.2) :
    (∀ s', applyGroups o others { s with numUnique := s.numUnique + uniq } 0 uniq = some s' → Rested s' ∧
      (∀ v, Applied o others s s' v (ownChanges xs v)) ∧ s'.buff = s.buff ∧ s'.expired = s.expired) ∧
    (applyGroups o others { s with numUnique := s.numUnique + uniq } 0 uniq = none →
      ∃ v w n, applyAll o others { edges := s.verts v, calls := [], warn := w, runs := n } (ownChanges xs v) = none) := by
  have hlen := hg.len
  obtain ⟨h1, h2⟩ := applyGroups_spec o others s.buff (entsOf 0 xs) (ownChanges xs) us hg.nodup
    (fun v => fetch_own s.buff v xs 0 (by intro j x hx; rw [Nat.zero_add]; exact hb j x hx)) uniq 0
    { s with numUnique := s.numUnique + uniq } (by omega) rfl (fun j v _ hj => hg.slot j v hj)
  refine ⟨?_, ?_⟩
  · intro s' h
    obtain ⟨a1, a2, a3, a4, a5, a6, a7, a8⟩ := h1 s' h
    refine ⟨⟨?_, ?_⟩, ?_, a5, a6⟩
    · intro j l hl
      obtain ⟨b1, b2⟩ := a8 j l hl
      by_cases hj : j < us.length
      · exact b1 ⟨Nat.zero_le _, hj⟩
      · exact hg.free j l (by omega) (b2 (.inr (by omega)))
    · intro v
      rw [a3, a4]
      simp only
      by_cases hv : v ∈ us
      · obtain ⟨j, hj⟩ := List.mem_iff_getElem?.1 hv
        have := hg.idx j v hj
        have := get_lt hj
        omega
      · have := hg.old v hv; omega
    · intro v
      by_cases hv : v ∈ us
      · exact a2 v (by simpa using hv)
      · obtain ⟨b1, b2⟩ := a1 v (by simpa using hv)
        have : ownChanges xs v = [] := by
          unfold ownChanges
          rw [List.map_eq_nil_iff, List.filter_eq_nil_iff]
          intro x hx
          simp only [decide_eq_true_eq]
          intro e
          have key : ∀ (l : List (Nat × Change D)) (i : Nat), x ∈ l → ∃ j, (x.1, j) ∈ entsOf i l := by
            intro l
            induction l with
            | nil => intro i h; cases h
            | cons y l ih =>
              intro i h
              rw [List.mem_cons] at h
              rcases h with h | h
              · subst h; exact ⟨i, by simp [entsOf]⟩
              · obtain ⟨j, hj⟩ := ih (i + 1) h
                exact ⟨j, by simp [entsOf, hj]⟩
          obtain ⟨j, hj⟩ := key xs 0 hx
          rw [e] at hj
          exact hv ((hg.mem v).2 ⟨j, hj⟩)
        rw [this]
        exact applied_nil o others b1 b2
  · intro h
    obtain ⟨v, -, w, n, b⟩ := h2 h
    exact ⟨v, w, n, b⟩

/-- A batch without expiry. -/
theorem enact_spec (o : Opts) (hw : o.window = 0) (others : Nat → Bool) {s : Th D} (hr : Rested s) (batch : List (Nat × Change D)) :
    (∀ s', enact o others s batch = some s' → Rested s' ∧ (∀ v, Applied o others s s' v (ownChanges batch v)) ∧ s'.buff.length = s.buff.length ∧ s'.expired = s.expired) ∧
    (enact o others s batch = none → s.buff.length < batch.length ∨
      ∃ v w n, applyAll o others { edges := s.verts v, calls := [], warn := w, runs := n } (ownChanges batch v) = none) := by
  unfold enact load
  by_cases hl : (batch.map Prod.snd).length ≤ s.buff.length
  · rw [if_pos hl, Option.bind_some]
    have hg0 : GInv { s with buff := batch.map Prod.snd ++ s.buff.drop (batch.map Prod.snd).length } 0 [] [] := hr.ginv.congr rfl rfl rfl
    obtain ⟨s1, u1, us1, g1, g2, g3, g4, g5⟩ := group_spec o batch _ 0 0 [] [] hg0
    rw [g1, Option.bind_some, if_neg (by rw [hw]; decide), Option.bind_some]
    rw [List.nil_append] at g2
    have hb : ∀ (j : Nat) (x : Nat × Change D), batch[j]? = some x → s1.buff[j]? = some x.2 := by
      intro j x hx
      rw [g4]
      simp only
      rw [List.getElem?_append_left (by have := get_lt hx; simpa using this), List.getElem?_map, hx]; rfl
    obtain ⟨a1, a2⟩ := apply_spec o others g2 hb
    have hverts : s1.verts = s.verts := g3.verts
    have hcalls : ∀ v, callsOf s1 v = callsOf s v := by intro v; unfold callsOf; rw [g3.calls]
    constructor
    · intro s' h
      obtain ⟨b1, b2, b3, b4⟩ := a1 s' h
      refine ⟨b1, ?_, ?_, ?_⟩
      · intro v
        obtain ⟨w, n, r, c1, c2, c3⟩ := b2 v
        rw [hverts] at c1
        rw [hcalls] at c3
        exact ⟨w, n, r, c1, c2, c3⟩
      · rw [b3, g4]; simp at hl ⊢; omega
      · rw [b4, g5]
        have : ¬ (0 : UInt64) < o.window := by rw [hw]; decide
        simp [newExpired, this]
    · intro h
      obtain ⟨v, w, n, b⟩ := a2 h
      rw [hverts] at b
      exact .inr ⟨v, w, n, b⟩
  · rw [if_neg hl]
    refine ⟨(by intro s' h; cases h), fun _ => .inl ?_⟩
    simp at hl; omega

theorem VOk.step {o : Opts} {es es' a b : List (Edge D)} (h : VOk o es (a ++ b)) (hs : es'.Sublist (es ++ a)) : VOk o es' b := by
  have : (es' ++ b).Sublist (es ++ (a ++ b)) := by rw [← List.append_assoc]; exact hs.append (List.Sublist.refl b)
  exact ⟨fun e he => h.clean e (this.subset he), fun hc => (h.timed hc).sub this⟩

theorem VOk.init {o : Opts} {es a b : List (Edge D)} (h : VOk o es (a ++ b)) : VOk o es a := by
  have : (es ++ a).Sublist (es ++ (a ++ b)) := by rw [← List.append_assoc]; exact List.sublist_append_left _ _
  exact ⟨fun e he => h.clean e (this.subset he), fun hc => (h.timed hc).sub this⟩

/-- What one application does to a vertex. -/
theorem Applied.explains {o : Opts} (ho : o.timeRange = false) {others : Nat → Bool} {s s' : Th D} {v : Nat} {cs : List (Change D)}
    (h : Applied o others s s' v cs) (hv : VOk o (s.verts v) (addsOf cs)) :
    (s'.verts v).Sublist (s.verts v ++ addsOf cs) ∧ ∃ calls, callsOf s' v = callsOf s v ++ calls ∧ Explains (s.verts v) calls (s'.verts v) ∧
      addedBy calls = addsOf cs ∧ (deletedBy calls).length = delsOf cs := by
  obtain ⟨w, n, r, h1, h2, h3⟩ := h
  obtain ⟨a1, -, calls, a2, a3, a4, a5⟩ := applyAll_explains o ho others cs.length cs _ r (Nat.le_refl _) hv h1
  simp only [List.nil_append] at a2
  subst a2
  rw [h2]
  exact ⟨a1, r.calls, h3, a3, a4, a5⟩

theorem Applied.rule {o : Opts} (ho : o.timeRange = false) {others : Nat → Bool} {s s' : Th D} {v : Nat} {cs : List (Change D)}
    (h : Applied o others s s' v cs) (hv : VOk o (s.verts v) (addsOf cs)) (hg : Good true (s.verts v) cs) :
    rule (s.verts v) cs = some (s'.verts v) := by
  obtain ⟨w, n, r, h1, h2, h3⟩ := h
  have := applyAll_rule o ho others cs.length cs { edges := s.verts v, calls := [], warn := w, runs := n } (Nat.le_refl _) hv hg
  rw [h1] at this
  rw [← this, h2]; rfl

theorem addedBy_append (a b : List (Call D)) : addedBy (a ++ b) = addedBy a ++ addedBy b := by simp [addedBy]
theorem deletedBy_append (a b : List (Call D)) : deletedBy (a ++ b) = deletedBy a ++ deletedBy b := by simp [deletedBy]

/-- Many batches: the callbacks of each vertex. -/
theorem enactAll_explains (o : Opts) (ho : o.timeRange = false) (hw : o.window = 0) (others : Nat → Bool) :
    ∀ (bs : List (List (Nat × Change D))) (s s' : Th D), Rested s → (∀ v, VOk o (s.verts v) (addsOf (ownChanges bs.flatten v))) →
    enactAll o others s bs = some s' → Rested s' ∧ s'.buff.length = s.buff.length ∧
    ∀ v, ∃ calls, callsOf s' v = callsOf s v ++ calls ∧ Explains (s.verts v) calls (s'.verts v) ∧
      addedBy calls = addsOf (ownChanges bs.flatten v) ∧ (deletedBy calls).length = delsOf (ownChanges bs.flatten v) := by
  intro bs
  induction bs with
  | nil =>
    intro s s' hr _ h
    injection h with h; subst h
    exact ⟨hr, rfl, fun v => ⟨[], by simp, .done _, rfl, rfl⟩⟩
  | cons b bs ih =>
    intro s s' hr hv h
    simp only [enactAll] at h
    cases h1 : enact o others s b with
    | none => rw [h1] at h; cases h
    | some s1 =>
      rw [h1, Option.bind_some] at h
      obtain ⟨a1, a2, a3, -⟩ := (enact_spec o hw others hr b).1 s1 h1
      have hv' : ∀ v, VOk o (s.verts v) (addsOf (ownChanges b v) ++ addsOf (ownChanges bs.flatten v)) := by
        intro v
        have := hv v
        rw [List.flatten_cons, ownChanges_append, addsOf_append] at this
        exact this
      have hex := fun v => (a2 v).explains ho (hv' v).init
      obtain ⟨b1, b2, b3⟩ := ih s1 s' a1 (fun v => (hv' v).step (hex v).1) h
      refine ⟨b1, by omega, ?_⟩
      intro v
      obtain ⟨-, c1, d1, d2, d3, d4⟩ := hex v
      obtain ⟨c2, e1, e2, e3, e4⟩ := b3 v
      rw [List.flatten_cons, ownChanges_append, addsOf_append, delsOf_append]
      refine ⟨c1 ++ c2, by rw [e1, d1, List.append_assoc], d2.trans e2, by rw [addedBy_append, d3, e3], ?_⟩
      rw [deletedBy_append, List.length_append, d4, e4]

/-- Many batches: the edge list of each vertex. -/
theorem enactAll_rule (o : Opts) (ho : o.timeRange = false) (hw : o.window = 0) (others : Nat → Bool) :
    ∀ (bs : List (List (Nat × Change D))) (s : Th D), Rested s → (∀ b ∈ bs, b.length ≤ s.buff.length) →
    (∀ v, VOk o (s.verts v) (addsOf (ownChanges bs.flatten v))) → (∀ v, Good true (s.verts v) (ownChanges bs.flatten v)) →
    (∀ s', enactAll o others s bs = some s' → ∀ v, rule (s.verts v) (ownChanges bs.flatten v) = some (s'.verts v)) ∧
    (enactAll o others s bs = none → ∃ v, rule (s.verts v) (ownChanges bs.flatten v) = none) := by
  intro bs
  induction bs with
  | nil =>
    intro s hr _ _ _
    refine ⟨?_, by intro h; cases h⟩
    intro s' h v
    injection h with h; subst h
    rfl
  | cons b bs ih =>
    intro s hr hl hv hg
    have hv' : ∀ v, VOk o (s.verts v) (addsOf (ownChanges b v) ++ addsOf (ownChanges bs.flatten v)) := by
      intro v
      have := hv v
      rw [List.flatten_cons, ownChanges_append, addsOf_append] at this
      exact this
    have hg' : ∀ v, Good true (s.verts v) (ownChanges b v ++ ownChanges bs.flatten v) := by
      intro v
      have := hg v
      rw [List.flatten_cons, ownChanges_append] at this
      exact this
    obtain ⟨e1, e2⟩ := enact_spec o hw others hr b
    simp only [enactAll]
    cases h1 : enact o others s b with
    | none =>
      refine ⟨(fun s' h => by cases h), fun _ => ?_⟩
      rcases e2 h1 with h | ⟨v, w, n, h⟩
      · have := hl b (List.mem_cons_self ..); omega
      · refine ⟨v, ?_⟩
        rw [List.flatten_cons, ownChanges_append, rule_append]
        have := applyAll_rule o ho others (ownChanges b v).length (ownChanges b v) { edges := s.verts v, calls := [], warn := w, runs := n } (Nat.le_refl _)
          (hv' v).init (good_append _ (hg' v)).1
        rw [h] at this
        rw [show rule (s.verts v) (ownChanges b v) = none from this.symm]; rfl
    | some s1 =>
      rw [Option.bind_some]
      obtain ⟨a1, a2, a3, -⟩ := e1 s1 h1
      have hru : ∀ v, rule (s.verts v) (ownChanges b v) = some (s1.verts v) := fun v => (a2 v).rule ho (hv' v).init (good_append _ (hg' v)).1
      have hsplit : ∀ v, rule (s.verts v) (ownChanges (b :: bs).flatten v) = rule (s1.verts v) (ownChanges bs.flatten v) := by
        intro v
        rw [List.flatten_cons, ownChanges_append, rule_append, hru v, Option.bind_some]
      obtain ⟨f1, f2⟩ := ih s1 a1 (fun b' hb' => by rw [a3]; exact hl b' (List.mem_cons_of_mem _ hb'))
        (fun v => (hv' v).step ((a2 v).explains ho (hv' v).init).1) (fun v => (good_append _ (hg' v)).2 _ (hru v))
      refine ⟨fun s' h v => by rw [hsplit]; exact f1 s' h v, fun h => ?_⟩
      obtain ⟨v, hn⟩ := f2 h
      exact ⟨v, by rw [hsplit]; exact hn⟩

end Verif.Enact
