import Verif.EnactCounts

/-!
# Applying topology events, with any options

Facts about `Verif/Enact.lean` that hold whatever the options are: also with expiry and with time ranges.
-/

namespace Verif.Enact

open Verif.Loader (Typ)

variable {D : Type}

theorem finish_sum (canTs warn : Bool) (s : DelSt D) (h : s.k ≤ s.edges.length) :
    (finish canTs warn s).1.length + (finish canTs warn s).2.length = s.edges.length := by
  unfold finish
  split
  · simp; omega
  · split
    · simp [flagTimes_length]
    · simp

theorem delRun_len : ∀ (cs : List (Change D)) {s s' : DelSt D}, delRun s cs = some s' → s'.edges.length = s.edges.length := by
  intro cs
  induction cs with
  | nil => intro s s' h; injection h with h; subst h; rfl
  | cons c cs ih =>
    intro s s' h
    simp only [delRun] at h
    obtain ⟨s1, h1, h2⟩ := Option.bind_eq_some_iff.1 h
    rw [ih h2, (delOne_k h1).2.1]

theorem searchEnd_didx (c : Edge D) : ∀ (es es' : List (Edge D)) (e : Edge D), searchEnd c es = some (es', e) → es'.map (·.didx) = es.map (·.didx) := by
  intro es
  induction es with
  | nil => intro es' e h; cases h
  | cons x es ih =>
    intro es' e h
    simp only [searchEnd] at h
    split at h
    · injection h with h; injection h with h1 h2; subst h1; rfl
    · obtain ⟨r, h1, h2⟩ := Option.map_eq_some_iff.1 h
      injection h2 with h2 h3; subst h2
      simp only [List.map_cons]
      rw [ih r.1 r.2 h1]

/-- Ending edges leaves the list of targets as it is. -/
theorem rangeRun_didx : ∀ (cs : List (Change D)) (es : List (Edge D)) (k : Nat) (del : List (Edge D)) (r : List (Edge D) × List (Edge D)),
    rangeRun es k del cs = some r → r.1.map (·.didx) = es.map (·.didx) := by
  intro cs
  induction cs with
  | nil => intro es k del r h; injection h with h; subst h; rfl
  | cons c cs ih =>
    intro es k del r h
    simp only [rangeRun] at h
    split at h
    · cases h
    · next k' _ =>
      split at h
      · cases h
      · next e he =>
        split at h
        · rw [ih _ _ _ _ h]
          apply List.ext_getElem?
          intro j
          rw [List.getElem?_map, List.getElem?_map, List.getElem?_set]
          by_cases ej : k' = j
          · subst ej
            rw [if_pos rfl, if_pos (List.getElem?_eq_some_iff.1 he).1, he]; rfl
          · rw [if_neg ej]
        · split at h
          · cases h
          · next es' e' hs =>
            rw [ih _ _ _ _ h, searchEnd_didx _ _ _ _ hs]

/-- What a run of callbacks means for the edge list `es`, afterwards `es'`. -/
structure Balanced (o : Opts) (es es' : List (Edge D)) (calls : List (Call D)) : Prop where
  /-- without time ranges: the edges deleted are gone -/
  length : o.timeRange = false → es'.length + (deletedBy calls).length = es.length + (addedBy calls).length
  /-- with time ranges: no edge goes -/
  keeps : o.timeRange = true → es'.map (·.didx) = es.map (·.didx) ++ (addedBy calls).map (·.didx)
  /-- nothing deleted, nothing changed -/
  same : deletedBy calls = [] → es' = es ++ addedBy calls

theorem Balanced.refl (o : Opts) (es : List (Edge D)) : Balanced o es es [] := ⟨fun _ => rfl, fun _ => by simp [addedBy], fun _ => by simp [addedBy]⟩

theorem Balanced.trans {o : Opts} {a b c : List (Edge D)} {k1 k2 : List (Call D)} (h1 : Balanced o a b k1) (h2 : Balanced o b c k2) :
    Balanced o a c (k1 ++ k2) := by
  refine ⟨?_, ?_, ?_⟩
  · intro ho
    have := h1.length ho
    have := h2.length ho
    rw [addedBy_append, deletedBy_append, List.length_append, List.length_append]
    omega
  · intro ho
    rw [h2.keeps ho, h1.keeps ho, addedBy_append, List.map_append, List.append_assoc]
  · intro hd
    rw [deletedBy_append, List.append_eq_nil_iff] at hd
    rw [h2.same hd.2, h1.same hd.1, addedBy_append, List.append_assoc]

theorem applyAdds_balanced (o : Opts) (s : VSt D) (A : List (Change D)) : ∃ calls, (applyAdds s A).calls = s.calls ++ calls ∧ addedBy calls = A.map (·.edge) ∧
    deletedBy calls = [] ∧ Balanced o s.edges (applyAdds s A).edges calls := by
  unfold applyAdds
  split
  · next h => subst h; exact ⟨[], by simp, rfl, rfl, Balanced.refl _ _⟩
  · refine ⟨[.add (A.map (·.edge))], rfl, by simp [addedBy], rfl, ?_, ?_, ?_⟩ <;> simp [addedBy, deletedBy]

theorem applyDels_balanced (o : Opts) (others : Nat → Bool) {s s' : VSt D} {cs : List (Change D)} (h : applyDels o others s cs = some s') :
    ∃ calls, s'.calls = s.calls ++ calls ∧ addedBy calls = [] ∧ (deletedBy calls).length = cs.length ∧ Balanced o s.edges s'.edges calls := by
  unfold applyDels at h
  by_cases hc : cs = []
  · rw [if_pos hc] at h
    injection h with h; subst h
    exact ⟨[], by simp, rfl, by simp [hc, deletedBy], Balanced.refl _ _⟩
  · rw [if_neg hc] at h
    have hpos : 0 < cs.length := List.length_pos_iff.2 hc
    by_cases ht : o.timeRange = true
    · rw [if_pos ht] at h
      cases hr : rangeRun s.edges 0 [] cs with
      | none => rw [hr] at h; cases h
      | some r =>
        rw [hr] at h
        injection h with h; subst h
        have h1 := rangeRun_length _ _ _ _ _ hr
        have hl : (deletedBy [Call.del r.2]).length = cs.length := by simpa [deletedBy] using h1
        refine ⟨[.del r.2], rfl, rfl, hl, ?_, ?_, ?_⟩
        · intro e; rw [ht] at e; cases e
        · intro _
          simpa [addedBy] using rangeRun_didx _ _ _ _ _ hr
        · intro e; rw [e] at hl; simp at hl; omega
    · rw [if_neg ht] at h
      cases hr : delRun { edges := s.edges, k := 0, idxs := [], warn := s.warn } cs with
      | none => rw [hr] at h; cases h
      | some d =>
        rw [hr] at h
        injection h with h; subst h
        obtain ⟨h1, h2⟩ := delRun_k cs (Nat.zero_le _) hr
        have h3 := finish_length o.canTs (d.warn || others s.runs) d h2
        have h4 := finish_sum o.canTs (d.warn || others s.runs) d h2
        have h5 := delRun_len cs hr
        have hl : (deletedBy [Call.del (finish o.canTs (d.warn || others s.runs) d).2]).length = cs.length := by
          simp only [deletedBy, List.flatMap_cons, List.flatMap_nil, List.append_nil]
          rw [h3, h1]; simp
        refine ⟨[.del (finish o.canTs (d.warn || others s.runs) d).2], rfl, rfl, hl, ?_, ?_, ?_⟩
        · intro _
          simp only [deletedBy, addedBy, List.flatMap_cons, List.flatMap_nil, List.append_nil, List.length_nil]
          dsimp only at h5
          omega
        · intro e; exact absurd e ht
        · intro e; rw [e] at hl; simp at hl; omega

theorem applyAll_balanced (o : Opts) (others : Nat → Bool) : ∀ (n : Nat) (cs : List (Change D)) (s s' : VSt D), cs.length ≤ n → applyAll o others s cs = some s' →
    ∃ calls, s'.calls = s.calls ++ calls ∧ addedBy calls = addsOf cs ∧ (deletedBy calls).length = delsOf cs ∧ Balanced o s.edges s'.edges calls := by
  intro n
  induction n with
  | zero =>
    intro cs s s' hl h
    have : cs = [] := List.length_eq_zero_iff.1 (by omega)
    subst this
    rw [applyAll] at h
    injection h with h; subst h
    exact ⟨[], by simp, rfl, rfl, Balanced.refl _ _⟩
  | succ n ih =>
    intro cs s s' hl h
    by_cases hne : cs = []
    · subst hne
      rw [applyAll] at h
      injection h with h; subst h
      exact ⟨[], by simp, rfl, rfl, Balanced.refl _ _⟩
    · obtain ⟨A, B, R, e, hlt, hA, hB, hrun⟩ := applyAll_split o others cs hne
      rw [hrun] at h
      cases h1 : applyDels o others (applyAdds s A) B with
      | none => rw [h1] at h; cases h
      | some s1 =>
        rw [h1, Option.bind_some] at h
        obtain ⟨k1, a1, a2, a3, a4⟩ := applyAdds_balanced o s A
        obtain ⟨k2, b1, b2, b3, b4⟩ := applyDels_balanced o others h1
        obtain ⟨k3, c1, c2, c3, c4⟩ := ih R s1 s' (by omega) h
        refine ⟨k1 ++ k2 ++ k3, by rw [c1, b1, a1]; simp, ?_, ?_, (a4.trans b4).trans c4⟩
        · rw [addedBy_append, addedBy_append, a2, b2, c2, e, addsOf_append, addsOf_append, addsOf_all hA, addsOf_none hB, List.append_nil]
        · rw [deletedBy_append, deletedBy_append, List.length_append, List.length_append, a3, b3, c3, e, delsOf_append, delsOf_append, delsOf_all hA, delsOf_none hB]
          rfl

/-! ## Batches with expiry -/

/-- What the injection leaves: pending entries beyond the batch, which all refer to deletes. -/
theorem inject_any (o : Opts) (latest : UInt64) (n : Nat) : ∀ (ex : List (Nat × Change D)) (s : Th D) (uniq i : Nat) (ents : List (Nat × Nat)) (us : List Nat) (s' : Th D) (uniq' k : Nat),
    GInv s uniq ents us → n ≤ s.buff.length → inject o latest n s uniq i ex = some (s', uniq', k) →
    ∃ new us', GInv s' uniq' (ents ++ new) us' ∧ Rest s s' ∧ (∀ j : Nat, j < n → s'.buff[j]? = s.buff[j]?) ∧ n ≤ s'.buff.length ∧
      (∀ (j : Nat) (c : Change D), s'.buff[j]? = some c → s.buff[j]? = some c ∨ c.typ = .del) ∧
      (∀ x ∈ new, ∀ c : Change D, s'.buff[x.2]? = some c → c.typ = .del) := by
  intro ex
  induction ex with
  | nil =>
    intro s uniq i ents us s' uniq' k hg hn h
    injection h with h
    injection h with h1 h2
    injection h2 with h2 h3
    subst h1; subst h2
    exact ⟨[], us, by simpa using hg, Rest.refl _, fun _ _ => rfl, hn, fun _ _ h => .inl h, by simp⟩
  | cons x ex ih =>
    intro s uniq i ents us s' uniq' k hg hn h
    obtain ⟨v, c⟩ := x
    simp only [inject] at h
    by_cases h1 : c.typ ≠ .del
    · rw [if_pos h1] at h
      exact ih _ _ _ _ _ _ _ _ hg hn h
    · rw [if_neg h1] at h
      have hdel : c.typ = .del := by simpa using h1
      by_cases h2 : c.edge.ts > latest
      · rw [if_pos h2] at h
        injection h with h
        injection h with h1 h2
        injection h2 with h2 h3
        subst h1; subst h2
        exact ⟨[], us, by simpa using hg, Rest.refl _, fun _ _ => rfl, hn, fun _ _ h => .inl h, by simp⟩
      · rw [if_neg h2] at h
        obtain ⟨s1, u1, us1, a1, a2, a3, a4, a5⟩ := insertPending_spec hg v (n + i)
        rw [a1, Option.bind_some] at h
        dsimp only at h
        generalize hb : (if s1.buff.length ≤ n + i then s1.buff ++ [({ c with edge := { c.edge with ts := c.edge.ts - o.window } } : Change D)]
            else s1.buff.set (n + i) ({ c with edge := { c.edge with ts := c.edge.ts - o.window } } : Change D)) = buff at h
        have e1 : ∀ j : Nat, j < n → buff[j]? = s.buff[j]? := by
          intro j hj
          rw [← hb, a4]
          split
          · rw [List.getElem?_append_left (by omega)]
          · rw [List.getElem?_set_ne (by omega)]
        have e2 : n ≤ buff.length := by
          rw [← hb, a4]
          split <;> simp <;> omega
        have e3 : ∀ (j : Nat) (d : Change D), buff[j]? = some d → s.buff[j]? = some d ∨ d.typ = .del := by
          intro j d hd
          rw [← hb, a4] at hd
          split at hd
          · by_cases hj : j < s.buff.length
            · rw [List.getElem?_append_left hj] at hd; exact .inl hd
            · rw [List.getElem?_append_right (by omega)] at hd
              have := List.mem_of_getElem? hd
              rw [List.mem_singleton] at this
              subst this; exact .inr hdel
          · by_cases hj : n + i = j
            · subst hj
              rw [List.getElem?_set_self (by omega)] at hd
              injection hd with hd; subst hd; exact .inr hdel
            · rw [List.getElem?_set_ne hj] at hd; exact .inl hd
        have e4 : ∀ d : Change D, buff[n + i]? = some d → d.typ = .del := by
          intro d hd
          rw [← hb, a4] at hd
          split at hd
          · have := (List.getElem?_eq_some_iff.1 hd).1
            rw [List.getElem?_append_right (by omega)] at hd
            have := List.mem_of_getElem? hd
            rw [List.mem_singleton] at this
            subst this; exact hdel
          · rw [List.getElem?_set_self (by omega)] at hd
            injection hd with hd; subst hd; exact hdel
        obtain ⟨new, us', b1, b2, b3, b4, b5, b6⟩ := ih { s1 with buff := buff } _ _ _ _ _ _ _ (a2.congr rfl rfl rfl) e2 h
        refine ⟨(v, n + i) :: new, us', by simpa using b1, a3.trans ⟨b2.verts, b2.numUnique, b2.warn, b2.runs, b2.calls⟩, ?_, b4, ?_, ?_⟩
        · intro j hj; rw [b3 j hj]; exact e1 j hj
        · intro j d hd
          rcases b5 j d hd with h' | h'
          · exact e3 j d h'
          · exact .inr h'
        · intro y hy d hd
          rcases List.mem_cons.1 hy with rfl | hy
          · rcases b5 _ d hd with h' | h'
            · exact e4 d h'
            · exact h'
          · exact b6 y hy d hd

theorem fetch_append (buff : List (Change D)) : ∀ (a b : List Nat) (cs : List (Change D)), fetch buff (a ++ b) = some cs →
    ∃ x y, fetch buff a = some x ∧ fetch buff b = some y ∧ cs = x ++ y := by
  intro a
  induction a with
  | nil => intro b cs h; exact ⟨[], cs, rfl, h, rfl⟩
  | cons i a ih =>
    intro b cs h
    simp only [List.cons_append, fetch] at h
    obtain ⟨c, h1, h2⟩ := Option.bind_eq_some_iff.1 h
    obtain ⟨l, h3, h4⟩ := Option.map_eq_some_iff.1 h2
    obtain ⟨x, y, h5, h6, rfl⟩ := ih b l h3
    exact ⟨c :: x, y, by simp [fetch, h1, h5], h6, h4.symm⟩

theorem fetch_dels (buff : List (Change D)) : ∀ (is : List Nat) (cs : List (Change D)), (∀ i ∈ is, ∀ c : Change D, buff[i]? = some c → c.typ = .del) →
    fetch buff is = some cs → addsOf cs = [] := by
  intro is
  induction is with
  | nil => intro cs _ h; injection h with h; subst h; rfl
  | cons i is ih =>
    intro cs hd h
    simp only [fetch] at h
    obtain ⟨c, h1, h2⟩ := Option.bind_eq_some_iff.1 h
    obtain ⟨l, h3, rfl⟩ := Option.map_eq_some_iff.1 h2
    have h4 := ih l (fun j hj => hd j (List.mem_cons_of_mem _ hj)) h3
    have h5 := hd i List.mem_cons_self c h1
    unfold addsOf at h4 ⊢
    rw [List.filter_cons_of_neg (by simp [isAdd, h5])]
    exact h4

/-- Like `Applied`, for changes of which only the adds are known. -/
def AppliedAdds (o : Opts) (s s' : Th D) (v : Nat) (as : List (Edge D)) : Prop :=
  ∃ calls, callsOf s' v = callsOf s v ++ calls ∧ addedBy calls = as ∧ Balanced o (s.verts v) (s'.verts v) calls

theorem applyGroups_any (o : Opts) (others : Nat → Bool) (buff : List (Change D)) (ents : List (Nat × Nat)) (f : Nat → List (Edge D))
    (us : List Nat) (hnd : us.Nodup) (hf : ∀ v cs, fetch buff (pendOf ents v) = some cs → addsOf cs = f v) : ∀ (k u : Nat) (s : Th D), u + k = us.length → s.buff = buff →
    (∀ (j v : Nat), u ≤ j → us[j]? = some v → s.pend[j]? = some (v :: pendOf ents v)) →
    ∀ s', applyGroups o others s u k = some s' → s.buff.length ≤ s'.buff.length ∧ (∀ v, v ∉ us.drop u → s'.verts v = s.verts v ∧ callsOf s' v = callsOf s v) ∧
      (∀ v, v ∈ us.drop u → AppliedAdds o s s' v (f v)) := by
  intro k
  induction k with
  | zero =>
    intro u s hu hb hp s' h
    injection h with h; subst h
    refine ⟨Nat.le_refl _, fun v _ => ⟨rfl, rfl⟩, ?_⟩
    intro v hv
    rw [List.drop_eq_nil_of_le (by omega)] at hv
    cases hv
  | succ k ih =>
    intro u s hu hb hp s' h
    simp only [applyGroups] at h
    obtain ⟨s1, h1, h2⟩ := Option.bind_eq_some_iff.1 h
    have hu' : u < us.length := by omega
    have hdrop : us.drop u = us[u] :: us.drop (u + 1) := List.drop_eq_getElem_cons hu'
    have hv0 : us[u]? = some us[u] := List.getElem?_eq_getElem hu'
    have hnin : us[u] ∉ us.drop (u + 1) := by
      have := hnd.sublist (List.drop_sublist u us)
      rw [hdrop, List.nodup_cons] at this
      exact this.1
    unfold applyOne at h1
    rw [hp u _ (Nat.le_refl _) hv0] at h1
    dsimp only at h1
    obtain ⟨cs, h3, h4⟩ := Option.bind_eq_some_iff.1 h1
    obtain ⟨r, h5, h7⟩ := Option.map_eq_some_iff.1 h4
    have e1 : s1.buff = s.buff := by rw [← h7]
    have e2 : s1.pend = s.pend.set u [] := by rw [← h7]
    have e3 : s1.verts = upd s.verts us[u] r.edges := by rw [← h7]
    have e4 : s1.calls = s.calls ++ r.calls.map (fun c => (us[u], c)) := by rw [← h7]
    rw [hb] at h3
    have h6 := hf _ _ h3
    obtain ⟨calls, c1, c2, -, c4⟩ := applyAll_balanced o others _ cs _ r (Nat.le_refl _) h5
    simp only [List.nil_append] at c1 c4
    obtain ⟨d0, d1, d2⟩ := ih (u + 1) s1 (by omega) (e1.trans hb) (by
      intro j v hj hjv
      rw [e2, List.getElem?_set_ne (by omega)]
      exact hp j v (by omega) hjv) s' h2
    have hc0 : ∀ v, v ≠ us[u] → callsOf s1 v = callsOf s v := by
      intro v hv
      unfold callsOf
      rw [e4]
      simp only [List.filter_append, List.map_append]
      have : (r.calls.map (fun c => (us[u], c))).filter (fun x => decide (x.1 = v)) = [] := by
        rw [List.filter_eq_nil_iff]
        intro x hx
        obtain ⟨c, -, rfl⟩ := List.mem_map.1 hx
        simpa using Ne.symm hv
      rw [this]; simp
    have hc1 : callsOf s1 us[u] = callsOf s us[u] ++ r.calls := by
      unfold callsOf
      rw [e4]
      simp only [List.filter_append, List.map_append]
      congr 1
      have : (r.calls.map (fun c => (us[u], c))).filter (fun x => decide (x.1 = us[u])) = r.calls.map (fun c => (us[u], c)) := by
        rw [List.filter_eq_self]
        intro x hx
        obtain ⟨c, -, rfl⟩ := List.mem_map.1 hx
        simp
      rw [this, List.map_map]
      exact List.map_id _
    refine ⟨e1 ▸ d0, ?_, ?_⟩
    · intro v hv
      rw [hdrop, List.mem_cons, not_or] at hv
      obtain ⟨e5, e6⟩ := d1 v hv.2
      rw [e5, e6, hc0 v hv.1, e3]
      exact ⟨upd_ne _ _ hv.1, rfl⟩
    · intro v hv
      rw [hdrop, List.mem_cons] at hv
      rcases hv with rfl | hv
      · obtain ⟨e5, e6⟩ := d1 _ hnin
        refine ⟨r.calls, by rw [e6, hc1], by rw [c1, c2, h6], ?_⟩
        rw [e5, e3, upd_same, c1]
        exact c4
      · have hne : v ≠ us[u] := fun e => hnin (e ▸ hv)
        obtain ⟨calls', e5, e6, e7⟩ := d2 v hv
        refine ⟨calls', by rw [e5, hc0 v hne], e6, ?_⟩
        rw [e3, upd_ne _ _ hne] at e7
        exact e7

/-- Any batch, any options: the callbacks for a vertex announce its adds, and the edge list is what they say. -/
theorem enact_any (o : Opts) (others : Nat → Bool) {s s' : Th D} (hr : Rested s) {batch : List (Nat × Change D)} (h : enact o others s batch = some s') (v : Nat) :
    AppliedAdds o s s' v (addsOf (ownChanges batch v)) := by
  unfold enact at h
  obtain ⟨buff, h1, h⟩ := Option.bind_eq_some_iff.1 h
  obtain ⟨s1, u1, us1, g1, g2, g3, g4, -⟩ := group_spec o batch { s with buff := buff } 0 0 [] [] (hr.ginv.congr rfl rfl rfl)
  rw [g1, Option.bind_some] at h
  rw [List.nil_append] at g2
  dsimp only at g4
  unfold load at h1
  have hlen : batch.length ≤ s.buff.length := by
    split at h1
    · next hl => simpa using hl
    · cases h1
  rw [if_pos (by simpa using hlen)] at h1
  injection h1 with h1
  have hb : ∀ (j : Nat) (x : Nat × Change D), batch[j]? = some x → buff[j]? = some x.2 := by
    intro j x hx
    rw [← h1, List.getElem?_append_left (by have := get_lt hx; simpa using this), List.getElem?_map, hx]; rfl
  have hbl : batch.length ≤ buff.length := by rw [← h1]; simp
  have key : ∀ (s2 : Th D) (u2 : Nat) (new : List (Nat × Nat)) (us : List Nat), GInv s2 u2 (entsOf 0 batch ++ new) us → s2.verts = s.verts → s2.calls = s.calls →
      (∀ j : Nat, j < batch.length → s2.buff[j]? = buff[j]?) → (∀ x ∈ new, ∀ c : Change D, s2.buff[x.2]? = some c → c.typ = .del) →
      applyGroups o others { s2 with numUnique := s2.numUnique + u2 } 0 u2 = some s' → AppliedAdds o s s' v (addsOf (ownChanges batch v)) := by
    intro s2 u2 new us hg hv hc hbuf hnew ha
    have hf : ∀ w cs, fetch s2.buff (pendOf (entsOf 0 batch ++ new) w) = some cs → addsOf cs = addsOf (ownChanges batch w) := by
      intro w cs hcs
      have : pendOf (entsOf 0 batch ++ new) w = pendOf (entsOf 0 batch) w ++ pendOf new w := by simp [pendOf]
      rw [this] at hcs
      obtain ⟨x, y, e1, e2, rfl⟩ := fetch_append _ _ _ _ hcs
      rw [fetch_own s2.buff w batch 0 (by
        intro j x hx
        rw [Nat.zero_add, hbuf j (get_lt hx)]; exact hb j x hx)] at e1
      injection e1 with e1
      subst e1
      rw [addsOf_append, fetch_dels _ _ _ _ e2, List.append_nil]
      intro i hi c hc
      unfold pendOf at hi
      obtain ⟨z, hz, rfl⟩ := List.mem_map.1 hi
      exact hnew z (List.mem_filter.1 hz).1 c hc
    obtain ⟨-, a1, a2⟩ := applyGroups_any o others s2.buff _ (fun w => addsOf (ownChanges batch w)) us hg.nodup hf u2 0 { s2 with numUnique := s2.numUnique + u2 } (by have := hg.len; omega) rfl
      (fun j w _ hj => hg.slot j w hj) s' ha
    have hcv : ∀ w, callsOf s2 w = callsOf s w := by intro w; unfold callsOf; rw [hc]
    by_cases hm : v ∈ us
    · obtain ⟨calls, b1, b2, b3⟩ := a2 v (by simpa using hm)
      refine ⟨calls, ?_, b2, ?_⟩
      · rw [← hcv]; exact b1
      · rw [← hv]; exact b3
    · obtain ⟨b1, b2⟩ := a1 v (by simpa using hm)
      have hown : ownChanges batch v = [] := by
        unfold ownChanges
        rw [List.map_eq_nil_iff, List.filter_eq_nil_iff]
        intro x hx
        simp only [decide_eq_true_eq]
        intro e
        have key : ∀ (l : List (Nat × Change D)) (i : Nat), x ∈ l → ∃ j, (x.1, j) ∈ entsOf i l := by
          intro l
          induction l with
          | nil => intro i h; cases h
          | cons y l ih =>
            intro i h
            rw [List.mem_cons] at h
            rcases h with h | h
            · subst h; exact ⟨i, by simp [entsOf]⟩
            · obtain ⟨j, hj⟩ := ih (i + 1) h
              exact ⟨j, by simp [entsOf, hj]⟩
        obtain ⟨j, hj⟩ := key batch 0 hx
        rw [e] at hj
        exact hm ((hg.mem v).2 ⟨j, List.mem_append_left _ hj⟩)
      refine ⟨[], ?_, by rw [hown]; rfl, ?_⟩
      · rw [List.append_nil, ← hcv]; exact b2
      · have : s'.verts v = s.verts v := by rw [← hv]; exact b1
        rw [this]; exact Balanced.refl _ _
  by_cases hw : 0 < o.window
  · rw [if_pos hw] at h
    obtain ⟨r, h2, h⟩ := Option.bind_eq_some_iff.1 h
    unfold injectExpired at h2
    dsimp only at h2
    cases h3 : s1.buff[batch.length - 1]? with
    | none => rw [h3] at h2; cases h2
    | some last =>
      rw [h3] at h2
      dsimp only at h2
      obtain ⟨ex, h4, h2⟩ := Option.bind_eq_some_iff.1 h2
      obtain ⟨q, h5, rfl⟩ := Option.map_eq_some_iff.1 h2
      obtain ⟨q1, q2, q3⟩ := q
      obtain ⟨new, us', b1, b2, b3, -, -, b6⟩ := inject_any o _ _ _ _ _ _ _ _ _ _ _ g2 (by rw [g4]; exact hbl) h5
      refine key { q1 with expired := ex.drop q3 } q2 new us' (b1.congr rfl rfl rfl) ?_ ?_ ?_ ?_ h
      · exact b2.verts.trans g3.verts
      · exact b2.calls.trans g3.calls
      · intro j hj
        rw [← g4]; exact b3 j hj
      · exact b6
  · rw [if_neg hw, Option.bind_some] at h
    refine key _ _ [] us1 (by simpa using g2) g3.verts g3.calls ?_ (by simp) h
    intro j _
    rw [g4]

/-- Any number of batches, any options. -/
theorem enactAll_any (o : Opts) (others : Nat → Bool) : ∀ (bs : List (List (Nat × Change D))) (s s' : Th D), Rested s → enactAll o others s bs = some s' →
    ∀ v, AppliedAdds o s s' v (addsOf (ownChanges bs.flatten v)) := by
  intro bs
  induction bs with
  | nil =>
    intro s s' _ h v
    injection h with h; subst h
    exact ⟨[], by simp, rfl, Balanced.refl _ _⟩
  | cons b bs ih =>
    intro s s' hr h v
    simp only [enactAll] at h
    obtain ⟨s1, h1, h2⟩ := Option.bind_eq_some_iff.1 h
    obtain ⟨k1, a1, a2, a3⟩ := enact_any o others hr h1 v
    obtain ⟨k2, b1, b2, b3⟩ := ih s1 s' (enact_rested o others hr h1) h2 v
    refine ⟨k1 ++ k2, by rw [b1, a1, List.append_assoc], ?_, a3.trans b3⟩
    rw [addedBy_append, a2, b2, List.flatten_cons, ownChanges_append, addsOf_append]

end Verif.Enact
