import Verif.EnactWindow

/-!
# Lemmas about callbacks and pending lists, for all options
-/

namespace Verif.Enact

open Verif.Loader (Typ)

variable {D : Type}

theorem searchMark_length {d : Nat × Nat} {es es' : List (Edge D)} {i : Nat} (h : searchMark d es = some (es', i)) : es'.length = es.length := by
  obtain ⟨e, -, -, -, -, rfl⟩ := searchMark_some h
  simp

theorem delOne_k {s s' : DelSt D} {d : Nat × Nat} (h : delOne s d = some s') : s'.k = s.k + 1 ∧ s'.edges.length = s.edges.length ∧ s.k < s.edges.length := by
  unfold delOne at h
  cases he : s.edges[s.k]? with
  | none => rw [he] at h; cases h
  | some e =>
    have hl := get_lt he
    rw [he] at h
    simp only at h
    by_cases hc : e.didx = d ∧ e.marked = false
    · rw [if_pos hc] at h
      injection h with h; subst h
      exact ⟨rfl, by simp, hl⟩
    · rw [if_neg hc] at h
      cases hm : searchMark d s.edges with
      | none => rw [hm] at h; cases h
      | some r =>
        rw [hm] at h
        injection h with h; subst h
        exact ⟨rfl, searchMark_length hm, hl⟩

theorem delRun_k : ∀ (cs : List (Change D)) {s s' : DelSt D}, s.k ≤ s.edges.length → delRun s cs = some s' → s'.k = s.k + cs.length ∧ s'.k ≤ s'.edges.length := by
  intro cs
  induction cs with
  | nil => intro s s' hk h; injection h with h; subst h; exact ⟨rfl, hk⟩
  | cons c cs ih =>
    intro s s' hk h
    simp only [delRun] at h
    cases h1 : delOne s c.edge.didx with
    | none => rw [h1] at h; cases h
    | some s1 =>
      rw [h1, Option.bind_some] at h
      obtain ⟨a1, a2, a3⟩ := delOne_k h1
      obtain ⟨b1, b2⟩ := ih (s := s1) (by omega) h
      exact ⟨by rw [b1, a1, List.length_cons]; omega, b2⟩

theorem flagTimes_length : ∀ (is : List Nat) (es : List (Edge D)), (flagTimes es is).length = es.length := by
  intro is
  induction is with
  | nil => intro es; rfl
  | cons i is ih => intro es; rw [flagTimes, ih]; simp

theorem finish_length (canTs warn : Bool) (s : DelSt D) (h : s.k ≤ s.edges.length) : (finish canTs warn s).2.length = s.k := by
  unfold finish
  split
  · simp; omega
  · split
    · simp [flagTimes_length]; omega
    · simp; omega

theorem rangeRun_length : ∀ (cs : List (Change D)) (es : List (Edge D)) (k : Nat) (del : List (Edge D)) (r : List (Edge D) × List (Edge D)),
    rangeRun es k del cs = some r → r.2.length = del.length + cs.length := by
  intro cs
  induction cs with
  | nil => intro es k del r h; injection h with h; subst h; rfl
  | cons c cs ih =>
    intro es k del r h
    simp only [rangeRun] at h
    cases h1 : skipEnded es k with
    | none => rw [h1] at h; cases h
    | some k1 =>
      rw [h1] at h
      simp only at h
      cases h2 : es[k1]? with
      | none => rw [h2] at h; cases h
      | some e =>
        rw [h2] at h
        simp only at h
        by_cases hc : e.didx = c.edge.didx
        · rw [if_pos hc] at h
          rw [ih _ _ _ _ h]; simp; omega
        · rw [if_neg hc] at h
          cases h3 : searchEnd c.edge es with
          | none => rw [h3] at h; cases h
          | some q =>
            rw [h3] at h
            rw [ih _ _ _ _ h]; simp; omega

theorem applyDels_counts (o : Opts) (others : Nat → Bool) {s s' : VSt D} {cs : List (Change D)} (h : applyDels o others s cs = some s') :
    ∃ calls, s'.calls = s.calls ++ calls ∧ addedBy calls = [] ∧ (deletedBy calls).length = cs.length := by
  unfold applyDels at h
  by_cases hc : cs = []
  · rw [if_pos hc] at h
    injection h with h; subst h
    exact ⟨[], by simp, rfl, by simp [hc, deletedBy]⟩
  · rw [if_neg hc] at h
    by_cases ht : o.timeRange = true
    · rw [if_pos ht] at h
      cases hr : rangeRun s.edges 0 [] cs with
      | none => rw [hr] at h; cases h
      | some r =>
        rw [hr] at h
        injection h with h; subst h
        refine ⟨[.del r.2], rfl, rfl, ?_⟩
        have := rangeRun_length _ _ _ _ _ hr
        simpa [deletedBy] using this
    · rw [if_neg ht] at h
      cases hr : delRun { edges := s.edges, k := 0, idxs := [], warn := s.warn } cs with
      | none => rw [hr] at h; cases h
      | some d =>
        rw [hr] at h
        injection h with h; subst h
        obtain ⟨h1, h2⟩ := delRun_k cs (Nat.zero_le _) hr
        refine ⟨[.del (finish o.canTs (d.warn || others s.runs) d).2], rfl, rfl, ?_⟩
        have := finish_length o.canTs (d.warn || others s.runs) d h2
        simp only [deletedBy, List.flatMap_cons, List.flatMap_nil, List.append_nil]
        rw [this, h1]; simp

theorem applyAll_counts (o : Opts) (others : Nat → Bool) : ∀ (n : Nat) (cs : List (Change D)) (s s' : VSt D), cs.length ≤ n → applyAll o others s cs = some s' →
    ∃ calls, s'.calls = s.calls ++ calls ∧ addedBy calls = addsOf cs ∧ (deletedBy calls).length = delsOf cs := by
  intro n
  induction n with
  | zero =>
    intro cs s s' hl h
    have : cs = [] := List.length_eq_zero_iff.1 (by omega)
    subst this
    rw [applyAll] at h
    injection h with h; subst h
    exact ⟨[], by simp, rfl, rfl⟩
  | succ n ih =>
    intro cs s s' hl h
    by_cases hne : cs = []
    · subst hne
      rw [applyAll] at h
      injection h with h; subst h
      exact ⟨[], by simp, rfl, rfl⟩
    · obtain ⟨A, B, R, e, hlt, hA, hB, hrun⟩ := applyAll_split o others cs hne
      rw [hrun] at h
      cases h1 : applyDels o others (applyAdds s A) B with
      | none => rw [h1] at h; cases h
      | some s1 =>
        rw [h1, Option.bind_some] at h
        obtain ⟨k1, a1, -, a2, a3⟩ := applyAdds_explains s A
        obtain ⟨k2, b1, b2, b3⟩ := applyDels_counts o others h1
        obtain ⟨k3, c1, c2, c3⟩ := ih R s1 s' (by omega) h
        refine ⟨k1 ++ k2 ++ k3, by rw [c1, b1, a1]; simp, ?_, ?_⟩
        · rw [addedBy_append, addedBy_append, a2, b2, c2, e, addsOf_append, addsOf_append, addsOf_all hA, addsOf_none hB]
        · rw [deletedBy_append, deletedBy_append, List.length_append, List.length_append, a3, b3, c3, e, delsOf_append, delsOf_append, delsOf_all hA, delsOf_none hB]
          rfl

/-- Many batches without expiry, any other options. -/
theorem enactAll_counts (o : Opts) (hw : o.window = 0) (others : Nat → Bool) : ∀ (bs : List (List (Nat × Change D))) (s s' : Th D), Rested s →
    enactAll o others s bs = some s' → ∀ v, ∃ calls, callsOf s' v = callsOf s v ++ calls ∧
      addedBy calls = addsOf (ownChanges bs.flatten v) ∧ (deletedBy calls).length = delsOf (ownChanges bs.flatten v) := by
  intro bs
  induction bs with
  | nil =>
    intro s s' _ h v
    injection h with h; subst h
    exact ⟨[], by simp, rfl, rfl⟩
  | cons b bs ih =>
    intro s s' hr h v
    simp only [enactAll] at h
    cases h1 : enact o others s b with
    | none => rw [h1] at h; cases h
    | some s1 =>
      rw [h1, Option.bind_some] at h
      obtain ⟨a1, a2, -, -⟩ := (enact_spec o hw others hr b).1 s1 h1
      obtain ⟨w, n, r, b1, b2, b3⟩ := a2 v
      obtain ⟨k1, c1, c2, c3⟩ := applyAll_counts o others _ _ _ _ (Nat.le_refl _) b1
      simp only [List.nil_append] at c1
      subst c1
      obtain ⟨k2, d1, d2, d3⟩ := ih s1 s' a1 h v
      refine ⟨r.calls ++ k2, by rw [d1, b3, List.append_assoc], ?_, ?_⟩
      · rw [addedBy_append, c2, d2, List.flatten_cons, ownChanges_append, addsOf_append]
      · rw [deletedBy_append, List.length_append, c3, d3, List.flatten_cons, ownChanges_append, delsOf_append]

/-- Which pending lists the loop over the groups resets. -/
theorem applyGroups_reset (o : Opts) (others : Nat → Bool) : ∀ (k u : Nat) (s s' : Th D), applyGroups o others s u k = some s' →
    s'.pendIdx = s.pendIdx ∧ s'.numUnique = s.numUnique ∧
    ∀ (j : Nat) (l : List Nat), s'.pend[j]? = some l → (u ≤ j ∧ j < u + k → l = []) ∧ (j < u ∨ u + k ≤ j → s.pend[j]? = some l) := by
  intro k
  induction k with
  | zero =>
    intro u s s' h
    injection h with h; subst h
    exact ⟨rfl, rfl, fun j l hl => ⟨fun h => by omega, fun _ => hl⟩⟩
  | succ k ih =>
    intro u s s' h
    simp only [applyGroups] at h
    cases h1 : applyOne o others s u with
    | none => rw [h1] at h; cases h
    | some s1 =>
      rw [h1, Option.bind_some] at h
      have hs1 : s1.pendIdx = s.pendIdx ∧ s1.numUnique = s.numUnique ∧ s1.pend = s.pend.set u [] ∧ u < s.pend.length := by
        unfold applyOne at h1
        cases h2 : s.pend[u]? with
        | none => rw [h2] at h1; cases h1
        | some l =>
          rw [h2] at h1
          cases l with
          | nil => cases h1
          | cons v is =>
            simp only at h1
            cases h3 : fetch s.buff is with
            | none => rw [h3] at h1; cases h1
            | some cs =>
              rw [h3, Option.bind_some] at h1
              cases h4 : applyAll o others { edges := s.verts v, calls := [], warn := s.warn, runs := s.runs } cs with
              | none => rw [h4] at h1; cases h1
              | some r =>
                rw [h4] at h1
                injection h1 with h1; subst h1
                exact ⟨rfl, rfl, rfl, get_lt h2⟩
      obtain ⟨a1, a2, a3⟩ := ih (u + 1) s1 s' h
      refine ⟨by rw [a1, hs1.1], by rw [a2, hs1.2.1], ?_⟩
      intro j l hl
      obtain ⟨b1, b2⟩ := a3 j l hl
      constructor
      · intro hj
        by_cases e : j = u
        · subst e
          have := b2 (.inl (by omega))
          rw [hs1.2.2.1, List.getElem?_set_self hs1.2.2.2] at this
          injection this with this; exact this.symm
        · exact b1 (by omega)
      · intro hj
        have := b2 (by omega)
        rw [hs1.2.2.1, List.getElem?_set_ne (by omega)] at this
        exact this

theorem inject_ginv (o : Opts) (latest : UInt64) (n : Nat) : ∀ (ex : List (Nat × Change D)) (s : Th D) (uniq i : Nat) (ents : List (Nat × Nat)) (us : List Nat) (s' : Th D) (uniq' k : Nat),
    GInv s uniq ents us → inject o latest n s uniq i ex = some (s', uniq', k) → ∃ ents' us', GInv s' uniq' ents' us' := by
  intro ex
  induction ex with
  | nil =>
    intro s uniq i ents us s' uniq' k hg h
    injection h with h
    injection h with h1 h2
    injection h2 with h2 h3
    subst h1; subst h2
    exact ⟨ents, us, hg⟩
  | cons x ex ih =>
    intro s uniq i ents us s' uniq' k hg h
    obtain ⟨v, c⟩ := x
    simp only [inject] at h
    by_cases h1 : c.typ ≠ .del
    · rw [if_pos h1] at h
      exact ih _ _ _ _ _ _ _ _ hg h
    · rw [if_neg h1] at h
      by_cases h2 : c.edge.ts > latest
      · rw [if_pos h2] at h
        injection h with h
        injection h with h1 h2
        injection h2 with h2 h3
        subst h1; subst h2
        exact ⟨ents, us, hg⟩
      · rw [if_neg h2] at h
        obtain ⟨s1, u1, us1, a1, a2, -, -, -⟩ := insertPending_spec hg v (n + i)
        rw [a1, Option.bind_some] at h
        simp only at h
        refine ih _ _ _ _ _ _ _ _ (a2.congr ?_ ?_ ?_) h <;> rfl

/-- Any batch, any options: the pending lists are ready for the next batch. -/
theorem enact_rested (o : Opts) (others : Nat → Bool) {s s' : Th D} (hr : Rested s) {batch : List (Nat × Change D)} (h : enact o others s batch = some s') : Rested s' := by
  unfold enact at h
  cases h1 : load s.buff (batch.map Prod.snd) with
  | none => rw [h1] at h; cases h
  | some buff =>
    rw [h1, Option.bind_some] at h
    obtain ⟨s1, u1, us1, g1, g2, -, -, -⟩ := group_spec o batch { s with buff := buff } 0 0 [] [] (hr.ginv.congr rfl rfl rfl)
    rw [g1, Option.bind_some] at h
    have key : ∀ (s2 : Th D) (u2 : Nat) (ents : List (Nat × Nat)) (us : List Nat), GInv s2 u2 ents us →
        applyGroups o others { s2 with numUnique := s2.numUnique + u2 } 0 u2 = some s' → Rested s' := by
      intro s2 u2 ents us hg ha
      obtain ⟨a1, a2, a3⟩ := applyGroups_reset o others _ _ _ _ ha
      constructor
      · intro j l hl
        obtain ⟨b1, b2⟩ := a3 j l hl
        by_cases hj : j < u2
        · exact b1 (by omega)
        · exact hg.free j l (by omega) (b2 (by omega))
      · intro v
        rw [a1, a2]
        simp only
        by_cases hv : v ∈ us
        · obtain ⟨j, hj⟩ := List.mem_iff_getElem?.1 hv
          have := hg.idx j v hj
          have := get_lt hj
          have := hg.len
          omega
        · have := hg.old v hv; omega
    by_cases hw : 0 < o.window
    · rw [if_pos hw] at h
      cases h2 : injectExpired o s1 batch.length u1 with
      | none => rw [h2] at h; cases h
      | some r =>
        rw [h2, Option.bind_some] at h
        unfold injectExpired at h2
        cases h3 : s1.buff[batch.length - 1]? with
        | none => rw [h3] at h2; cases h2
        | some last =>
          rw [h3] at h2
          simp only at h2
          cases h4 : adjust o last.edge.ts batch.length 0 (s1.buff.take batch.length) s1.expired with
          | none => rw [h4] at h2; cases h2
          | some ex =>
            rw [h4, Option.bind_some] at h2
            cases h5 : inject o last.edge.ts batch.length s1 u1 0 ex with
            | none => rw [h5] at h2; cases h2
            | some q =>
              rw [h5] at h2
              injection h2 with h2
              subst h2
              obtain ⟨q1, q2, q3⟩ := q
              obtain ⟨ents', us', hg⟩ := inject_ginv o _ _ _ _ _ _ _ _ _ _ _ g2 h5
              refine key _ _ ents' us' (hg.congr ?_ ?_ ?_) h <;> rfl
    · rw [if_neg hw, Option.bind_some] at h
      exact key _ _ _ _ g2 h

theorem enactAll_rested (o : Opts) (others : Nat → Bool) : ∀ (bs : List (List (Nat × Change D))) {s s' : Th D}, Rested s → enactAll o others s bs = some s' → Rested s' := by
  intro bs
  induction bs with
  | nil => intro s s' hr h; injection h with h; subst h; exact hr
  | cons b bs ih =>
    intro s s' hr h
    simp only [enactAll] at h
    cases h1 : enact o others s b with
    | none => rw [h1] at h; cases h
    | some s1 =>
      rw [h1, Option.bind_some] at h
      exact ih (enact_rested o others hr h1) h

/-- A run of deletes flags edges to the targets of the deletes. -/
theorem delRun_targets {es0 : List (Edge D)} : ∀ (cs : List (Change D)) {s s' : DelSt D}, DInv es0 s → delRun s cs = some s' →
    ((s'.edges.filter Edge.marked).map (·.didx)).Perm ((s.edges.filter Edge.marked).map (·.didx) ++ cs.map (fun c => c.edge.didx)) := by
  have hset : ∀ (es : List (Edge D)) (i : Nat) (e : Edge D), es[i]? = some e → e.marked = false →
      (((es.set i e.mark).filter Edge.marked).map (·.didx)).Perm ((es.filter Edge.marked).map (·.didx) ++ [e.didx]) := by
    intro es i e h1 h2
    have e1 := set_split (x := e.mark) h1
    have e2 := split_at h1
    rw [e1]
    conv => rhs; rw [e2]
    simp only [List.filter_append, List.filter_cons, marked_mark h2, h2, if_true, List.map_append, List.map_cons, List.append_assoc]
    simp only [Bool.false_eq_true, if_false]
    refine List.Perm.append_left _ ?_
    have : e.mark.didx = e.didx := rfl
    rw [this]
    exact (List.perm_append_comm (l₁ := [e.didx])).trans (List.Perm.refl _)
  intro cs
  induction cs with
  | nil => intro s s' hi h; injection h with h; subst h; simp
  | cons c cs ih =>
    intro s s' hi h
    simp only [delRun] at h
    cases h1 : delOne s c.edge.didx with
    | none => rw [h1] at h; cases h
    | some s1 =>
      rw [h1, Option.bind_some] at h
      have h2 := ih (delOne_inv hi h1).1 h
      have h3 : ((s1.edges.filter Edge.marked).map (·.didx)).Perm ((s.edges.filter Edge.marked).map (·.didx) ++ [c.edge.didx]) := by
        unfold delOne at h1
        cases he : s.edges[s.k]? with
        | none => rw [he] at h1; cases h1
        | some e =>
          rw [he] at h1
          simp only at h1
          by_cases hc : e.didx = c.edge.didx ∧ e.marked = false
          · rw [if_pos hc] at h1
            injection h1 with h1; subst h1
            have := hset s.edges s.k e he hc.2
            rw [hc.1] at this; exact this
          · rw [if_neg hc] at h1
            cases hm : searchMark c.edge.didx s.edges with
            | none => rw [hm] at h1; cases h1
            | some r =>
              rw [hm] at h1
              injection h1 with h1; subst h1
              obtain ⟨r1, r2⟩ := r
              obtain ⟨e', a1, a2, a3, -, a5⟩ := searchMark_some hm
              simp only
              rw [a5]
              have := hset s.edges r2 e' a1 a3
              rw [a2] at this; exact this
      refine h2.trans ?_
      refine (h3.append_right _).trans ?_
      simp

/-- Targets of the deletes. -/
def delTargets (cs : List (Change D)) : List (Nat × Nat) := (cs.filter (fun c => !isAdd c)).map (fun c => c.edge.didx)

theorem delTargets_append (a b : List (Change D)) : delTargets (a ++ b) = delTargets a ++ delTargets b := by simp [delTargets]

theorem applyDels_targets (o : Opts) (ho : o.timeRange = false) (others : Nat → Bool) {s s' : VSt D} {cs : List (Change D)} (hv : VOk o s.edges [])
    (h : applyDels o others s cs = some s') : ∃ calls, s'.calls = s.calls ++ calls ∧ ((deletedBy calls).map (·.didx)).Perm (cs.map (fun c => c.edge.didx)) := by
  unfold applyDels at h
  by_cases hc : cs = []
  · rw [if_pos hc] at h
    injection h with h; subst h
    exact ⟨[], by simp, by simp [hc, deletedBy]⟩
  · rw [if_neg hc, if_neg (by simp [ho])] at h
    cases hr : delRun { edges := s.edges, k := 0, idxs := [], warn := s.warn } cs with
    | none => rw [hr] at h; cases h
    | some d =>
      rw [hr] at h
      injection h with h; subst h
      obtain ⟨h0, -, h00⟩ := dinv_start (es := s.edges) (fun e he => hv.clean e (List.mem_append_left _ he)) s.warn
      obtain ⟨h1, h2, -⟩ := delRun_inv cs h0 hr
      have h3 := delRun_targets cs h0 hr
      have hfin := finish_spec h1 o.canTs (d.warn || others s.runs) (by intro hw; simp at hw; exact hw.1) (by intro hcan; have := hv.timed hcan; simpa using this)
      refine ⟨[.del (finish o.canTs (d.warn || others s.runs) d).2], rfl, ?_⟩
      rw [hfin]
      simp only [deletedBy, List.flatMap_cons, List.flatMap_nil, List.append_nil, List.map_map]
      have h4 : s.edges.filter Edge.marked = [] := by
        rw [List.filter_eq_nil_iff]
        intro e he
        have := (clean_iff e).1 (hv.clean e (List.mem_append_left _ he))
        simp [this]
      rw [h4] at h3
      exact h3

theorem applyAll_targets (o : Opts) (ho : o.timeRange = false) (others : Nat → Bool) : ∀ (n : Nat) (cs : List (Change D)) (s s' : VSt D), cs.length ≤ n →
    VOk o s.edges (addsOf cs) → applyAll o others s cs = some s' →
    ∃ calls, s'.calls = s.calls ++ calls ∧ ((deletedBy calls).map (·.didx)).Perm (delTargets cs) := by
  intro n
  induction n with
  | zero =>
    intro cs s s' hl _ h
    have : cs = [] := List.length_eq_zero_iff.1 (by omega)
    subst this
    rw [applyAll] at h
    injection h with h; subst h
    exact ⟨[], by simp, List.Perm.refl _⟩
  | succ n ih =>
    intro cs s s' hl hv h
    by_cases hne : cs = []
    · subst hne
      rw [applyAll] at h
      injection h with h; subst h
      exact ⟨[], by simp, List.Perm.refl _⟩
    · obtain ⟨A, B, R, e, hlt, hA, hB, hrun⟩ := applyAll_split o others cs hne
      rw [hrun] at h
      cases h1 : applyDels o others (applyAdds s A) B with
      | none => rw [h1] at h; cases h
      | some s1 =>
        rw [h1, Option.bind_some] at h
        obtain ⟨k1, a1, -, a2, a3⟩ := applyAdds_explains s A
        obtain ⟨e1, e2, e3⟩ := applyAdds_edges s A
        have hadd : addsOf cs = A.map (·.edge) ++ addsOf R := by
          rw [e, addsOf_append, addsOf_append, addsOf_all hA, addsOf_none hB, List.append_nil]
        rw [hadd] at hv
        have hv1 : VOk o (applyAdds s A).edges (addsOf R) := hv.step (by rw [e1]; exact List.Sublist.refl _)
        obtain ⟨k2, b1, b2⟩ := applyDels_targets o ho others hv1.left h1
        obtain ⟨d1, -⟩ := applyDels_explains o ho others hv1.left h1
        obtain ⟨k3, c1, c2⟩ := ih R s1 s' (by omega) (hv1.sub d1) h
        refine ⟨k1 ++ k2 ++ k3, by rw [c1, b1, a1]; simp, ?_⟩
        rw [deletedBy_append, deletedBy_append, a3, List.nil_append, List.map_append, e, delTargets_append, delTargets_append]
        have hA0 : delTargets A = [] := by
          unfold delTargets
          rw [List.map_eq_nil_iff, List.filter_eq_nil_iff]
          intro c hc; simp [hA c hc]
        have hB0 : delTargets B = B.map (fun c => c.edge.didx) := by
          unfold delTargets
          rw [List.filter_eq_self.2]
          intro c hc; simp [hB c hc]
        rw [hA0, hB0, List.nil_append]
        exact b2.append c2

/-- Many batches: the deletes of each vertex hit edges to their targets. -/
theorem enactAll_targets (o : Opts) (ho : o.timeRange = false) (hw : o.window = 0) (others : Nat → Bool) :
    ∀ (bs : List (List (Nat × Change D))) (s s' : Th D), Rested s → (∀ v, VOk o (s.verts v) (addsOf (ownChanges bs.flatten v))) →
    enactAll o others s bs = some s' → ∀ v, ∃ calls, callsOf s' v = callsOf s v ++ calls ∧
      ((deletedBy calls).map (·.didx)).Perm (delTargets (ownChanges bs.flatten v)) := by
  intro bs
  induction bs with
  | nil =>
    intro s s' hr _ h v
    injection h with h; subst h
    exact ⟨[], by simp, List.Perm.refl _⟩
  | cons b bs ih =>
    intro s s' hr hv h v
    simp only [enactAll] at h
    cases h1 : enact o others s b with
    | none => rw [h1] at h; cases h
    | some s1 =>
      rw [h1, Option.bind_some] at h
      obtain ⟨a1, a2, a3, -⟩ := (enact_spec o hw others hr b).1 s1 h1
      have hv' : ∀ v, VOk o (s.verts v) (addsOf (ownChanges b v) ++ addsOf (ownChanges bs.flatten v)) := by
        intro v
        have := hv v
        rw [List.flatten_cons, ownChanges_append, addsOf_append] at this
        exact this
      obtain ⟨k2, d1, d2⟩ := ih s1 s' a1 (fun v => (hv' v).step ((a2 v).explains ho (hv' v).init).1) h v
      obtain ⟨w, n, r, b1, b2, b3⟩ := a2 v
      obtain ⟨k1, c1, c2⟩ := applyAll_targets o ho others _ _ _ _ (Nat.le_refl _) (hv' v).init b1
      simp only [List.nil_append] at c1
      subst c1
      refine ⟨r.calls ++ k2, by rw [d1, b3, List.append_assoc], ?_⟩
      rw [deletedBy_append, List.map_append, List.flatten_cons, ownChanges_append, delTargets_append]
      exact c2.append d2

end Verif.Enact
