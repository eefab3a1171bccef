import Verif.DequeLemmas

/-! Every operation of the deque keeps the invariant and does what it does on lists. -/

namespace Verif.Deque

variable {α : Type}

theorem Shape.head_mem {d : Dq α} {ids : List Nat} {c : List α} (h : Shape d ids c) : d.head ∈ ids := by
  cases h <;> simp

theorem Shape.tail_mem {d : Dq α} {ids : List Nat} {c : List α} (h : Shape d ids c) : d.tail ∈ ids := by
  cases h with
  | one _ _ _ _ ht => simp [ht]
  | many => simp

theorem lt_of_snoc {a b : List α} {y : α} : a.length < (a ++ y :: b).length := by simp

theorem snoc_mem {x : Nat} {l : List Nat} : x ∈ l ++ [x] := by simp

theorem ne_of_next {d : Dq α} {ids : List Nat} (hc : Core d ids) {x : Nat} (hx : x ∈ ids) : x ≠ d.next := by
  have := hc.fresh x hx; omega

theorem frontPrep_spec (z : α) {d : Dq α} {c : List α} (h : Rep d c) :
    ∃ ids, Core (frontPrep z d) ids ∧ FrontReady (frontPrep z d) ids c ∧
      (frontPrep z d).tz = true ∧ (frontPrep z d).isNil = false ∧ (frontPrep z d).len = d.len := by
  obtain ⟨htz, hlen, hs | ⟨hnil, ids, hc, hs⟩⟩ := h
  · -- no nodes yet
    obtain ⟨hnil, rfl, hhp⟩ := hs
    have e : frontPrep z d = { firstNode z d with tp := firstSliceSize, hp := firstSliceSize - 1, hlp := firstSliceSize - 1 } := by
      rw [frontPrep, if_pos hnil]
    rw [e]
    refine ⟨[d.next], ⟨by simp, ?_, ?_, ?_, by simp, ?_⟩, ?_, htz, rfl, rfl⟩
    · simp [firstNode]
    · intro q hq; simp at hq; subst hq; simp [firstNode, upd]
    · simp [firstNode, upd, firstSliceSize]
    · simp [firstNode, upd, firstSliceSize]
    · refine FrontReady.one (d := { firstNode z d with tp := firstSliceSize, hp := firstSliceSize - 1, hlp := firstSliceSize - 1 })
        [] (List.replicate 3 z) z [] [] rfl ?_ ?_ ?_
      · simp [firstNode, upd, firstSliceSize, List.replicate]
      · simp [firstSliceSize]
      · simp [firstSliceSize]
  by_cases hhp : 0 < d.hp
  · have e : frontPrep z d = { d with hp := d.hp - 1 } := by
      rw [frontPrep, if_neg (by simp [hnil]), if_pos hhp]
    rw [e]
    refine ⟨ids, hc.transfer (List.Perm.refl _) (Nat.le_refl _) hc.ring (fun _ _ => rfl) hc.hlp, ?_, htz, hnil, rfl⟩
    cases hs with
    | one spares a _ b ht hv ha htp hlt =>
      obtain ⟨a', y, rfl⟩ := snoc_of_pos (l := a) (by omega)
      simp only [List.length_append, List.length_singleton] at ha
      exact FrontReady.one (d := { d with hp := d.hp - 1 }) spares a' y c b ht (by simp [hv])
        (by simp only; omega) (by simp only; omega)
    | many mids spares a c1 c2 b hv hc1 ht hc2 ha htp =>
      obtain ⟨a', y, rfl⟩ := snoc_of_pos (l := a) (by omega)
      simp only [List.length_append, List.length_singleton] at ha
      exact FrontReady.many (d := { d with hp := d.hp - 1 }) mids spares a' y c1 c2 b (by simp [hv])
        ht hc2 (by simp only; omega) htp
  have hhp0 : d.hp = 0 := by omega
  by_cases hp : (d.mem d.head).p ≠ d.tail
  · -- a spare node before the head
    have key : ∀ s, (d.mem d.head).p = s → frontPrep z d =
        if d.len = 0 then { d with head := s, hp := (d.mem s).v.length - 1, hlp := (d.mem s).v.length - 1, spare := d.spare - 1, tail := s, tp := (d.mem s).v.length }
        else { d with head := s, hp := (d.mem s).v.length - 1, hlp := (d.mem s).v.length - 1, spare := d.spare - 1 } := by
      intro s hs
      rw [frontPrep, if_neg (by simp [hnil]), if_neg hhp, if_pos hp, hs]
    cases hs with
    | one spares a _ b ht hv ha htp hlt =>
      rcases List.eq_nil_or_concat spares with rfl | ⟨sp, s, rfl⟩
      · exact absurd (by rw [(ring_single hc.ring).2, ht]) hp
      · rw [List.concat_eq_append] at hc
        have hsp : (d.mem d.head).p = s := (ring_last hc.ring).2
        have hps := hc.pos s (by simp)
        obtain ⟨vs, y, hvs⟩ := snoc_of_pos hps
        have hperm : (s :: d.head :: sp).Perm (d.head :: (sp ++ [s])) := by
          rw [← List.cons_append]; exact (List.perm_append_comm (l₁ := [s]))
        have hring : Ring d.mem (s :: d.head :: sp) := ring_rotate (l1 := d.head :: sp) (l2 := [s]) hc.ring
        have hne : d.head ≠ s := by
          have := hc.nodup
          simp only [List.nodup_cons, List.mem_append, not_or, List.mem_singleton] at this
          exact this.1.2
        rw [key s hsp]
        have ha0 : a = [] := length_eq_nil (by omega)
        subst ha0
        by_cases hl0 : d.len = 0
        · rw [if_pos hl0]
          have hc0 : c = [] := length_eq_nil (by omega)
          subst hc0
          refine ⟨s :: d.head :: sp, hc.transfer hperm (Nat.le_refl _) hring (fun _ _ => rfl) (by simp only; omega), ?_, htz, hnil, rfl⟩
          refine FrontReady.one (d := { d with head := s, hp := (d.mem s).v.length - 1, hlp := (d.mem s).v.length - 1, spare := d.spare - 1, tail := s, tp := (d.mem s).v.length })
            (d.head :: sp) vs y [] [] rfl (by simp [hvs]) (by simp [hvs]) (by simp [hvs])
        · rw [if_neg hl0]
          refine ⟨s :: d.head :: sp, hc.transfer hperm (Nat.le_refl _) hring (fun _ _ => rfl) (by simp only; omega), ?_, htz, hnil, rfl⟩
          have := FrontReady.many (d := { d with head := s, hp := (d.mem s).v.length - 1, hlp := (d.mem s).v.length - 1, spare := d.spare - 1 })
            [] sp vs y [] c b (by simp [hvs]) (by simp [ht, hv]) (by intro e; subst e; simp at hlen; omega)
            (by simp [hvs]) (by simp only; omega)
          simpa [ht] using this
    | many mids spares a c1 c2 b hv hc1 ht hc2 ha htp =>
      rcases List.eq_nil_or_concat spares with rfl | ⟨sp, s, rfl⟩
      · exact absurd (ring_last hc.ring).2 hp
      · rw [List.concat_eq_append] at hc
        have hsp : (d.mem d.head).p = s := by
          have h2 : d.head :: mids ++ d.tail :: (sp ++ [s]) = d.head :: ((mids ++ d.tail :: sp) ++ [s]) := by simp
          have := hc.ring
          rw [h2] at this
          exact (ring_last this).2
        have hps := hc.pos s (by simp)
        obtain ⟨vs, y, hvs⟩ := snoc_of_pos hps
        have hl0 : d.len ≠ 0 := by
          rw [hlen]; simp; intro _ _ h; exact absurd h hc2
        have h2 : d.head :: mids ++ d.tail :: (sp ++ [s]) = (d.head :: mids ++ d.tail :: sp) ++ [s] := by simp
        have hperm : (s :: (d.head :: mids) ++ d.tail :: sp).Perm (d.head :: mids ++ d.tail :: (sp ++ [s])) := by
          rw [h2]; exact (List.perm_append_comm (l₁ := [s]))
        have hring : Ring d.mem (s :: (d.head :: mids) ++ d.tail :: sp) := by
          have := hc.ring
          rw [h2] at this
          exact ring_rotate (l1 := d.head :: mids ++ d.tail :: sp) (l2 := [s]) this
        rw [key s hsp, if_neg hl0]
        have ha0 : a = [] := length_eq_nil (by omega)
        subst ha0
        refine ⟨s :: (d.head :: mids) ++ d.tail :: sp, hc.transfer hperm (Nat.le_refl _) hring (fun _ _ => rfl) (by simp only; omega), ?_, htz, hnil, rfl⟩
        have := FrontReady.many (d := { d with head := s, hp := (d.mem s).v.length - 1, hlp := (d.mem s).v.length - 1, spare := d.spare - 1 })
          (d.head :: mids) sp vs y [] c2 b (by simp [hvs]) ht hc2 (by simp [hvs]) htp
        simpa [hv] using this
  · have hp : (d.mem d.head).p = d.tail := by
      by_cases e : (d.mem d.head).p = d.tail
      · exact e
      · exact absurd e hp
    -- there are no spare nodes
    by_cases hsmall : (d.mem d.head).v.length < maxFirstSliceSize
    · have hlen1 : ids.length < 2 := by
        rcases Nat.lt_or_ge ids.length 2 with h | h
        · exact h
        · have := hc.big h _ hs.head_mem
          unfold maxFirstSliceSize at hsmall; omega
      cases hs with
      | many => simp at hlen1; omega
      | one spares a _ b ht hv ha htp hlt =>
        obtain rfl : spares = [] := List.eq_nil_of_length_eq_zero (by simp at hlen1; omega)
        have ha0 : a = [] := length_eq_nil (by omega)
        subst ha0
        have e : frontPrep z d = { d with tp := d.tp + ((d.mem d.head).v.length * 4 - (d.mem d.head).v.length), hlp := (d.mem d.head).v.length * 4 - 1, mem := setV d.mem d.head (List.replicate ((d.mem d.head).v.length * 3) z ++ (d.mem d.head).v), hp := (d.mem d.head).v.length * 3 - 1 } := by
          rw [frontPrep, if_neg (by simp [hnil]), if_neg hhp, if_neg (by simp [hp]), if_pos hsmall]
          have e3 : (d.mem d.head).v.length * 4 - (d.mem d.head).v.length = (d.mem d.head).v.length * 3 := by omega
          simp only [sliceGrowthFactor, hhp0, Nat.zero_add, e3, copyAt, List.length_replicate, List.take_replicate, List.drop_replicate]
          rw [show min ((d.mem d.head).v.length * 3) ((d.mem d.head).v.length * 4) = (d.mem d.head).v.length * 3 by omega,
            show (d.mem d.head).v.length * 4 - ((d.mem d.head).v.length * 3 + (d.mem d.head).v.length) = 0 by omega,
            show (d.mem d.head).v.length * 4 - (d.mem d.head).v.length * 3 = (d.mem d.head).v.length by omega]
          simp
        rw [e]
        have hpos := hc.pos d.head (by simp)
        refine ⟨[d.head], ⟨by simp, ?_, ring_congr hc.ring (by simp), ?_, by simp, ?_⟩, ?_, htz, hnil, rfl⟩
        · intro x hx; exact hc.fresh x hx
        · intro x hx; simp at hx; subst hx; simp; omega
        · simp only [setV_v, if_true, List.length_append, List.length_replicate]; omega
        · refine FrontReady.one (d := { d with tp := d.tp + ((d.mem d.head).v.length * 4 - (d.mem d.head).v.length), hlp := (d.mem d.head).v.length * 4 - 1, mem := setV d.mem d.head (List.replicate ((d.mem d.head).v.length * 3) z ++ (d.mem d.head).v), hp := (d.mem d.head).v.length * 3 - 1 })
            [] (List.replicate ((d.mem d.head).v.length * 3 - 1) z) z c b ht ?_ ?_ ?_
          · simp only [setV_v, if_true]
            obtain ⟨k, hk⟩ : ∃ k, (d.mem d.head).v.length * 3 = k + 1 := ⟨(d.mem d.head).v.length * 3 - 1, by omega⟩
            rw [hk, Nat.add_sub_cancel, List.replicate_succ', List.append_assoc, List.singleton_append, hv]
            simp
          · simp
          · simp only; omega
    · by_cases hl0 : d.len = 0
      · have hc0 : c = [] := length_eq_nil (by omega)
        subst hc0
        generalize hcc : ([] : List α) = cc at hs
        cases hs with
        | many mids spares a c1 c2 b hv hc1 =>
          cases c1 with
          | nil => exact absurd rfl hc1
          | cons => simp at hcc
        | one spares a _ b ht hv ha htp hlt =>
          subst hcc
          have e : frontPrep z d = { d with tail := d.head, tp := (d.mem d.head).v.length, hp := (d.mem d.head).v.length - 1, hlp := (d.mem d.head).v.length - 1 } := by
            rw [frontPrep, if_neg (by simp [hnil]), if_neg hhp, if_neg (by simp [hp]), if_neg hsmall, if_pos hl0]
          rw [e]
          obtain ⟨vs, y, hvs⟩ := snoc_of_pos (hc.pos d.head (by simp))
          refine ⟨d.head :: spares, hc.transfer (List.Perm.refl _) (Nat.le_refl _) hc.ring (fun _ _ => rfl) (by simp only; omega), ?_, htz, hnil, rfl⟩
          exact FrontReady.one (d := { d with tail := d.head, tp := (d.mem d.head).v.length, hp := (d.mem d.head).v.length - 1, hlp := (d.mem d.head).v.length - 1 })
            spares vs y [] [] rfl (by simp [hvs]) (by simp [hvs]) (by simp [hvs])
      · -- a new node before the head
        have e : frontPrep z d = { d with mem := setN (setP (upd d.mem d.next ⟨List.replicate maxInternalSliceSize z, d.head, d.tail⟩) d.head d.next) d.tail d.next, next := d.next + 1, head := d.next, hp := maxInternalSliceSize - 1, hlp := maxInternalSliceSize - 1 } := by
          rw [frontPrep, if_neg (by simp [hnil]), if_neg hhp, if_neg (by simp [hp]), if_neg hsmall, if_neg hl0]
        rw [e]
        have hids : ∃ l, ids = d.head :: l ∧ (d.head :: l).getLast? = some d.tail := by
          cases hs with
          | one spares a _ b ht hv ha htp hlt =>
            rcases List.eq_nil_or_concat spares with rfl | ⟨sp, s, rfl⟩
            · exact ⟨[], rfl, by simp [ht]⟩
            · rw [List.concat_eq_append] at hc
              have := (ring_last hc.ring).2
              exact ⟨sp ++ [s], by simp, by rw [← List.cons_append, List.getLast?_concat, ← this, hp]⟩
          | many mids spares a c1 c2 b hv hc1 ht hc2 ha htp =>
            rcases List.eq_nil_or_concat spares with rfl | ⟨sp, s, rfl⟩
            · exact ⟨mids ++ [d.tail], by simp, by rw [← List.cons_append, List.getLast?_concat]⟩
            · exfalso
              rw [List.concat_eq_append] at hc
              have h2 : d.head :: mids ++ d.tail :: (sp ++ [s]) = d.head :: ((mids ++ d.tail :: sp) ++ [s]) := by simp
              have h3 := hc.ring
              rw [h2] at h3
              have h4 := (ring_last h3).2
              rw [hp] at h4
              have := (nodup_many hc.nodup).2.2.2.2.1
              exact this (by rw [h4]; simp)
        obtain ⟨l, rfl, hlast⟩ := hids
        have hne1 : d.head ≠ d.next := ne_of_next hc (by simp)
        have htm : d.tail ∈ d.head :: l := List.mem_of_getLast? hlast
        have hne2 : d.tail ≠ d.next := ne_of_next hc htm
        have hnn : d.next ∉ d.head :: l := fun hm => ne_of_next hc hm rfl
        have hmemv : ∀ x ∈ d.head :: l, ((setN (setP (upd d.mem d.next ⟨List.replicate maxInternalSliceSize z, d.head, d.tail⟩) d.head d.next) d.tail d.next) x).v = (d.mem x).v := by
          intro x hx
          have : x ≠ d.next := ne_of_next hc hx
          simp [upd, this]
        have hring := ring_insert (mem' := setN (setP (upd d.mem d.next ⟨List.replicate maxInternalSliceSize z, d.head, d.tail⟩) d.head d.next) d.tail d.next)
          (x := d.next) hc.ring hc.nodup hlast (by simp [upd, Ne.symm hne2]) (by simp [upd, Ne.symm hne1])
          (by simp) (by simp) (by
            intro y hy hyt
            have : y ≠ d.next := ne_of_next hc hy
            simp [upd, hyt, this]) (by
            intro y hy hyt
            have : y ≠ d.next := ne_of_next hc hy
            simp [upd, hyt, this])
        have hring := ring_rotate hring
        have hbig : ∀ x ∈ d.head :: l, 64 ≤ (d.mem x).v.length := by
          intro x hx
          rcases Nat.lt_or_ge (d.head :: l).length 2 with h2 | h2
          · obtain rfl : l = [] := List.eq_nil_of_length_eq_zero (by simp at h2; omega)
            simp at hx; subst hx
            unfold maxFirstSliceSize at hsmall; omega
          · exact hc.big h2 x hx
        refine ⟨d.next :: d.head :: l, ⟨?_, ?_, hring, ?_, ?_, ?_⟩, ?_, htz, hnil, rfl⟩
        · exact List.nodup_cons.2 ⟨hnn, hc.nodup⟩
        · intro x hx
          rcases List.mem_cons.1 hx with rfl | hx
          · simp
          · have := hc.fresh x hx; simp only; omega
        · intro x hx
          rcases List.mem_cons.1 hx with rfl | hx
          · simp only [setN_v, setP_v, upd_same, List.length_replicate, maxInternalSliceSize]; omega
          · simp only; rw [hmemv x hx]; exact hc.pos x hx
        · intro _ x hx
          rcases List.mem_cons.1 hx with rfl | hx
          · simp only [setN_v, setP_v, upd_same, List.length_replicate, maxInternalSliceSize]; omega
          · simp only; rw [hmemv x hx]; exact hbig x hx
        · simp only [setN_v, setP_v, upd_same, List.length_replicate, maxInternalSliceSize]
        · generalize hd' : ({ d with mem := setN (setP (upd d.mem d.next ⟨List.replicate maxInternalSliceSize z, d.head, d.tail⟩) d.head d.next) d.tail d.next, next := d.next + 1, head := d.next, hp := maxInternalSliceSize - 1, hlp := maxInternalSliceSize - 1 } : Dq α) = d'
          have f1 : d'.head = d.next := by rw [← hd']
          have f2 : d'.tail = d.tail := by rw [← hd']
          have f3 : d'.hp = 255 := by rw [← hd']; rfl
          have f4 : d'.tp = d.tp := by rw [← hd']
          have f5 : (d'.mem d'.head).v = List.replicate 255 z ++ z :: [] := by
            rw [f1, ← hd']; simp only [setN_v, setP_v, upd_same]
            rw [show maxInternalSliceSize = 255 + 1 from rfl, List.replicate_succ']
          have f6 : ∀ x ∈ d.head :: l, (d'.mem x).v = (d.mem x).v := by
            intro x hx; rw [← hd']; exact hmemv x hx
          have fin : ∀ mids c2 b, (d.mem d.tail).v = c2 ++ b → c2 ≠ [] → d.tp = c2.length →
              d.head :: l = mids ++ [d.tail] → c = mids.flatMap (fun x => (d.mem x).v) ++ c2 →
              FrontReady d' (d.next :: d.head :: l) c := by
            intro mids c2 b g1 g2 g3 g4 g5
            have := FrontReady.many (d := d') mids [] (List.replicate 255 z) z [] c2 b f5
              (by rw [f2, f6 _ htm]; exact g1) g2 (by rw [f3, List.length_replicate]) (by rw [f4]; exact g3)
            rw [f1, f2, List.cons_append, ← g4, flatMap_congr' (g := fun x => (d.mem x).v) (fun x hx => f6 x (by rw [g4]; simp [hx])),
              List.nil_append, ← g5] at this
            exact this
          generalize hids2 : d.head :: l = ids2 at hs
          cases hs with
          | one spares a _ b ht hv ha htp hlt =>
            have ha0 : a = [] := length_eq_nil (by omega)
            subst ha0
            simp only [List.cons.injEq, true_and] at hids2
            subst hids2
            rcases List.eq_nil_or_concat l with rfl | ⟨l', s, rfl⟩
            · exact fin [] c b (by rw [ht, hv]; simp) (by intro e; subst e; simp at hlen; omega) (by omega) (by simp [ht]) (by simp)
            · exfalso
              rw [List.concat_eq_append] at *
              rw [← List.cons_append, List.getLast?_concat] at hlast
              simp only [Option.some.injEq] at hlast
              have := hc.nodup
              simp only [List.nodup_cons, List.mem_append, not_or, List.mem_singleton] at this
              exact this.1.2 (by rw [hlast, ht])
          | many mids spares a c1 c2 b hv hc1 ht hc2 ha htp =>
            have ha0 : a = [] := length_eq_nil (by omega)
            subst ha0
            have hspn : spares = [] := by
              rcases List.eq_nil_or_concat spares with rfl | ⟨sp, s, rfl⟩
              · rfl
              · exfalso
                rw [hids2, List.concat_eq_append,
                  show d.head :: mids ++ d.tail :: (sp ++ [s]) = (d.head :: mids ++ d.tail :: sp) ++ [s] by simp,
                  List.getLast?_concat] at hlast
                simp only [Option.some.injEq] at hlast
                have hnd := hc.nodup
                rw [hids2] at hnd
                have := (nodup_many hnd).2.2.2.2.1
                exact this (by simp [hlast])
            subst hspn
            rw [← hids2]
            exact fin (d.head :: mids) c2 b ht hc2 htp hids2 (by simp [hv])

theorem pushFront_spec (z : α) {d : Dq α} {c : List α} (h : Rep d c) (x : α) :
    ∃ d', pushFront z d x = some d' ∧ Rep d' (x :: c) := by
  obtain ⟨ids, hc, hf, htz, hnil, hl⟩ := frontPrep_spec z h
  obtain ⟨h1, h2⟩ := hf.fill hc x ((frontPrep z d).len + 1)
  refine ⟨_, store_eq x h1, htz, ?_, Or.inr ⟨hnil, ids, hc.store _ _ _ _, h2⟩⟩
  simp [hl, h.len]

theorem back_finish {d : Dq α} {ids : List Nat} {c : List α} {i : Nat} (x : α) (hc : Core d ids)
    (hb : BackReady d i ids c) (htp : d.tp = i + 1) (htz : d.tz = true) (hnil : d.isNil = false)
    (hlen : d.len = c.length + 1) {t : Nat} (ht : t = d.tail) :
    ∃ d', store d t i x = some d' ∧ Rep d' (c ++ [x]) := by
  subst ht
  obtain ⟨h1, h2⟩ := hb.fill hc x d.len
  refine ⟨_, store_eq x h1, htz, by simp [hlen], Or.inr ⟨hnil, ids, hc.store d.tail i d.len x, h2 htp⟩⟩

/-- A full tail: the content from the head on, and what follows. -/
theorem Shape.full {d : Dq α} {ids : List Nat} {c : List α} (hs : Shape d ids c)
    (hf : ¬ d.tp < (d.mem d.tail).v.length) :
    ∃ L sp a c1, ids = d.head :: L ++ sp ∧ (d.head :: L).getLast? = some d.tail ∧
      (d.mem d.head).v = a ++ c1 ∧ c1 ≠ [] ∧ a.length = d.hp ∧
      c = c1 ++ L.flatMap (fun x => (d.mem x).v) ∧ d.tp = (d.mem d.tail).v.length := by
  cases hs with
  | one spares a _ b ht hv ha htp hlt =>
    rw [ht] at hf
    have hb : b = [] := length_eq_nil (by rw [hv] at hf; simp at hf; omega)
    subst hb
    refine ⟨[], spares, a, c, by simp, by simp [ht], by simpa using hv, ?_, ha, by simp, ?_⟩
    · intro e; subst e; rw [hv] at hlt; simp at hlt; omega
    · rw [ht, hv]; simp; omega
  | many mids spares a c1 c2 b hv hc1 ht hc2 ha htp =>
    have hb : b = [] := length_eq_nil (by rw [ht] at hf; simp at hf; omega)
    subst hb
    refine ⟨mids ++ [d.tail], spares, a, c1, by simp, ?_, hv, hc1, ha, by simp [ht], by simp [ht, htp]⟩
    rw [← List.cons_append, List.getLast?_concat]

theorem copyAt_zero (z : α) (v : List α) (n : Nat) (h : v.length ≤ n) :
    copyAt (List.replicate n z) 0 v = v ++ List.replicate (n - v.length) z := by
  simp [copyAt, List.take_of_length_le h]

theorem pushBack_spec (z : α) {d : Dq α} {c : List α} (h : Rep d c) (x : α) :
    (∃ d', pushBack z d x = some d' ∧ Rep d' (c ++ [x])) ∧
    fastSlowPushBack z d x = pushBack z d x := by
  obtain ⟨htz, hlen, hs | ⟨hnil, ids, hc, hs⟩⟩ := h
  · obtain ⟨hnil, rfl, hhp⟩ := hs
    constructor
    · rw [pushBack, if_pos hnil, firstBack]
      refine back_finish (d := { firstNode z d with hlp := firstSliceSize - 1, tp := 1, len := d.len + 1 }) (c := []) (i := 0) (ids := [d.next]) x ⟨by simp, ?_, ?_, ?_, by simp, ?_⟩ ?_ rfl htz rfl (by simp [hlen]) rfl
      · simp [firstNode]
      · intro q hq; simp at hq; subst hq; simp [firstNode, upd]
      · simp [firstNode, upd, firstSliceSize]
      · simp [firstNode, upd, firstSliceSize]
      · refine BackReady.one (d := { firstNode z d with hlp := firstSliceSize - 1, tp := 1, len := d.len + 1 })
          [] [] [] z [z, z, z] rfl ?_ ?_ ?_
        · simp [firstNode, upd, firstSliceSize, List.replicate]
        · simp [firstNode, hhp]
        · simp [firstNode, hhp]
    · simp [fastSlowPushBack, fastPushBack, slowPushBack, pushBack, hnil]
  by_cases hroom : d.tp < (d.mem d.tail).v.length
  · have e : pushBack z d x = store { d with tp := d.tp + 1, len := d.len + 1 } d.tail d.tp x := by
      rw [pushBack, if_neg (by simp [hnil]), if_pos hroom]
    constructor
    · rw [e]
      refine back_finish (d := { d with tp := d.tp + 1, len := d.len + 1 }) (c := c) (i := d.tp) (ids := ids) x (hc.transfer (List.Perm.refl _) (Nat.le_refl _) hc.ring (fun _ _ => rfl) hc.hlp)
        ?_ rfl htz hnil (by simp [hlen]) rfl
      cases hs with
      | one spares a _ b ht hv ha htp hlt =>
        rw [ht, hv] at hroom
        obtain ⟨y, b', rfl⟩ := cons_of_pos (l := b) (by simp at hroom; omega)
        exact BackReady.one (d := { d with tp := d.tp + 1, len := d.len + 1 }) spares a c y b' ht hv ha htp
      | many mids spares a c1 c2 b hv hc1 ht hc2 ha htp =>
        rw [ht] at hroom
        obtain ⟨y, b', rfl⟩ := cons_of_pos (l := b) (by simp at hroom; omega)
        exact BackReady.many (d := { d with tp := d.tp + 1, len := d.len + 1 }) mids spares a c1 c2 y b' hv hc1 ht ha htp
    · rw [e]
      cases hst : store { d with tp := d.tp + 1, len := d.len + 1 } d.tail d.tp x with
      | none => rw [fastSlowPushBack, fastPushBack, if_neg (by simp [hnil]), if_pos hroom, hst]; rfl
      | some d' => rw [fastSlowPushBack, fastPushBack, if_neg (by simp [hnil]), if_pos hroom, hst]; rfl
  obtain ⟨L, sp, a, c1, hids, hlast, hv, hc1, ha, hcc, htp⟩ := hs.full hroom
  by_cases hsmall : d.tp < maxFirstSliceSize
  · have hlen1 : ids.length < 2 := by
      rcases Nat.lt_or_ge ids.length 2 with h | h
      · exact h
      · have := hc.big h _ hs.tail_mem
        unfold maxFirstSliceSize at hsmall; omega
    subst hids
    obtain rfl : L = [] := List.eq_nil_of_length_eq_zero (by simp at hlen1; omega)
    obtain rfl : sp = [] := List.eq_nil_of_length_eq_zero (by simp at hlen1; omega)
    have ht : d.tail = d.head := by simpa using hlast.symm
    have e : pushBack z d x = growTail z d x := by
      rw [pushBack, if_neg (by simp [hnil]), if_neg hroom, if_pos hsmall]
    have hpos := hc.pos d.head (by simp)
    simp only [List.flatMap_nil, List.append_nil] at hcc
    subst hcc
    constructor
    · rw [e, growTail]
      simp only [copyAt_zero z (d.mem d.tail).v ((d.mem d.tail).v.length * sliceGrowthFactor) (by unfold sliceGrowthFactor; omega)]
      obtain ⟨k, hk⟩ : ∃ k, (d.mem d.tail).v.length * sliceGrowthFactor - (d.mem d.tail).v.length = k + 1 :=
        ⟨(d.mem d.tail).v.length * 3 - 1, by rw [ht]; unfold sliceGrowthFactor; omega⟩
      rw [hk]
      refine back_finish (d := { d with mem := setV d.mem d.tail ((d.mem d.tail).v ++ List.replicate (k + 1) z), tp := d.tp + 1, hlp := ((d.mem d.tail).v ++ List.replicate (k + 1) z).length - 1, len := d.len + 1 }) (c := c) (i := d.tp) (ids := [d.head]) x ⟨by simp, ?_, ring_congr hc.ring (by simp), ?_, by simp, ?_⟩ ?_ rfl htz hnil (by simp [hlen]) rfl
      · intro y hy; exact hc.fresh y (by simpa using hy)
      · intro y hy; simp at hy; subst hy; simp [ht]; omega
      · simp [ht]; omega
      · refine BackReady.one (d := { d with mem := setV d.mem d.tail ((d.mem d.tail).v ++ List.replicate (k + 1) z), tp := d.tp + 1, hlp := ((d.mem d.tail).v ++ List.replicate (k + 1) z).length - 1, len := d.len + 1 })
          [] a c z (List.replicate k z) ht ?_ ha ?_
        · simp only [ht, setV_v, if_true, hv, List.replicate_succ]
        · simp only [htp, ht, hv]; simp; omega
    · rw [e]
      have hn : (d.mem d.tail).n = d.head := by rw [ht]; exact (ring_single hc.ring).1
      simp [fastSlowPushBack, fastPushBack, slowPushBack, hnil, hroom, hn, hsmall]
  by_cases hn : (d.mem d.tail).n = d.head
  · have e : pushBack z d x = newTail z d x := by
      rw [pushBack, if_neg (by simp [hnil]), if_neg hroom, if_neg hsmall, if_neg (by simp [hn])]
    have hsp : sp = [] := by
      cases sp with
      | nil => rfl
      | cons s sp =>
        exfalso
        obtain ⟨L', hL⟩ : ∃ L', d.head :: L = L' ++ [d.tail] := by
          rcases List.eq_nil_or_concat (d.head :: L) with e | ⟨L', t, e⟩
          · cases e
          · rw [List.concat_eq_append] at e
            rw [e, List.getLast?_concat] at hlast
            simp only [Option.some.injEq] at hlast
            exact ⟨L', by rw [e, hlast]⟩
        have h1 := hc.ring
        rw [hids, hL, List.append_assoc, List.singleton_append] at h1
        have h2 := (ring_adj h1).1
        rw [hn] at h2
        have h3 := hc.nodup
        rw [hids, ← h2] at h3
        simp at h3
    subst hsp
    rw [List.append_nil] at hids
    subst hids
    have htm : d.tail ∈ d.head :: L := List.mem_of_getLast? hlast
    have hne1 : d.head ≠ d.next := ne_of_next hc (by simp)
    have hne2 : d.tail ≠ d.next := ne_of_next hc htm
    have hnn : d.next ∉ d.head :: L := fun hm => ne_of_next hc hm rfl
    have hbig : ∀ x ∈ d.head :: L, 64 ≤ (d.mem x).v.length := by
      intro x hx
      rcases Nat.lt_or_ge (d.head :: L).length 2 with h2 | h2
      · obtain rfl : L = [] := List.eq_nil_of_length_eq_zero (by simp at h2; omega)
        have ht : d.tail = d.head := by simpa using hlast.symm
        simp at hx; subst hx
        unfold maxFirstSliceSize at hsmall; rw [← ht]; omega
      · exact hc.big h2 x hx
    constructor
    · rw [e, newTail]
      generalize hm : setP (setN (upd d.mem d.next ⟨List.replicate maxInternalSliceSize z, d.head, d.tail⟩) d.tail d.next) d.head d.next = mem'
      have hmemv : ∀ x ∈ d.head :: L, (mem' x).v = (d.mem x).v := by
        intro x hx
        have : x ≠ d.next := ne_of_next hc hx
        rw [← hm]; simp [upd, this]
      have hmn : (mem' d.next).v = z :: List.replicate 255 z := by
        rw [← hm]; simp only [setN_v, setP_v, upd_same]; rfl
      have hring : Ring mem' (d.head :: L ++ [d.next]) := by
        rw [← hm]
        exact ring_insert
          (x := d.next) hc.ring hc.nodup hlast (by simp [upd, Ne.symm hne2]) (by simp [upd, Ne.symm hne1])
          (by simp) (by simp) (by
            intro y hy hyt
            have : y ≠ d.next := ne_of_next hc hy
            simp [upd, hyt, this]) (by
            intro y hy hyt
            have : y ≠ d.next := ne_of_next hc hy
            simp [upd, hyt, this])
      refine back_finish (d := { d with mem := mem', next := d.next + 1, tail := d.next, tp := 1, len := d.len + 1 }) (c := c) (i := 0) (ids := d.head :: L ++ [d.next]) x ⟨?_, ?_, hring, ?_, ?_, ?_⟩ ?_ rfl htz hnil (by simp [hlen]) rfl
      · have := (List.perm_append_comm (l₁ := d.head :: L) (l₂ := [d.next])).nodup_iff
        exact this.2 (List.nodup_cons.2 ⟨hnn, hc.nodup⟩)
      · intro y hy
        rcases List.mem_append.1 hy with hy | hy
        · have := hc.fresh y hy; simp only; omega
        · simp at hy; simp [hy]
      · intro y hy
        rcases List.mem_append.1 hy with hy | hy
        · simp only; rw [hmemv y hy]; exact hc.pos y hy
        · simp only [List.mem_singleton] at hy; subst hy; simp only; rw [hmn, List.length_cons]; exact Nat.succ_pos _
      · intro _ y hy
        rcases List.mem_append.1 hy with hy | hy
        · simp only; rw [hmemv y hy]; exact hbig y hy
        · simp only [List.mem_singleton] at hy; subst hy; simp only; rw [hmn, List.length_cons, List.length_replicate]; omega
      · simp only; rw [hmemv _ (by simp)]; exact hc.hlp
      · have := BackReady.many (d := { d with mem := mem', next := d.next + 1, tail := d.next, tp := 1, len := d.len + 1 }) (i := 0)
          L [] a c1 [] z (List.replicate 255 z) (by simp only; rw [hmemv _ (by simp)]; exact hv) hc1 (by simp only; rw [hmn]; rfl) ha rfl
        simp only [List.append_nil] at this
        rw [flatMap_congr' (g := fun x => (d.mem x).v) (fun x hx => hmemv x (by simp [hx])), ← hcc] at this
        exact this
    · rw [e]
      simp [fastSlowPushBack, fastPushBack, slowPushBack, hnil, hroom, hn, hsmall]
  · have e : pushBack z d x = spareTail d x := by
      rw [pushBack, if_neg (by simp [hnil]), if_neg hroom, if_neg hsmall, if_pos hn]
    obtain ⟨L', hL⟩ : ∃ L', d.head :: L = L' ++ [d.tail] := by
      rcases List.eq_nil_or_concat (d.head :: L) with e | ⟨L', t, e⟩
      · cases e
      · rw [List.concat_eq_append] at e
        rw [e, List.getLast?_concat] at hlast
        simp only [Option.some.injEq] at hlast
        exact ⟨L', by rw [e, hlast]⟩
    constructor
    · cases sp with
      | nil =>
        exfalso
        rw [List.append_nil] at hids
        subst hids
        rcases List.eq_nil_or_concat L with rfl | ⟨L2, t, rfl⟩
        · have ht : d.tail = d.head := by simpa using hlast.symm
          exact hn (by rw [ht]; exact (ring_single hc.ring).1)
        · rw [List.concat_eq_append] at hlast hc
          rw [← List.cons_append, List.getLast?_concat] at hlast
          simp only [Option.some.injEq] at hlast
          exact hn (by rw [← hlast]; exact (ring_last hc.ring).1)
      | cons s sp =>
        have h1 := hc.ring
        rw [hids, hL, List.append_assoc, List.singleton_append] at h1
        have h2 := (ring_adj h1).1
        subst hids
        rw [e, spareTail]
        simp only [h2]
        obtain ⟨y, vs, hvs⟩ := cons_of_pos (hc.pos s (by simp))
        refine back_finish (d := { d with spare := d.spare - 1, tail := s, tp := 1, len := d.len + 1 }) (c := c) (i := 0) (ids := d.head :: L ++ s :: sp) x (hc.transfer (List.Perm.refl _) (Nat.le_refl _) hc.ring (fun _ _ => rfl) hc.hlp)
          ?_ rfl htz hnil (by simp [hlen]) rfl
        have := BackReady.many (d := { d with spare := d.spare - 1, tail := s, tp := 1, len := d.len + 1 }) (i := 0)
          L sp a c1 [] y vs hv hc1 hvs ha rfl
        simp only [List.append_nil] at this
        rw [← hcc] at this
        exact this
    · rw [e]
      cases hst : spareTail d x with
      | none => rw [fastSlowPushBack, fastPushBack, if_neg (by simp [hnil]), if_neg hroom, if_pos hn, hst]; rfl
      | some d' => rw [fastSlowPushBack, fastPushBack, if_neg (by simp [hnil]), if_neg hroom, if_pos hn, hst]; rfl

/-! ### Removals -/

/-- The two assignments that take a node out of the ring. -/
def unlink (mem : Nat → Node α) (x : Nat) : Nat → Node α :=
  setP (setN mem (mem x).p (mem x).n) ((setN mem (mem x).p (mem x).n) x).n
    ((setN mem (mem x).p (mem x).n) x).p

theorem unlink_v (mem : Nat → Node α) (x y : Nat) : (unlink mem x y).v = (mem y).v := by
  simp [unlink]

theorem unlink_ring {mem : Nat → Node α} {h y : Nat} {l : List Nat} (hr : Ring mem (h :: y :: l))
    (hnd : (h :: y :: l).Nodup) :
    Ring (unlink mem h) (y :: l) ∧ (unlink mem h h).n = y ∧ (unlink mem h h).p = (mem h).p := by
  have h1 := ring_first hr
  have hp : (mem h).p ≠ h := by
    rcases List.eq_nil_or_concat l with rfl | ⟨l', t, rfl⟩
    · have h2 := (ring_last (l := []) hr).2
      rw [h2]; intro e; subst e; simp at hnd
    · rw [List.concat_eq_append] at hr hnd
      have h2 := (ring_last (l := y :: l') hr).2
      rw [h2]; intro e; subst e; simp at hnd
  have hy : y ≠ h := by intro e; subst e; simp at hnd
  have hn1 : ((setN mem (mem h).p (mem h).n) h).n = y := by
    simp [Ne.symm hp, h1.1]
  have e1 : unlink mem h = setP (setN mem (mem h).p y) y (mem h).p := by
    rw [unlink, hn1, setN_p, h1.1]
  refine ⟨?_, ?_, ?_⟩
  · rw [e1]
    refine ring_remove hr hnd ?_ ?_ ?_ ?_
    · simp
    · simp
    · intro x hx hxp; simp [hxp]
    · intro x hx hxp; simp [hxp]
  · rw [e1]; simp [Ne.symm hp, h1.1]
  · rw [e1]; simp [Ne.symm hy]

theorem Shape.dropHead {d d2 : Dq α} {mids spares extra : List Nat} {c2 b : List α}
    (hv : ∀ x, (d2.mem x).v = (d.mem x).v) (hpos : ∀ x ∈ mids, 0 < (d.mem x).v.length)
    (hh : (mids ++ [d.tail]).head? = some d2.head) (ht : d2.tail = d.tail) (hhp : d2.hp = 0)
    (htp : d2.tp = c2.length) (hb : (d.mem d.tail).v = c2 ++ b) (hc2 : c2 ≠ []) :
    Shape d2 (mids ++ d.tail :: spares ++ extra) (mids.flatMap (fun x => (d.mem x).v) ++ c2) := by
  cases mids with
  | nil =>
    have hh : d2.head = d.tail := by simpa using hh.symm
    have := Shape.one (d := d2) (spares ++ extra) [] c2 b (by rw [ht, hh]) (by rw [hh, hv, hb]; simp)
      (by rw [hhp]; rfl) (by rw [hhp, htp]; simp) (by
        rw [hhp, hh, hv, hb]
        cases c2 with
        | nil => exact absurd rfl hc2
        | cons => simp)
    rw [hh] at this
    simpa using this
  | cons m ms =>
    have hh : d2.head = m := by simpa using hh.symm
    have := Shape.many (d := d2) ms (spares ++ extra) [] (d.mem m).v c2 b (by rw [hh, hv]; simp)
      (by intro e; have := hpos m (by simp); rw [e] at this; simp at this)
      (by rw [ht, hv, hb]) hc2 (by rw [hhp]; rfl) htp
    rw [hh, ht, flatMap_congr' (g := fun x => (d.mem x).v) (fun x _ => hv x)] at this
    simpa using this

theorem updatePopFront_spec {d : Dq α} {ids : List Nat} {c : List α} (hc : Core d ids)
    (hf : FrontReady d ids c) (htz : d.tz = true) (hnil : d.isNil = false) (hlen : d.len = c.length) :
    Rep (updatePopFront d) c := by
  have hhlp := hc.hlp
  by_cases hlt : d.hp < d.hlp
  · rw [updatePopFront, if_pos hlt]
    refine ⟨htz, hlen, Or.inr ⟨hnil, ids, hc.transfer (List.Perm.refl _) (Nat.le_refl _) hc.ring (fun _ _ => rfl) hc.hlp, ?_⟩⟩
    cases hf with
    | one spares a y _ b ht hv ha htp =>
      exact Shape.one (d := { d with hp := d.hp + 1 }) spares (a ++ [y]) c b ht (by simp [hv]) (by simp [ha])
        (by simp only; omega) (by simp only; omega)
    | many mids spares a y c1 c2 b hv ht hc2 ha htp =>
      refine Shape.many (d := { d with hp := d.hp + 1 }) mids spares (a ++ [y]) c1 c2 b (by simp [hv]) ?_ ht hc2 (by simp [ha]) htp
      intro e; subst e; rw [hv] at hhlp; simp at hhlp; omega
  · cases hf with
    | one spares a y _ b ht hv ha htp =>
      have hb : b = [] ∧ c = [] := by
        rw [hv] at hhlp; simp at hhlp
        exact ⟨length_eq_nil (by omega), length_eq_nil (by omega)⟩
      obtain ⟨rfl, rfl⟩ := hb
      rw [updatePopFront, if_neg hlt, if_pos ht.symm]
      refine ⟨htz, hlen, Or.inr ⟨hnil, _, hc.transfer (List.Perm.refl _) (Nat.le_refl _) hc.ring (fun _ _ => rfl) hc.hlp, ?_⟩⟩
      exact Shape.one (d := { d with tp := d.hp }) spares a [] [y] ht (by simp [hv]) ha (by simp)
        (by simp only; rw [hv]; simp; omega)
    | many mids spares a y c1 c2 b hv ht hc2 ha htp =>
      obtain ⟨hne, -⟩ := nodup_many hc.nodup
      obtain rfl : c1 = [] := by
        rw [hv] at hhlp; simp at hhlp
        exact length_eq_nil (by omega)
      obtain ⟨h', R, hR, hhd⟩ : ∃ h' R, mids ++ d.tail :: spares = h' :: R ∧ (mids ++ [d.tail]).head? = some h' := by
        cases mids with
        | nil => exact ⟨d.tail, spares, rfl, rfl⟩
        | cons m ms => exact ⟨m, ms ++ d.tail :: spares, rfl, rfl⟩
      have hposm : ∀ x ∈ mids, 0 < (d.mem x).v.length := fun x hx => hc.pos x (by simp [hx])
      rw [List.cons_append, hR] at hc
      have hn := (ring_first hc.ring).1
      rw [List.nil_append]
      by_cases hsp : maxSpareLinks ≤ d.spare
      · obtain ⟨u1, u2, u3⟩ := unlink_ring hc.ring hc.nodup
        have e : updatePopFront d = { d with hp := 0, mem := unlink d.mem d.head, head := h', hlp := (d.mem h').v.length - 1 } := by
          have : updatePopFront d = { d with hp := 0, mem := unlink d.mem d.head, head := (unlink d.mem d.head d.head).n, hlp := (unlink d.mem d.head (unlink d.mem d.head d.head).n).v.length - 1 } := by
            rw [updatePopFront, if_neg hlt, if_neg hne]
            simp only [if_pos hsp]
            rfl
          rw [this, u2, unlink_v]
        rw [e]
        refine ⟨htz, by simpa using hlen, Or.inr ⟨hnil, h' :: R, ⟨(List.nodup_cons.1 hc.nodup).2, ?_, u1, ?_, ?_, ?_⟩, ?_⟩⟩
        · intro x hx; exact hc.fresh x (List.mem_cons_of_mem _ hx)
        · intro x hx; simp only [unlink_v]; exact hc.pos x (List.mem_cons_of_mem _ hx)
        · intro hl x hx; simp only [unlink_v]; exact hc.big (by simp at hl ⊢) x (List.mem_cons_of_mem _ hx)
        · simp only [unlink_v]
          have := hc.pos h' (by simp); omega
        · have := Shape.dropHead (d := d) (d2 := { d with hp := 0, mem := unlink d.mem d.head, head := h', hlp := (d.mem h').v.length - 1 })
            (spares := spares) (extra := []) (fun x => unlink_v _ _ _) hposm hhd rfl rfl htp ht hc2
          rw [List.append_nil, hR] at this
          exact this
      · have e : updatePopFront d = { d with hp := 0, head := h', spare := d.spare + 1, hlp := (d.mem h').v.length - 1 } := by
          rw [updatePopFront, if_neg hlt, if_neg hne]
          simp only [if_neg hsp, hn]
        rw [e]
        refine ⟨htz, by simpa using hlen, Or.inr ⟨hnil, h' :: R ++ [d.head], hc.transfer ?_ (Nat.le_refl _) (ring_rotate1 hc.ring) (fun _ _ => rfl) ?_, ?_⟩⟩
        · exact List.perm_append_comm (l₂ := [d.head])
        · have := hc.pos h' (by simp); simp only; omega
        · have := Shape.dropHead (d := d) (d2 := { d with hp := 0, head := h', spare := d.spare + 1, hlp := (d.mem h').v.length - 1 })
            (spares := spares) (extra := [d.head]) (fun x => rfl) hposm hhd rfl rfl htp ht hc2
          rw [hR] at this
          exact this

theorem tryPopFront_nil (z : α) {d : Dq α} (h : Rep d []) : tryPopFront z d = some (d, z, false) := by
  rw [tryPopFront, if_pos (show d.len = 0 from h.len), if_pos h.tz]

theorem tryPopFront_cons (z : α) {d : Dq α} {y : α} {c : List α} (h : Rep d (y :: c)) :
    ∃ d', tryPopFront z d = some (d', y, true) ∧ Rep (updatePopFront d') c := by
  obtain ⟨htz, hlen, hs | ⟨hnil, ids, hc, hs⟩⟩ := h
  · exact absurd hs.2.1 (by simp)
  · obtain ⟨h1, h2⟩ := hs.emptyFront hc z (d.len - 1)
    have hl : d.len ≠ 0 := by rw [hlen]; simp
    have hlt : d.hp < (d.mem d.head).v.length := by
      rcases Nat.lt_or_ge d.hp (d.mem d.head).v.length with h | h
      · exact h
      · rw [List.getElem?_eq_none h] at h1; cases h1
    refine ⟨{ d with len := d.len - 1, mem := setV d.mem d.head ((d.mem d.head).v.set d.hp z) }, ?_, ?_⟩
    · rw [tryPopFront, if_neg hl, h1]
      simp only [htz, if_true]
      rw [store_eq (d := { d with len := d.len - 1, tz := true }) z hlt]
      simp
    · exact updatePopFront_spec (hc.store _ _ _ _) h2 htz hnil (by simp [hlen])

theorem popFront_eq (z : α) (d : Dq α) :
    popFront z d = (tryPopFront z d).map fun r => (if r.2.2 then updatePopFront r.1 else r.1, r.2) := by
  unfold popFront tryPopFront
  by_cases h0 : d.len = 0
  · rw [if_pos h0, if_pos h0]
    split <;> rfl
  · rw [if_neg h0, if_neg h0]
    cases (d.mem d.head).v[d.hp]? with
    | none => rfl
    | some v =>
      simp only
      split
      · rw [Option.map_map]
        congr 1
        funext d
        simp only [Function.comp, if_true, Prod.mk.injEq, and_true]
        unfold updatePopFront
        split
        · rfl
        · split
          · rfl
          · simp only
            split <;> rfl
      · rfl

theorem popBack_spec (z : α) {d : Dq α} {y : α} {c : List α} (h : Rep d (c ++ [y])) :
    ∃ d', popBack z d = some (d', y, true) ∧ Rep d' c := by
  obtain ⟨htz, hlen, hs | ⟨hnil, ids, hc, hs⟩⟩ := h
  · exact absurd hs.2.1 (by simp)
  obtain ⟨h0, h1, h2⟩ := hs.emptyBack hc z (d.len - 1)
  have hl : d.len ≠ 0 := by rw [hlen]; simp
  have hlt : d.tp - 1 < (d.mem d.tail).v.length := by
    rcases Nat.lt_or_ge (d.tp - 1) (d.mem d.tail).v.length with h | h
    · exact h
    · rw [List.getElem?_eq_none h] at h1; cases h1
  have hc1 : Core { d with len := d.len - 1, tp := d.tp - 1, mem := setV d.mem d.tail ((d.mem d.tail).v.set (d.tp - 1) z) } ids := by
    have := hc.store d.tail (d.tp - 1) (d.len - 1) z
    exact this.transfer (List.Perm.refl _) (Nat.le_refl _) this.ring (fun _ _ => rfl) this.hlp
  generalize hd1 : ({ d with len := d.len - 1, tp := d.tp - 1, mem := setV d.mem d.tail ((d.mem d.tail).v.set (d.tp - 1) z) } : Dq α) = d1 at hc1 h2
  have e : popBack z d = some ((if 0 < d1.tp then d1
            else if d1.head = d1.tail then d1
            else if maxSpareLinks ≤ d1.spare then
              { d1 with mem := unlink d1.mem d1.tail, tail := (unlink d1.mem d1.tail d1.tail).p, tp := (unlink d1.mem d1.tail (unlink d1.mem d1.tail d1.tail).p).v.length }
            else
              { d1 with spare := d1.spare + 1, tail := (d1.mem d1.tail).p, tp := (d1.mem (d1.mem d1.tail).p).v.length }), y, true) := by
    rw [popBack, if_neg hl, if_neg (by omega)]
    simp only [h1]
    rw [if_pos htz, store_eq (d := { d with len := d.len - 1, tp := d.tp - 1 }) z hlt, ← hd1]
    rfl
  rw [e]
  refine ⟨_, rfl, ?_⟩
  have f1 : d1.tz = true := by rw [← hd1]; exact htz
  have f2 : d1.isNil = false := by rw [← hd1]; exact hnil
  have f3 : d1.len = c.length := by rw [← hd1]; simp [hlen]
  have f4 : d1.tp = d.tp - 1 := by rw [← hd1]
  rw [← f4] at h2
  clear hd1 e hs h1 hlt
  cases h2 with
  | one spares a _ y b ht hv ha hi =>
    have : (if 0 < d1.tp then d1
            else if d1.head = d1.tail then d1
            else if maxSpareLinks ≤ d1.spare then
              { d1 with mem := unlink d1.mem d1.tail, tail := (unlink d1.mem d1.tail d1.tail).p, tp := (unlink d1.mem d1.tail (unlink d1.mem d1.tail d1.tail).p).v.length }
            else
              { d1 with spare := d1.spare + 1, tail := (d1.mem d1.tail).p, tp := (d1.mem (d1.mem d1.tail).p).v.length }) = d1 := by
      rw [if_pos ht.symm]; simp
    rw [this]
    exact ⟨f1, f3, Or.inr ⟨f2, _, hc1, Shape.one spares a c (y :: b) ht hv ha hi (by rw [hv]; simp; omega)⟩⟩
  | many mids spares a c1 c2 y b hv hc1' ht ha hi =>
    by_cases hpos : 0 < d1.tp
    · rw [if_pos hpos]
      refine ⟨f1, f3, Or.inr ⟨f2, _, hc1, Shape.many mids spares a c1 c2 (y :: b) hv hc1' ht ?_ ha hi⟩⟩
      intro e; subst e; simp at hi; omega
    obtain ⟨hne, -⟩ := nodup_many hc1.nodup
    rw [if_neg hpos, if_neg hne]
    obtain rfl : c2 = [] := length_eq_nil (by omega)
    rw [List.append_nil] at f3 ⊢
    obtain ⟨R, t, hR⟩ : ∃ R t, d1.head :: mids = R ++ [t] := by
      rcases List.eq_nil_or_concat (d1.head :: mids) with e | ⟨R, t, e⟩
      · cases e
      · exact ⟨R, t, by rw [e, List.concat_eq_append]⟩
    have htp' : (d1.mem d1.tail).p = t := by
      have := hc1.ring
      rw [hR, List.append_assoc, List.singleton_append] at this
      exact (ring_adj this).2
    have shape : ∀ (d2 : Dq α) (sp : List Nat), (∀ x, (d2.mem x).v = (d1.mem x).v) → d2.head = d1.head →
        d2.tail = t → d2.hp = d1.hp → d2.tp = (d1.mem t).v.length →
        Shape d2 (d1.head :: mids ++ sp) (c1 ++ mids.flatMap (fun x => (d1.mem x).v)) := by
      intro d2 sp g1 g2 g3 g4 g5
      rcases List.eq_nil_or_concat mids with rfl | ⟨ms, m, rfl⟩
      · have : t = d1.head := by
          have := congrArg List.getLast? hR
          rw [List.getLast?_concat] at this
          simpa using this.symm
        subst this
        have := Shape.one (d := d2) sp a c1 [] (by rw [g3, g2]) (by rw [g2, g1, hv]; simp) (by rw [g4, ha])
          (by rw [g5, g4, hv]; simp [ha]) (by
            rw [g4, g2, g1, hv, ← ha]
            cases c1 with
            | nil => exact absurd rfl hc1'
            | cons => simp)
        rw [g2] at this
        simpa using this
      · rw [List.concat_eq_append] at *
        have : t = m := by
          have := congrArg List.getLast? hR
          rw [← List.cons_append, List.getLast?_concat, List.getLast?_concat] at this
          simpa using this.symm
        subst this
        have hne : (d1.mem t).v ≠ [] := by
          intro e
          have := hc1.pos t (by simp)
          rw [e] at this; simp at this
        have := Shape.many (d := d2) ms sp a c1 (d1.mem t).v [] (by rw [g2, g1, hv]) hc1' (by rw [g3, g1]; simp)
          hne (by rw [g4, ha]) g5
        rw [g2, g3, flatMap_congr' (g := fun x => (d1.mem x).v) (fun x _ => g1 x)] at this
        simpa using this
    by_cases hsp : maxSpareLinks ≤ d1.spare
    · rw [if_pos hsp]
      have hr : Ring d1.mem (d1.tail :: (spares ++ d1.head :: mids)) := by
        have := ring_rotate (l1 := d1.head :: mids) (l2 := d1.tail :: spares) hc1.ring
        simpa using this
      have hnd : (d1.tail :: (spares ++ d1.head :: mids)).Nodup := by
        have := (List.perm_append_comm (l₁ := d1.head :: mids) (l₂ := d1.tail :: spares)).nodup_iff.1 hc1.nodup
        simpa using this
      obtain ⟨y', l', hyl⟩ : ∃ y' l', spares ++ d1.head :: mids = y' :: l' := by
        cases spares with
        | nil => exact ⟨_, _, rfl⟩
        | cons s sp => exact ⟨_, _, rfl⟩
      rw [hyl] at hr hnd
      obtain ⟨u1, u2, u3⟩ := unlink_ring hr hnd
      rw [← hyl] at u1 hnd
      rw [u3, htp', unlink_v]
      have hsub : ∀ x ∈ d1.head :: mids ++ spares, x ∈ d1.head :: mids ++ d1.tail :: spares := by
        intro x hx; simp at hx ⊢; tauto
      refine ⟨f1, f3, Or.inr ⟨f2, d1.head :: mids ++ spares, ⟨?_, ?_, ring_rotate u1, ?_, ?_, ?_⟩, ?_⟩⟩
      · exact (List.perm_append_comm (l₁ := spares) (l₂ := d1.head :: mids)).nodup_iff.1 (List.nodup_cons.1 hnd).2
      · intro x hx; exact hc1.fresh x (hsub x hx)
      · intro x hx; simp only [unlink_v]; exact hc1.pos x (hsub x hx)
      · intro hl x hx; simp only [unlink_v]; exact hc1.big (by simp at hl ⊢; omega) x (hsub x hx)
      · simp only [unlink_v]; exact hc1.hlp
      · exact shape { d1 with mem := unlink d1.mem d1.tail, tail := t, tp := (d1.mem t).v.length } spares
          (fun x => unlink_v _ _ _) rfl rfl rfl rfl
    · rw [if_neg hsp, htp']
      refine ⟨f1, f3, Or.inr ⟨f2, d1.head :: mids ++ d1.tail :: spares, hc1.transfer (List.Perm.refl _) (Nat.le_refl _) hc1.ring (fun _ _ => rfl) hc1.hlp, ?_⟩⟩
      exact shape { d1 with spare := d1.spare + 1, tail := t, tp := (d1.mem t).v.length } (d1.tail :: spares)
        (fun x => rfl) rfl rfl rfl rfl

theorem front_spec (z : α) {d : Dq α} {c : List α} (h : Rep d c) :
    front z d = some (match c with | [] => (z, false) | y :: _ => (y, true)) := by
  cases c with
  | nil => rw [front, if_pos (show d.len = 0 from h.len), if_pos h.tz]
  | cons y c =>
    have hl : d.len ≠ 0 := by rw [h.len]; simp
    obtain ⟨htz, hlen, hs | ⟨hnil, ids, hc, hs⟩⟩ := h
    · exact absurd hs.2.1 (by simp)
    · rw [front, if_neg hl, (hs.emptyFront hc z 0).1]; rfl

theorem back_spec (z : α) {d : Dq α} {c : List α} (h : Rep d c) :
    back z d = some (match c.getLast? with | none => (z, false) | some y => (y, true)) := by
  rcases List.eq_nil_or_concat c with rfl | ⟨c, y, rfl⟩
  · rw [back, if_pos (show d.len = 0 from h.len), if_pos h.tz]; rfl
  · rw [List.concat_eq_append] at *
    have hl : d.len ≠ 0 := by rw [h.len]; simp
    obtain ⟨htz, hlen, hs | ⟨hnil, ids, hc, hs⟩⟩ := h
    · exact absurd hs.2.1 (by simp)
    · have := hs.emptyBack hc z 0
      rw [back, if_neg hl, if_neg (by omega), this.2.1, List.getLast?_concat]; rfl

end Verif.Deque
