import Verif.Ids
import Verif.Util

/-! Helper lemmas for ids: machine words to natural-number arithmetic. -/

namespace Verif.Ids

theorem shl27 (t : UInt32) : (t <<< threadShift).toNat = t.toNat * 2 ^ 27 % 2 ^ 32 := by
  simp [threadShift, UInt32.toNat_shiftLeft, Nat.shiftLeft_eq]

theorem shl27_lt {t : UInt32} (ht : t.toNat < 32) : (t <<< threadShift).toNat = t.toNat * 2 ^ 27 := by
  rw [shl27]; omega

theorem newVidx_toNat {t i : UInt32} (ht : t.toNat < 32) (hi : i.toNat < 2 ^ 27) :
    (newVidx t i).toNat = t.toNat * 2 ^ 27 + i.toNat := by
  rw [newVidx, UInt32.toNat_add, shl27_lt ht]; omega

theorem orVidx_eq {t i : UInt32} (ht : t.toNat < 32) (hi : i.toNat < 2 ^ 27) :
    orVidx t i = newVidx t i := by
  apply UInt32.toNat_inj.1
  rw [newVidx_toNat ht hi, orVidx, UInt32.toNat_or, shl27_lt ht, Nat.mul_comm,
    ← Nat.two_pow_add_eq_or_of_lt hi]

theorem expand_fst (x : UInt32) : (internalExpand x).1.toNat = x.toNat % 2 ^ 27 := by
  have : threadMask.toNat = 2 ^ 27 - 1 := by decide
  simp only [internalExpand, UInt32.toNat_and, this, Nat.and_two_pow_sub_one_eq_mod]

theorem expand_snd (x : UInt32) : (internalExpand x).2.toNat = x.toNat / 2 ^ 27 := by
  simp [internalExpand, threadShift, UInt32.toNat_shiftRight, Nat.shiftRight_eq_div_pow]

theorem threadIdMask_and (x : UInt32) :
    (x &&& threadIdMask).toNat = (x.toNat / 2 ^ 27) * 2 ^ 27 := by
  have hm : threadIdMask.toNat = (2 ^ 5 - 1) <<< 27 := by decide
  rw [UInt32.toNat_and, hm]
  have hx : x.toNat < 2 ^ 32 := x.toNat_lt
  apply Nat.eq_of_testBit_eq
  intro j
  rw [Nat.testBit_and, Nat.testBit_shiftLeft, Nat.testBit_mul_two_pow, Nat.testBit_div_two_pow,
    Nat.testBit_two_pow_sub_one]
  by_cases h1 : 27 ≤ j
  · have : 27 + (j - 27) = j := by omega
    have h2 : j - 27 + 27 = j := by omega
    by_cases h3 : j - 27 < 5
    · simp [h1, h2, h3]
    · have : x.toNat.testBit j = false := by
        apply Nat.testBit_lt_two_pow
        calc x.toNat < 2 ^ 32 := hx
          _ ≤ 2 ^ j := Nat.pow_le_pow_right (by omega) (by omega)
      simp [h1, h2, h3, this]
  · simp [h1]

theorem bucket_fst (x : UInt32) : (idxToBucket x).1.toNat = x.toNat / 2 ^ 12 := by
  simp [idxToBucket, bucketShift, UInt32.toNat_shiftRight, Nat.shiftRight_eq_div_pow]

theorem bucket_snd (x : UInt32) : (idxToBucket x).2.toNat = x.toNat % 2 ^ 12 := by
  have : bucketMask.toNat = 2 ^ 12 - 1 := by decide
  simp only [idxToBucket, UInt32.toNat_and, this, Nat.and_two_pow_sub_one_eq_mod]

theorem eventType_toNat (w : UInt64) : (eventType w).toNat = w.toNat % 4 := by
  have : eventTypeMask.toNat = 2 ^ 2 - 1 := by decide
  simp only [eventType, UInt64.toNat_and, this, Nat.and_two_pow_sub_one_eq_mod]

theorem eventIdx_toNat (w : UInt64) : (eventIdx w).toNat = w.toNat / 4 := by
  simp [eventIdx, UInt64.toNat_shiftRight, Nat.shiftRight_eq_div_pow]

theorem stamp_toNat {w idx : UInt64} (hw : w.toNat < 4) (hi : idx.toNat < 2 ^ 62) :
    (stamp w idx).toNat = idx.toNat * 4 + w.toNat := by
  have h1 : (idx <<< 2).toNat = idx.toNat * 4 := by
    have : (idx <<< 2).toNat = idx.toNat * 4 % 2 ^ 64 := by
      simp [UInt64.toNat_shiftLeft, Nat.shiftLeft_eq]
    omega
  rw [stamp, UInt64.toNat_or, h1, Nat.or_comm, Nat.mul_comm,
    show (4 : Nat) = 2 ^ 2 from rfl, ← Nat.two_pow_add_eq_or_of_lt hw]

theorem mirrorWord_eq (w idx : UInt64) : mirrorWord w idx = stamp (eventType w) idx := rfl

theorem eachInThread_spec {β : Type} (t : UInt32) (ht : t.toNat < 32) (vs : List β) (i c : UInt32)
    (hi : i.toNat + vs.length ≤ 2 ^ 27) (hc : c.toNat + vs.length < 2 ^ 32) :
    (eachInThread t vs i c).2.toNat = c.toNat + vs.length ∧
    (eachInThread t vs i c).1.map (fun e => (e.1.toNat, e.2.1.toNat, e.2.2)) =
      vs.zipIdx.map (fun p => (c.toNat + p.2, t.toNat * 2 ^ 27 + (i.toNat + p.2), p.1)) := by
  induction vs generalizing i c with
  | nil => simp [eachInThread]
  | cons v vs ih =>
    simp only [List.length_cons] at hi hc
    have h1 : (i + 1).toNat = i.toNat + 1 := by
      have : (1 : UInt32).toNat = 1 := rfl
      rw [UInt32.toNat_add, this]; omega
    have h2 : (c + 1).toNat = c.toNat + 1 := by
      have : (1 : UInt32).toNat = 1 := rfl
      rw [UInt32.toNat_add, this]; omega
    obtain ⟨iha, ihb⟩ := ih (i + 1) (c + 1) (by omega) (by omega)
    simp only [eachInThread]
    refine ⟨by rw [iha, h2]; simp only [List.length_cons]; omega, ?_⟩
    rw [List.map_cons, ihb, List.zipIdx_cons, List.map_cons, orVidx_eq ht (by omega),
      newVidx_toNat ht (by omega), h1, h2]
    congr 1
    rw [List.zipIdx_succ, List.map_map]
    apply List.map_congr_left
    intro p _
    simp only [Function.comp]
    ext <;> simp <;> omega

end Verif.Ids

namespace Verif.Ids

theorem succ_toNat {c : UInt32} (h : c.toNat + 1 < 2 ^ 32) : (c + 1).toNat = c.toNat + 1 := by
  have : (1 : UInt32).toNat = 1 := rfl
  rw [UInt32.toNat_add, this]; omega

theorem forEachVertex_spec {β : Type} (threads : List (List β)) (t c : UInt32)
    (ht : t.toNat + threads.length ≤ 32) (hl : ∀ vs ∈ threads, vs.length ≤ 2 ^ 27)
    (hc : c.toNat + threads.flatten.length < 2 ^ 32) :
    (forEachVertex threads t c).map (fun e =>
        ((internalExpand e.2.1).2.toNat, (internalExpand e.2.1).1.toNat, e.2.2)) =
      ((threads.zipIdx t.toNat).flatMap (fun p => p.1.zipIdx.map (fun q => (p.2, q.2, q.1)))) ∧
    (forEachVertex threads t c).map (fun e => e.1.toNat) =
      List.range' c.toNat threads.flatten.length := by
  induction threads generalizing t c with
  | nil => simp [forEachVertex]
  | cons vs ts ih =>
    simp only [List.length_cons, List.flatten_cons, List.length_append] at ht hc
    have hvs : vs.length ≤ 2 ^ 27 := hl vs (by simp)
    have e0 : (0 : UInt32).toNat = 0 := rfl
    obtain ⟨h1, h2⟩ := eachInThread_spec t (by omega) vs 0 c (by omega) (by omega)
    have hi := ih (t + 1) (eachInThread t vs 0 c).2
      (by rw [succ_toNat (by omega)]; omega) (fun w hw => hl w (by simp [hw])) (by rw [h1]; omega)
    rw [succ_toNat (by omega), h1] at hi
    simp only [forEachVertex, List.map_append, hi.1, hi.2, List.zipIdx_cons, List.flatMap_cons,
      List.flatten_cons, List.length_append]
    constructor
    · congr 1
      have := congrArg (List.map (fun e : Nat × Nat × β => (e.2.1 / 2 ^ 27, e.2.1 % 2 ^ 27, e.2.2))) h2
      rw [List.map_map, List.map_map] at this
      simp only [expand_fst, expand_snd]
      refine Eq.trans ?_ (this.trans ?_)
      · rfl
      · apply List.map_congr_left
        intro p hp
        have hlt : p.2 < vs.length := by
          have := List.snd_lt_of_mem_zipIdx (x := p) hp; omega
        have : (t.toNat * 2 ^ 27 + (0 + p.2)) / 2 ^ 27 = t.toNat := by omega
        have h4 : (t.toNat * 2 ^ 27 + (0 + p.2)) % 2 ^ 27 = p.2 := by omega
        simp only [Function.comp, e0, this, h4]
    · have := congrArg (List.map (fun e : Nat × Nat × β => e.1)) h2
      rw [List.map_map, List.map_map] at this
      have e1 : (eachInThread t vs 0 c).1.map (fun e => e.1.toNat) = List.range' c.toNat vs.length := by
        refine Eq.trans ?_ (this.trans ?_)
        · rfl
        · show List.map ((fun n => c.toNat + n) ∘ Prod.snd) vs.zipIdx = _
          rw [← List.map_map, List.zipIdx_map_snd]
          rw [List.map_add_range']; simp
      rw [e1, ← List.range'_append]; simp

theorem parallelStarts_spec {β : Type} (threads : List (List β)) (t c : UInt32)
    (hl : ∀ vs ∈ threads, vs.length < 2 ^ 32) :
    ((parallelStarts threads t c).zip threads).flatMap (fun p =>
      p.2.zipIdx.map (fun q => (p.1.1 + UInt32.ofNat q.2, p.1.2 ||| UInt32.ofNat q.2, q.1))) =
    forEachVertex threads t c := by
  induction threads generalizing t c with
  | nil => simp [parallelStarts, forEachVertex]
  | cons vs ts ih =>
    have aux : ∀ (vs : List β) (i c : UInt32), eachInThread t vs i c =
        (vs.zipIdx.map (fun q => (c + UInt32.ofNat q.2, (t <<< threadShift) ||| (i + UInt32.ofNat q.2), q.1)),
         c + UInt32.ofNat vs.length) := by
      intro vs
      induction vs with
      | nil => intro i c; simp [eachInThread]
      | cons v vs ihv =>
        intro i c
        simp only [eachInThread, ihv, List.zipIdx_cons, List.map_cons, List.length_cons, orVidx,
          List.zipIdx_succ, List.map_map]
        have hh : ∀ (a : UInt32) (n : Nat), a + 1 + UInt32.ofNat n = a + UInt32.ofNat (n + 1) := by
          intro a n
          apply UInt32.toNat_inj.1
          simp [UInt32.toNat_add, UInt32.toNat_ofNat']
          omega
        ext1
        · simp only
          congr 1
          · simp
          · apply List.map_congr_left
            intro p _
            simp [hh]
        · simp only [hh]
    simp only [parallelStarts, forEachVertex, List.zip_cons_cons, List.flatMap_cons,
      ih (t + 1) _ (fun w hw => hl w (by simp [hw])), aux vs 0 c]
    congr 1
    simp

end Verif.Ids
