import Verif.IdsLemmas

/-!
# C18, C19, C20: ids, event words, whole-graph iteration

The specifications speak about natural numbers: thread numbers, offsets, event indexes.
-/

namespace Verif.Props.Ids
open Verif.Ids

/-- C18: an id made for offset `i` of thread `t` decodes to exactly that offset and thread. -/
theorem C18_id_decodes (t i : UInt32) (ht : t.toNat < 32) (hi : i.toNat < 2 ^ 27) :
    internalExpand (newVidx t i) = (i, t) := by
  have h := newVidx_toNat ht hi
  refine Prod.ext (UInt32.toNat_inj.1 ?_) (UInt32.toNat_inj.1 ?_)
  · rw [expand_fst, h]; show _ = i.toNat; omega
  · rw [expand_snd, h]; show _ = t.toNat; omega

example : internalExpand (newVidx 31 134217727) = (134217727, 31) :=
  C18_id_decodes _ _ (by decide) (by decide)

/-- C18: distinct (thread, offset) pairs have distinct ids. -/
theorem C18_id_injective (t i t' i' : UInt32) (ht : t.toNat < 32) (hi : i.toNat < 2 ^ 27)
    (ht' : t'.toNat < 32) (hi' : i'.toNat < 2 ^ 27) (h : newVidx t i = newVidx t' i') :
    t = t' ∧ i = i' := by
  have h1 := C18_id_decodes t i ht hi
  rw [h, C18_id_decodes t' i' ht' hi'] at h1
  simp only [Prod.mk.injEq] at h1
  exact ⟨h1.2.symm, h1.1.symm⟩

example (h : newVidx 3 7 = newVidx 3 7) : (3 : UInt32) = 3 ∧ (7 : UInt32) = 7 :=
  C18_id_injective _ _ _ _ (by decide) (by decide) (by decide) (by decide) h

/-- C18: every 32-bit word is the id of exactly the pair it decodes to, and its parts are in
range (so decoding never addresses a thread beyond 31). -/
theorem C18_id_onto (x : UInt32) :
    (internalExpand x).2.toNat < 32 ∧ (internalExpand x).1.toNat < 2 ^ 27 ∧
      newVidx (internalExpand x).2 (internalExpand x).1 = x := by
  have hx : x.toNat < 2 ^ 32 := x.toNat_lt
  have h1 := expand_fst x
  have h2 := expand_snd x
  refine ⟨by omega, by omega, ?_⟩
  apply UInt32.toNat_inj.1
  rw [newVidx_toNat (by omega) (by omega), h1, h2]; omega

example : newVidx 5 9 = 671088649 ∧ internalExpand 671088649 = (9, 5) := by decide

/-- C18: the id built with `|` while iterating is the id given at creation. -/
theorem C18_or_is_add (t i : UInt32) (ht : t.toNat < 32) (hi : i.toNat < 2 ^ 27) :
    orVidx t i = newVidx t i := orVidx_eq ht hi

example : orVidx 4 17 = newVidx 4 17 := C18_or_is_add _ _ (by decide) (by decide)

/-- C18: the same-thread test is exact. -/
theorem C18_sameTidx_iff (a b : UInt32) :
    sameTidx a b = true ↔ (internalExpand a).2 = (internalExpand b).2 := by
  rw [sameTidx, beq_iff_eq, ← UInt32.toNat_inj, ← UInt32.toNat_inj, threadIdMask_and,
    threadIdMask_and, expand_snd, expand_snd]
  omega

example : sameTidx (newVidx 6 1) (newVidx 6 99) = true ∧ sameTidx (newVidx 6 1) (newVidx 7 1) = false := by
  decide

/-- C18: bucket addressing is a bijection onto (bucket, position < 4096). -/
theorem C18_bucket_bijection :
    (∀ x : UInt32, (idxToBucket x).2.toNat < 4096 ∧
      (idxToBucket x).1.toNat * 4096 + (idxToBucket x).2.toNat = x.toNat) ∧
    (∀ x y : UInt32, idxToBucket x = idxToBucket y → x = y) ∧
    (∀ b p : Nat, p < 4096 → b < 2 ^ 20 →
      ∃ x : UInt32, (idxToBucket x).1.toNat = b ∧ (idxToBucket x).2.toNat = p) := by
  refine ⟨fun x => ?_, fun x y h => ?_, fun b p hp hb => ?_⟩
  · have h1 := bucket_fst x
    have h2 := bucket_snd x
    omega
  · have h1 := bucket_fst x
    have h2 := bucket_snd x
    have h3 := bucket_fst y
    have h4 := bucket_snd y
    rw [h] at h1 h2
    apply UInt32.toNat_inj.1
    omega
  · refine ⟨UInt32.ofNat (b * 4096 + p), ?_, ?_⟩
    · rw [bucket_fst, UInt32.toNat_ofNat']; omega
    · rw [bucket_snd, UInt32.toNat_ofNat']; omega

example : idxToBucket 4096 = (1, 0) ∧ idxToBucket 8191 = (1, 4095) := by decide

/-- C19: stamping a parsed event (two type bits) with an event index keeps both readable. -/
theorem C19_stamp_roundtrip (ty idx : UInt64) (hty : ty.toNat < 4) (hi : idx.toNat < 2 ^ 62) :
    eventType (stamp ty idx) = ty ∧ eventIdx (stamp ty idx) = idx := by
  have h := stamp_toNat hty hi
  refine ⟨UInt64.toNat_inj.1 ?_, UInt64.toNat_inj.1 ?_⟩
  · rw [eventType_toNat, h]; omega
  · rw [eventIdx_toNat, h]; omega

example : eventType (stamp 1 4611686018427387903) = 1 ∧
    eventIdx (stamp 1 4611686018427387903) = 4611686018427387903 :=
  C19_stamp_roundtrip _ _ (by decide) (by decide)

/-- C19: the mirrored event of an undirected stream keeps the type and gets the new index,
whatever index the original word carried. -/
theorem C19_mirror_roundtrip (w idx : UInt64) (hi : idx.toNat < 2 ^ 62) :
    eventType (mirrorWord w idx) = eventType w ∧ eventIdx (mirrorWord w idx) = idx := by
  rw [mirrorWord_eq]
  exact C19_stamp_roundtrip _ _ (by rw [eventType_toNat]; omega) hi

example : mirrorWord (stamp 1 41) 42 = stamp 1 42 := by decide

/-- C19: the bound is sharp: the index `2^62` is not recoverable. -/
theorem C19_bound_sharp : eventIdx (stamp 0 4611686018427387904) ≠ 4611686018427387904 := by
  decide +kernel

/-- Specification of an enumeration: thread by thread, offset by offset. -/
def inOrder {β : Type} (threads : List (List β)) : List (Nat × Nat × β) :=
  threads.zipIdx.flatMap (fun p => p.1.zipIdx.map (fun q => (p.2, q.2, q.1)))

/-- C20: `NodeForEachVertex` presents every vertex once, in order, with the id that decodes to
its thread and offset, and with ordinals 0, 1, ..., |V|-1. -/
theorem C20_forEach_exact {β : Type} (threads : List (List β)) (ht : threads.length ≤ 32)
    (hl : ∀ vs ∈ threads, vs.length ≤ 2 ^ 27) (hn : threads.flatten.length < 2 ^ 32) :
    (forEachVertex threads 0 0).map (fun e =>
        ((internalExpand e.2.1).2.toNat, (internalExpand e.2.1).1.toNat, e.2.2)) =
      inOrder threads ∧
    (forEachVertex threads 0 0).map (fun e => e.1.toNat) = List.range threads.flatten.length := by
  have h0 : (0 : UInt32).toNat = 0 := rfl
  have h := forEachVertex_spec threads 0 0 (by omega) hl (by omega)
  rw [List.range_eq_range']
  exact h

example : (forEachVertex [["a", "b"], [], ["c"]] 0 0) =
    [(0, newVidx 0 0, "a"), (1, newVidx 0 1, "b"), (2, newVidx 2 0, "c")] := by decide

example := C20_forEach_exact [["a", "b"], [], ["c"]] (by decide) (by decide) (by decide)

/-- C20: using `ordinalStart + i` and `threadOffset | i` inside `NodeParallelFor`'s applicator
gives exactly the same (ordinal, id, vertex) triples as `NodeForEachVertex`. -/
theorem C20_parallelFor_agrees {β : Type} (threads : List (List β))
    (hl : ∀ vs ∈ threads, vs.length ≤ 2 ^ 27) :
    ((parallelStarts threads 0 0).zip threads).flatMap (fun p =>
      p.2.zipIdx.map (fun q => (p.1.1 + UInt32.ofNat q.2, p.1.2 ||| UInt32.ofNat q.2, q.1))) =
    forEachVertex threads 0 0 :=
  parallelStarts_spec threads 0 0 (fun vs h => Nat.lt_of_le_of_lt (hl vs h) (by decide))

example := C20_parallelFor_agrees [[1, 2], [], [3]] (by decide)

end Verif.Props.Ids
