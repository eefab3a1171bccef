import Verif.Buckets

/-!
# C83: mailboxes can be used while vertices are made
-/

namespace Verif.Props.Buckets

open Verif Verif.Buckets

/-- Buckets that were there before the present `append`. -/
def before (s : St) : Nat := match s.owner with | .app a => a.pos | _ => s.len

/-- What holds of the owner's position. -/
def OwnerOk (B : Nat) (s : St) : Prop :=
  match s.owner with
  | .idle => s.buckets = s.len
  | .fill => s.buckets = s.len ∧ s.count / B < s.len
  | .app a => s.buckets = a.pos + 1 ∧ a.arr < s.arrays ∧ (∀ k, k < a.pos → s.slot a.arr k = k) ∧ a.pos < s.cap a.arr ∧
      (s.len = if a.wLen then a.pos else a.pos + 1) ∧ (a.wPtr = false → s.ptr = a.arr) ∧ (a.wSlot = false → s.slot a.arr a.pos = a.pos) ∧
      (a.wPtr || a.wLen || a.wSlot) = true ∧ s.count / B = a.pos

structure Inv (B : Nat) (s : St) : Prop where
  calm : s.panic = false
  owner : OwnerOk B s
  ptr : s.ptr < s.arrays
  slots : ∀ k, k < before s → s.slot s.ptr k = k
  room : before s ≤ s.cap s.ptr
  counted : s.count ≤ before s * B
  readers : ∀ t r, s.reader t = some r → r.idx < s.count ∧ (∀ p, r.ptr = some p → p < s.arrays ∧ s.slot p (r.idx / B) = r.idx / B ∧ r.idx / B < s.cap p) ∧
    ∀ n, r.len = some n → r.idx / B < n
  mail : ∀ v, v < s.count → s.got v ++ s.box (v / B, v % B) = s.sent v
  fresh : ∀ v, s.count ≤ v → s.sent v = [] ∧ s.got v = []

theorem inv_start (B c : Nat) : Inv B (start c) := by
  refine ⟨rfl, rfl, by simp [start], ?_, ?_, ?_, ?_, ?_, ?_⟩
  · intro k h; simp [start, before] at h
  · simp [start, before]
  · simp [start, before]
  · intro t r h; simp [start] at h
  · intro v h; simp [start] at h
  · intro v _; exact ⟨rfl, rfl⟩

theorem place_inj {B v w : Nat} (h : (v / B, v % B) = (w / B, w % B)) : v = w := by
  injection h with h1 h2
  rw [← Nat.div_add_mod v B, ← Nat.div_add_mod w B, h1, h2]

theorem div_lt {B v n : Nat} (h : v < n * B) : v / B < n := Nat.div_lt_of_lt_mul (by rw [Nat.mul_comm]; exact h)

theorem before_le {B : Nat} {s : St} (h : OwnerOk B s) : before s ≤ s.len := by
  unfold before OwnerOk at *
  split at h <;> simp_all
  split <;> omega

/-- A mailbox is found where it belongs. -/
theorem find_ok {B : Nat} {s : St} (h : Inv B s) {v : Nat} (hv : v / B < before s) : find s B s.ptr s.len v = some (v / B, v % B) := by
  have h1 := before_le h.owner
  have h2 := h.room
  have h3 := h.slots _ hv
  unfold find bucketOf
  rw [if_pos ⟨by simp only; omega, by simp only; omega⟩]
  simp only [h3]

theorem inv_begin {B : Nat} (hB : 0 < B) {s : St} (h : Inv B s) (hi : s.owner = .idle) (extra : Nat) : Inv B (begin B extra s) := by
  have ho := h.owner
  have hb : before s = s.len := by unfold before; rw [hi]
  have h1 := h.slots; have h2 := h.room; have h3 := h.counted; have h4 := h.readers; have h5 := h.ptr
  rw [hb] at h1 h2 h3
  unfold OwnerOk at ho
  rw [hi] at ho
  unfold begin bucketOf
  dsimp only
  split
  · next hc =>
    exact ⟨h.calm, ⟨ho, hc⟩, h.ptr, h1, h2, h3, h.readers, h.mail, h.fresh⟩
  · next hc =>
    have hq : s.count / B = s.len := by
      have : s.count / B ≤ s.len := by
        have := Nat.div_le_div_right (c := B) h3
        rwa [Nat.mul_div_cancel _ hB] at this
      omega
    split
    · next hc2 =>
      exact ⟨h.calm, ⟨by dsimp only; omega, h5, h1, hc2, by simp, fun _ => rfl, by simp, by simp, hq⟩, h5, h1, h2, h3, h.readers, h.mail, h.fresh⟩
    · next hc2 =>
      have hne : s.ptr ≠ s.arrays := by omega
      refine ⟨h.calm, ⟨by dsimp only; omega, by simp, ?_, ?_, by simp, by simp, by simp, by simp, hq⟩, by dsimp only; omega, ?_, ?_, h3, ?_, h.mail, h.fresh⟩
      · intro k hk; dsimp only; rw [upd_same]; exact h1 k hk
      · dsimp only; rw [upd_same]; omega
      · intro k hk; dsimp only; rw [upd_ne _ _ hne]; exact h1 k hk
      · dsimp only [before]; rw [upd_ne _ _ hne]; exact h2
      · intro t r hr
        obtain ⟨a, b, c⟩ := h4 t r hr
        refine ⟨a, ?_, c⟩
        intro p hp
        obtain ⟨d, e, f⟩ := b p hp
        have hp2 : p ≠ s.arrays := by omega
        dsimp only
        rw [upd_ne _ _ hp2, upd_ne _ _ hp2]
        exact ⟨by omega, e, f⟩

/-- The owner goes on after a write. -/
theorem inv_norm {B : Nat} (hB : 0 < B) {s : St} (a : Append) (calm : s.panic = false) (bk : s.buckets = a.pos + 1) (arr : a.arr < s.arrays)
    (old : ∀ k, k < a.pos → s.slot a.arr k = k) (cap : a.pos < s.cap a.arr) (len : s.len = if a.wLen then a.pos else a.pos + 1)
    (hp : a.wPtr = false → s.ptr = a.arr) (hs : a.wSlot = false → s.slot a.arr a.pos = a.pos) (hc : s.count / B = a.pos) (ptr : s.ptr < s.arrays)
    (slots : ∀ k, k < a.pos → s.slot s.ptr k = k) (room : a.pos ≤ s.cap s.ptr) (counted : s.count ≤ a.pos * B)
    (readers : ∀ t r, s.reader t = some r → r.idx < s.count ∧ (∀ p, r.ptr = some p → p < s.arrays ∧ s.slot p (r.idx / B) = r.idx / B ∧ r.idx / B < s.cap p) ∧
      ∀ n, r.len = some n → r.idx / B < n)
    (mail : ∀ v, v < s.count → s.got v ++ s.box (v / B, v % B) = s.sent v) (fresh : ∀ v, s.count ≤ v → s.sent v = [] ∧ s.got v = []) :
    Inv B { s with owner := norm a } := by
  unfold norm
  by_cases h : (a.wPtr || a.wLen || a.wSlot) = true
  · rw [if_pos h]
    exact ⟨calm, ⟨bk, arr, old, cap, len, hp, hs, h, hc⟩, ptr, slots, room, counted, readers, mail, fresh⟩
  · rw [if_neg h]
    simp only [Bool.or_eq_true, not_or, Bool.not_eq_true] at h
    obtain ⟨⟨w1, w2⟩, w3⟩ := h
    have e1 := hp w1
    have e2 := hs w3
    rw [w2] at len
    simp only [Bool.false_eq_true, if_false] at len
    refine ⟨calm, ⟨by dsimp only; omega, by dsimp only; omega⟩, ptr, ?_, ?_, ?_, readers, mail, fresh⟩
    · intro k hk
      simp only [before] at hk ⊢
      rw [e1]
      by_cases hk2 : k < a.pos
      · exact old k hk2
      · have : k = a.pos := by omega
        rw [this]; exact e2
    · simp only [before]; rw [e1, len]; omega
    · simp only [before]; rw [len, Nat.add_mul]; omega

theorem inv_step {B : Nat} (hB : 0 < B) {s s' : St} (x : Act) (h : Inv B s) (hs : step B s x = some s') : Inv B s' := by
  have ho := h.owner
  cases x with
  | begin extra =>
    simp only [step] at hs
    split at hs
    · next hi => injection hs with hs; subst hs; exact inv_begin hB h hi extra
    · cases hs
  | writePtr =>
    simp only [step] at hs
    split at hs
    · next a hi =>
      split at hs
      · next hw =>
        injection hs with hs; subst hs
        have hb : before s = a.pos := by unfold before; rw [hi]
        unfold OwnerOk at ho
        rw [hi] at ho
        obtain ⟨b1, b2, b3, b4, b5, b6, b7, b8, b9⟩ := ho
        exact inv_norm hB (s := { s with ptr := a.arr }) { a with wPtr := false } h.calm b1 b2 b3 b4 b5 (fun _ => rfl) b7 b9 b2 b3 (Nat.le_of_lt b4)
          (by rw [← hb]; exact h.counted) h.readers h.mail h.fresh
      · cases hs
    · cases hs
  | writeLen =>
    simp only [step] at hs
    split at hs
    · next a hi =>
      split at hs
      · next hw =>
        injection hs with hs; subst hs
        have hb : before s = a.pos := by unfold before; rw [hi]
        unfold OwnerOk at ho
        rw [hi] at ho
        obtain ⟨b1, b2, b3, b4, b5, b6, b7, b8, b9⟩ := ho
        exact inv_norm hB (s := { s with len := a.pos + 1 }) { a with wLen := false } h.calm b1 b2 b3 b4 rfl b6 b7 b9 h.ptr (by rw [← hb]; exact h.slots)
          (by rw [← hb]; exact h.room) (by rw [← hb]; exact h.counted) h.readers h.mail h.fresh
      · cases hs
    · cases hs
  | writeSlot =>
    simp only [step] at hs
    split at hs
    · next a hi =>
      split at hs
      · next hw =>
        injection hs with hs; subst hs
        have hb : before s = a.pos := by unfold before; rw [hi]
        have h1 := h.slots; have h3 := h.counted
        rw [hb] at h1 h3
        unfold OwnerOk at ho
        rw [hi] at ho
        obtain ⟨b1, b2, b3, b4, b5, b6, b7, b8, b9⟩ := ho
        -- slots below are as they were
        have key : ∀ (q k : Nat), k ≠ a.pos → (upd s.slot a.arr (upd (s.slot a.arr) a.pos (s.buckets - 1))) q k = s.slot q k := by
          intro q k hk
          by_cases hq : q = a.arr
          · rw [hq, upd_same, upd_ne _ _ hk]
          · rw [upd_ne _ _ hq]
        refine inv_norm hB (s := { s with slot := upd s.slot a.arr (upd (s.slot a.arr) a.pos (s.buckets - 1)) }) { a with wSlot := false } h.calm b1 b2 ?_ b4 b5 b6 ?_ b9
          h.ptr ?_ (by rw [← hb]; exact h.room) h3 ?_ h.mail h.fresh
        · intro k hk; dsimp only at hk ⊢; rw [key _ _ (by omega)]; exact b3 k hk
        · intro _; dsimp only; rw [upd_same, upd_same]; omega
        · intro k hk; dsimp only at hk ⊢; rw [key _ _ (by omega)]; exact h1 k hk
        · intro t r hr
          obtain ⟨c1, c2, c3⟩ := h.readers t r hr
          refine ⟨c1, ?_, c3⟩
          intro p hp
          obtain ⟨d1, d2, d3⟩ := c2 p hp
          have : r.idx / B < a.pos := div_lt (by omega)
          dsimp only
          rw [key _ _ (by omega)]
          exact ⟨d1, d2, d3⟩
      · cases hs
    · cases hs
  | make =>
    simp only [step] at hs
    split at hs
    · next hi =>
      have hb : before s = s.len := by unfold before; rw [hi]
      unfold OwnerOk at ho
      rw [hi] at ho
      rw [find_ok h (by rw [hb]; exact ho.2)] at hs
      dsimp only at hs
      injection hs with hs; subst hs
      have hc : s.count < s.len * B := by
        have := Nat.div_lt_iff_lt_mul hB |>.1 ho.2
        exact this
      refine ⟨h.calm, ho.1, h.ptr, by have := h.slots; rw [hb] at this; exact this, by have := h.room; rw [hb] at this; exact this, hc, ?_, ?_, ?_⟩
      · intro t r hr
        obtain ⟨c1, c2, c3⟩ := h.readers t r hr
        exact ⟨Nat.lt_succ_of_lt c1, c2, c3⟩
      · intro v hv
        dsimp only at hv ⊢
        by_cases e : v = s.count
        · obtain ⟨f1, f2⟩ := h.fresh v (by omega)
          rw [e, upd_same, ← e, f1, f2]; rfl
        · rw [upd_ne _ _ (fun hc => e (place_inj hc))]
          exact h.mail v (by omega)
      · intro v hv
        exact h.fresh v (by dsimp only at hv; omega)
    · cases hs
  | take idx =>
    simp only [step] at hs
    split at hs
    · next hi =>
      split at hs
      · next hv0 =>
        have hb : before s = s.len := by unfold before; rw [hi]
        have h3 := h.counted
        rw [find_ok h (div_lt (by omega))] at hs
        dsimp only at hs
        injection hs with hs; subst hs
        refine ⟨h.calm, ?_, h.ptr, h.slots, h.room, h.counted, h.readers, ?_, ?_⟩
        · unfold OwnerOk at ho ⊢; dsimp only; exact ho
        · intro v hv
          dsimp only at hv ⊢
          by_cases e : v = idx
          · rw [e, upd_same, upd_same, List.append_nil]; exact h.mail idx hv0
          · rw [upd_ne _ _ e, upd_ne _ _ (fun hc => e (place_inj hc))]; exact h.mail v hv
        · intro v hv
          dsimp only at hv ⊢
          rw [upd_ne _ _ (by omega)]; exact h.fresh v hv
      · cases hs
    · cases hs
  | put t idx mail =>
    simp only [step] at hs
    split at hs
    · split at hs
      · next hv =>
        injection hs with hs; subst hs
        refine ⟨h.calm, ho, h.ptr, h.slots, h.room, h.counted, ?_, h.mail, h.fresh⟩
        intro u r hr
        dsimp only at hr ⊢
        by_cases e : u = t
        · rw [e, upd_same] at hr
          injection hr with hr; subst hr
          exact ⟨hv, by simp, by simp⟩
        · rw [upd_ne _ _ e] at hr; exact h.readers u r hr
      · cases hs
    · cases hs
  | readPtr t =>
    simp only [step] at hs
    split at hs
    · next r hr0 =>
      split at hs
      · injection hs with hs; subst hs
        refine ⟨h.calm, ho, h.ptr, h.slots, h.room, h.counted, ?_, h.mail, h.fresh⟩
        intro u q hq
        dsimp only at hq ⊢
        by_cases e : u = t
        · rw [e, upd_same] at hq
          injection hq with hq; subst hq
          obtain ⟨c1, c2, c3⟩ := h.readers t r hr0
          refine ⟨c1, ?_, c3⟩
          intro p hp
          injection hp with hp; subst hp
          have h3 := h.counted
          have h4 := h.room
          have hl : r.idx / B < before s := div_lt (by omega)
          exact ⟨h.ptr, h.slots _ hl, by dsimp only; omega⟩
        · rw [upd_ne _ _ e] at hq; exact h.readers u q hq
      · cases hs
    · cases hs
  | readLen t =>
    simp only [step] at hs
    split at hs
    · next r hr0 =>
      split at hs
      · injection hs with hs; subst hs
        refine ⟨h.calm, ho, h.ptr, h.slots, h.room, h.counted, ?_, h.mail, h.fresh⟩
        intro u q hq
        dsimp only at hq ⊢
        by_cases e : u = t
        · rw [e, upd_same] at hq
          injection hq with hq; subst hq
          obtain ⟨c1, c2, c3⟩ := h.readers t r hr0
          refine ⟨c1, c2, ?_⟩
          intro n hn
          injection hn with hn; subst hn
          have h3 := h.counted
          have h4 := before_le ho
          have hl : r.idx / B < before s := div_lt (by omega)
          dsimp only; omega
        · rw [upd_ne _ _ e] at hq; exact h.readers u q hq
      · cases hs
    · cases hs
  | store t =>
    simp only [step] at hs
    split at hs
    · next idx mail p n hr0 =>
      obtain ⟨c1, c2, c3⟩ := h.readers t _ hr0
      obtain ⟨d1, d2, d3⟩ := c2 p rfl
      have d4 := c3 n rfl
      dsimp only at c1 d2 d3 d4
      have hf : find s B p n idx = some (idx / B, idx % B) := by
        unfold find bucketOf
        rw [if_pos ⟨d4, d3⟩]
        simp only [d2]
      rw [hf] at hs
      dsimp only at hs
      injection hs with hs; subst hs
      refine ⟨h.calm, ho, h.ptr, h.slots, h.room, h.counted, ?_, ?_, ?_⟩
      · intro u q hq
        dsimp only at hq ⊢
        by_cases e : u = t
        · rw [e, upd_same] at hq; cases hq
        · rw [upd_ne _ _ e] at hq; exact h.readers u q hq
      · intro v hv
        dsimp only at hv ⊢
        by_cases e : v = idx
        · rw [e, upd_same, upd_same, ← List.append_assoc, h.mail idx c1]
        · rw [upd_ne _ _ e, upd_ne _ _ (fun hc => e (place_inj hc))]; exact h.mail v hv
      · intro v hv
        dsimp only at hv ⊢
        rw [upd_ne _ _ (by omega)]; exact h.fresh v hv
    · cases hs

theorem inv_run {B : Nat} (hB : 0 < B) : ∀ (xs : List Act) {s s' : St}, Inv B s → run B s xs = some s' → Inv B s' := by
  intro xs
  induction xs with
  | nil => intro s s' h hr; injection hr with hr; subst hr; exact h
  | cons x xs ih =>
    intro s s' h hr
    simp only [run] at hr
    obtain ⟨s1, h1, h2⟩ := Option.bind_eq_some_iff.1 hr
    exact ih (inv_step hB x h h1) h2

/-- **C83.** Whatever the order of reads and writes: nobody reads outside an array, and for every vertex, at every moment
the owner is not making one, the mail it has taken and the mail in its mailbox - the one the owner finds - is all mail that
was put in for it, in order, and no other. -/
theorem C83_mail (B c : Nat) (hB : 0 < B) (xs : List Act) (s : St) (h : run B (start c) xs = some s) :
    s.panic = false ∧ (s.owner = .idle → ∀ v, v < s.count → ∃ q, find s B s.ptr s.len v = some q ∧ s.got v ++ s.box q = s.sent v) := by
  have hi := inv_run hB xs (inv_start B c) h
  refine ⟨hi.calm, fun ho v hv => ⟨_, find_ok hi ?_, hi.mail v hv⟩⟩
  have := hi.counted
  exact div_lt (by omega)

/-- C83 (the mailbox is the owner's): a thread that has read the words puts the mail into the mailbox that the owner finds,
if it looks then. -/
theorem C83_same_mailbox (B c : Nat) (hB : 0 < B) (xs : List Act) (s : St) (h : run B (start c) xs = some s) (t idx mail p n : Nat)
    (hr : s.reader t = some ⟨idx, mail, some p, some n⟩) : ∃ q, find s B p n idx = some q ∧ find s B s.ptr s.len idx = some q := by
  have hi := inv_run hB xs (inv_start B c) h
  obtain ⟨c1, c2, c3⟩ := hi.readers t _ hr
  obtain ⟨d1, d2, d3⟩ := c2 p rfl
  have d4 := c3 n rfl
  dsimp only at c1 d2 d3 d4
  have := hi.counted
  refine ⟨(idx / B, idx % B), ?_, find_ok hi (div_lt (by omega))⟩
  unfold find bucketOf
  rw [if_pos ⟨d4, d3⟩]
  simp only [d2]

/-- C83 (nothing moves): a mailbox is found at the same place for ever. -/
theorem C83_stable (B c : Nat) (hB : 0 < B) (xs ys : List Act) (s s' : St) (h : run B (start c) xs = some s) (h' : run B s ys = some s') (v : Nat)
    (hv : v < s.count) : ∃ q, find s B s.ptr s.len v = some q ∧ find s' B s'.ptr s'.len v = some q := by
  have hi := inv_run hB xs (inv_start B c) h
  have hi' := inv_run hB ys hi h'
  have hc : ∀ (ys : List Act) (s s' : St), run B s ys = some s' → s.count ≤ s'.count := by
    intro ys
    induction ys with
    | nil => intro s s' h; injection h with h; subst h; exact Nat.le_refl _
    | cons y ys ih =>
      intro s s' h
      simp only [run] at h
      obtain ⟨s1, h1, h2⟩ := Option.bind_eq_some_iff.1 h
      refine Nat.le_trans ?_ (ih _ _ h2)
      clear h h2 ih
      cases y <;> simp only [step] at h1
      case begin e =>
        split at h1
        · injection h1 with h1; subst h1
          unfold begin
          split
          · exact Nat.le_refl _
          · split <;> exact Nat.le_refl _
        · cases h1
      all_goals
        repeat (split at h1)
        all_goals first | (cases h1; done) | (injection h1 with h1; subst h1; dsimp only; omega)
  have a := hi.counted
  have b := hi'.counted
  have d := hc ys s s' h'
  exact ⟨_, find_ok hi (div_lt (by omega)), find_ok hi' (div_lt (by omega))⟩

/-! ## Concrete case -/

/-- Buckets of one mailbox, an array of one slot. While the second vertex is made, which needs a new array, a thread reads
the old array and the new length and puts mail for the first vertex; a second thread reads the new array and the old
length. -/
def exActs : List Act :=
  [.begin 0, .writeLen, .writeSlot, .make, .begin 0, .put 1 0 7, .put 2 0 8, .readPtr 1, .writePtr, .readPtr 2, .readLen 2, .writeLen, .readLen 1,
   .store 2, .store 1, .writeSlot, .make, .take 0]

example : (run 1 (start 1) exActs).map (fun s => (s.got 0, s.sent 0, s.count, s.ptr, s.panic)) = some ([8, 7], [8, 7], 2, 1, false) := by decide +kernel

example : ∃ s, run 1 (start 1) exActs = some s ∧ s.panic = false ∧ s.owner = .idle ∧ ∃ q, find s 1 s.ptr s.len 0 = some q ∧ s.got 0 ++ s.box q = s.sent 0 := by
  have ho : (run 1 (start 1) exActs).map (fun s => (decide (s.owner = .idle), s.count)) = some (true, 2) := by decide +kernel
  obtain ⟨s, hs, ho⟩ := Option.map_eq_some_iff.1 ho
  simp only [Prod.mk.injEq, decide_eq_true_eq] at ho
  obtain ⟨h1, h2⟩ := C83_mail 1 1 (by decide) exActs s hs
  exact ⟨s, hs, h1, ho.1, h2 ho.1 0 (by omega)⟩

/-- The first thread, having read the old array and the new length. -/
example : ∃ s p n, run 1 (start 1) (exActs.take 13) = some s ∧ s.reader 1 = some ⟨0, 7, some p, some n⟩ ∧ p ≠ s.ptr ∧
    ∃ q, find s 1 p n 0 = some q ∧ find s 1 s.ptr s.len 0 = some q := by
  have ho : (run 1 (start 1) (exActs.take 13)).map (fun s => (s.reader 1, s.ptr)) =
      some (some ⟨0, 7, some 0, some 2⟩, 1) := by decide +kernel
  obtain ⟨s, hs, ho⟩ := Option.map_eq_some_iff.1 ho
  simp only [Prod.mk.injEq] at ho
  exact ⟨s, 0, 2, hs, ho.1, by omega, C83_same_mailbox 1 1 (by decide) _ s hs 1 0 7 0 2 ho.1⟩

/-- The first vertex, before and after the array is replaced. -/
example : ∃ s s', run 1 (start 1) (exActs.take 4) = some s ∧ run 1 s (exActs.drop 4) = some s' ∧ s.ptr ≠ s'.ptr ∧
    ∃ q, find s 1 s.ptr s.len 0 = some q ∧ find s' 1 s'.ptr s'.len 0 = some q := by
  have ho : ((run 1 (start 1) (exActs.take 4)).bind fun s => (run 1 s (exActs.drop 4)).map fun s' => (s.ptr, s'.ptr, s.count)) = some (0, 1, 1) := by decide +kernel
  obtain ⟨s, hs, ho⟩ := Option.bind_eq_some_iff.1 ho
  obtain ⟨s', hs', ho⟩ := Option.map_eq_some_iff.1 ho
  simp only [Prod.mk.injEq] at ho
  exact ⟨s, s', hs, hs', by omega, C83_stable 1 1 (by decide) _ _ s s' hs hs' 0 (by omega)⟩

end Verif.Props.Buckets
