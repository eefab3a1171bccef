import Verif.Mpsc

/-! Helper lemmas for the MPSC queue: the inductive invariant. -/

namespace Verif.Mpsc
variable {α : Type}

/-- The position and item a producer currently owns. -/
def holds : PPc α → Option (Nat × α)
  | .check p x | .mustSlow p x | .slow p x | .write p x | .publish p x => some (p, x)
  | .idle | .take _ | .oLoad _ | .oCheck _ _ | .oCas _ _ => none

structure Inv (k : Nat) (s : St α) : Prop where
  mask : s.mask = 2 ^ k - 1
  enq : s.tickets.length = s.enqueue
  win : ∀ p, s.gotLog.length ≤ p → p < s.gotLog.length + 2 ^ k →
    s.position (p % 2 ^ k) = if s.pub p then p + 1 else p
  pubLt : ∀ p, s.pub p = true → p < s.enqueue ∧ p < s.gotLog.length + 2 ^ k
  pubEl : ∀ p, s.pub p = true → s.gotLog.length ≤ p →
    (s.tickets[p]?).map Prod.snd = some (s.element (p % 2 ^ k))
  past : ∀ p, p < s.gotLog.length → s.pub p = true
  got : s.gotLog = (s.tickets.map Prod.snd).take s.gotLog.length
  prod : ∀ t p x, holds (s.ppc t) = some (p, x) → s.tickets[p]? = some (t, x) ∧ s.pub p = false
  wr : ∀ t p x, s.ppc t = .write p x ∨ s.ppc t = .publish p x → p < s.gotLog.length + 2 ^ k
  pb : ∀ t p x, s.ppc t = .publish p x → s.element (p % 2 ^ k) = x
  oc : ∀ t p x, s.ppc t = .oCas p x → p < s.gotLog.length + 2 ^ k
  unpub : ∀ p, p < s.enqueue → s.pub p = false → ∃ t x, holds (s.ppc t) = some (p, x)
  cIdle : s.cpc = .idle ∨ s.cpc = .aCheck → s.dequeue = s.gotLog.length
  cARead : s.cpc = .aRead → s.dequeue = s.gotLog.length ∧ s.pub s.gotLog.length = true
  cARel : ∀ x, s.cpc = .aRelease x → s.dequeue = s.gotLog.length ∧
    s.pub s.gotLog.length = true ∧ (s.tickets[s.gotLog.length]?).map Prod.snd = some x
  cG : ∀ p, s.cpc = .gCheck p ∨ s.cpc = .mustSlow p ∨ s.cpc = .slow p ∨ s.cpc = .status p →
    p = s.gotLog.length ∧ s.dequeue = p + 1
  cGRead : ∀ p, s.cpc = .gRead p → p = s.gotLog.length ∧ s.dequeue = p + 1 ∧ s.pub p = true
  cGRel : ∀ p x, s.cpc = .gRelease p x → p = s.gotLog.length ∧ s.dequeue = p + 1 ∧
    s.pub p = true ∧ (s.tickets[p]?).map Prod.snd = some x

theorem inv_init (z : α) (k : Nat) : Inv k (init z (2 ^ k)) := by
  constructor <;> simp [init, holds]
  intro p hp; exact Nat.mod_eq_of_lt hp

/-- Loading a slot position equal to an unpublished ticket `p ≥ consumed` means `p` is in the
current window — this is where capacity at least 2 is needed. -/
theorem in_window {k : Nat} (hk : 1 ≤ k) {s : St α} (h : Inv k s) {p : Nat}
    (hp : s.position (p &&& s.mask) = p) : p < s.gotLog.length + 2 ^ k := by
  have hs : 2 ≤ 2 ^ k := by
    calc 2 = 2 ^ 1 := rfl
      _ ≤ 2 ^ k := Nat.pow_le_pow_right (by omega) hk
  rw [h.mask, and_mask] at hp
  apply Nat.lt_of_not_le
  intro hle
  obtain ⟨q, hq1, hq2, hq3⟩ := exists_window s.gotLog.length p (2 ^ k) (by omega)
  have hw := h.win q hq1 hq2
  rw [hq3, hp] at hw
  split at hw
  · exact mod_succ_ne (q := q) hs (by rw [← hw, hq3])
  · omega

theorem in_window_pos {k : Nat} {s : St α} (h : Inv k s) {p : Nat} (hpub : s.pub p = false)
    (hlt : p < s.gotLog.length + 2 ^ k) : s.gotLog.length ≤ p ∧ s.position (p % 2 ^ k) = p := by
  have h1 : s.gotLog.length ≤ p := by
    apply Nat.le_of_not_lt
    intro hc
    rw [h.past p hc] at hpub; exact absurd hpub (by simp)
  refine ⟨h1, ?_⟩
  rw [h.win p h1 hlt, hpub]; simp

/-- A producer moves to another program counter owning the same position. -/
theorem inv_setpc {k : Nat} {s : St α} (h : Inv k s) (t : Nat) (pc : PPc α)
    (hh : holds pc = holds (s.ppc t))
    (hw : ∀ p x, pc = .write p x ∨ pc = .publish p x → p < s.gotLog.length + 2 ^ k)
    (hpb : ∀ p x, pc = .publish p x → s.element (p % 2 ^ k) = x)
    (hoc : ∀ p x, pc = .oCas p x → p < s.gotLog.length + 2 ^ k) :
    Inv k { s with ppc := upd s.ppc t pc } := by
  have hholds : ∀ t', holds (upd s.ppc t pc t') = holds (s.ppc t') := by
    intro t'
    by_cases ht : t' = t
    · subst ht; simp [hh]
    · rw [upd_ne _ _ ht]
  obtain ⟨a1, a2, a3, a4, a5, a6, a7, a8, a9, a10, a11, a12, a13, a14, a15, a16, a17, a18⟩ := h
  constructor <;> try assumption
  · intro t' p x hp; simp only at hp; rw [hholds] at hp; exact a8 t' p x hp
  · intro t' p x hp
    by_cases ht : t' = t
    · subst ht; simp only [upd_same] at hp; exact hw p x hp
    · simp only [upd_ne _ _ ht] at hp; exact a9 t' p x hp
  · intro t' p x hp
    by_cases ht : t' = t
    · subst ht; simp only [upd_same] at hp; exact hpb p x hp
    · simp only [upd_ne _ _ ht] at hp; exact a10 t' p x hp
  · intro t' p x hp
    by_cases ht : t' = t
    · subst ht; simp only [upd_same] at hp; exact hoc p x hp
    · simp only [upd_ne _ _ ht] at hp; exact a11 t' p x hp
  · intro p hp hpub
    obtain ⟨t', x, hx⟩ := a12 p hp hpub
    exact ⟨t', x, by simp only; rw [hholds]; exact hx⟩

/-- A producer obtains the next ticket (fetch-add, or a successful compare-and-swap). -/
theorem inv_take {k : Nat} {s : St α} (h : Inv k s) (t : Nat) (x : α) (pc : PPc α)
    (hold : holds (s.ppc t) = none)
    (hpc : pc = .check s.enqueue x ∨
      (pc = .write s.enqueue x ∧ s.enqueue < s.gotLog.length + 2 ^ k)) :
    Inv k { s with enqueue := s.enqueue + 1, ppc := upd s.ppc t pc,
                   tickets := s.tickets ++ [(t, x)] } := by
  have hh : holds pc = some (s.enqueue, x) := by
    rcases hpc with rfl | ⟨rfl, _⟩ <;> rfl
  have hge : ∀ p, s.pub p = true → s.tickets[p]? = (s.tickets ++ [(t, x)])[p]? := by
    intro p hp
    have h1 := (h.pubLt p hp).1
    have h2 := h.enq
    rw [List.getElem?_append_left (by omega)]
  obtain ⟨a1, a2, a3, a4, a5, a6, a7, a8, a9, a10, a11, a12, a13, a14, a15, a16, a17, a18⟩ := h
  have hc : s.gotLog.length ≤ s.enqueue := by
    rw [a7, List.length_take, List.length_map, a2]; omega
  constructor <;> try assumption
  · simp [a2]
  · intro p hp; have := a4 p hp; exact ⟨by simp only; omega, this.2⟩
  · intro p hp hpc; simp only; rw [← hge p hp]; exact a5 p hp hpc
  · simp only [List.map_append]
    rw [List.take_append_of_le_length (by simp [a2, hc])]; exact a7
  · intro t' p y hp
    by_cases ht : t' = t
    · subst ht
      simp only [upd_same] at hp
      rw [hh] at hp
      simp only [Option.some.injEq, Prod.mk.injEq] at hp
      obtain ⟨rfl, rfl⟩ := hp
      refine ⟨by simp [← a2], ?_⟩
      cases hpub : s.pub s.enqueue with
      | false => rfl
      | true => have := (a4 _ hpub).1; omega
    · simp only [upd_ne _ _ ht] at hp
      have := a8 t' p y hp
      refine ⟨?_, this.2⟩
      simp only
      rw [List.getElem?_append_left]
      · exact this.1
      · exact (List.getElem?_eq_some_iff.1 this.1).1
  · intro t' p y hp
    by_cases ht : t' = t
    · subst ht
      simp only [upd_same] at hp
      rcases hpc with rfl | ⟨rfl, hlt⟩
      · simp at hp
      · simp only [PPc.write.injEq, reduceCtorEq, or_false] at hp
        obtain ⟨rfl, _⟩ := hp; exact hlt
    · simp only [upd_ne _ _ ht] at hp; exact a9 t' p y hp
  · intro t' p y hp
    by_cases ht : t' = t
    · subst ht
      simp only [upd_same] at hp
      rcases hpc with rfl | ⟨rfl, hlt⟩ <;> simp at hp
    · simp only [upd_ne _ _ ht] at hp; exact a10 t' p y hp
  · intro t' p y hp
    by_cases ht : t' = t
    · subst ht
      simp only [upd_same] at hp
      rcases hpc with rfl | ⟨rfl, hlt⟩ <;> simp at hp
    · simp only [upd_ne _ _ ht] at hp; exact a11 t' p y hp
  · intro p hp hpub
    simp only at hp hpub ⊢
    by_cases hpe : p < s.enqueue
    · obtain ⟨t', y, hy⟩ := a12 p hpe hpub
      have ht : t' ≠ t := by rintro rfl; rw [hold] at hy; simp at hy
      exact ⟨t', y, by rw [upd_ne _ _ ht]; exact hy⟩
    · have : p = s.enqueue := by omega
      subst this
      exact ⟨t, x, by simp [hh]⟩
  · intro y hy
    have := a15 y hy
    refine ⟨this.1, this.2.1, ?_⟩
    simp only; rw [← hge _ this.2.1]; exact this.2.2
  · intro p y hy
    have := a18 p y hy
    refine ⟨this.1, this.2.1, this.2.2.1, ?_⟩
    simp only; rw [← hge _ this.2.2.1]; exact this.2.2.2

theorem inv_write {k : Nat} {s : St α} (h : Inv k s) (t p : Nat) (x : α)
    (hpc : s.ppc t = .write p x) :
    Inv k { s with element := upd s.element (p &&& s.mask) x,
                   ppc := upd s.ppc t (.publish p x) } := by
  obtain ⟨htk, hnp⟩ := h.prod t p x (by rw [hpc]; rfl)
  have hlt := h.wr t p x (Or.inl hpc)
  obtain ⟨hge, hpos⟩ := in_window_pos h hnp hlt
  have hne : ∀ q, q ≠ p → s.gotLog.length ≤ q → q < s.gotLog.length + 2 ^ k →
      q % 2 ^ k ≠ p % 2 ^ k := by
    intro q hq h1 h2
    rcases Nat.lt_or_gt_of_ne hq with hl | hl
    · exact mod_ne_of_lt hl (by omega)
    · exact (mod_ne_of_lt hl (by omega)).symm
  have hbase : Inv k { s with element := upd s.element (p % 2 ^ k) x } := by
    obtain ⟨a1, a2, a3, a4, a5, a6, a7, a8, a9, a10, a11, a12, a13, a14, a15, a16, a17, a18⟩ := h
    constructor <;> try assumption
    · intro q hq hqc
      simp only at hq hqc ⊢
      have hqp : q ≠ p := by rintro rfl; rw [hnp] at hq; simp at hq
      rw [upd_ne _ _ (hne q hqp hqc (a4 q hq).2)]
      exact a5 q hq hqc
    · intro t' q y hq
      simp only at hq ⊢
      have h8 := a8 t' q y (by rw [hq]; rfl)
      have hqp : q ≠ p := by
        rintro rfl
        rw [htk] at h8
        have : t = t' := by simpa using congrArg Prod.fst (Option.some.inj h8.1)
        subst this
        rw [hpc] at hq; simp at hq
      have hqge : s.gotLog.length ≤ q := by
        apply Nat.le_of_not_lt
        intro hc
        rw [a6 q hc] at h8; simp at h8
      rw [upd_ne _ _ (hne q hqp hqge (a9 t' q y (Or.inr hq)))]
      exact a10 t' q y hq
  rw [show p &&& s.mask = p % 2 ^ k by rw [h.mask, and_mask]]
  refine inv_setpc hbase t (.publish p x) (by simp [holds, hpc]) ?_ ?_ ?_
  · rintro q y (hq | hq)
    · simp at hq
    · simp only [PPc.publish.injEq] at hq; obtain ⟨rfl, rfl⟩ := hq; exact hlt
  · intro q y hq
    simp only [PPc.publish.injEq] at hq; obtain ⟨rfl, rfl⟩ := hq
    simp
  · intro q y hq; simp at hq

theorem inv_publish {k : Nat} {s : St α} (h : Inv k s) (t p : Nat) (x : α)
    (hpc : s.ppc t = .publish p x) :
    Inv k { s with position := upd s.position (p &&& s.mask) (p + 1),
                   ppc := upd s.ppc t .idle, pub := upd s.pub p true } := by
  obtain ⟨htk, hnp⟩ := h.prod t p x (by rw [hpc]; rfl)
  have hlt := h.wr t p x (Or.inr hpc)
  have hel := h.pb t p x hpc
  obtain ⟨hge, hpos⟩ := in_window_pos h hnp hlt
  have hpe : p < s.enqueue := by
    rw [← h.enq]; exact (List.getElem?_eq_some_iff.1 htk).1
  have hne : ∀ q, q ≠ p → s.gotLog.length ≤ q → q < s.gotLog.length + 2 ^ k →
      q % 2 ^ k ≠ p % 2 ^ k := by
    intro q hq h1 h2
    rcases Nat.lt_or_gt_of_ne hq with hl | hl
    · exact mod_ne_of_lt hl (by omega)
    · exact (mod_ne_of_lt hl (by omega)).symm
  have hmono : ∀ q, s.pub q = true → upd s.pub p true q = true := by
    intro q hq
    by_cases hqp : q = p
    · subst hqp; simp
    · rw [upd_ne _ _ hqp]; exact hq
  have hother : ∀ t' q y, t' ≠ t → holds (s.ppc t') = some (q, y) → q ≠ p := by
    rintro t' q y ht hq rfl
    have h8 := (h.prod t' q y hq).1
    rw [htk] at h8
    exact ht (by simpa using (congrArg Prod.fst (Option.some.inj h8)).symm)
  rw [show p &&& s.mask = p % 2 ^ k by rw [h.mask, and_mask]]
  obtain ⟨a1, a2, a3, a4, a5, a6, a7, a8, a9, a10, a11, a12, a13, a14, a15, a16, a17, a18⟩ := h
  constructor <;> try assumption
  · intro q h1 h2
    simp only at h1 h2 ⊢
    by_cases hqp : q = p
    · subst hqp; simp
    · simp only [upd_ne _ _ (hne q hqp h1 h2), upd_ne _ _ hqp]; exact a3 q h1 h2
  · intro q hq
    simp only at hq ⊢
    by_cases hqp : q = p
    · subst hqp; exact ⟨hpe, hlt⟩
    · rw [upd_ne _ _ hqp] at hq; exact a4 q hq
  · intro q hq hqc
    simp only at hq hqc ⊢
    by_cases hqp : q = p
    · subst hqp; rw [htk, hel]; rfl
    · rw [upd_ne _ _ hqp] at hq; exact a5 q hq hqc
  · intro q hq; exact hmono q (a6 q hq)
  · intro t' q y hq
    simp only at hq ⊢
    by_cases ht : t' = t
    · subst ht; simp [holds] at hq
    · rw [upd_ne _ _ ht] at hq
      rw [upd_ne _ _ (hother t' q y ht hq)]
      exact a8 t' q y hq
  · intro t' q y hq
    by_cases ht : t' = t
    · subst ht; simp at hq
    · simp only [upd_ne _ _ ht] at hq; exact a9 t' q y hq
  · intro t' q y hq
    by_cases ht : t' = t
    · subst ht; simp at hq
    · simp only [upd_ne _ _ ht] at hq; exact a10 t' q y hq
  · intro t' q y hq
    by_cases ht : t' = t
    · subst ht; simp at hq
    · simp only [upd_ne _ _ ht] at hq; exact a11 t' q y hq
  · intro q hq hqp
    simp only at hq hqp ⊢
    have hqne : q ≠ p := by rintro rfl; simp at hqp
    rw [upd_ne _ _ hqne] at hqp
    obtain ⟨t', y, hy⟩ := a12 q hq hqp
    have ht : t' ≠ t := by
      rintro rfl
      rw [hpc] at hy
      simp only [holds, Option.some.injEq, Prod.mk.injEq] at hy
      exact hqne hy.1.symm
    exact ⟨t', y, by rw [upd_ne _ _ ht]; exact hy⟩
  · intro hq; have := a14 hq; exact ⟨this.1, hmono _ this.2⟩
  · intro y hq; have := a15 y hq; exact ⟨this.1, hmono _ this.2.1, this.2.2⟩
  · intro q hq; have := a17 q hq; exact ⟨this.1, this.2.1, hmono _ this.2.2⟩
  · intro q y hq; have := a18 q y hq; exact ⟨this.1, this.2.1, hmono _ this.2.2.1, this.2.2.2⟩

/-- The consumer hands out position `c` and recycles its slot. -/
theorem inv_release {k : Nat} {s : St α} (h : Inv k s) (x : α) (d : Nat)
    (hpub : s.pub s.gotLog.length = true)
    (hx : (s.tickets[s.gotLog.length]?).map Prod.snd = some x)
    (hd : d = s.gotLog.length + 1) :
    Inv k { s with
      position := upd s.position (s.gotLog.length &&& s.mask) (s.gotLog.length + 1 + s.mask),
      dequeue := d, cpc := .idle, gotLog := s.gotLog ++ [x] } := by
  have hp : 0 < 2 ^ k := Nat.two_pow_pos k
  rw [show s.gotLog.length &&& s.mask = s.gotLog.length % 2 ^ k by rw [h.mask, and_mask]]
  obtain ⟨a1, a2, a3, a4, a5, a6, a7, a8, a9, a10, a11, a12, a13, a14, a15, a16, a17, a18⟩ := h
  have hnew : s.pub (s.gotLog.length + 2 ^ k) = false := by
    cases hb : s.pub (s.gotLog.length + 2 ^ k) with
    | false => rfl
    | true => have := (a4 _ hb).2; omega
  constructor
  · exact a1
  · exact a2
  · intro p h1 h2
    simp only [List.length_append, List.length_singleton] at h1 h2 ⊢
    by_cases hpc : p = s.gotLog.length + 2 ^ k
    · subst hpc
      rw [Nat.add_mod_right, upd_same, hnew, a1]
      simp; omega
    · rw [upd_ne _ _ ((mod_ne_of_lt (a := s.gotLog.length) (b := p) (by omega) (by omega)).symm)]
      exact a3 p (by omega) (by omega)
  · intro p hp'
    have := a4 p hp'
    simp only [List.length_append, List.length_singleton]
    exact ⟨this.1, by omega⟩
  · intro p hp' hc
    simp only [List.length_append, List.length_singleton] at hc
    exact a5 p hp' (by omega)
  · intro p hc
    simp only [List.length_append, List.length_singleton] at hc
    by_cases hpc : p = s.gotLog.length
    · subst hpc; exact hpub
    · exact a6 p (by omega)
  · simp only [List.length_append, List.length_singleton]
    rw [List.take_add_one, ← a7, List.getElem?_map, hx]; rfl
  · exact a8
  · intro t p y hy; have := a9 t p y hy
    simp only [List.length_append, List.length_singleton]; omega
  · exact a10
  · intro t p y hy; have := a11 t p y hy
    simp only [List.length_append, List.length_singleton]; omega
  · exact a12
  · intro _; simp [hd]
  all_goals simp

theorem inv_pStep {k : Nat} (hk : 1 ≤ k) {s s' : St α} (t : Nat) (h : Inv k s)
    (hs : pStep s t = some s') : Inv k s' := by
  unfold pStep at hs
  split at hs
  · next x hpc =>
    obtain rfl := Option.some.inj hs
    exact inv_take h t x _ (by simp [hpc, holds]) (Or.inl rfl)
  · next p x hpc =>
    split at hs <;> obtain rfl := Option.some.inj hs
    · next hif =>
      have := in_window hk h hif
      exact inv_setpc h t _ (by simp [hpc, holds]) (by simp; omega) (by simp)
        (by simp)
    · exact inv_setpc h t _ (by simp [hpc, holds]) (by simp) (by simp) (by simp)
  · next p x hpc =>
    split at hs <;> obtain rfl := Option.some.inj hs
    · next hif =>
      have := in_window hk h hif
      exact inv_setpc h t _ (by simp [hpc, holds]) (by simp; omega) (by simp)
        (by simp)
    · exact h
  · next x hpc =>
    obtain rfl := Option.some.inj hs
    exact inv_setpc h t _ (by simp [hpc, holds]) (by simp) (by simp) (by simp)
  · next p x hpc =>
    split at hs <;> obtain rfl := Option.some.inj hs
    · next hif =>
      have := in_window hk h hif
      exact inv_setpc h t _ (by simp [hpc, holds]) (by simp) (by simp)
        (by simp; omega)
    · exact inv_setpc h t _ (by simp [hpc, holds]) (by simp) (by simp) (by simp)
  · next p x hpc =>
    split at hs <;> obtain rfl := Option.some.inj hs
    · next hif =>
      subst hif
      exact inv_take h t x _ (by simp [hpc, holds]) (Or.inr ⟨rfl, h.oc t _ x hpc⟩)
    · exact inv_setpc h t _ (by simp [hpc, holds]) (by simp) (by simp) (by simp)
  · next p x hpc =>
    obtain rfl := Option.some.inj hs
    exact inv_write h t p x hpc
  · next p x hpc =>
    obtain rfl := Option.some.inj hs
    exact inv_publish h t p x hpc
  all_goals simp at hs

/-- Loading position `c+1` in slot `c` means position `c` is published. -/
theorem pub_of_load {k : Nat} {s : St α} (h : Inv k s) {c : Nat} (hc : c = s.gotLog.length) :
    s.position (c &&& s.mask) = c + 1 ↔ s.pub c = true := by
  have hp : 0 < 2 ^ k := Nat.two_pow_pos k
  subst hc
  rw [h.mask, and_mask, h.win _ (Nat.le_refl _) (by omega)]
  split <;> simp_all

/-- The consumer only changes its program counter. -/
theorem inv_setc {k : Nat} {s : St α} (h : Inv k s) (pc : CPc α) (d : Nat)
    (c1 : pc = .idle ∨ pc = .aCheck → d = s.gotLog.length)
    (c2 : pc = .aRead → d = s.gotLog.length ∧ s.pub s.gotLog.length = true)
    (c3 : ∀ x, pc = .aRelease x → d = s.gotLog.length ∧
      s.pub s.gotLog.length = true ∧ (s.tickets[s.gotLog.length]?).map Prod.snd = some x)
    (c4 : ∀ p, pc = .gCheck p ∨ pc = .mustSlow p ∨ pc = .slow p ∨ pc = .status p →
      p = s.gotLog.length ∧ d = p + 1)
    (c5 : ∀ p, pc = .gRead p → p = s.gotLog.length ∧ d = p + 1 ∧ s.pub p = true)
    (c6 : ∀ p x, pc = .gRelease p x → p = s.gotLog.length ∧ d = p + 1 ∧
      s.pub p = true ∧ (s.tickets[p]?).map Prod.snd = some x) :
    Inv k { s with cpc := pc, dequeue := d } := by
  obtain ⟨a1, a2, a3, a4, a5, a6, a7, a8, a9, a10, a11, a12, a13, a14, a15, a16, a17, a18⟩ := h
  constructor <;> assumption

theorem inv_cStep {k : Nat} {s s' : St α} (h : Inv k s) (hs : cStep s = some s') : Inv k s' := by
  unfold cStep at hs
  split at hs
  · next hpc =>
    have hd := h.cIdle (Or.inr hpc)
    simp only [pub_of_load h hd] at hs
    split at hs <;> obtain rfl := Option.some.inj hs
    · next hif =>
      exact inv_setc h .aRead s.dequeue (by simp) (by intro _; rw [hd] at hif; exact ⟨hd, hif⟩)
        (by simp) (by simp) (by simp) (by simp)
    · exact inv_setc h .idle s.dequeue (by simp [hd]) (by simp) (by simp) (by simp) (by simp)
        (by simp)
  · next hpc =>
    obtain ⟨hd, hpub⟩ := h.cARead hpc
    obtain rfl := Option.some.inj hs
    refine inv_setc h _ s.dequeue (by simp) (by simp) ?_ (by simp) (by simp) (by simp)
    intro x hx
    simp only [CPc.aRelease.injEq] at hx
    refine ⟨hd, hpub, ?_⟩
    rw [h.pubEl _ hpub (Nat.le_refl _), ← hx, h.mask, and_mask, hd]
  · next x hpc =>
    obtain ⟨hd, hpub, hx⟩ := h.cARel x hpc
    obtain rfl := Option.some.inj hs
    have := inv_release h x (s.dequeue + 1) hpub hx (by omega)
    rw [← hd] at this
    exact this
  · next p hpc =>
    obtain ⟨hp, hd⟩ := h.cG p (Or.inl hpc)
    simp only [pub_of_load h hp] at hs
    split at hs <;> obtain rfl := Option.some.inj hs
    · next hif =>
      exact inv_setc h (.gRead p) s.dequeue (by simp) (by simp) (by simp) (by simp)
        (by simp only [CPc.gRead.injEq]; rintro _ rfl; exact ⟨hp, hd, hif⟩) (by simp)
    · exact inv_setc h (.mustSlow p) s.dequeue (by simp) (by simp) (by simp)
        (by simp; exact ⟨hp, hd⟩) (by simp) (by simp)
  · next p hpc =>
    obtain ⟨hp, hd⟩ := h.cG p (by simp [hpc])
    simp only [pub_of_load h hp] at hs
    split at hs <;> obtain rfl := Option.some.inj hs
    · next hif =>
      exact inv_setc h (.gRead p) s.dequeue (by simp) (by simp) (by simp) (by simp)
        (by simp only [CPc.gRead.injEq]; rintro _ rfl; exact ⟨hp, hd, hif⟩) (by simp)
    · exact inv_setc h (.status p) s.dequeue (by simp) (by simp) (by simp)
        (by simp; exact ⟨hp, hd⟩) (by simp) (by simp)
  · next p hpc =>
    obtain ⟨hp, hd⟩ := h.cG p (by simp [hpc])
    split at hs <;> obtain rfl := Option.some.inj hs
    · exact inv_setc h .sawClosed s.dequeue (by simp) (by simp) (by simp) (by simp) (by simp)
        (by simp)
    · exact inv_setc h (.slow p) s.dequeue (by simp) (by simp) (by simp)
        (by simp; exact ⟨hp, hd⟩) (by simp) (by simp)
  · next p hpc =>
    obtain ⟨hp, hd, hpub⟩ := h.cGRead p hpc
    obtain rfl := Option.some.inj hs
    refine inv_setc h _ s.dequeue (by simp) (by simp) (by simp) (by simp) (by simp) ?_
    intro q x hx
    simp only [CPc.gRelease.injEq] at hx
    obtain ⟨rfl, hx⟩ := hx
    refine ⟨hp, hd, hpub, ?_⟩
    rw [h.pubEl _ hpub (by omega), ← hx, h.mask, and_mask]
  · next p x hpc =>
    obtain ⟨hp, hd, hpub, hx⟩ := h.cGRel p x hpc
    obtain rfl := Option.some.inj hs
    subst hp
    exact inv_release h x s.dequeue hpub hx hd
  all_goals simp at hs

theorem inv_act {k : Nat} (hk : 1 ≤ k) {s s' : St α} (a : Act α) (h : Inv k s)
    (hs : act s a = some s') : Inv k s' := by
  cases a with
  | pStep t => exact inv_pStep hk t h hs
  | cStep => exact inv_cStep h hs
  | close =>
    obtain rfl := Option.some.inj hs
    obtain ⟨a1, a2, a3, a4, a5, a6, a7, a8, a9, a10, a11, a12, a13, a14, a15, a16, a17, a18⟩ := h
    constructor <;> assumption
  | put t x | offer t x | putSlow t =>
    simp only [act] at hs
    split at hs
    · next hpc =>
      obtain rfl := Option.some.inj hs
      exact inv_setpc h t _ (by simp [hpc, holds]) (by simp) (by simp) (by simp)
    · simp at hs
  | accept =>
    simp only [act] at hs
    split at hs
    · next hpc =>
      obtain rfl := Option.some.inj hs
      exact inv_setc h .aCheck s.dequeue (by simp; exact h.cIdle (Or.inl hpc)) (by simp) (by simp)
        (by simp) (by simp) (by simp)
    · simp at hs
  | getFast =>
    simp only [act] at hs
    split at hs
    · next hpc =>
      obtain rfl := Option.some.inj hs
      have := h.cIdle (Or.inl hpc)
      exact inv_setc h (.gCheck s.dequeue) (s.dequeue + 1) (by simp) (by simp) (by simp)
        (by simp; exact this) (by simp) (by simp)
    · simp at hs
  | getSlow =>
    simp only [act] at hs
    split at hs
    · next p hpc =>
      obtain rfl := Option.some.inj hs
      have := h.cG p (by simp [hpc])
      exact inv_setc h (.slow p) s.dequeue (by simp) (by simp) (by simp)
        (by simp; exact this) (by simp) (by simp)
    · simp at hs

theorem inv_run {k : Nat} (hk : 1 ≤ k) (sched : List (Act α)) {s s' : St α} (h : Inv k s)
    (hs : run s sched = some s') : Inv k s' := by
  induction sched generalizing s with
  | nil => obtain rfl := Option.some.inj hs; exact h
  | cons a as ih =>
    simp only [run] at hs
    cases hact : act s a with
    | none => rw [hact] at hs; simp at hs
    | some s1 => rw [hact] at hs; exact ih (inv_act hk a h hact) hs

/-! ### Relating positions taken to the calls made -/

/-- Items whose put has begun but has no position yet. -/
def pend : PPc α → List α
  | .take x | .oLoad x | .oCheck _ x | .oCas _ x => [x]
  | .idle | .check _ _ | .mustSlow _ _ | .slow _ _ | .write _ _ | .publish _ _ => []

/-- Inside a non-blocking offer that has no position yet. -/
def isOffer : PPc α → Bool
  | .oLoad _ | .oCheck _ _ | .oCas _ _ => true
  | _ => false

theorem upd_self {ι β : Type} [DecidableEq ι] (f : ι → β) (i : ι) : upd f i (f i) = f := by
  funext j; simp only [upd]; split <;> simp_all

theorem pStep_cases {s s' : St α} {t : Nat} (h : pStep s t = some s') :
    ∃ pc, s'.ppc = upd s.ppc t pc ∧
      ((s'.tickets = s.tickets ∧ (pend pc).Sublist (pend (s.ppc t)) ∧
          (isOffer (s.ppc t) = false → pend pc = pend (s.ppc t) ∧ isOffer pc = false)) ∨
       (∃ x, s'.tickets = s.tickets ++ [(t, x)] ∧ pend (s.ppc t) = [x] ∧ pend pc = [] ∧
          isOffer pc = false)) := by
  unfold pStep at h
  split at h
  · next x hpc =>
    obtain rfl := Option.some.inj h
    exact ⟨_, rfl, Or.inr ⟨x, rfl, by simp [hpc, pend], rfl, rfl⟩⟩
  · next p x hpc =>
    split at h <;> obtain rfl := Option.some.inj h <;>
      exact ⟨_, rfl, Or.inl ⟨rfl, by simp [hpc, pend], by simp [hpc, pend, isOffer]⟩⟩
  · next p x hpc =>
    split at h <;> obtain rfl := Option.some.inj h
    · exact ⟨_, rfl, Or.inl ⟨rfl, by simp [hpc, pend], by simp [hpc, pend, isOffer]⟩⟩
    · exact ⟨s.ppc t, (upd_self _ _).symm, Or.inl ⟨rfl, by simp, by simp⟩⟩
  · next x hpc =>
    obtain rfl := Option.some.inj h
    exact ⟨_, rfl, Or.inl ⟨rfl, by simp [hpc, pend], by simp [hpc, isOffer]⟩⟩
  · next p x hpc =>
    split at h <;> obtain rfl := Option.some.inj h <;>
      exact ⟨_, rfl, Or.inl ⟨rfl, by simp [hpc, pend], by simp [hpc, isOffer]⟩⟩
  · next p x hpc =>
    split at h <;> obtain rfl := Option.some.inj h
    · exact ⟨_, rfl, Or.inr ⟨x, rfl, by simp [hpc, pend], rfl, rfl⟩⟩
    · exact ⟨_, rfl, Or.inl ⟨rfl, by simp [hpc, pend], by simp [hpc, isOffer]⟩⟩
  · next p x hpc =>
    obtain rfl := Option.some.inj h
    exact ⟨_, rfl, Or.inl ⟨rfl, by simp [hpc, pend], by simp [hpc, pend, isOffer]⟩⟩
  · next p x hpc =>
    obtain rfl := Option.some.inj h
    exact ⟨_, rfl, Or.inl ⟨rfl, by simp [hpc, pend], by simp [hpc, pend, isOffer]⟩⟩
  all_goals simp at h

theorem cons_frame {s s' : St α} {a : Act α}
    (ha : a = .accept ∨ a = .getFast ∨ a = .getSlow ∨ a = .cStep ∨ a = .close)
    (h : act s a = some s') : s'.ppc = s.ppc ∧ s'.tickets = s.tickets := by
  rcases ha with rfl | rfl | rfl | rfl | rfl <;> simp only [act, cStep] at h <;>
    (repeat' split at h) <;>
    first
    | (simp at h; done)
    | (obtain rfl := Option.some.inj h; exact ⟨rfl, rfl⟩)

/-- Items given by producer `t` to its put calls, in call order. -/
def callsOf (t : Nat) : Act α → List α
  | .put t' x | .offer t' x => if t' = t then [x] else []
  | _ => []

/-- Items of producer `t` among the (producer, item) pairs. -/
def itemsOf (t : Nat) (l : List (Nat × α)) : List α :=
  (l.filter (fun e => e.1 = t)).map Prod.snd

theorem itemsOf_snoc (t t' : Nat) (l : List (Nat × α)) (x : α) :
    itemsOf t (l ++ [(t', x)]) = itemsOf t l ++ if t' = t then [x] else [] := by
  by_cases h : t' = t <;> simp [itemsOf, h]

theorem act_calls (t : Nat) {s s' : St α} {a : Act α} (h : act s a = some s') :
    (itemsOf t s'.tickets ++ pend (s'.ppc t)).Sublist
      (itemsOf t s.tickets ++ pend (s.ppc t) ++ callsOf t a) ∧
    ((∀ t x, a ≠ .offer t x) → (∀ t, isOffer (s.ppc t) = false) →
      itemsOf t s'.tickets ++ pend (s'.ppc t) = itemsOf t s.tickets ++ pend (s.ppc t) ++ callsOf t a
      ∧ ∀ t, isOffer (s'.ppc t) = false) := by
  cases a with
  | pStep t0 =>
    obtain ⟨pc, hpc, hc⟩ := pStep_cases h
    rw [hpc]
    by_cases ht : t = t0
    · subst ht
      rcases hc with ⟨h1, h2, h3⟩ | ⟨x, h1, h2, h3, h4⟩
      · refine ⟨by simp [h1, callsOf, h2], fun _ ho => ?_⟩
        obtain ⟨h4, h5⟩ := h3 (ho t)
        refine ⟨by simp [h1, callsOf, h4], fun t' => ?_⟩
        by_cases ht : t' = t
        · subst ht; simp [h5]
        · rw [upd_ne _ _ ht]; exact ho t'
      · refine ⟨by simp [h1, callsOf, h2, h3, itemsOf_snoc], fun _ ho => ?_⟩
        refine ⟨by simp [h1, callsOf, h2, h3, itemsOf_snoc], fun t' => ?_⟩
        by_cases ht : t' = t
        · subst ht; simp [h4]
        · rw [upd_ne _ _ ht]; exact ho t'
    · rw [upd_ne _ _ ht]
      have hx : itemsOf t s'.tickets = itemsOf t s.tickets := by
        rcases hc with ⟨h1, _, _⟩ | ⟨x, h1, _, _, _⟩
        · rw [h1]
        · rw [h1, itemsOf_snoc, if_neg (Ne.symm ht)]; simp
      refine ⟨by simp [hx, callsOf], fun _ ho => ⟨by simp [hx, callsOf], fun t' => ?_⟩⟩
      by_cases ht : t' = t0
      · subst ht
        simp only [upd_same]
        rcases hc with ⟨_, _, h3⟩ | ⟨x, _, _, _, h4⟩
        · exact (h3 (ho t')).2
        · exact h4
      · rw [upd_ne _ _ ht]; exact ho t'
  | put t0 x | offer t0 x =>
    simp only [act] at h
    split at h
    · next hpc =>
      obtain rfl := Option.some.inj h
      constructor
      · by_cases ht : t = t0
        · subst ht; simp [pend, hpc, callsOf]
        · simp [upd_ne _ _ ht, callsOf, Ne.symm ht]
      · intro hb ho
        first
        | exact absurd rfl (hb t0 x)
        | (constructor
           · by_cases ht : t = t0
             · subst ht; simp [pend, hpc, callsOf]
             · simp [upd_ne _ _ ht, callsOf, Ne.symm ht]
           · intro t'
             by_cases ht : t' = t0
             · subst ht; simp [isOffer]
             · simp only [upd_ne _ _ ht]; exact ho t')
    · simp at h
  | putSlow t0 =>
    simp only [act] at h
    split at h
    · next p x hpc =>
      obtain rfl := Option.some.inj h
      have e : pend (upd s.ppc t0 (.slow p x) t) = pend (s.ppc t) := by
        by_cases ht : t = t0
        · subst ht; simp [pend, hpc]
        · rw [upd_ne _ _ ht]
      refine ⟨by simp [e, callsOf], fun _ ho => ⟨by simp [e, callsOf], fun t' => ?_⟩⟩
      by_cases ht : t' = t0
      · subst ht; simp [isOffer]
      · simp only [upd_ne _ _ ht]; exact ho t'
    · simp at h
  | accept | getFast | getSlow | cStep | close =>
    obtain ⟨h1, h2⟩ := cons_frame (by simp) h
    refine ⟨by simp [h1, h2, callsOf], fun _ ho => ⟨by simp [h1, h2, callsOf], fun t' => ?_⟩⟩
    rw [h1]; exact ho t'

theorem run_calls (t : Nat) (sched : List (Act α)) {s s' : St α} (h : run s sched = some s') :
    (itemsOf t s'.tickets ++ pend (s'.ppc t)).Sublist
      (itemsOf t s.tickets ++ pend (s.ppc t) ++ sched.flatMap (callsOf t)) ∧
    ((∀ t x, Act.offer t x ∉ sched) → (∀ t, isOffer (s.ppc t) = false) →
      itemsOf t s'.tickets ++ pend (s'.ppc t) =
        itemsOf t s.tickets ++ pend (s.ppc t) ++ sched.flatMap (callsOf t)) := by
  induction sched generalizing s with
  | nil => obtain rfl := Option.some.inj h; simp
  | cons a as ih =>
    simp only [run] at h
    cases ha : act s a with
    | none => rw [ha] at h; simp at h
    | some s1 =>
      rw [ha] at h
      obtain ⟨h1, h2⟩ := act_calls t ha
      obtain ⟨h3, h4⟩ := ih h
      constructor
      · refine h3.trans ?_
        have := h1.append (List.Sublist.refl (as.flatMap (callsOf t)))
        simpa using this
      · intro hb ho
        obtain ⟨h5, h6⟩ := h2 (fun t x hx => hb t x (by simp [hx])) ho
        rw [h4 (fun t x hx => hb t x (by simp [hx])) h6, h5]
        simp

end Verif.Mpsc
