import Verif.Deque
import Mathlib.Tactic.Tauto

/-! Invariant of the deque: the nodes form a ring, the used part runs from head to tail. -/

namespace Verif.Deque

variable {α : Type}

/-! ### Node updates -/

@[simp] theorem setV_n (mem : Nat → Node α) (x y : Nat) (l) : (setV mem x l y).n = (mem y).n := by
  unfold setV upd; split <;> simp_all
@[simp] theorem setV_p (mem : Nat → Node α) (x y : Nat) (l) : (setV mem x l y).p = (mem y).p := by
  unfold setV upd; split <;> simp_all
@[simp] theorem setV_v (mem : Nat → Node α) (x y : Nat) (l) :
    (setV mem x l y).v = if y = x then l else (mem y).v := by
  unfold setV upd; split <;> simp_all
@[simp] theorem setN_n (mem : Nat → Node α) (x y w : Nat) :
    (setN mem x w y).n = if y = x then w else (mem y).n := by
  unfold setN upd; split <;> simp_all
@[simp] theorem setN_p (mem : Nat → Node α) (x y w : Nat) : (setN mem x w y).p = (mem y).p := by
  unfold setN upd; split <;> simp_all
@[simp] theorem setN_v (mem : Nat → Node α) (x y w : Nat) : (setN mem x w y).v = (mem y).v := by
  unfold setN upd; split <;> simp_all
@[simp] theorem setP_p (mem : Nat → Node α) (x y w : Nat) :
    (setP mem x w y).p = if y = x then w else (mem y).p := by
  unfold setP upd; split <;> simp_all
@[simp] theorem setP_n (mem : Nat → Node α) (x y w : Nat) : (setP mem x w y).n = (mem y).n := by
  unfold setP upd; split <;> simp_all
@[simp] theorem setP_v (mem : Nat → Node α) (x y w : Nat) : (setP mem x w y).v = (mem y).v := by
  unfold setP upd; split <;> simp_all

theorem store_eq {d : Dq α} {x i : Nat} (y : α) (h : i < (d.mem x).v.length) :
    store d x i y = some { d with mem := setV d.mem x ((d.mem x).v.set i y) } := by
  rw [store, if_pos h]

/-! ### Rings -/

/-- The nodes `ids` are linked in a ring in this order. -/
def Ring (mem : Nat → Node α) : List Nat → Prop
  | [] => False
  | h :: l => ∀ q ∈ (h :: l).zip (l ++ [h]), (mem q.1).n = q.2 ∧ (mem q.2).p = q.1

theorem zip_snoc (h t : Nat) (l : List Nat) (e : Nat) :
    (h :: (l ++ [t])).zip ((l ++ [t]) ++ [e]) = (h :: l).zip (l ++ [t]) ++ [(t, e)] := by
  rw [← List.cons_append, List.zip_append (by simp)]
  rfl

theorem zip_fst {l1 l2 : List Nat} {q : Nat × Nat} (h : q ∈ l1.zip l2) : q.1 ∈ l1 := (List.of_mem_zip h).1
theorem zip_snd {l1 l2 : List Nat} {q : Nat × Nat} (h : q ∈ l1.zip l2) : q.2 ∈ l2 := (List.of_mem_zip h).2

theorem ring_single {mem : Nat → Node α} {h : Nat} (hr : Ring mem [h]) : (mem h).n = h ∧ (mem h).p = h :=
  hr (h, h) (by simp)

theorem ring_last {mem : Nat → Node α} {h t : Nat} {l : List Nat} (hr : Ring mem (h :: (l ++ [t]))) :
    (mem t).n = h ∧ (mem h).p = t :=
  hr (t, h) (by rw [zip_snoc]; simp)

theorem ring_first {mem : Nat → Node α} {h y : Nat} {l : List Nat} (hr : Ring mem (h :: y :: l)) :
    (mem h).n = y ∧ (mem y).p = h :=
  hr (h, y) (by simp)

theorem ring_rotate1 {mem : Nat → Node α} {h : Nat} {l : List Nat} (hr : Ring mem (h :: l)) :
    Ring mem (l ++ [h]) := by
  cases l with
  | nil => exact hr
  | cons y l =>
    intro q hq
    have hq : q ∈ (y :: (l ++ [h])).zip ((l ++ [h]) ++ [y]) := hq
    rw [zip_snoc y h l y] at hq
    rcases List.mem_append.1 hq with hq | hq
    · exact hr q (by simp only [List.cons_append, List.zip_cons_cons]; exact List.mem_cons_of_mem _ hq)
    · rw [List.mem_singleton] at hq; subst hq; exact ring_first hr

theorem ring_rotate {mem : Nat → Node α} {l1 l2 : List Nat} (hr : Ring mem (l1 ++ l2)) :
    Ring mem (l2 ++ l1) := by
  induction l1 generalizing l2 with
  | nil => simpa using hr
  | cons x l1 ih =>
    have : Ring mem ((l1 ++ l2) ++ [x]) := ring_rotate1 hr
    rw [List.append_assoc] at this
    have := ih this
    simpa using this

theorem ring_adj {mem : Nat → Node α} {l1 l2 : List Nat} {x y : Nat}
    (hr : Ring mem (l1 ++ x :: y :: l2)) : (mem x).n = y ∧ (mem y).p = x := by
  have := ring_rotate hr
  exact ring_first this

theorem ring_congr {mem mem' : Nat → Node α} {ids : List Nat} (hr : Ring mem ids)
    (h : ∀ x ∈ ids, (mem' x).n = (mem x).n ∧ (mem' x).p = (mem x).p) : Ring mem' ids := by
  cases ids with
  | nil => exact hr
  | cons y l =>
    intro q hq
    have h1 := zip_fst hq
    have h2 := zip_snd hq
    have h2 : q.2 ∈ y :: l := by simp at h2 ⊢; tauto
    rw [(h _ h1).1, (h _ h2).2]
    exact hr q hq

/-- A new node between the last and the first node. -/
theorem ring_insert {mem mem' : Nat → Node α} {h x t : Nat} {l : List Nat}
    (hr : Ring mem (h :: l)) (hnd : (h :: l).Nodup) (hlast : (h :: l).getLast? = some t)
    (hn : (mem' x).n = h) (hp : (mem' x).p = t) (htn : (mem' t).n = x) (hhp : (mem' h).p = x)
    (h1 : ∀ y ∈ h :: l, y ≠ t → (mem' y).n = (mem y).n)
    (h2 : ∀ y ∈ h :: l, y ≠ h → (mem' y).p = (mem y).p) : Ring mem' (h :: l ++ [x]) := by
  intro q hq
  have hq : q ∈ (h :: (l ++ [x])).zip ((l ++ [x]) ++ [h]) := hq
  rw [zip_snoc h x l h] at hq
  rcases List.mem_append.1 hq with hq | hq
  · rcases List.eq_nil_or_concat l with rfl | ⟨l', t', rfl⟩
    · simp at hlast hq
      subst hlast; subst hq
      exact ⟨htn, hp⟩
    · have e : (h :: (l' ++ [t'])).getLast? = some t' := by
        rw [← List.cons_append, List.getLast?_concat]
      rw [List.concat_eq_append] at *
      rw [e] at hlast
      obtain rfl : t' = t := by simpa using hlast
      rw [zip_snoc] at hq
      rcases List.mem_append.1 hq with hq | hq
      · have f1 := zip_fst hq
        have f2 := zip_snd hq
        rw [← List.cons_append, List.nodup_append] at hnd
        have g1 : q.1 ≠ t' := fun e => hnd.2.2 _ f1 t' (by simp) e
        have g2 : q.2 ≠ h := by
          intro e
          rw [e] at f2
          rcases List.mem_append.1 f2 with f2 | f2
          · exact (List.nodup_cons.1 hnd.1).1 f2
          · exact hnd.2.2 h (by simp) t' (by simp) (by simpa using f2)
        rw [h1 _ (by simp at f1 ⊢; tauto) g1, h2 _ (by simp at f2 ⊢; tauto) g2]
        exact hr q (by rw [zip_snoc]; exact List.mem_append_left _ hq)
      · rw [List.mem_singleton] at hq; subst hq
        exact ⟨htn, hp⟩
  · rw [List.mem_singleton] at hq; subst hq
    exact ⟨hn, hhp⟩

/-- Unlinking the first node. -/
theorem ring_remove {mem mem' : Nat → Node α} {h y : Nat} {l : List Nat}
    (hr : Ring mem (h :: y :: l)) (hnd : (h :: y :: l).Nodup)
    (htn : (mem' (mem h).p).n = y) (hyp : (mem' y).p = (mem h).p)
    (h1 : ∀ x ∈ y :: l, x ≠ (mem h).p → (mem' x).n = (mem x).n)
    (h2 : ∀ x ∈ y :: l, x ≠ y → (mem' x).p = (mem x).p) : Ring mem' (y :: l) := by
  rcases List.eq_nil_or_concat l with rfl | ⟨l', t, rfl⟩
  · have := ring_last (l := []) hr
    intro q hq
    simp at hq
    subst hq
    rw [this.2] at htn hyp
    exact ⟨htn, hyp⟩
  · rw [List.concat_eq_append] at *
    have ht : (mem h).p = t := (ring_last (l := y :: l') hr).2
    rw [ht] at htn hyp h1
    intro q hq
    rw [zip_snoc] at hq
    have hnd2 := (List.nodup_cons.1 hnd).2
    rcases List.mem_append.1 hq with hq | hq
    · have f1 := zip_fst hq
      have f2 := zip_snd hq
      rw [← List.cons_append, List.nodup_append] at hnd2
      have g1 : q.1 ≠ t := fun e => hnd2.2.2 _ f1 t (by simp) e
      have g2 : q.2 ≠ y := by
        intro e
        rw [e] at f2
        rcases List.mem_append.1 f2 with f2 | f2
        · exact (List.nodup_cons.1 hnd2.1).1 f2
        · exact hnd2.2.2 y (by simp) t (by simp) (by simpa using f2)
      rw [h1 _ (by simp at f1 ⊢; tauto) g1, h2 _ (by simp at f2 ⊢; tauto) g2]
      refine hr q ?_
      rw [List.cons_append, List.zip_cons_cons, zip_snoc]
      exact List.mem_cons_of_mem _ (List.mem_append_left _ hq)
    · rw [List.mem_singleton] at hq; subst hq
      exact ⟨htn, hyp⟩

/-! ### The invariant -/

/-- Facts about all nodes of the ring. -/
structure Core (d : Dq α) (ids : List Nat) : Prop where
  nodup : ids.Nodup
  fresh : ∀ x ∈ ids, x < d.next
  ring : Ring d.mem ids
  pos : ∀ x ∈ ids, 0 < (d.mem x).v.length
  big : 2 ≤ ids.length → ∀ x ∈ ids, 64 ≤ (d.mem x).v.length
  hlp : d.hlp + 1 = (d.mem d.head).v.length

/-- Where the content `c` is: inside the head node, or from the head to a different tail node;
nodes after the tail are spare. -/
inductive Shape (d : Dq α) : List Nat → List α → Prop
  | one (spares : List Nat) (a c b : List α) : d.tail = d.head → (d.mem d.head).v = a ++ c ++ b →
      a.length = d.hp → d.tp = d.hp + c.length → d.hp < (d.mem d.head).v.length →
      Shape d (d.head :: spares) c
  | many (mids spares : List Nat) (a c1 c2 b : List α) : (d.mem d.head).v = a ++ c1 → c1 ≠ [] →
      (d.mem d.tail).v = c2 ++ b → c2 ≠ [] → a.length = d.hp → d.tp = c2.length →
      Shape d (d.head :: mids ++ d.tail :: spares) (c1 ++ mids.flatMap (fun x => (d.mem x).v) ++ c2)

/-- The deque `d` holds the list `c`. -/
structure Rep (d : Dq α) (c : List α) : Prop where
  tz : d.tz = true
  len : d.len = c.length
  shape : (d.isNil = true ∧ c = [] ∧ d.hp = 0) ∨
    (d.isNil = false ∧ ∃ ids, Core d ids ∧ Shape d ids c)

theorem flatMap_congr' {ids : List Nat} {f g : Nat → List α} (h : ∀ x ∈ ids, f x = g x) :
    ids.flatMap f = ids.flatMap g := by
  induction ids with
  | nil => rfl
  | cons x xs ih =>
    rw [List.flatMap_cons, List.flatMap_cons, h x (by simp), ih (fun y hy => h y (by simp [hy]))]

/-- `Core` carries over to a state whose links are the same and whose slices have the same
lengths, with the nodes in any rotated order. -/
theorem Core.transfer {d d' : Dq α} {ids ids' : List Nat} (h : Core d ids)
    (hperm : ids'.Perm ids) (hnext : d.next ≤ d'.next)
    (hring : Ring d'.mem ids')
    (hlen : ∀ x ∈ ids, (d'.mem x).v.length = (d.mem x).v.length)
    (hhlp : d'.hlp + 1 = (d'.mem d'.head).v.length) : Core d' ids' where
  nodup := hperm.nodup_iff.2 h.nodup
  fresh := fun x hx => Nat.lt_of_lt_of_le (h.fresh x (hperm.mem_iff.1 hx)) hnext
  ring := hring
  pos := fun x hx => by rw [hlen x (hperm.mem_iff.1 hx)]; exact h.pos x (hperm.mem_iff.1 hx)
  big := fun hl x hx => by
    rw [hlen x (hperm.mem_iff.1 hx)]
    exact h.big (by rw [hperm.length_eq] at hl; exact hl) x (hperm.mem_iff.1 hx)
  hlp := hhlp

theorem set_append_mid (a : List α) (y : α) (b : List α) (x : α) (i : Nat) (h : i = a.length) :
    (a ++ y :: b).set i x = a ++ x :: b := by
  subst h
  rw [List.set_append_right _ _ (Nat.le_refl _)]
  simp

theorem snoc_of_pos {l : List α} (h : 0 < l.length) : ∃ l' y, l = l' ++ [y] := by
  rcases List.eq_nil_or_concat l with rfl | ⟨l', y, rfl⟩
  · simp at h
  · exact ⟨l', y, by simp⟩

theorem cons_of_pos {l : List α} (h : 0 < l.length) : ∃ y l', l = y :: l' := by
  cases l with
  | nil => simp at h
  | cons y l' => exact ⟨y, l', rfl⟩

theorem length_eq_nil {l : List α} (h : l.length = 0) : l = [] := List.eq_nil_of_length_eq_zero h

/-- A free slot sits at `hp`, just before the content `c`. -/
inductive FrontReady (d : Dq α) : List Nat → List α → Prop
  | one (spares : List Nat) (a : List α) (y : α) (c b : List α) : d.tail = d.head →
      (d.mem d.head).v = a ++ y :: (c ++ b) → a.length = d.hp → d.tp = d.hp + 1 + c.length →
      FrontReady d (d.head :: spares) c
  | many (mids spares : List Nat) (a : List α) (y : α) (c1 c2 b : List α) :
      (d.mem d.head).v = a ++ y :: c1 → (d.mem d.tail).v = c2 ++ b → c2 ≠ [] → a.length = d.hp →
      d.tp = c2.length →
      FrontReady d (d.head :: mids ++ d.tail :: spares)
        (c1 ++ mids.flatMap (fun x => (d.mem x).v) ++ c2)

/-- A free slot sits at index `i` of the tail, just after the content `c`. -/
inductive BackReady (d : Dq α) (i : Nat) : List Nat → List α → Prop
  | one (spares : List Nat) (a c : List α) (y : α) (b : List α) : d.tail = d.head →
      (d.mem d.head).v = a ++ c ++ y :: b → a.length = d.hp → i = d.hp + c.length →
      BackReady d i (d.head :: spares) c
  | many (mids spares : List Nat) (a c1 c2 : List α) (y : α) (b : List α) :
      (d.mem d.head).v = a ++ c1 → c1 ≠ [] → (d.mem d.tail).v = c2 ++ y :: b → a.length = d.hp →
      i = c2.length →
      BackReady d i (d.head :: mids ++ d.tail :: spares)
        (c1 ++ mids.flatMap (fun x => (d.mem x).v) ++ c2)

theorem Core.store {d : Dq α} {ids : List Nat} (h : Core d ids) (x i len : Nat) (w : α) :
    Core { d with len := len, mem := setV d.mem x ((d.mem x).v.set i w) } ids := by
  have hl : ∀ y, (setV d.mem x ((d.mem x).v.set i w) y).v.length = (d.mem y).v.length := by
    intro y; rw [setV_v]; split
    · rename_i e; rw [List.length_set, e]
    · rfl
  exact h.transfer (List.Perm.refl _) (Nat.le_refl _) (ring_congr h.ring (by simp))
    (fun y _ => hl y) (by rw [hl]; exact h.hlp)

theorem nodup_many {h t : Nat} {mids spares : List Nat} (hnd : (h :: mids ++ t :: spares).Nodup) :
    h ≠ t ∧ h ∉ mids ∧ t ∉ mids ∧ h ∉ spares ∧ t ∉ spares ∧ ∀ x ∈ mids, x ∉ spares := by
  simp only [List.cons_append, List.nodup_cons, List.mem_append, List.mem_cons, not_or,
    List.nodup_append, ne_eq] at hnd
  obtain ⟨⟨h1, h2, h3⟩, h4, ⟨h5, h6⟩, h7⟩ := hnd
  refine ⟨h2, h1, ?_, h3, h5, ?_⟩
  · intro hm; exact h7 t hm t (Or.inl rfl) rfl
  · intro x hx hs; exact h7 x hx x (Or.inr hs) rfl

/-- Filling the free slot in front. -/
theorem FrontReady.fill {d : Dq α} {ids : List Nat} {c : List α} (hc : Core d ids)
    (h : FrontReady d ids c) (w : α) (len : Nat) :
    d.hp < (d.mem d.head).v.length ∧
    Shape { d with len := len, mem := setV d.mem d.head ((d.mem d.head).v.set d.hp w) } ids (w :: c) := by
  cases h with
  | one spares a y _ b ht hv ha htp =>
    refine ⟨by rw [hv]; simp; omega, ?_⟩
    refine Shape.one (d := { d with len := len, mem := setV d.mem d.head ((d.mem d.head).v.set d.hp w) })
      spares a (w :: c) b ht ?_ ha ?_ ?_
    · simp only [setV_v, if_true]
      rw [hv, set_append_mid _ _ _ _ _ ha.symm]; simp
    · simp only [List.length_cons]; omega
    · simp only [setV_v, if_true, List.length_set]; rw [hv]; simp; omega
  | many mids spares a y c1 c2 b hv ht hc2 ha htp =>
    obtain ⟨n1, n2, n3, n4, n5, n6⟩ := nodup_many hc.nodup
    refine ⟨by rw [hv]; simp; omega, ?_⟩
    have := Shape.many (d := { d with len := len, mem := setV d.mem d.head ((d.mem d.head).v.set d.hp w) })
      mids spares a (w :: c1) c2 b ?_ (by simp) ?_ hc2 ha htp
    · have e : mids.flatMap (fun x => (setV d.mem d.head ((d.mem d.head).v.set d.hp w) x).v) =
          mids.flatMap (fun x => (d.mem x).v) := by
        apply flatMap_congr'
        intro x hx
        rw [setV_v, if_neg (show ¬ x = d.head from fun e => n2 (e ▸ hx))]
      simp only [e] at this
      simpa using this
    · simp only [setV_v, if_true]
      rw [hv, set_append_mid _ _ _ _ _ ha.symm]
    · simp only [setV_v, if_neg (Ne.symm n1)]; exact ht

/-- Emptying the first slot. -/
theorem Shape.emptyFront {d : Dq α} {ids : List Nat} {y : α} {c : List α} (hc : Core d ids)
    (h : Shape d ids (y :: c)) (w : α) (len : Nat) :
    (d.mem d.head).v[d.hp]? = some y ∧
    FrontReady { d with len := len, mem := setV d.mem d.head ((d.mem d.head).v.set d.hp w) } ids c := by
  generalize hcc : y :: c = cc at h
  cases h with
  | one spares a _ b ht hv ha htp hlt =>
    subst hcc
    refine ⟨by rw [hv, ← ha]; simp, ?_⟩
    refine FrontReady.one (d := { d with len := len, mem := setV d.mem d.head ((d.mem d.head).v.set d.hp w) })
      spares a w c b ht ?_ ha ?_
    · simp only [setV_v, if_true]
      rw [hv, List.append_assoc, List.cons_append, set_append_mid _ _ _ _ _ ha.symm]
    · rw [htp]; simp only [List.length_cons]; omega
  | many mids spares a c1 c2 b hv hc1 ht hc2 ha htp =>
    obtain ⟨n1, n2, n3, n4, n5, n6⟩ := nodup_many hc.nodup
    cases c1 with
    | nil => exact absurd rfl hc1
    | cons y' c1 =>
      simp only [List.cons_append, List.cons.injEq] at hcc
      obtain ⟨rfl, hcc⟩ := hcc
      refine ⟨by rw [hv, ← ha]; simp, ?_⟩
      have := FrontReady.many (d := { d with len := len, mem := setV d.mem d.head ((d.mem d.head).v.set d.hp w) })
        mids spares a w c1 c2 b ?_ ?_ hc2 ha htp
      · have e : mids.flatMap (fun x => (setV d.mem d.head ((d.mem d.head).v.set d.hp w) x).v) =
            mids.flatMap (fun x => (d.mem x).v) := by
          apply flatMap_congr'
          intro x hx
          rw [setV_v, if_neg (show ¬ x = d.head from fun e => n2 (e ▸ hx))]
        simp only [e] at this
        rw [hcc]
        exact this
      · simp only [setV_v, if_true]
        rw [hv, set_append_mid _ _ _ _ _ ha.symm]
      · simp only [setV_v, if_neg (Ne.symm n1)]; exact ht

/-- Filling the free slot at the back. -/
theorem BackReady.fill {d : Dq α} {i : Nat} {ids : List Nat} {c : List α} (hc : Core d ids)
    (h : BackReady d i ids c) (w : α) (len : Nat) :
    i < (d.mem d.tail).v.length ∧
    (d.tp = i + 1 →
    Shape { d with len := len, mem := setV d.mem d.tail ((d.mem d.tail).v.set i w) } ids (c ++ [w])) := by
  cases h with
  | one spares a _ y b ht hv ha hi =>
    rw [ht]
    refine ⟨by rw [hv]; simp; omega, ?_⟩
    intro htp
    refine Shape.one (d := { d with len := len, tail := d.head, mem := setV d.mem d.head ((d.mem d.head).v.set i w) })
      spares a (c ++ [w]) b rfl ?_ ha ?_ ?_
    · simp only [setV_v, if_true]
      rw [hv, set_append_mid _ _ _ _ _ (by simp; omega)]; simp
    · simp only [List.length_append, List.length_singleton]; omega
    · simp only [setV_v, if_true, List.length_set]; rw [hv]; simp; omega
  | many mids spares a c1 c2 y b hv hc1 ht ha hi =>
    obtain ⟨n1, n2, n3, n4, n5, n6⟩ := nodup_many hc.nodup
    refine ⟨by rw [ht]; simp; omega, ?_⟩
    intro htp
    have := Shape.many (d := { d with len := len, mem := setV d.mem d.tail ((d.mem d.tail).v.set i w) })
      mids spares a c1 (c2 ++ [w]) b ?_ hc1 ?_ (by simp) ha (by simp only [List.length_append, List.length_singleton]; omega)
    · have e : mids.flatMap (fun x => (setV d.mem d.tail ((d.mem d.tail).v.set i w) x).v) =
          mids.flatMap (fun x => (d.mem x).v) := by
        apply flatMap_congr'
        intro x hx
        rw [setV_v, if_neg (show ¬ x = d.tail from fun e => n3 (e ▸ hx))]
      simp only [e] at this
      simpa using this
    · simp only [setV_v, if_neg n1]; exact hv
    · simp only [setV_v, if_true]
      rw [ht, set_append_mid _ _ _ _ _ hi]; simp

/-- Emptying the last slot. -/
theorem Shape.emptyBack {d : Dq α} {ids : List Nat} {y : α} {c : List α} (hc : Core d ids)
    (h : Shape d ids (c ++ [y])) (w : α) (len : Nat) :
    0 < d.tp ∧ (d.mem d.tail).v[d.tp - 1]? = some y ∧
    BackReady { d with len := len, tp := d.tp - 1, mem := setV d.mem d.tail ((d.mem d.tail).v.set (d.tp - 1) w) }
      (d.tp - 1) ids c := by
  generalize hcc : c ++ [y] = cc at h
  cases h with
  | one spares a _ b ht hv ha htp hlt =>
    subst hcc
    rw [ht]
    simp only [List.length_append, List.length_singleton] at htp
    refine ⟨by omega, ?_, ?_⟩
    · rw [hv, List.append_assoc, List.append_assoc, ← List.append_assoc a,
        List.getElem?_append_right (by simp; omega)]
      simp only [List.length_append]
      rw [show d.tp - 1 - (a.length + c.length) = 0 by omega]
      rfl
    · refine BackReady.one (d := { d with len := len, tail := d.head, tp := d.tp - 1, mem := setV d.mem d.head ((d.mem d.head).v.set (d.tp - 1) w) })
        spares a c w b rfl ?_ ha (by simp only; omega)
      simp only [setV_v, if_true]
      rw [hv, show a ++ (c ++ [y]) ++ b = (a ++ c) ++ y :: b by simp,
        set_append_mid (a ++ c) y b w (d.tp - 1) (by simp; omega)]
  | many mids spares a c1 c2 b hv hc1 ht hc2 ha htp =>
    obtain ⟨n1, n2, n3, n4, n5, n6⟩ := nodup_many hc.nodup
    obtain ⟨c2', y', rfl⟩ := snoc_of_pos (List.length_pos_iff.2 hc2)
    simp only [List.length_append, List.length_singleton] at htp
    rw [← List.append_assoc] at hcc
    obtain ⟨hcc', hy⟩ := List.append_inj' hcc rfl
    simp only [List.cons.injEq, and_true] at hy
    subst hy
    refine ⟨by omega, ?_, ?_⟩
    · rw [ht, List.append_assoc, List.getElem?_append_right (by omega),
        show d.tp - 1 - c2'.length = 0 by omega]
      rfl
    · have := BackReady.many (d := { d with len := len, tp := d.tp - 1, mem := setV d.mem d.tail ((d.mem d.tail).v.set (d.tp - 1) w) })
        (i := d.tp - 1) mids spares a c1 c2' w b ?_ hc1 ?_ ha (by omega)
      · have e : mids.flatMap (fun x => (setV d.mem d.tail ((d.mem d.tail).v.set (d.tp - 1) w) x).v) =
            mids.flatMap (fun x => (d.mem x).v) := by
          apply flatMap_congr'
          intro x hx
          rw [setV_v, if_neg (show ¬ x = d.tail from fun e => n3 (e ▸ hx))]
        simp only [e] at this
        rw [hcc']
        exact this
      · simp only [setV_v, if_neg n1]; exact hv
      · simp only [setV_v, if_true]
        rw [ht, List.append_assoc, List.singleton_append, set_append_mid _ _ _ _ _ (by omega)]

end Verif.Deque
