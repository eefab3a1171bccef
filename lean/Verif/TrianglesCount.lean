import Verif.TrianglesInv

/-!
# Every pair of edges is checked once

What has been counted and what is still on its way together are the pairs of an out-edge that may lead a triangle
and an earlier out-edge of the same vertex, up to `UpdateAt`.
-/

namespace Verif.Triangles

open scoped BigOperators

/-- The check of one edge, as the stream determines it. -/
noncomputable def good (c : Cfg) (d pos : Nat) (e : OutEdge) : Bool :=
  open Classical in
  decide (e.raw ≠ EMPTY) && decide (∃ g, src c g = e.raw &&& MASK ∧ dst c g = d ∧ First c g ∧ posOf c g < pos)

noncomputable def leadS (c : Cfg) (d : Nat) (n : Note) : Nat := n.newEdges.countP (good c d n.pos)

/-- The destination has seen the edge the notification is about. -/
def Seen (s : St) (w : Nat) (n : Note) : Prop := n.newEdges = [] ∨ n.pos ≤ s.inPos w

theorem lead_eq {c : Cfg} {s : St} (h : Shape c s) {d : Nat} {n : Note} (hn : Seen s d n) : lead (s.map d) n = leadS c d n := by
  rcases hn with hn | hn
  · simp [lead, leadS, hn]
  · unfold lead leadS
    congr 1
    funext e
    unfold good
    congr 1
    rw [h.pos] at hn
    cases hm : s.map d (e.raw &&& MASK) with
    | none =>
      simp only
      symm
      rw [decide_eq_false_iff_not]
      rintro ⟨g, h1, h2, h3, h4⟩
      have hg : g < s.inCur d := by
        subst h2; exact (posOf_lt_iff c).1 (by omega)
      rw [(h.map d _ _).2 ⟨g, hg, h1, h2, h3, rfl⟩] at hm
      cases hm
    | some q =>
      simp only
      classical
      rw [Bool.eq_iff_iff, decide_eq_true_iff, decide_eq_true_iff]
      constructor
      · intro hq
        obtain ⟨i, h1, h2, h3, h4, h5⟩ := (h.map d _ _).1 hm
        exact ⟨i, h2, h3, h4, by omega⟩
      · rintro ⟨g, h1, h2, h3, h4⟩
        have hg : g < s.inCur d := by
          subst h2; exact (posOf_lt_iff c).1 (by omega)
        rw [(h.map d _ _).2 ⟨g, hg, h1, h2, h3, rfl⟩] at hm
        cases hm
        exact h4

/-! ## Notifications know their position -/

def queued : Task → List (Nat × Note)
  | .idle => []
  | .run q => q
  | .put w n q => (w, n) :: q

structure Notes (s : St) : Prop where
  pend : ∀ v n, n ∈ s.pend v → Seen s v n
  task : ∀ t w n, (w, n) ∈ queued (s.task t) → Seen s w n

theorem mem_sendOld {l : List OutEdge} {a b w : Nat} {n : Note} (h : (w, n) ∈ sendOld l a b) : ∃ o ∈ l, w = o.dst ∧ n.pos = o.pos := by
  simp only [sendOld, List.mem_filterMap, List.mem_range] at h
  obtain ⟨e, _, h⟩ := h
  split at h
  · split at h
    · cases h
    · rename_i o ho
      split at h
      · cases h
      · simp only [Option.some.injEq, Prod.mk.injEq] at h
        exact ⟨o, List.mem_of_getElem? ho, h.1.symm, by rw [← h.2]⟩
  · cases h

theorem mem_sendNew {l : List OutEdge} {a b w : Nat} {n : Note} (h : (w, n) ∈ sendNew l a b) : ∃ o ∈ l, w = o.dst ∧ n.pos = o.pos := by
  simp only [sendNew, List.mem_filterMap, List.mem_range] at h
  obtain ⟨e, _, h⟩ := h
  split at h
  · split at h
    · cases h
    · rename_i o ho
      split at h
      · cases h
      · simp only [Option.some.injEq, Prod.mk.injEq] at h
        exact ⟨o, List.mem_of_getElem? ho, h.1.symm, by rw [← h.2]⟩
  · cases h

theorem out_seen {c : Cfg} {s : St} (h : Shape c s) {v : Nat} {o : OutEdge} (ho : o ∈ s.out v) : o.pos ≤ s.inPos o.dst := by
  rw [h.out, List.mem_map] at ho
  obtain ⟨i, hi, rfl⟩ := ho
  obtain ⟨h1, _, h3⟩ := mem_batch.1 hi
  subst h3
  have := (posOf_lt_iff c).2 (h.seen i h1)
  show posOf c i ≤ s.inPos (dst c i)
  rw [h.pos]; omega

theorem sends_seen {c : Cfg} {s : St} (h : Shape c s) {v : Nat} {w : Nat} {n : Note}
    (ho : ∃ o ∈ s.out v, w = o.dst ∧ n.pos = o.pos) : Seen s w n := by
  obtain ⟨o, h1, h2, h3⟩ := ho
  right; rw [h2, h3]; exact out_seen h h1

theorem notes_step {c : Cfg} {s s' : St} {x : Act} (h : Shape c s) (hn : Notes s) (hs : step c s x = some s') : Notes s' := by
  have h' := shape_step h hs
  cases x with
  | obs t d i =>
    simp only [step] at hs
    split at hs
    · simp only [Option.some.injEq] at hs
      have hmono : ∀ w, s.inPos w ≤ s'.inPos w := by
        intro w; subst hs
        by_cases hw : w = d
        · subst hw; simp
        · simp [upd, hw]
      have hsn : ∀ w n, Seen s w n → Seen s' w n := fun w n h => h.imp id fun h => Nat.le_trans h (hmono w)
      subst hs
      exact ⟨fun v n hm => hsn v n (hn.pend v n hm), fun t w n hm => hsn w n (hn.task t w n hm)⟩
    · cases hs
  | add t v m =>
    simp only [step] at hs
    split at hs
    · split at hs
      · simp only [Option.some.injEq] at hs
        subst hs
        refine ⟨hn.pend, fun u w n hm => ?_⟩
        by_cases hu : u = t
        · subst hu
          refine sends_seen (v := v) h' ?_
          simp only [upd_same, queued, onAdd] at hm ⊢
          split at hm
          · simp only [List.mem_append] at hm
            rcases hm with hm | hm
            · exact mem_sendOld hm
            · exact mem_sendNew hm
          · exact mem_sendNew hm
        · simp only [upd_ne _ _ hu] at hm
          exact hn.task u w n hm
      · simp only [Option.some.injEq] at hs
        subst hs; exact ⟨hn.pend, hn.task⟩
    · cases hs
  | init t v =>
    simp only [step] at hs
    split at hs
    · simp only [Option.some.injEq] at hs
      subst hs
      refine ⟨hn.pend, fun u w n hm => ?_⟩
      by_cases hu : u = t
      · subst hu
        simp only [upd_same, queued, List.mem_singleton, Prod.mk.injEq] at hm
        left; rw [hm.2]
      · simp only [upd_ne _ _ hu] at hm
        exact hn.task u w n hm
    · cases hs
  | recv t v i =>
    simp only [step] at hs
    split at hs
    · split at hs
      · cases hs
      · simp only [Option.some.injEq] at hs
        subst hs
        refine ⟨fun w n hm => ?_, fun u w n hm => ?_⟩
        · by_cases hw : w = v
          · subst hw
            simp only [upd_same] at hm
            exact hn.pend w n (List.mem_of_mem_eraseIdx hm)
          · simp only [upd_ne _ _ hw] at hm
            exact hn.pend w n hm
        · by_cases hu : u = t
          · subst hu
            simp only [upd_same, queued, onUpdate] at hm
            split at hm
            · exact sends_seen (v := v) h (mem_sendOld hm)
            · cases hm
          · simp only [upd_ne _ _ hu] at hm
            exact hn.task u w n hm
    · cases hs
  | go t =>
    simp only [step] at hs
    split at hs
    · split at hs
      · cases hs
      · simp only [Option.some.injEq] at hs
        subst hs
        refine ⟨hn.pend, fun u w n hm => ?_⟩
        by_cases hu : u = t
        · subst hu; simp [queued] at hm
        · simp only [upd_ne _ _ hu] at hm
          exact hn.task u w n hm
      · rename_i w' n' q hk
        simp only [Option.some.injEq] at hs
        subst hs
        refine ⟨hn.pend, fun u w n hm => ?_⟩
        by_cases hu : u = t
        · subst hu
          simp only [upd_same, queued] at hm
          exact hn.task u w n (by rw [hk]; exact hm)
        · simp only [upd_ne _ _ hu] at hm
          exact hn.task u w n hm
      · rename_i w' n' q hk
        simp only [Option.some.injEq] at hs
        subst hs
        refine ⟨fun w n hm => ?_, fun u w n hm => ?_⟩
        · by_cases hw : w = w'
          · subst hw
            simp only [upd_same, List.mem_append, List.mem_singleton] at hm
            rcases hm with hm | hm
            · exact hn.pend w n hm
            · exact hn.task t w n (by rw [hk, hm]; simp [queued])
          · simp only [upd_ne _ _ hw] at hm
            exact hn.pend w n hm
        · by_cases hu : u = t
          · subst hu
            simp only [upd_same, queued] at hm
            exact hn.task u w n (by rw [hk]; simp only [queued, List.mem_cons]; exact .inr hm)
          · simp only [upd_ne _ _ hu] at hm
            exact hn.task u w n hm
    · cases hs

/-! ## What is due -/

/-- What the edge at `p` has been checked against when its vertex has got to `u`. -/
noncomputable def term (c : Cfg) (l : List OutEdge) (u d p : Nat) : Nat :=
  match l[p]? with
  | none => 0
  | some o => if o.raw.testBit 31 then 0 else if o.dst = d then leadS c d ⟨l.take (min u p), o.pos⟩ else 0

noncomputable def owed (c : Cfg) (l : List OutEdge) (u d : Nat) : Nat := ∑ p ∈ Finset.range l.length, term c l u d p

noncomputable def valQ (c : Cfg) (d : Nat) (q : List (Nat × Note)) : Nat := (q.map fun x => if x.1 = d then leadS c d x.2 else 0).sum

theorem valQ_append (c : Cfg) (d : Nat) (q q' : List (Nat × Note)) : valQ c d (q ++ q') = valQ c d q + valQ c d q' := by
  simp [valQ]

theorem valQ_cons (c : Cfg) (d w : Nat) (n : Note) (q : List (Nat × Note)) :
    valQ c d ((w, n) :: q) = (if w = d then leadS c d n else 0) + valQ c d q := by
  simp [valQ]

theorem valQ_range (c : Cfg) (d : Nat) (f : Nat → Option (Nat × Note)) (b : Nat) :
    valQ c d ((List.range b).filterMap f) = ∑ e ∈ Finset.range b, match f e with | none => 0 | some x => if x.1 = d then leadS c d x.2 else 0 := by
  induction b with
  | zero => simp [valQ]
  | succ b ih =>
    rw [List.range_succ, List.filterMap_append, valQ_append, ih, Finset.sum_range_succ]
    congr 1
    cases hf : f b with
    | none => simp [valQ, hf]
    | some x => simp [valQ, hf]

theorem leadS_split (c : Cfg) (d pos : Nat) (l : List OutEdge) {a e : Nat} (h : a ≤ e) :
    leadS c d ⟨l.take a, pos⟩ + leadS c d ⟨(l.drop a).take (e - a), pos⟩ = leadS c d ⟨l.take e, pos⟩ := by
  simp only [leadS]
  rw [← List.countP_append]
  congr 1
  have := List.take_add (l := l) (i := a) (j := e - a)
  rw [← this]
  congr 1; omega

/-- What is sent to the edges there before. -/
theorem old_due (c : Cfg) (d : Nat) (l : List OutEdge) (u b k : Nat) (hk : b ≤ k + 1) :
    ∑ p ∈ Finset.range b, term c l u d p + valQ c d (sendOld l u b) = ∑ p ∈ Finset.range b, term c l k d p := by
  simp only [sendOld]
  rw [valQ_range, ← Finset.sum_add_distrib]
  refine Finset.sum_congr rfl fun p hp => ?_
  have hp := Finset.mem_range.1 hp
  simp only [term]
  by_cases hu : u + 1 ≤ p
  · rw [if_pos hu]
    cases ho : l[p]? with
    | none => rfl
    | some o =>
      simp only
      by_cases hf : o.raw.testBit 31
      · rw [if_pos hf, if_pos hf, if_pos hf]; rfl
      · rw [if_neg hf, if_neg hf, if_neg hf]
        by_cases hd : o.dst = d
        · simp only [if_pos hd]
          rw [Nat.min_eq_left (by omega), Nat.min_eq_right (by omega)]
          exact leadS_split c d o.pos l (by omega)
        · simp only [if_neg hd]
  · rw [if_neg hu, Nat.min_eq_right (by omega), Nat.min_eq_right (by omega)]
    simp

/-- What is sent to the new edges. -/
theorem new_due (c : Cfg) (d : Nat) (l : List OutEdge) (u b : Nat) (hb : b ≤ l.length) :
    ∑ p ∈ Finset.range b, term c l u d p + valQ c d (sendNew l b u) = ∑ p ∈ Finset.range l.length, term c l u d p := by
  simp only [sendNew]
  rw [valQ_range]
  have h1 : ∑ p ∈ Finset.range b, term c l u d p = ∑ p ∈ Finset.range l.length, if p < b then term c l u d p else 0 := by
    rw [← Finset.sum_filter]
    refine Finset.sum_congr ?_ fun _ _ => rfl
    ext p; simp only [Finset.mem_range, Finset.mem_filter]; omega
  rw [h1, ← Finset.sum_add_distrib]
  refine Finset.sum_congr rfl fun p _ => ?_
  by_cases hu : b ≤ p
  · rw [if_neg (by omega), if_pos hu]
    simp only [term]
    cases ho : l[p]? with
    | none => rfl
    | some o =>
      simp only
      by_cases hf : o.raw.testBit 31
      · rw [if_pos hf, if_pos hf]; rfl
      · rw [if_neg hf, if_neg hf]; simp
  · rw [if_pos (by omega), if_neg hu]; simp

theorem term_append (c : Cfg) (d : Nat) (l l' : List OutEdge) (u p : Nat) (hp : p < l.length) : term c (l ++ l') u d p = term c l u d p := by
  simp only [term]
  rw [List.getElem?_append_left hp]
  cases l[p]? with
  | none => rfl
  | some o =>
    simp only
    rw [List.take_append_of_le_length (by omega)]

theorem sum_append (c : Cfg) (d : Nat) (l l' : List OutEdge) (u : Nat) :
    ∑ p ∈ Finset.range l.length, term c (l ++ l') u d p = owed c l u d :=
  Finset.sum_congr rfl fun p hp => term_append c d l l' u p (Finset.mem_range.1 hp)

theorem onAdd_due (c : Cfg) (d : Nat) (l l' : List OutEdge) (u : Nat) (a : Int) :
    owed c l u d + valQ c d (onAdd (l ++ l') u l.length a).2 = owed c (l ++ l') (onAdd (l ++ l') u l.length a).1 d := by
  have hlen : l.length ≤ (l ++ l').length := by simp
  simp only [onAdd]
  split
  · simp only
    rw [valQ_append, ← sum_append c d l l' u, ← Nat.add_assoc, old_due c d (l ++ l') u l.length (l ++ l').length (by omega)]
    exact new_due c d (l ++ l') _ _ hlen
  · simp only
    rw [← sum_append c d l l' u]
    exact new_due c d (l ++ l') _ _ hlen

theorem onUpdate_due (c : Cfg) (d : Nat) (l : List OutEdge) (u : Nat) (a : Int) :
    owed c l u d + valQ c d (onUpdate l u a).2 = owed c l (onUpdate l u a).1 d := by
  simp only [onUpdate]
  split
  · exact old_due c d l u l.length l.length (by omega)
  · simp [valQ]

theorem owed_zero (c : Cfg) (d : Nat) (l : List OutEdge) : owed c l 0 d = 0 := by
  simp only [owed]
  refine Finset.sum_eq_zero fun p _ => ?_
  simp only [term]
  cases l[p]? with
  | none => rfl
  | some o =>
    simp [leadS]

/-! ## The balance -/

noncomputable def due (c : Cfg) (s : St) (d n : Nat) : Nat := owed c (s.out n) (s.updAt n) d

def Balance (c : Cfg) (N : Nat) (s : St) : Prop :=
  ∀ d, s.leader d + ((s.pend d).map (leadS c d)).sum + ∑ t ∈ Finset.range c.T, valQ c d (queued (s.task t)) =
    ∑ n ∈ Finset.range N, due c s d n

theorem balance_task {c : Cfg} {s : St} {t : Nat} (ht : t < c.T) (k : Task) (d : Nat) :
    ∑ u ∈ Finset.range c.T, valQ c d (queued (upd s.task t k u)) + valQ c d (queued (s.task t)) =
      ∑ u ∈ Finset.range c.T, valQ c d (queued (s.task u)) + valQ c d (queued k) := by
  have := sum_change ht (fun u => valQ c d (queued (s.task u))) (fun u => valQ c d (queued (upd s.task t k u))) (fun n hn => by simp [upd, hn])
  simpa using this

theorem src_lt {c : Cfg} {N i : Nat} (hN : ∀ e ∈ c.es, e.1 < N ∧ e.2 < N) (hi : i < count c) : src c i < N ∧ dst c i < N := by
  have hlt : i / 2 < c.es.length := by simp only [count] at hi; omega
  have hm : c.es.getD (i / 2) (0, 0) ∈ c.es := by
    rw [List.getD_eq_getElem?_getD, List.getElem?_eq_getElem hlt]; simp
  have := hN _ hm
  simp only [src, dst]
  split <;> exact ⟨by first | exact this.1 | exact this.2, by first | exact this.2 | exact this.1⟩

theorem sum_eraseIdx {α : Type} (f : α → Nat) (l : List α) : ∀ {i : Nat} {x : α}, l[i]? = some x → ((l.eraseIdx i).map f).sum + f x = (l.map f).sum := by
  induction l with
  | nil => intro i x h; simp at h
  | cons y l ih =>
    intro i x h
    cases i with
    | zero => simp at h; subst h; simp; omega
    | succ i =>
      simp only [List.getElem?_cons_succ] at h
      have := ih h
      simp only [List.eraseIdx_cons_succ, List.map_cons, List.sum_cons]; omega

theorem balance_step {c : Cfg} {N : Nat} (hN : ∀ e ∈ c.es, e.1 < N ∧ e.2 < N) {s s' : St} {x : Act} (h : Shape c s) (hl : Live c s)
    (hn : Notes s) (hb : Balance c N s) (hs : step c s x = some s') : Balance c N s' := by
  intro d
  have hbd := hb d
  cases x with
  | obs t d i =>
    simp only [step] at hs
    split at hs
    · simp only [Option.some.injEq] at hs; subst hs; exact hbd
    · cases hs
  | add t v m =>
    simp only [step] at hs
    split at hs
    · rename_i hg
      obtain ⟨hfree, h1, h2, h3⟩ := hg
      obtain ⟨f1, f2, f3⟩ := free_iff.1 hfree
      have hv : v < N := by
        obtain ⟨i, hi⟩ := List.exists_mem_of_ne_nil _ h2
        obtain ⟨a1, _, a3⟩ := mem_batch.1 hi
        have := (src_lt hN (show i < count c by omega)).1
        rwa [a3] at this
      split at hs
      · simp only [Option.some.injEq] at hs
        have hk := balance_task f1 (.run (onAdd (s.out v ++ (batch c v (s.outCur v) m).filterMap s.tab) (s.updAt v) (s.out v).length (s.act v)).2) d (s := s)
        have hd := sum_change hv (fun n => due c s d n) (fun n => due c s' d n) (fun n hne => by subst hs; simp [due, upd, hne])
        have hdue := onAdd_due c d (s.out v) ((batch c v (s.outCur v) m).filterMap s.tab) (s.updAt v) (s.act v)
        have e1 : due c s' d v = owed c (s.out v ++ (batch c v (s.outCur v) m).filterMap s.tab)
            (onAdd (s.out v ++ (batch c v (s.outCur v) m).filterMap s.tab) (s.updAt v) (s.out v).length (s.act v)).1 d := by
          subst hs; simp [due]
        have e2 : due c s d v = owed c (s.out v) (s.updAt v) d := rfl
        have e3 : valQ c d (queued (.run (onAdd (s.out v ++ (batch c v (s.outCur v) m).filterMap s.tab) (s.updAt v) (s.out v).length (s.act v)).2)) =
            valQ c d (onAdd (s.out v ++ (batch c v (s.outCur v) m).filterMap s.tab) (s.updAt v) (s.out v).length (s.act v)).2 := rfl
        have e4 : valQ c d (queued (s.task t)) = 0 := by rw [f3]; rfl
        have e5 : s'.leader d = s.leader d ∧ s'.pend d = s.pend d := by subst hs; exact ⟨rfl, rfl⟩
        have e6 : ∑ u ∈ Finset.range c.T, valQ c d (queued (s'.task u)) = ∑ u ∈ Finset.range c.T, valQ c d (queued (upd s.task t (.run (onAdd (s.out v ++ (batch c v (s.outCur v) m).filterMap s.tab) (s.updAt v) (s.out v).length (s.act v)).2) u)) := by
          subst hs; rfl
        rw [e5.1, e5.2, e6]
        omega
      · rename_i hdyn
        simp only [Option.some.injEq] at hs
        have hnl := not_loaded h1 h2
        rcases hl.static (by simpa using hdyn) with hc | hc
        · rw [hnl] at hc; cases hc
        · have hz : ∀ n, due c s' d n = due c s d n := by
            intro n
            have hu : s'.updAt n = 0 := by subst hs; exact (hc.1 n).2.1
            have hu' : s.updAt n = 0 := (hc.1 n).2.1
            simp only [due, hu, hu', owed_zero]
          rw [Finset.sum_congr rfl fun n _ => hz n, ← hbd]
          subst hs; rfl
    · cases hs
  | init t v =>
    simp only [step] at hs
    split at hs
    · rename_i hg
      obtain ⟨f1, f2, f3⟩ := free_iff.1 hg.1
      simp only [Option.some.injEq] at hs
      have hk := balance_task f1 (.put v ⟨[], 0⟩ []) d (s := s)
      have e1 : valQ c d (queued (.put v ⟨[], 0⟩ [])) = 0 := by simp [queued, valQ, leadS]
      have e4 : valQ c d (queued (s.task t)) = 0 := by rw [f3]; rfl
      subst hs
      simp only [due] at hbd ⊢
      omega
    · cases hs
  | recv t v i =>
    simp only [step] at hs
    split at hs
    · rename_i hfree
      obtain ⟨f1, f2, f3⟩ := free_iff.1 hfree
      split at hs
      · cases hs
      · rename_i n hp
        simp only [Option.some.injEq] at hs
        have hlead : lead (s.map v) n = leadS c v n := lead_eq h (hn.pend v n (List.mem_of_getElem? hp))
        have hk := balance_task f1 (.run (onUpdate (s.out v) (s.updAt v) (s.act v - 1)).2) d (s := s)
        have hdue := onUpdate_due c d (s.out v) (s.updAt v) (s.act v - 1)
        have e3 : valQ c d (queued (.run (onUpdate (s.out v) (s.updAt v) (s.act v - 1)).2)) = valQ c d (onUpdate (s.out v) (s.updAt v) (s.act v - 1)).2 := rfl
        have e4 : valQ c d (queued (s.task t)) = 0 := by rw [f3]; rfl
        have e1 : due c s' d v = owed c (s.out v) (onUpdate (s.out v) (s.updAt v) (s.act v - 1)).1 d := by subst hs; simp [due]
        have e2 : due c s d v = owed c (s.out v) (s.updAt v) d := rfl
        have hd : ∑ n ∈ Finset.range N, due c s' d n + 0 = ∑ n ∈ Finset.range N, due c s d n + valQ c d (onUpdate (s.out v) (s.updAt v) (s.act v - 1)).2 := by
          by_cases hv : v < N
          · have := sum_change hv (fun n => due c s d n) (fun n => due c s' d n) (fun n hne => by subst hs; simp [due, upd, hne])
            omega
          · have hout : s.out v = [] := by
              rw [h.out, List.map_eq_nil_iff, List.eq_nil_iff_forall_not_mem]
              intro i hi
              obtain ⟨a1, _, a3⟩ := mem_batch.1 hi
              have := (src_lt hN (show i < count c by have := h.cur v; omega)).1
              omega
            have hz : valQ c d (onUpdate (s.out v) (s.updAt v) (s.act v - 1)).2 = 0 := by
              rw [hout]; simp [onUpdate, valQ]
            rw [hz]
            simp only [Nat.add_zero]
            refine Finset.sum_congr rfl fun n hnm => ?_
            have hne : n ≠ v := by have := Finset.mem_range.1 hnm; omega
            subst hs; simp [due, upd, hne]
        have e6 : ∑ u ∈ Finset.range c.T, valQ c d (queued (s'.task u)) = ∑ u ∈ Finset.range c.T, valQ c d (queued (upd s.task t (.run (onUpdate (s.out v) (s.updAt v) (s.act v - 1)).2) u)) := by
          subst hs; rfl
        have e7 : s'.leader d + ((s'.pend d).map (leadS c d)).sum = s.leader d + ((s.pend d).map (leadS c d)).sum := by
          subst hs
          by_cases hdv : d = v
          · subst hdv
            have := sum_eraseIdx (leadS c d) _ hp
            simp only [upd_same]
            omega
          · simp only [upd_ne _ _ hdv]
        omega
    · cases hs
  | go t =>
    simp only [step] at hs
    split at hs
    · rename_i ht
      split at hs
      · cases hs
      · rename_i hk
        simp only [Option.some.injEq] at hs
        have hb := balance_task ht .idle d (s := s)
        have e1 : valQ c d (queued (s.task t)) = 0 := by rw [hk]; rfl
        have e2 : valQ c d (queued .idle) = 0 := rfl
        subst hs
        simp only [due] at hbd ⊢
        omega
      · rename_i w n q hk
        simp only [Option.some.injEq] at hs
        have hb := balance_task ht (.put w n q) d (s := s)
        have e1 : valQ c d (queued (s.task t)) = valQ c d (queued (.put w n q)) := by rw [hk]; rfl
        subst hs
        simp only [due] at hbd ⊢
        omega
      · rename_i w n q hk
        simp only [Option.some.injEq] at hs
        have hb := balance_task ht (.run q) d (s := s)
        have e1 : valQ c d (queued (s.task t)) = (if w = d then leadS c d n else 0) + valQ c d q := by rw [hk]; exact valQ_cons c d w n q
        have e2 : valQ c d (queued (.run q)) = valQ c d q := rfl
        have e3 : ((s'.pend d).map (leadS c d)).sum = ((s.pend d).map (leadS c d)).sum + (if w = d then leadS c d n else 0) := by
          subst hs
          by_cases hd : d = w
          · subst hd; simp
          · simp [upd, hd, Ne.symm hd]
        have e4 : ∑ u ∈ Finset.range c.T, valQ c d (queued (s'.task u)) = ∑ u ∈ Finset.range c.T, valQ c d (queued (upd s.task t (.run q) u)) := by
          subst hs; rfl
        have e5 : s'.leader d = s.leader d := by subst hs; rfl
        have e6 : ∑ n ∈ Finset.range N, due c s' d n = ∑ n ∈ Finset.range N, due c s d n := by subst hs; rfl
        omega
    · cases hs

end Verif.Triangles
