import Verif.TempPaths

/-!
# Temporal paths: one mailbox

When the windows in the mailbox are ordered by start, `MailRetrieve` does not panic, and the windows it builds
cover the same times. `pushWindows` finds a window around the start of an edge if there is one.
-/

namespace Verif.TempPaths

open Verif Verif.Async Verif.MinLabel

/-- Start and stop. -/
def key (w : Path) : Nat × Nat := (w.start, w.stop)

/-- `k = 0`: the time is in the window; `k = 1`: it is strictly inside. -/
def In (k : Nat) (w : Nat × Nat) (t : Nat) : Prop := w.1 + k ≤ t ∧ t < w.2

/-- Some window of the list. -/
def InSome (k : Nat) (l : List Path) (t : Nat) : Prop := ∃ w ∈ l, In k (key w) t

/-- Ordered by start. -/
def Ord (l : List Path) : Prop := l.Pairwise fun a b => a.start ≤ b.start

theorem inSome_nil (k t : Nat) : ¬ InSome k [] t := by rintro ⟨w, h, -⟩; cases h

theorem inSome_cons (k t : Nat) (w : Path) (l : List Path) : InSome k (w :: l) t ↔ In k (key w) t ∨ InSome k l t := by
  unfold InSome; simp

theorem inSome_append (k t : Nat) (l l' : List Path) : InSome k (l ++ l') t ↔ InSome k l t ∨ InSome k l' t := by
  unfold InSome
  constructor
  · rintro ⟨w, h, hi⟩
    rcases List.mem_append.1 h with h | h
    · exact .inl ⟨w, h, hi⟩
    · exact .inr ⟨w, h, hi⟩
  · rintro (⟨w, h, hi⟩ | ⟨w, h, hi⟩)
    · exact ⟨w, List.mem_append_left _ h, hi⟩
    · exact ⟨w, List.mem_append_right _ h, hi⟩

/-! ## The first pass -/

theorem push_ord (l : List Path) (x : Path) (h : ∀ w ∈ l, w.start ≤ x.start) : (PQ.push less l.toArray x).toList = l ++ [x] := by
  unfold PQ.push
  rw [PQ.up]
  have : ∀ i (hi : i < (l.toArray.push x).size) (hj : l.toArray.size < (l.toArray.push x).size), i ≤ l.length → ¬ less (l.toArray.push x)[l.toArray.size] ((l.toArray.push x)[i]) = true := by
    intro i hi hj hil hl
    unfold less at hl
    have hl := of_decide_eq_true hl
    simp only [List.size_toArray, List.push_toArray, List.getElem_toArray] at hl
    rw [List.getElem_append_right (by simp)] at hl
    simp only [Nat.sub_self, List.getElem_cons_zero] at hl
    by_cases e : i < l.length
    · rw [List.getElem_append_left e] at hl
      have := h _ (List.getElem_mem e)
      omega
    · rw [List.getElem_append_right (by omega)] at hl
      have e' : i - l.length = 0 := by omega
      simp only [e', List.getElem_cons_zero] at hl
      omega
  rw [dif_pos]
  · simp
  · right
    apply this
    simp
    omega

theorem absorb_some {x : Path} : ∀ {l l' : List Path}, absorb x l = some l' → Ord l → (∀ w ∈ l, w.start ≤ x.start) →
    Ord l' ∧ l'.map Path.start = l.map Path.start ∧ ∀ k t, k ≤ 1 → (InSome k l' t ↔ InSome k l t ∨ In k (key x) t)
  | [], _, h, _, _ => by cases h
  | w :: ws, l', h, ho, hx => by
    have hw := hx w (by simp)
    have hstep : ∀ w' : Path, w'.start = w.start → (∀ k t, k ≤ 1 → (In k (key w') t ↔ In k (key w) t ∨ In k (key x) t)) →
        Ord (w' :: ws) ∧ (w' :: ws).map Path.start = (w :: ws).map Path.start ∧ ∀ k t, k ≤ 1 → (InSome k (w' :: ws) t ↔ InSome k (w :: ws) t ∨ In k (key x) t) := by
      intro w' hs hin
      refine ⟨?_, by simp [hs], ?_⟩
      · unfold Ord at ho ⊢
        rw [List.pairwise_cons] at ho ⊢
        exact ⟨fun b hb => hs ▸ ho.1 b hb, ho.2⟩
      · intro k t hk
        rw [inSome_cons, inSome_cons, hin k t hk]
        tauto
    unfold absorb at h
    split at h
    · next h1 =>
      simp only [Option.some.injEq] at h; subst h
      exact hstep _ rfl (by intro k t hk; unfold In key; simp only; omega)
    · split at h
      · next h1 h2 =>
        simp only [Option.some.injEq] at h; subst h
        exact hstep _ (by omega) (by intro k t hk; unfold In key; simp only; omega)
      · split at h
        · next h1 h2 h3 =>
          simp only [Option.some.injEq] at h; subst h
          exact hstep _ rfl (by intro k t hk; unfold In key; simp only; omega)
        · split at h
          · next h1 h2 h3 h4 =>
            simp only [Option.some.injEq] at h; subst h
            exact hstep _ rfl (by intro k t hk; unfold In key; simp only; omega)
          · rw [Option.map_eq_some_iff] at h
            obtain ⟨r, hr, rfl⟩ := h
            have ho' := (List.pairwise_cons.1 ho)
            obtain ⟨a1, a2, a3⟩ := absorb_some hr ho'.2 (fun v hv => hx v (by simp [hv]))
            refine ⟨?_, by simp [a2], ?_⟩
            · unfold Ord
              rw [List.pairwise_cons]
              refine ⟨?_, a1⟩
              intro b hb
              have : b.start ∈ ws.map Path.start := a2 ▸ List.mem_map_of_mem hb
              obtain ⟨c, hc, hcb⟩ := List.mem_map.1 this
              rw [← hcb]; exact ho'.1 c hc
            · intro k t hk
              rw [inSome_cons, inSome_cons, a3 k t hk]
              tauto

/-- A round of the first pass: order and times are kept. -/
theorem collect_ok {l : List Path} {x : Path} (ho : Ord l) (hx : x.start ≠ INF → ∀ w ∈ l, w.start ≤ x.start) :
    Ord (collect l x) ∧ (∀ w ∈ collect l x, w.start ∈ l.map Path.start ∨ (x.start ≠ INF ∧ w.start = x.start)) ∧
      ∀ k t, k ≤ 1 → (InSome k (collect l x) t ↔ InSome k l t ∨ (x.start ≠ INF ∧ In k (key x) t)) := by
  unfold collect
  split
  · next h => exact ⟨ho, fun w hw => .inl (List.mem_map_of_mem hw), fun k t _ => by tauto⟩
  · next h =>
    split
    · next h1 =>
      subst h1
      refine ⟨by simp [Ord], ?_, ?_⟩
      · intro w hw
        simp only [List.mem_singleton] at hw
        exact .inr ⟨h, by rw [hw]⟩
      · intro k t _
        rw [inSome_cons]; tauto
    · split
      · next l' hl =>
        obtain ⟨a1, a2, a3⟩ := absorb_some hl ho (hx h)
        refine ⟨a1, fun w hw => .inl (a2 ▸ List.mem_map_of_mem hw), ?_⟩
        intro k t hk
        rw [a3 k t hk]; tauto
      · rw [push_ord l x (hx h)]
        refine ⟨?_, ?_, ?_⟩
        · unfold Ord
          rw [List.pairwise_append]
          exact ⟨ho, by simp, fun a ha b hb => by simp only [List.mem_singleton] at hb; rw [hb]; exact hx h a ha⟩
        · intro w hw
          rcases List.mem_append.1 hw with hw | hw
          · exact .inl (List.mem_map_of_mem hw)
          · simp only [List.mem_singleton] at hw
            exact .inr ⟨h, by rw [hw]⟩
        · intro k t _
          rw [inSome_append, inSome_cons]
          have := inSome_nil k t
          tauto

/-- Entries of the mailbox that offer a path are ordered by start. -/
def Timed (l : List Path) : Prop := l.Pairwise fun a b => a.start ≠ INF → b.start ≠ INF → a.start ≤ b.start

theorem first_ok : ∀ (l acc : List Path), Ord acc → Timed l → (∀ w ∈ acc, ∀ x ∈ l, x.start ≠ INF → w.start ≤ x.start) →
    Ord (l.foldl collect acc) ∧ ∀ k t, k ≤ 1 → (InSome k (l.foldl collect acc) t ↔ InSome k acc t ∨ ∃ x ∈ l, x.start ≠ INF ∧ In k (key x) t)
  | [], acc, ho, _, _ => ⟨ho, fun k t _ => by simp⟩
  | x :: l, acc, ho, ht, hx => by
    obtain ⟨a1, a2, a3⟩ := collect_ok (x := x) ho (fun h w hw => hx w hw x (by simp) h)
    have ht' := List.pairwise_cons.1 ht
    obtain ⟨b1, b2⟩ := first_ok l (collect acc x) a1 ht'.2 (by
      intro w hw y hy hne
      rcases a2 w hw with h | ⟨h1, h2⟩
      · obtain ⟨v, hv, e⟩ := List.mem_map.1 h
        rw [← e]; exact hx v hv y (by simp [hy]) hne
      · rw [h2]; exact ht'.1 y hy h1 hne)
    refine ⟨b1, ?_⟩
    intro k t hk
    rw [List.foldl_cons, b2 k t hk, a3 k t hk]
    simp only [List.mem_cons, exists_eq_or_imp]
    tauto

/-! ## The second pass -/

/-- Each window ends before the next one starts (at the latest when it starts). -/
def Apart : List Path → Prop
  | a :: b :: l => a.stop ≤ b.start ∧ Apart (b :: l)
  | _ => True

theorem apart_snoc : ∀ (l : List Path) (p n : Path), Apart (l ++ [p]) → p.stop ≤ n.start → Apart (l ++ [p, n])
  | [], _, _, _, h => ⟨h, trivial⟩
  | [_], _, _, h, h' => ⟨h.1, h', trivial⟩
  | _ :: b :: l, p, n, h, h' => ⟨h.1, apart_snoc (b :: l) p n h.2 h'⟩

theorem apart_last : ∀ (l : List Path) (p p' : Path), Apart (l ++ [p]) → p'.start = p.start → Apart (l ++ [p'])
  | [], _, _, _, _ => trivial
  | [_], _, _, h, e => ⟨e ▸ h.1, trivial⟩
  | _ :: b :: l, p, p', h, e => ⟨h.1, apart_last (b :: l) p p' h.2 e⟩

theorem ord_snoc {l : List Path} {p n : Path} (h : Ord (l ++ [p])) (hn : p.start ≤ n.start) : Ord (l ++ [p] ++ [n]) := by
  unfold Ord at *
  rw [List.pairwise_append]
  refine ⟨h, by simp, ?_⟩
  intro a ha b hb
  simp only [List.mem_singleton] at hb
  rw [hb]
  rcases List.mem_append.1 ha with ha | ha
  · exact (((List.pairwise_append.1 h).2.2 a ha p (by simp))).trans hn
  · simp only [List.mem_singleton] at ha
    rw [ha]; exact hn

theorem ord_last {l : List Path} {p p' : Path} (h : Ord (l ++ [p])) (e : p'.start = p.start) : Ord (l ++ [p']) := by
  unfold Ord at *
  rw [List.pairwise_append] at *
  refine ⟨h.1, by simp, ?_⟩
  intro a ha b hb
  simp only [List.mem_singleton] at hb
  rw [hb, e]
  exact h.2.2 a ha p (by simp)

theorem same_iff {o : Option Path} {n : Path} : same o n = true ↔ ∃ w, o = some w ∧ key w = key n := by
  cases o with
  | none => simp [same]
  | some w => simp [same, key]

/-- The second pass over an ordered array does not panic; the result is ordered, the windows are apart and cover
the same times; `changed` stays false only if the result is the old view. -/
theorem build_ok (old : List Path) : ∀ (l done : List Path) (prev : Path) (ch : Bool), (∀ n ∈ l, prev.start ≤ n.start) → Ord l → Ord (done ++ [prev]) → Apart (done ++ [prev]) →
    (ch = false → done.length ≤ old.length ∧ done.map key = (old.take done.length).map key) →
    ∃ r, build old l done prev ch = some r ∧ Ord r.1 ∧ Apart r.1 ∧ (∀ k t, k ≤ 1 → (InSome k r.1 t ↔ InSome k (done ++ [prev]) t ∨ InSome k l t)) ∧
      (r.2 = false → r.1.map key = old.map key)
  | [], done, prev, ch, _, _, h1, h2, hch => by
    refine ⟨_, rfl, h1, h2, fun k t _ => by have := inSome_nil k t; tauto, ?_⟩
    intro h
    simp only [Bool.or_eq_false_iff, decide_eq_false_iff_not, ne_eq, not_not, Bool.not_eq_false'] at h
    obtain ⟨⟨h3, h4⟩, h5⟩ := h
    obtain ⟨-, h6⟩ := hch h3
    obtain ⟨w, hw, hk⟩ := same_iff.1 h5
    have hlt : done.length < old.length := by omega
    have e : old = old.take done.length ++ [w] := by
      have := List.take_append_getElem hlt
      rw [List.getElem?_eq_getElem hlt] at hw
      injection hw with hw
      rw [hw] at this
      rw [this, List.take_of_length_le (by omega)]
    rw [e, List.map_append, List.map_append, ← h6]
    simp [hk]
  | n :: l, done, prev, ch, hp, hl, h1, h2, hch => by
    have hn := hp n (by simp)
    have hl' := List.pairwise_cons.1 hl
    -- the previous window gets a later end
    have hkeep : ∀ prev' : Path, prev'.start = prev.start → (∀ k t, k ≤ 1 → (In k (key prev') t ↔ In k (key prev) t ∨ In k (key n) t)) →
        ∃ r, build old l done prev' ch = some r ∧ Ord r.1 ∧ Apart r.1 ∧ (∀ k t, k ≤ 1 → (InSome k r.1 t ↔ InSome k (done ++ [prev]) t ∨ InSome k (n :: l) t)) ∧
          (r.2 = false → r.1.map key = old.map key) := by
      intro prev' hs hin
      obtain ⟨r, a1, a2, a3, a4, a5⟩ := build_ok old l done prev' ch (fun m hm => by rw [hs]; exact hp m (by simp [hm])) hl'.2 (ord_last h1 hs) (apart_last _ _ _ h2 hs) hch
      refine ⟨r, a1, a2, a3, ?_, a5⟩
      intro k t hk
      rw [a4 k t hk, inSome_append, inSome_append, inSome_cons, inSome_cons, inSome_cons, hin k t hk]
      tauto
    unfold build
    rw [if_neg (by omega)]
    split
    · exact hkeep _ rfl (by intro k t hk; unfold In key; simp only; omega)
    · split
      · exact hkeep _ rfl (by intro k t hk; unfold In key; simp only; omega)
      · split
        · exact hkeep _ rfl (by intro k t hk; unfold In key; simp only; omega)
        · split
          · exact hkeep _ rfl (by intro k t hk; unfold In key; simp only; omega)
          · next g1 g2 g3 g4 =>
            obtain ⟨r, a1, a2, a3, a4, a5⟩ := build_ok old l (done ++ [prev]) n (ch || !same old[done.length]? prev) hl'.1 hl'.2 (ord_snoc h1 hn)
              (by rw [List.append_assoc]; exact apart_snoc _ _ _ h2 (by omega)) (by
                intro h
                simp only [Bool.or_eq_false_iff, Bool.not_eq_false'] at h
                obtain ⟨-, h6⟩ := hch h.1
                obtain ⟨w, hw, hk⟩ := same_iff.1 h.2
                obtain ⟨hlt, hw⟩ := List.getElem?_eq_some_iff.1 hw
                rw [List.length_append, List.length_singleton]
                refine ⟨hlt, ?_⟩
                rw [List.take_add_one, List.getElem?_eq_getElem hlt, hw, List.map_append, List.map_append, ← h6]
                simp [hk])
            refine ⟨r, a1, a2, a3, ?_, a5⟩
            intro k t hk
            rw [a4 k t hk]
            simp only [inSome_append, inSome_cons, inSome_nil, or_false, or_assoc]

/-- Both passes. -/
theorem windowsOf_ok {old l : List Path} (ht : Timed l) :
    ∃ r, windowsOf old l = some r ∧ Ord r.1 ∧ Apart r.1 ∧ (∀ k t, k ≤ 1 → (InSome k r.1 t ↔ ∃ x ∈ l, x.start ≠ INF ∧ In k (key x) t)) ∧
      (r.2 = false → r.1.map key = old.map key) := by
  obtain ⟨h1, h2⟩ := first_ok l [] (by simp [Ord]) ht (by simp)
  unfold windowsOf
  cases hf : l.foldl collect [] with
  | nil =>
    rw [hf] at h2
    refine ⟨_, rfl, by simp [Ord], trivial, ?_, ?_⟩
    · intro k t hk
      have h3 := h2 k t hk
      simp only [inSome_nil, false_or] at h3
      show InSome k [] t ↔ _
      simp only [inSome_nil, ← h3]
    · intro h
      simp only [decide_eq_false_iff_not, ne_eq, not_not, List.length_eq_zero_iff] at h
      simp [h]
  | cons w pq =>
    rw [hf] at h1 h2
    have h1' := List.pairwise_cons.1 h1
    obtain ⟨r, a1, a2, a3, a4, a5⟩ := build_ok old pq [] w false h1'.1 h1'.2 (by simp [Ord]) trivial (by simp)
    refine ⟨r, a1, a2, a3, ?_, a5⟩
    intro k t hk
    rw [a4 k t hk]
    have h3 := h2 k t hk
    simp only [List.nil_append, inSome_cons, inSome_nil, or_false, false_or] at h3 ⊢
    exact h3

/-! ## Offers -/

/-- What an edge offers: its whole time if it starts strictly inside a window. -/
noncomputable def offered (ws : List Path) (e : Link) : Nat × Nat := open Classical in if InSome 1 ws e.ts then (e.ts, e.upto) else (INF, 0)

/-- The loop, from window `i` on, with an offer in hand. -/
theorem offerLoop_have {e : Link} (hts : e.ts < INF) : ∀ (ws : List Path) (i : Nat) (o : Path) (f : Nat), key o = (e.ts, e.upto) →
    ∃ o', offerLoop e i ws o f = some (o', f) ∧ key o' = (e.ts, e.upto)
  | [], i, o, f, h => ⟨o, rfl, h⟩
  | w :: ws, i, o, f, h => by
    have h1 : o.start = e.ts := congrArg Prod.fst h
    have h2 : o.stop = e.upto := congrArg Prod.snd h
    unfold offerLoop
    split
    · exact offerLoop_have hts ws _ o f h
    · split
      · exact ⟨o, rfl, h⟩
      · rw [if_neg (by omega), if_pos h1.symm]
        exact offerLoop_have hts ws _ _ f (by simp [key, h1, h2])

theorem offerLoop_ok {e : Link} (hts : e.ts < INF) : ∀ (ws : List Path) (i k : Nat), Ord ws → k ≤ i →
    ∃ o f, offerLoop e i ws noPath k = some (o, f) ∧ key o = offered ws e ∧ (f = k ∨ ∃ j, f = i + j ∧ ∀ w ∈ ws.take j, w.stop ≤ e.ts)
  | [], i, k, _, _ => by
    refine ⟨noPath, k, rfl, ?_, .inl rfl⟩
    unfold offered
    rw [if_neg (inSome_nil _ _)]; rfl
  | w :: ws, i, k, ho, hk => by
    have ho' := List.pairwise_cons.1 ho
    unfold offerLoop
    split
    · next h =>
      obtain ⟨o, f, h1, h2, h3⟩ := offerLoop_ok hts ws (i + 1) k ho'.2 (by omega)
      refine ⟨o, f, h1, ?_, ?_⟩
      · rw [h2]
        unfold offered
        have : InSome 1 (w :: ws) e.ts ↔ InSome 1 ws e.ts := by
          rw [inSome_cons]
          have : ¬ In 1 (key w) e.ts := by unfold In key; simp only; omega
          tauto
        by_cases hi : InSome 1 ws e.ts
        · rw [if_pos hi, if_pos (this.2 hi)]
        · rw [if_neg hi, if_neg (fun h => hi (this.1 h))]
      · rcases h3 with h3 | ⟨j, hj, h3⟩
        · exact .inl h3
        · refine .inr ⟨j + 1, by omega, ?_⟩
          intro v hv
          rw [List.take_succ_cons] at hv
          rcases List.mem_cons.1 hv with rfl | hv
          · exact h
          · exact h3 v hv
    · next h =>
      split
      · next h1 =>
        refine ⟨noPath, k, rfl, ?_, .inl rfl⟩
        unfold offered
        rw [if_neg]
        · rfl
        · rintro ⟨v, hv, hi⟩
          have : w.start ≤ v.start := by
            rcases List.mem_cons.1 hv with rfl | hv
            · exact Nat.le_refl _
            · exact ho'.1 v hv
          unfold In key at hi
          simp only at hi
          omega
      · next h1 =>
        rw [if_pos (show noPath.start = INF from rfl)]
        obtain ⟨o, h2, h3⟩ := offerLoop_have hts ws (i + 1) ⟨e.ts, e.upto, (w.hops + 1) % 2 ^ 64⟩ i rfl
        refine ⟨o, i, h2, ?_, .inr ⟨0, rfl, by simp⟩⟩
        rw [h3]
        unfold offered
        rw [if_pos]
        exact ⟨w, by simp, by unfold In key; simp only; omega⟩

/-- Windows that ended before the edge starts do not matter. -/
theorem offered_drop {ws : List Path} {e : Link} {k : Nat} (h : ∀ w ∈ ws.take k, w.stop ≤ e.ts) : offered (ws.drop k) e = offered ws e := by
  have : InSome 1 ws e.ts ↔ InSome 1 (ws.drop k) e.ts := by
    conv_lhs => rw [← List.take_append_drop k ws]
    rw [inSome_append]
    have : ¬ InSome 1 (ws.take k) e.ts := by
      rintro ⟨w, hw, hi⟩
      have := h w hw
      unfold In key at hi
      simp only at hi
      omega
    tauto
  unfold offered
  by_cases hi : InSome 1 ws e.ts
  · rw [if_pos hi, if_pos (this.1 hi)]
  · rw [if_neg hi, if_neg (fun h => hi (this.2 h))]

theorem offer_ok {ws : List Path} {e : Link} {k : Nat} (hts : e.ts < INF) (ho : Ord ws) (h : ∀ w ∈ ws.take k, w.stop ≤ e.ts) :
    ∃ o f, offer ws k e = some (o, f) ∧ key o = offered ws e ∧ ∀ w ∈ ws.take f, w.stop ≤ e.ts := by
  obtain ⟨o, f, h1, h2, h3⟩ := offerLoop_ok hts (ws.drop k) k k (List.Pairwise.sublist (List.drop_sublist k ws) ho) (Nat.le_refl _)
  refine ⟨o, f, h1, by rw [h2, offered_drop h], ?_⟩
  rcases h3 with rfl | ⟨j, rfl, h3⟩
  · exact h
  · intro w hw
    rw [List.take_add] at hw
    rcases List.mem_append.1 hw with hw | hw
    · exact h w hw
    · exact h3 w hw

/-- The mails for edges in order of time: one for each edge, with what it offers. -/
def Mails (ws : List Path) : List (Edge Link) → List (Nat × Mail) → Prop
  | [], l => l = []
  | e :: es, l => ∃ o l', l = mailFor e o :: l' ∧ key o = offered ws e.data ∧ Mails ws es l'

theorem offers_ok {ws : List Path} (ho : Ord ws) : ∀ (es : List (Edge Link)) (k : Nat), (es.Pairwise fun a b => a.data.ts ≤ b.data.ts) → (∀ e ∈ es, e.data.ts < INF) →
    (∀ e ∈ es, ∀ w ∈ ws.take k, w.stop ≤ e.data.ts) → ∃ l, offers ws k es = some l ∧ Mails ws es l
  | [], k, _, _, _ => ⟨[], rfl, rfl⟩
  | e :: es, k, hs, ht, hk => by
    obtain ⟨o, f, h1, h2, h3⟩ := offer_ok (ht e (by simp)) ho (hk e (by simp))
    have hs' := List.pairwise_cons.1 hs
    obtain ⟨l, h4, h5⟩ := offers_ok ho es f hs'.2 (fun x hx => ht x (by simp [hx])) (fun x hx w hw => (h3 w hw).trans (hs'.1 x hx))
    refine ⟨mailFor e o :: l, ?_, o, l, rfl, h2, h5⟩
    unfold offers
    rw [h1, Option.bind_some, h4]
    rfl

theorem offersEnded_ok {ws : List Path} (ho : Ord ws) : ∀ (es : List (Edge Link)), (∀ e ∈ es, e.data.ts < INF) → ∃ l, offersEnded ws es = some l ∧ Mails ws es l
  | [], _ => ⟨[], rfl, rfl⟩
  | e :: es, ht => by
    obtain ⟨o, f, h1, h2, h3⟩ := offer_ok (k := 0) (ht e (by simp)) ho (by simp)
    obtain ⟨l, h4, h5⟩ := offersEnded_ok ho es (fun x hx => ht x (by simp [hx]))
    refine ⟨mailFor e o :: l, ?_, o, l, rfl, h2, h5⟩
    unfold offersEnded
    rw [h1, Option.bind_some, h4]
    rfl

end Verif.TempPaths
