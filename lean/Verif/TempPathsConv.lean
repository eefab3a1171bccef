import Verif.TempPathsInv
import Verif.MinLabelConv

/-!
# Temporal paths: how long a run can go on

An offer along an edge depends only on offers that start earlier. So when the graph no longer changes, a change of the
entry at the far end of an edge can only set off changes of entries for edges that start later, and a number goes down
with every change.
-/

namespace Verif.TempPaths

open Verif Verif.Async Verif.MinLabel

/-! ## Sums -/

theorem sum_le {α : Type} {f g : α → Nat} : ∀ {l : List α}, (∀ a ∈ l, f a ≤ g a) → (l.map f).sum ≤ (l.map g).sum
  | [], _ => Nat.le_refl _
  | a :: l, h => by
    have h1 := h a (by simp)
    have h2 := sum_le (l := l) fun b hb => h b (by simp [hb])
    simp only [List.map_cons, List.sum_cons]
    omega

theorem sum_lt {α : Type} {f g : α → Nat} {x : Nat} {a0 : α} : ∀ {l : List α}, a0 ∈ l → f a0 + x ≤ g a0 → (∀ a ∈ l, f a ≤ g a) → (l.map f).sum + x ≤ (l.map g).sum
  | [], h, _, _ => nomatch h
  | a :: l, h, h0, ha => by
    simp only [List.map_cons, List.sum_cons]
    rcases List.mem_cons.1 h with rfl | h
    · have h2 := sum_le (l := l) fun b hb => ha b (by simp [hb])
      omega
    · have h1 := ha a (by simp)
      have h2 := sum_lt h h0 fun b hb => ha b (by simp [hb])
      omega

theorem sum_add {α : Type} {f g : α → Nat} : ∀ {l : List α}, (l.map fun a => f a + g a).sum = (l.map f).sum + (l.map g).sum
  | [] => rfl
  | a :: l => by
    have := sum_add (f := f) (g := g) (l := l)
    simp only [List.map_cons, List.sum_cons]
    omega

theorem sum_const {α : Type} {f : α → Nat} {x : Nat} : ∀ {l : List α}, (∀ a ∈ l, f a ≤ x) → (l.map f).sum ≤ l.length * x
  | [], _ => by simp
  | a :: l, h => by
    have h1 := h a (by simp)
    have h2 := sum_const (l := l) fun b hb => h b (by simp [hb])
    simp only [List.map_cons, List.sum_cons, List.length_cons, Nat.add_mul]
    omega

/-! ## The measure -/

/-- An edge with its source. -/
abbrev Arc := Nat × Edge Link

/-- Edges that start after `t`. -/
def later (F : List Arc) (t : Nat) : Nat := F.countP fun a => decide (t < a.2.data.ts)

def weight (F : List Arc) (t : Nat) : Nat := (2 * F.length + 2) ^ later F t

theorem later_lt {F : List Arc} {a : Arc} {t : Nat} (ha : a ∈ F) (ht : t < a.2.data.ts) : later F a.2.data.ts < later F t := by
  unfold later
  induction F with
  | nil => cases ha
  | cons b F ih =>
    simp only [List.countP_cons]
    have hmono : F.countP (fun c => decide (a.2.data.ts < c.2.data.ts)) ≤ F.countP fun c => decide (t < c.2.data.ts) :=
      List.countP_mono_left fun c _ hc => by
        have := of_decide_eq_true hc
        exact decide_eq_true (by omega)
    rcases List.mem_cons.1 ha with rfl | ha
    · simp only [Nat.lt_irrefl, decide_false, Bool.false_eq_true, if_false, ht, decide_true, if_true]
      omega
    · have := ih ha
      by_cases hc : a.2.data.ts < b.2.data.ts
      · have hc' : t < b.2.data.ts := by omega
        simp only [hc, hc', decide_true, if_true]
        omega
      · simp only [hc, decide_false, Bool.false_eq_true, if_false]
        omega

/-- The edges that start after `t` weigh less than one at `t`, even twice. -/
theorem weight_later (F : List Arc) (t : Nat) : (F.map fun a => if t < a.2.data.ts then 2 * weight F a.2.data.ts else 0).sum + 1 ≤ weight F t := by
  cases hl : later F t with
  | zero =>
    have : (F.map fun a => if t < a.2.data.ts then 2 * weight F a.2.data.ts else 0).sum ≤ F.length * 0 := by
      refine sum_const fun a ha => ?_
      by_cases h : t < a.2.data.ts
      · have := later_lt ha h; omega
      · rw [if_neg h]
    have h1 : weight F t = 1 := by unfold weight; rw [hl, Nat.pow_zero]
    omega
  | succ k =>
    have : (F.map fun a => if t < a.2.data.ts then 2 * weight F a.2.data.ts else 0).sum ≤ F.length * (2 * (2 * F.length + 2) ^ k) := by
      refine sum_const fun a ha => ?_
      by_cases h : t < a.2.data.ts
      · rw [if_pos h]
        have := later_lt ha h
        exact Nat.mul_le_mul_left _ (Nat.pow_le_pow_right (by omega) (by omega))
      · rw [if_neg h]; exact Nat.zero_le _
    have h1 : weight F t = (2 * F.length + 2) ^ k * (2 * F.length + 2) := by unfold weight; rw [hl, Nat.pow_succ]
    have h2 : 1 ≤ (2 * F.length + 2) ^ k := Nat.one_le_pow _ _ (by omega)
    have h3 : F.length * (2 * (2 * F.length + 2) ^ k) = (2 * F.length + 2) ^ k * (2 * F.length) := by
      rw [Nat.mul_comm ((2 * F.length + 2) ^ k), ← Nat.mul_assoc, Nat.mul_comm F.length 2]
    rw [h3] at this
    rw [h1, Nat.mul_add]
    omega

open Classical in
/-- What `u` would offer along `e` if it read its mailbox now. -/
noncomputable def want (s : S) (u : Nat) (e : Link) : Nat × Nat :=
  if (s.inbox u).newPath = always then offered [always] e
  else if ∃ p, (slot s u p).1 ≠ INF ∧ In 1 (slot s u p) e.ts then (e.ts, e.upto) else (INF, 0)

theorem want_eq {s s' : S} {u : Nat} {e : Link} (h1 : (s'.inbox u).newPath = (s.inbox u).newPath)
    (h2 : (∃ p, (slot s' u p).1 ≠ INF ∧ In 1 (slot s' u p) e.ts) ↔ ∃ p, (slot s u p).1 ≠ INF ∧ In 1 (slot s u p) e.ts) : want s' u e = want s u e := by
  unfold want
  rw [h1]
  by_cases h : ∃ p, (slot s u p).1 ≠ INF ∧ In 1 (slot s u p) e.ts
  · rw [if_pos h, if_pos (h2.2 h)]
  · rw [if_neg h, if_neg (fun x => h (h2.1 x))]

/-- The entry at the far end is not what the windows of the source offer. -/
noncomputable def pending (s : S) (a : Arc) : Nat := if slot s a.2.dst a.2.data.pos = offered (s.prop a.1).windows a.2.data then 0 else 1

open Classical in
/-- The windows of the source do not offer what its mailbox would. -/
noncomputable def stale (s : S) (a : Arc) : Nat := if offered (s.prop a.1).windows a.2.data = want s a.1 a.2.data then 0 else 1

noncomputable def debt (F : List Arc) (s : S) (a : Arc) : Nat := weight F a.2.data.ts * (2 * stale s a + pending s a)

/-- Changes of entries to come, at most. -/
noncomputable def debts (F : List Arc) (s : S) : Nat := (F.map (debt F s)).sum

/-- How much mailboxes can grow. -/
def room (n : Nat) (s : S) : Nat := ((List.range n).map fun v => SELF - (s.inbox v).scratch.length).sum

/-- The arcs are the edges of the graph. -/
def Arcs (F : List Arc) (edges : Nat → List (Edge Link)) : Prop := ∀ u e, (u, e) ∈ F ↔ e ∈ edges u

theorem pending_le (s : S) (a : Arc) : pending s a ≤ 1 := by unfold pending; split <;> omega

theorem stale_le (s : S) (a : Arc) : stale s a ≤ 1 := by unfold stale; split <;> omega

/-! ## Reading the mailbox -/

theorem load_debts {U : Added} (hU : Keyed U) {c : Cfg Mail Unit} {src : Nat} {s s' : S} (hi : Inv U c src s) {F : List Arc} {t u : Nat}
    {h : VP → List (Edge Link) → Mail → VP × Prog Mail Unit} (ht : s.task t = .load u h)
    (hp : s'.prop = upd s.prop u (h (s.prop u) (s.edges u) (s.inbox u)).1) (hb : s'.inbox = s.inbox) : debts F s' ≤ debts F s := by
  have hok : LoadOk (s.prop u) (s.edges u) (slot s) h := by have := hi.task t; rw [ht] at this; exact this
  have hno : isSource (s.inbox u) = true → (s.inbox u).newPath = always ∧ SrcOk (s.prop u) := by
    intro h
    rcases hi.box u with h' | ⟨h', -, h''⟩
    · unfold isSource at h
      rw [h'] at h
      exact absurd h (by decide)
    · exact ⟨h', h''⟩
  have hpost := hok (s.inbox u) (timed_of hU hi u) hno
  have hsl : ∀ v p, slot s' v p = slot s v p := by intro v p; unfold slot; rw [hb]
  have hwant : ∀ v e, want s' v e = want s v e := by
    intro v e
    refine want_eq (by rw [hb]) ?_
    simp only [hsl]
  have hpu : s'.prop u = (h (s.prop u) (s.edges u) (s.inbox u)).1 := by rw [hp, upd_same]
  have hpo : ∀ v, v ≠ u → s'.prop v = s.prop v := by intro v hv; rw [hp, upd_ne _ _ hv]
  refine sum_le fun a ha => Nat.mul_le_mul_left _ ?_
  by_cases hau : a.1 = u
  · -- what the new windows offer is what the mailbox would
    have hnew : offered (s'.prop a.1).windows a.2.data = want s a.1 a.2.data := by
      rw [hau, hpu]
      unfold want
      rcases hi.box u with h' | ⟨h', -, -⟩
      · have hs : isSource (s.inbox u) = false := by unfold isSource; rw [h']; decide
        have hne : (s.inbox u).newPath ≠ always := by rw [h']; decide
        have hw := hpost.win hs 1 a.2.data.ts (Nat.le_refl _)
        rw [slot_ex (fun x => In 1 x a.2.data.ts)] at hw
        rw [if_neg hne]
        unfold offered
        by_cases hin : InSome 1 (h (s.prop u) (s.edges u) (s.inbox u)).1.windows a.2.data.ts
        · rw [if_pos hin, if_pos (hw.1 hin)]
        · rw [if_neg hin, if_neg (fun x => hin (hw.2 x))]
      · have hs : isSource (s.inbox u) = true := by unfold isSource; rw [h']; decide
        rw [if_pos h', (hpost.src hs).1]
    have h1 : stale s' a = 0 := by unfold stale; rw [hwant, if_pos hnew]
    have h2 : pending s' a ≤ stale s a + pending s a := by
      unfold pending stale
      rw [hsl, hnew]
      by_cases h3 : slot s a.2.dst a.2.data.pos = offered (s.prop a.1).windows a.2.data
      · rw [if_pos h3]
        by_cases h4 : offered (s.prop a.1).windows a.2.data = want s a.1 a.2.data
        · rw [if_pos (h3.trans h4)]; omega
        · rw [if_neg h4]; split <;> omega
      · rw [if_neg h3]; split <;> omega
    omega
  · have h1 : stale s' a = stale s a := by unfold stale; rw [hwant, hpo _ hau]
    have h2 : pending s' a = pending s a := by unfold pending; rw [hsl, hpo _ hau]
    omega

/-! ## Posting -/

theorem merge_true (m : Mail) (u : Nat) (x : Mail) (hm : m.pos ≠ SELF) :
    x.scratch.length ≤ (merge m u x).1.scratch.length ∧
    ((merge m u x).2 = true → (x.scratch.length ≤ m.pos ∧ (merge m u x).1.scratch.length = m.pos + 1) ∨ key (x.scratch.getD m.pos noPath) ≠ key m.newPath) := by
  unfold merge
  rw [if_neg hm]
  split
  · next h =>
    refine ⟨by simp, fun _ => .inl ⟨by omega, ?_⟩⟩
    simp only [List.length_set, List.length_append, List.length_replicate]
    omega
  · dsimp only
    split
    · next h =>
      refine ⟨by simp, fun _ => .inr ?_⟩
      intro hk
      unfold key at hk
      simp only [Prod.mk.injEq] at hk
      rcases h with h | h
      · exact h hk.1
      · exact h hk.2
    · exact ⟨Nat.le_refl _, fun h => nomatch h⟩

theorem post_debts {U : Added} (hU : Keyed U) {c : Cfg Mail Unit} {src : Nat} {s s' : S} (hi : Inv U c src s) {F : List Arc} (hF : Arcs F s.edges) {t u w : Nat} {m : Mail}
    {k : Bool → Prog Mail Unit} (ht : s.task t = .run u (.post w m k)) (hp : s'.prop = s.prop) (hb : s'.inbox = upd s.inbox w (merge m u (s.inbox w)).1) :
    debts F s' + (if slot s w m.pos = key m.newPath then 0 else 1) ≤ debts F s := by
  have hok : RunOk s u (.post w m k) := by have := hi.task t; rw [ht] at this; exact this
  obtain ⟨⟨e0, he0, hd0, hp0, hk0⟩, -⟩ := hok.along
  have hkey := hi.lies u e0 he0
  have hne : m.pos ≠ SELF := by
    have := hU.pos _ hkey
    simp only [hp0] at this
    omega
  have hsl : ∀ v p, slot s' v p = if w = v ∧ m.pos = p then key m.newPath else slot s v p := by
    intro v p
    unfold slot
    rw [hb]
    by_cases e : v = w
    · subst e
      rw [upd_same, merge_slot m u _ hne]
      by_cases e' : p = m.pos
      · rw [if_pos e', if_pos ⟨rfl, e'.symm⟩]
      · rw [if_neg e', if_neg (fun h => e' h.2.symm)]
    · rw [upd_ne _ _ e, if_neg (fun h => e h.1.symm)]
  have hnp : ∀ v, (s'.inbox v).newPath = (s.inbox v).newPath := by
    intro v
    rw [hb]
    by_cases e : v = w
    · subst e
      rw [upd_same, merge_newPath m u _ hne]
    · rw [upd_ne _ _ e]
  by_cases hsame : slot s w m.pos = key m.newPath
  · rw [if_pos hsame, Nat.add_zero]
    have hsl' : ∀ v p, slot s' v p = slot s v p := by
      intro v p
      rw [hsl]
      split
      · next h => rw [← h.1, ← h.2, hsame]
      · rfl
    refine sum_le fun a ha => Nat.mul_le_mul_left _ ?_
    have h1 : stale s' a = stale s a := by
      have hw : want s' a.1 a.2.data = want s a.1 a.2.data := want_eq (hnp _) (by simp only [hsl'])
      unfold stale
      rw [hw, hp]
    have h2 : pending s' a = pending s a := by unfold pending; rw [hsl', hp]
    omega
  · rw [if_neg hsame]
    -- what was or is in the entry starts when the edge does
    have hold : ∀ x, (slot s w m.pos).1 + 1 ≤ x → (slot s w m.pos).1 ≠ INF → e0.data.ts < x := by
      intro x hx hinf
      rcases hi.scr w m.pos with h | ⟨u', h⟩
      · rw [h] at hinf; exact absurd rfl hinf
      · have := hU.inj h hkey hd0.symm hp0.symm
        simp only [Prod.mk.injEq] at this
        omega
    have hnew : ∀ x, (key m.newPath).1 + 1 ≤ x → (key m.newPath).1 ≠ INF → e0.data.ts < x := by
      intro x hx hinf
      rw [hk0] at hx hinf
      unfold offered at hx hinf
      split at hx
      · exact hx
      · next hc => rw [if_neg hc] at hinf; exact absurd rfl hinf
    have hstale : ∀ a : Arc, a.2.data.ts ≤ e0.data.ts → stale s' a = stale s a := by
      intro a hle
      have hw : want s' a.1 a.2.data = want s a.1 a.2.data := by
        refine want_eq (hnp _) ?_
        constructor
        · rintro ⟨p, h1, h2⟩
          rw [hsl] at h1 h2
          split at h1
          · next hc =>
            rw [if_pos hc] at h2
            have := hnew _ h2.1 h1
            omega
          · next hc =>
            rw [if_neg hc] at h2
            exact ⟨p, h1, h2⟩
        · rintro ⟨p, h1, h2⟩
          refine ⟨p, ?_⟩
          rw [hsl]
          split
          · next hc =>
            rw [← hc.1, ← hc.2] at h1 h2
            have := hold _ h2.1 h1
            omega
          · exact ⟨h1, h2⟩
      unfold stale
      rw [hw, hp]
    have hpend : ∀ a ∈ F, ¬ (a.2.dst = w ∧ a.2.data.pos = m.pos) → pending s' a = pending s a := by
      intro a _ hc
      have e : slot s' a.2.dst a.2.data.pos = slot s a.2.dst a.2.data.pos := by rw [hsl, if_neg (fun h => hc ⟨h.1.symm, h.2.symm⟩)]
      unfold pending
      rw [e, hp]
    have hone : ∀ a ∈ F, a.2.dst = w → a.2.data.pos = m.pos → a = (u, e0) := by
      intro a ha h1 h2
      have hm := (hF a.1 a.2).1 ha
      have := hU.inj (hi.lies a.1 a.2 hm) hkey (h1.trans hd0.symm) (h2.trans hp0.symm)
      simp only [Prod.mk.injEq] at this
      rw [this.1] at hm
      have h3 := (hi.edges u).inj hm he0 (h1.trans hd0.symm) (h2.trans hp0.symm)
      rw [← this.1, ← h3]
    have h0 : pending s (u, e0) = 1 := by
      unfold pending
      rw [if_neg]
      show slot s e0.dst e0.data.pos ≠ offered (s.prop u).windows e0.data
      rw [hd0, hp0, ← hk0]
      exact hsame
    have h0' : pending s' (u, e0) = 0 := by
      unfold pending
      rw [if_pos]
      show slot s' e0.dst e0.data.pos = offered (s'.prop u).windows e0.data
      rw [hsl, if_pos ⟨hd0.symm, hp0.symm⟩, hp, hk0]
    have hsum : debts F s' + weight F e0.data.ts ≤ (F.map fun a => debt F s a + if e0.data.ts < a.2.data.ts then 2 * weight F a.2.data.ts else 0).sum := by
      refine sum_lt (a0 := (u, e0)) ((hF u e0).2 he0) ?_ ?_
      · unfold debt
        rw [hstale (u, e0) (Nat.le_refl _), h0, h0', if_neg (Nat.lt_irrefl _)]
        simp only [Nat.mul_add]
        omega
      · intro a ha
        unfold debt
        have hp' : pending s' a ≤ pending s a := by
          by_cases hc : a.2.dst = w ∧ a.2.data.pos = m.pos
          · rw [hone a ha hc.1 hc.2, h0']; exact Nat.zero_le _
          · rw [hpend a ha hc]
        by_cases hlt : e0.data.ts < a.2.data.ts
        · rw [if_pos hlt]
          have := stale_le s' a
          have h5 : weight F a.2.data.ts * (2 * stale s' a + pending s' a) ≤ weight F a.2.data.ts * (2 * stale s a + pending s a + 2) := Nat.mul_le_mul_left _ (by omega)
          rw [Nat.mul_add _ _ 2, Nat.mul_comm _ 2] at h5
          exact h5
        · rw [if_neg hlt, hstale a (by omega), Nat.add_zero]
          exact Nat.mul_le_mul_left _ (by omega)
    rw [sum_add] at hsum
    have := weight_later F e0.data.ts
    have e : (F.map fun a => debt F s a).sum = debts F s := rfl
    rw [e] at hsum
    omega

/-! ## Steps -/

theorem post_room {n : Nat} {s s' : S} {u w : Nat} {m : Mail} (hm : m.pos ≠ SELF) (hw : w < n) (hlt : m.pos < SELF) (hb : s'.inbox = upd s.inbox w (merge m u (s.inbox w)).1) :
    room n s' + (if (s.inbox w).scratch.length ≤ m.pos ∧ (merge m u (s.inbox w)).1.scratch.length = m.pos + 1 then 1 else 0) ≤ room n s := by
  have hle := (merge_true m u (s.inbox w) hm).1
  refine sum_lt (a0 := w) (List.mem_range.2 hw) ?_ ?_
  · rw [hb, upd_same]
    split <;> omega
  · intro v _
    rw [hb]
    by_cases e : v = w
    · subst e; rw [upd_same]; omega
    · rw [upd_ne _ _ e]

/-- With every step that makes news the measure goes down, and it never goes up. -/
theorem step_debts {U : Added} (hU : Keyed U) {c : Cfg Mail Unit} {src n : Nat} {s s' : S} (hi : Inv U c src s) (hs : Supp n s) {F : List Arc} (hF : Arcs F s.edges) {x : Act Link}
    (hx : x.work = true) (h : step tp c s x = some s') : debts F s' + room n s' + (if charged tp s x = true then 1 else 0) ≤ debts F s + room n s := by
  have same : ∀ {s' : S}, s'.prop = s.prop → s'.inbox = s.inbox → debts F s' + room n s' ≤ debts F s + room n s := by
    intro s' h1 h2
    have e1 : debts F s' = debts F s := by unfold debts debt stale pending want slot; rw [h1, h2]
    have e2 : room n s' = room n s := by unfold room; rw [h2]
    omega
  cases x with
  | init _ _ => cases hx
  | add _ _ _ => cases hx
  | del _ _ _ => cases hx
  | recv t v i =>
    simp only [step] at h
    split at h
    · split at h
      · cases h
      · simp only [Option.some.injEq] at h; subst h
        simp only [charged, Bool.false_eq_true, if_false, Nat.add_zero]
        exact same rfl rfl
    · cases h
  | go t =>
    simp only [step] at h
    split at h
    · cases hk : s.task t with
      | idle => rw [hk] at h; cases h
      | load v f =>
        rw [hk] at h
        simp only [goStep, Option.some.injEq] at h
        simp only [charged, hk, Bool.false_eq_true, if_false, Nat.add_zero]
        have hb : s'.inbox = s.inbox := by
          rw [← h]
          funext w
          show upd s.inbox v (tp.retrieve (s.inbox v) (s.prop v)).2 w = s.inbox w
          by_cases e : w = v
          · rw [e, upd_same]; rfl
          · rw [upd_ne _ _ e]
        have h1 := load_debts hU hi (F := F) hk (s' := s') (by rw [← h]; rfl) hb
        have h2 : room n s' = room n s := by unfold room; rw [hb]
        omega
      | run v q =>
        rw [hk] at h
        cases q with
        | done => simp only [goStep, Option.some.injEq] at h; subst h; simp only [charged, hk, Bool.false_eq_true, if_false, Nat.add_zero]; exact same rfl rfl
        | post w m k =>
          have hok : RunOk s v (.post w m k) := by have := hi.task t; rw [hk] at this; exact this
          obtain ⟨⟨e0, he0, hd0, hp0, -⟩, -⟩ := hok.along
          have hlt : m.pos < SELF := by
            have := hU.pos _ (hi.lies v e0 he0)
            simp only [hp0] at this
            exact this
          have hw : w < n := by rw [← hd0]; exact hs.dst v e0 he0
          have hmain : s'.prop = s.prop → s'.inbox = upd s.inbox w (merge m v (s.inbox w)).1 → debts F s' + room n s' + (if (merge m v (s.inbox w)).2 = true then 1 else 0) ≤ debts F s + room n s := by
            intro h1 h2
            have h3 := post_debts hU hi hF hk h1 h2
            have h4 := post_room (n := n) (s' := s') (by omega) hw hlt h2
            by_cases hc : (merge m v (s.inbox w)).2 = true
            · rw [if_pos hc]
              rcases (merge_true m v (s.inbox w) (by omega)).2 hc with h5 | h5
              · rw [if_pos h5] at h4; omega
              · rw [if_neg (show slot s w m.pos ≠ key m.newPath from h5)] at h3; omega
            · rw [if_neg hc]; omega
          simp only [charged, hk]
          simp only [goStep] at h
          split at h <;> (simp only [Option.some.injEq] at h; exact hmain (by rw [← h]) (by rw [← h]; rfl))
        | send w y k =>
          have hok : RunOk s v (.send w y k) := by have := hi.task t; rw [hk] at this; exact this
          exact hok.along.elim
      | cas v w k =>
        rw [hk] at h
        simp only [goStep] at h
        simp only [charged, hk, Bool.false_eq_true, if_false, Nat.add_zero]
        split at h <;> (simp only [Option.some.injEq] at h; subst h; exact same rfl rfl)
      | put v w y k =>
        rw [hk] at h
        simp only [goStep, Option.some.injEq] at h
        simp only [charged, hk, Bool.false_eq_true, if_false, Nat.add_zero]
        subst h; exact same rfl rfl
    · cases h

/-! ## Programs -/

theorem offers_dst {ws : List Path} : ∀ {es : List (Edge Link)} {k : Nat} {l : List (Nat × Mail)}, offers ws k es = some l → l.map Prod.fst = es.map fun e => e.dst
  | [], _, l, h => by simp only [offers, Option.some.injEq] at h; subst h; rfl
  | e :: es, k, l, h => by
    simp only [offers] at h
    obtain ⟨r, -, h⟩ := Option.bind_eq_some_iff.1 h
    obtain ⟨l', hl, rfl⟩ := Option.map_eq_some_iff.1 h
    simp only [List.map_cons, offers_dst hl]
    rfl

theorem offersEnded_dst {ws : List Path} : ∀ {es : List (Edge Link)} {l : List (Nat × Mail)}, offersEnded ws es = some l → l.map Prod.fst = es.map fun e => e.dst
  | [], l, h => by simp only [offersEnded, Option.some.injEq] at h; subst h; rfl
  | e :: es, l, h => by
    simp only [offersEnded] at h
    obtain ⟨r, -, h⟩ := Option.bind_eq_some_iff.1 h
    obtain ⟨l', hl, rfl⟩ := Option.map_eq_some_iff.1 h
    simp only [List.map_cons, offersEnded_dst hl]
    rfl

/-- What a visit sends: along its edges, and along those of `more`. -/
theorem visit_prog {p : VP} {es ds : List (Edge Link)} {m : Mail} {more : List Path → Option (List (Nat × Mail))}
    (hm : ∀ ws l, more ws = some l → l.map Prod.fst = ds.map fun e => e.dst) :
    (visit p es m more).2.len ≤ es.length + ds.length ∧
    ∀ n, (∀ e ∈ es, e.dst < n) → (∀ e ∈ ds, e.dst < n) → (visit p es m more).2.Below n := by
  have hdone : (Prog.done : Prog Mail Unit).len ≤ es.length + ds.length ∧ ∀ n, (∀ e ∈ es, e.dst < n) → (∀ e ∈ ds, e.dst < n) → (Prog.done : Prog Mail Unit).Below n :=
    ⟨Nat.zero_le _, fun _ _ _ => trivial⟩
  have hlen : ∀ {l : List (Nat × Mail)} {fs : List (Edge Link)}, l.map Prod.fst = fs.map (fun e => e.dst) → l.length = fs.length := by
    intro l fs h
    have := congrArg List.length h
    simpa using this
  have hbel : ∀ {l : List (Nat × Mail)} {fs : List (Edge Link)} {n : Nat}, l.map Prod.fst = fs.map (fun e => e.dst) → (∀ e ∈ fs, e.dst < n) → ∀ w ∈ l, w.1 < n := by
    intro l fs n h hn w hw
    have : w.1 ∈ fs.map fun e => e.dst := by rw [← h]; exact List.mem_map.2 ⟨w, hw, rfl⟩
    obtain ⟨e, he, h'⟩ := List.mem_map.1 this
    rw [← h']; exact hn e he
  have hlast : ∀ (b : Bool) (l : List (Nat × Mail)), l.map Prod.fst = ds.map (fun e => e.dst) → (postAll l b fun _ => (Prog.done : Prog Mail Unit)).len ≤ ds.length := by
    intro b l h
    have := len_postAll (N := Unit) (k := fun _ => (Prog.done : Prog Mail Unit)) (b := 0) (fun _ => Nat.le_refl _) l b
    rw [hlen h] at this
    exact this
  have hupd : ∀ p : VP, (update p es more).2.len ≤ es.length + ds.length ∧ ∀ n, (∀ e ∈ es, e.dst < n) → (∀ e ∈ ds, e.dst < n) → (update p es more).2.Below n := by
    intro p
    unfold update
    split
    · dsimp only
      cases h1 : offers p.next 0 es with
      | none => exact hdone
      | some l =>
        cases h2 : more p.next with
        | none => exact hdone
        | some l' =>
          have e1 := offers_dst h1
          have e2 := hm _ _ h2
          constructor
          · have := len_postAll (N := Unit) (k := fun sent => if sent = true then (Prog.done : Prog Mail Unit) else postAll l' false fun _ => .done) (b := ds.length)
              (by intro x; cases x; exact hlast false l' e2; exact Nat.zero_le _) l false
            rw [hlen e1] at this
            exact this
          · intro n hn1 hn2
            refine below_postAll ?_ _ _ (hbel e1 hn1)
            intro b
            cases b
            · exact below_postAll (k := fun _ => .done) (fun _ => trivial) _ _ (hbel e2 hn2)
            · exact trivial
    · cases h2 : more p.windows with
      | none => exact hdone
      | some l' =>
        have e2 := hm _ _ h2
        exact ⟨Nat.le_trans (hlast false l' e2) (Nat.le_add_left _ _), fun n _ hn2 => below_postAll (k := fun _ => .done) (fun _ => trivial) _ _ (hbel e2 hn2)⟩
  unfold visit
  split
  · exact hdone
  · cases retrieve m p with
    | none => exact hdone
    | some p' => exact hupd p'

theorem update_prog (v : Nat) (p : VP) (es : List (Edge Link)) (x : Unit) (i : Int) (m : Mail) :
    (tp.onUpdate v p es x i m).2.len ≤ es.length ∧ ∀ n, (∀ e ∈ es, e.dst < n) → (tp.onUpdate v p es x i m).2.Below n := by
  have := visit_prog (p := p) (es := es) (ds := []) (m := m) (more := fun _ => some []) (fun ws l h => by simp only [Option.some.injEq] at h; subst h; rfl)
  exact ⟨this.1, fun n hn => this.2 n hn (fun e he => nomatch he)⟩

theorem add_prog (v : Nat) (p : VP) (es : List (Edge Link)) (i : Nat) (m : Mail) :
    (tp.onEdgeAdd v p es i m).2.len ≤ 2 * es.length ∧ ∀ n, (∀ e ∈ es, e.dst < n) → (tp.onEdgeAdd v p es i m).2.Below n := by
  have := visit_prog (p := p) (es := es) (ds := es.drop i) (m := m) (more := fun ws => offers ws 0 (es.drop i)) (fun _ _ h => offers_dst h)
  refine ⟨Nat.le_trans this.1 ?_, fun n hn => this.2 n hn (fun e he => hn e (List.mem_of_mem_drop he))⟩
  rw [List.length_drop]
  omega

theorem del_prog (v : Nat) (p : VP) (es ds : List (Edge Link)) (m : Mail) :
    (tp.onEdgeDel v p es ds m).2.len ≤ es.length + ds.length ∧ ∀ n, (∀ e ∈ es, e.dst < n) → (∀ e ∈ ds, e.dst < n) → (tp.onEdgeDel v p es ds m).2.Below n :=
  visit_prog (p := p) (es := es) (ds := ds) (m := m) (more := fun ws => offersEnded ws ds) (fun _ _ h => offersEnded_dst h)

theorem local_tp (n : Nat) : Local tp n :=
  ⟨fun v p es x i m h => (update_prog v p es x i m).2 n h, fun v p es i m h => (add_prog v p es i m).2 n h, fun v p es ds m h1 h2 => (del_prog v p es ds m).2 n h1 h2⟩

/-! ## Runs -/

/-- The vertices named by an action are below `n`. -/
def TAct.below (n : Nat) : TAct → Bool
  | .init _ v => decide (v < n)
  | .recv _ _ _ => true
  | .add _ v es => decide (v < n) && es.all fun e => decide (e.dst < n)
  | .stop _ v _ => decide (v < n)
  | .go _ => true

theorem supp_tstep {c : Cfg Mail Unit} {n : Nat} {s s' : S} {x : TAct} (hx : x.below n = true) (hi : Supp n s) (h : tstep c s x = some s') : Supp n s' := by
  cases x with
  | init t v => exact supp_step (local_tp n) (x := .init t v) hx hi h
  | recv t v i => exact supp_step (local_tp n) (x := .recv t v i) rfl hi h
  | add t v es => exact supp_step (local_tp n) (x := .add t v es) hx hi h
  | go t => exact supp_step (local_tp n) (x := .go t) rfl hi h
  | stop t v ds =>
    have hv : v < n := of_decide_eq_true hx
    simp only [tstep] at h
    split at h
    · obtain ⟨r, hr, rfl⟩ := Option.map_eq_some_iff.1 h
      obtain ⟨a1, -, a3, -⟩ := endAll_ok hr
      have hd : ∀ e ∈ r.1, e.dst < n := by
        intro e he
        have : (e.dst, e.data.pos, e.data.ts) ∈ (s.edges v).map fun e => (e.dst, e.data.pos, e.data.ts) := a1 ▸ List.mem_map.2 ⟨e, he, rfl⟩
        obtain ⟨e', he', h'⟩ := List.mem_map.1 this
        simp only [Prod.mk.injEq] at h'
        rw [← h'.1]
        exact hi.dst v e' he'
      refine ⟨hi.pend, upd_above hi.edges hv, hi.inited, ?_, task_below hi t _ (fun p es m he => (local_tp n).del _ _ _ _ _ he fun e h' => hd e (a3 e h'))⟩
      intro u e he
      have he' : e ∈ upd s.edges v r.1 u := he
      by_cases eu : u = v
      · subst eu
        rw [upd_same] at he'
        exact hd e he'
      · rw [upd_ne _ _ eu] at he'; exact hi.dst u e he'
    · cases h

theorem supp_trun {c : Cfg Mail Unit} {n : Nat} : ∀ {xs : List TAct} {s s' : S}, xs.all (TAct.below n) = true → Supp n s → trun c s xs = some s' → Supp n s'
  | [], s, s', _, hi, h => by simp only [trun, Option.some.injEq] at h; exact h ▸ hi
  | x :: xs, s, s', hx, hi, h => by
    simp only [trun] at h
    obtain ⟨s1, h1, h2⟩ := Option.bind_eq_some_iff.1 h
    simp only [List.all_cons, Bool.and_eq_true] at hx
    exact supp_trun hx.2 (supp_tstep hx.1 hi h1) h2

/-- Callbacks about to run send at most twice along each edge, and along the edges just ended. -/
def Short (s : S) : Prop := ∃ K, ∀ t v h, s.task t = .load v h → ∀ p es m, (h p es m).2.len ≤ 2 * es.length + K

theorem short_upd {s s' : S} {t : Nat} {k : Task VP Mail Unit Link} (hs : Short s) (hk : s'.task = upd s.task t k)
    (hx : ∃ K, ∀ v h, k = .load v h → ∀ p es m, (h p es m).2.len ≤ 2 * es.length + K) : Short s' := by
  obtain ⟨K, h1⟩ := hs
  obtain ⟨K', h2⟩ := hx
  refine ⟨K + K', fun u v h hu p es m => ?_⟩
  rw [hk] at hu
  by_cases e : u = t
  · rw [e, upd_same] at hu
    have := h2 v h hu p es m
    omega
  · rw [upd_ne _ _ e] at hu
    have := h1 u v h hu p es m
    omega

theorem short_go {s s' : S} {t : Nat} (hs : Short s) (h : goStep tp s t (s.task t) = some s') : Short s' := by
  have hno : ∀ {k : Task VP Mail Unit Link}, (∀ v f, k ≠ .load v f) → ∃ K, ∀ v h, k = .load v h → ∀ p es m, (h p es m).2.len ≤ 2 * es.length + K :=
    fun hk => ⟨0, fun v h e => absurd e (hk v h)⟩
  cases hk : s.task t with
  | idle => rw [hk] at h; cases h
  | load v f => rw [hk] at h; simp only [goStep, Option.some.injEq] at h; subst h; exact short_upd hs rfl (hno fun _ _ => nofun)
  | run v q =>
    rw [hk] at h
    cases q with
    | done => simp only [goStep, Option.some.injEq] at h; subst h; exact short_upd hs rfl (hno fun _ _ => nofun)
    | post w m k => simp only [goStep] at h; split at h <;> (simp only [Option.some.injEq] at h; subst h; exact short_upd hs rfl (hno fun _ _ => nofun))
    | send w y k => simp only [goStep, Option.some.injEq] at h; subst h; exact short_upd hs rfl (hno fun _ _ => nofun)
  | cas v w k => rw [hk] at h; simp only [goStep] at h; split at h <;> (simp only [Option.some.injEq] at h; subst h; exact short_upd hs rfl (hno fun _ _ => nofun))
  | put v w y k => rw [hk] at h; simp only [goStep, Option.some.injEq] at h; subst h; exact short_upd hs rfl (hno fun _ _ => nofun)

theorem short_tstep {c : Cfg Mail Unit} {s s' : S} {x : TAct} (hs : Short s) (h : tstep c s x = some s') : Short s' := by
  have hupd : ∀ (u : Nat) (x : Unit) (i : Int), ∃ K, ∀ v h, (Task.load u fun p es m => tp.onUpdate u p es x i m : Task VP Mail Unit Link) = .load v h → ∀ p es m, (h p es m).2.len ≤ 2 * es.length + K := by
    intro u x i
    refine ⟨0, fun v h e p es m => ?_⟩
    cases e
    have := (update_prog u p es x i m).1
    dsimp only
    omega
  cases x with
  | init t v =>
    simp only [tstep, step] at h
    split at h
    · split at h
      · split at h
        · simp only [Option.some.injEq] at h; subst h; exact short_upd hs rfl (hupd v _ _)
        · simp only [Option.some.injEq] at h; subst h; exact hs
      · simp only [Option.some.injEq] at h; subst h; exact short_upd hs rfl ⟨0, fun v h e => nomatch e⟩
      · simp only [Option.some.injEq] at h; subst h; exact hs
    · cases h
  | recv t v i =>
    simp only [tstep, step] at h
    split at h
    · split at h
      · cases h
      · simp only [Option.some.injEq] at h; subst h
        exact short_upd hs rfl (hupd v _ _)
    · cases h
  | add t v es =>
    simp only [tstep, step] at h
    split at h
    · simp only [Option.some.injEq] at h; subst h
      refine short_upd hs rfl ⟨0, fun v h e p es m => ?_⟩
      cases e
      exact (add_prog _ p es _ m).1
    · cases h
  | go t =>
    simp only [tstep, step] at h
    split at h
    · exact short_go hs h
    · cases h
  | stop t v ds =>
    simp only [tstep] at h
    split at h
    · obtain ⟨r, hr, rfl⟩ := Option.map_eq_some_iff.1 h
      refine short_upd hs rfl ⟨r.2.length, fun v h e p es m => ?_⟩
      cases e
      have := (del_prog v p es r.2 m).1
      dsimp only
      omega
    · cases h

theorem short_trun {c : Cfg Mail Unit} : ∀ {xs : List TAct} {s s' : S}, Short s → trun c s xs = some s' → Short s'
  | [], s, s', hi, h => by simp only [trun, Option.some.injEq] at h; exact h ▸ hi
  | x :: xs, s, s', hi, h => by
    simp only [trun] at h
    obtain ⟨s1, h1, h2⟩ := Option.bind_eq_some_iff.1 h
    exact short_trun (short_tstep hi h1) h2

/-- A step without change of the graph as a step of `tstep`. -/
def TAct.of : Act Link → TAct
  | .recv t v i => .recv t v i
  | .go t => .go t
  | .init t v => .init t v
  | .add t v es => .add t v es
  | .del t v _ => .stop t v []

theorem tstep_of {c : Cfg Mail Unit} {s : S} {x : Act Link} (hx : x.work = true) : tstep c s (TAct.of x) = step tp c s x := by
  cases x <;> first | rfl | cases hx

theorem trun_of {c : Cfg Mail Unit} : ∀ {ys : List (Act Link)} {s : S}, (∀ y ∈ ys, y.work = true) → trun c s (ys.map TAct.of) = run tp c s ys
  | [], _, _ => rfl
  | y :: ys, s, h => by
    simp only [List.map_cons, trun, run, tstep_of (h y (by simp))]
    congr 1
    funext s'
    exact trun_of fun z hz => h z (by simp [hz])

theorem inv_work {U : Added} (hU : Keyed U) {T : Nat} {own : Nat → Nat} {src : Nat} {s s' : S} {x : Act Link} (hx : x.work = true) (hi : Inv U (cfg T own src) src s)
    (h : step tp (cfg T own src) s x = some s') : Inv U (cfg T own src) src s' := by
  have ha : addsOf (TAct.of x) = [] := by cases x <;> first | rfl | cases hx
  have := inv_step (x := TAct.of x) (by rw [ha, List.append_nil]; exact hU) hi (by rw [tstep_of hx]; exact h)
  rw [ha, List.append_nil] at this
  exact this

/-- The arcs of a graph on finitely many vertices. -/
def arcs (n : Nat) (edges : Nat → List (Edge Link)) : List Arc := (List.range n).flatMap fun u => (edges u).map fun e => (u, e)

theorem arcs_ok {n : Nat} {edges : Nat → List (Edge Link)} (h : ∀ v, n ≤ v → edges v = []) : Arcs (arcs n edges) edges := by
  intro u e
  unfold arcs
  simp only [List.mem_flatMap, List.mem_range, List.mem_map, Prod.mk.injEq]
  constructor
  · rintro ⟨u', -, e', he, rfl, rfl⟩
    exact he
  · intro he
    by_cases hu : u < n
    · exact ⟨u, hu, e, he, rfl, rfl⟩
    · rw [h u (by omega)] at he; cases he

theorem len_le_sum (edges : Nat → List (Edge Link)) : ∀ (n v : Nat), (n ≤ v → edges v = []) → (edges v).length ≤ ((List.range n).map fun u => (edges u).length).sum
  | 0, v, h => by rw [h (Nat.zero_le _)]; exact Nat.zero_le _
  | n + 1, v, h => by
    rw [List.range_succ, List.map_append, List.sum_append]
    simp only [List.map_cons, List.map_nil, List.sum_cons, List.sum_nil]
    by_cases e : v = n
    · subst e; omega
    · have := len_le_sum edges n v (fun h' => h (by omega))
      omega

/-- When the graph no longer changes, there are only so many steps. -/
theorem tp_bound {U : Added} (hU : Keyed U) {T : Nat} {own : Nat → Nat} {src n : Nat} {s : S} (hi : Inv U (cfg T own src) src s) (hs : Supp n s) (hsh : Short s) :
    ∃ B, ∀ ys s', (∀ y ∈ ys, y.work = true) → run tp (cfg T own src) s ys = some s' → ys.length ≤ B := by
  obtain ⟨K, hK⟩ := hsh
  let E := s.edges
  let D := ((List.range n).map fun u => (E u).length).sum
  let B := 2 * D + K
  let F := arcs n E
  have hD : ∀ v, (E v).length ≤ D := fun v => len_le_sum E n v (hs.edges v)
  refine ⟨work B n (cfg T own src) s + (B + 5) * (debts F s + room n s), fun ys s' hy h => ?_⟩
  have hloads : Loads B s := by
    intro t v f ht p m
    have h1 := hK t v f ht p (s.edges v) m
    have h2 := hD v
    show _ ≤ 2 * D + K
    have : (s.edges v).length = (E v).length := rfl
    omega
  have := work_bound (a := tp) (c := cfg T own src) (n := n) (B := B) (local_tp n) (fun s => Inv U (cfg T own src) src s ∧ s.edges = E) (fun s => debts F s + room n s)
    (by
      rintro s ⟨-, he⟩ v p x i m
      have h1 := (update_prog v p (s.edges v) x i m).1
      have h2 := hD v
      rw [he] at h1 ⊢
      show _ ≤ 2 * D + K
      omega)
    (by
      rintro s s' x ⟨hi, he⟩ hs hx h
      refine ⟨⟨inv_work hU hx hi h, (edges_work hx h).trans he⟩, ?_⟩
      exact step_debts hU hi hs (F := F) (by rw [he]; exact arcs_ok (fun v hv => by rw [← he]; exact hs.edges v hv)) hx h)
    ⟨hi, rfl⟩ hs hloads hy h
  omega

end Verif.TempPaths
