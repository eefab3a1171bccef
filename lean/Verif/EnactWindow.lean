import Verif.EnactThread

/-!
# Lemmas about the expiry window
-/

namespace Verif.Enact

open Verif.Loader (Typ)

variable {D : Type}

/-- What is queued for an added edge. -/
def queued (o : Opts) (x : Nat × Change D) : Nat × Change D :=
  (x.1, { typ := .del, edge := { x.2.edge with ts := x.2.edge.ts + o.window, endT := if o.timeRange then x.2.edge.ts + o.window else x.2.edge.endT } })

/-- The delete that is injected for a queued entry. -/
def injected (o : Opts) (x : Nat × Change D) : Nat × Change D :=
  (x.1, { x.2 with edge := { x.2.edge with ts := x.2.edge.ts - o.window } })

theorem adjust_spec (o : Opts) (latest : UInt64) (n : Nat) : ∀ (todo done pre : List (Nat × Change D)), done.length + todo.length = n →
    (∀ x ∈ todo, x.2.typ = .add ∧ x.2.edge.ts ≤ latest) →
    adjust o latest n done.length (todo.map Prod.snd) (pre ++ done ++ todo) = some (pre ++ done ++ todo.map (queued o)) := by
  intro todo
  induction todo with
  | nil => intro done pre _ _; simp [adjust]
  | cons x todo ih =>
    intro done pre hn hx
    obtain ⟨h1, h2⟩ := hx x (List.mem_cons_self ..)
    obtain ⟨v, c⟩ := x
    simp only at h1 h2
    simp only [List.map_cons, adjust]
    rw [if_pos h1]
    have hlen : (pre ++ done ++ (v, c) :: todo).length + done.length - n = pre.length + done.length := by
      simp only [List.length_append, List.length_cons] at hn ⊢; omega
    have hle : n ≤ (pre ++ done ++ (v, c) :: todo).length + done.length := by
      simp only [List.length_append, List.length_cons] at hn ⊢; omega
    rw [if_pos hle, hlen]
    have hget : (pre ++ done ++ (v, c) :: todo)[pre.length + done.length]? = some (v, c) := by
      rw [← List.length_append, List.getElem?_append_right (Nat.le_refl _)]; simp
    rw [hget]
    simp only
    rw [if_neg (by rw [UInt64.not_lt]; exact h2)]
    have hset : ∀ y, (pre ++ done ++ (v, c) :: todo).set (pre.length + done.length) y = pre ++ (done ++ [y]) ++ todo := by
      intro y
      rw [← List.length_append, List.set_append_right _ _ (Nat.le_refl _)]; simp
    rw [hset]
    have := ih (done ++ [queued o (v, c)]) pre (by simp only [List.length_append, List.length_cons, List.length_nil] at hn ⊢; omega)
      (fun y hy => hx y (List.mem_cons_of_mem _ hy))
    rw [List.length_append, List.length_singleton] at this
    rw [show (v, ({ typ := .del, edge := { c.edge with ts := c.edge.ts + o.window, endT := if o.timeRange then c.edge.ts + o.window else c.edge.endT } } : Change D)) = queued o (v, c) from rfl]
    rw [this]; simp

/-- The buffer holds the events `xs`. -/
def Holds (buff : List (Change D)) (xs : List (Nat × Change D)) : Prop := ∀ (j : Nat) (x : Nat × Change D), xs[j]? = some x → buff[j]? = some x.2

theorem Holds.le {buff : List (Change D)} {xs : List (Nat × Change D)} (h : Holds buff xs) : xs.length ≤ buff.length := by
  cases hx : xs.length with
  | zero => omega
  | succ m =>
    have := h m (xs[m]'(by omega)) (List.getElem?_eq_getElem (by omega))
    have := get_lt this; omega

theorem Holds.put {buff : List (Change D)} {xs : List (Nat × Change D)} (h : Holds buff xs) (x : Nat × Change D) :
    Holds (if buff.length ≤ xs.length then buff ++ [x.2] else buff.set xs.length x.2) (xs ++ [x]) := by
  have hle := h.le
  intro j y hy
  by_cases hj : j < xs.length
  · rw [List.getElem?_append_left hj] at hy
    have := h j y hy
    split
    · rw [List.getElem?_append_left (get_lt this)]; exact this
    · rw [List.getElem?_set_ne (by omega)]; exact this
  · have hl := get_lt hy
    simp only [List.length_append, List.length_singleton] at hl
    obtain rfl : j = xs.length := by omega
    rw [List.getElem?_concat_length] at hy
    injection hy with hy; subst hy
    split
    · next hc =>
      have : xs.length = buff.length := by omega
      rw [this, List.getElem?_concat_length]
    · rw [List.getElem?_set_self (by omega)]

theorem inject_spec (o : Opts) (latest : UInt64) (n : Nat) : ∀ (ex : List (Nat × Change D)) (s : Th D) (uniq i : Nat) (xs : List (Nat × Change D)) (us : List Nat),
    (∀ x ∈ ex, x.2.typ = .del) → xs.length = n + i → GInv s uniq (entsOf 0 xs) us → Holds s.buff xs →
    ∃ s' uniq' us', inject o latest n s uniq i ex = some (s', uniq', i + (ex.takeWhile (fun x => decide (x.2.edge.ts ≤ latest))).length) ∧
      GInv s' uniq' (entsOf 0 (xs ++ (ex.takeWhile (fun x => decide (x.2.edge.ts ≤ latest))).map (injected o))) us' ∧
      Holds s'.buff (xs ++ (ex.takeWhile (fun x => decide (x.2.edge.ts ≤ latest))).map (injected o)) ∧ Rest s s' ∧ s.buff.length ≤ s'.buff.length := by
  intro ex
  induction ex with
  | nil => intro s uniq i xs us _ _ hg hb; exact ⟨s, uniq, us, rfl, by simpa using hg, by simpa using hb, Rest.refl s, Nat.le_refl _⟩
  | cons x ex ih =>
    intro s uniq i xs us ht hn hg hb
    obtain ⟨v, c⟩ := x
    have hc : c.typ = .del := ht _ (List.mem_cons_self ..)
    simp only [inject]
    rw [if_neg (by simp [hc])]
    by_cases hgt : c.edge.ts > latest
    · rw [if_pos hgt]
      have : (((v, c) :: ex).takeWhile (fun x => decide (x.2.edge.ts ≤ latest))) = [] := by
        rw [List.takeWhile_cons_of_neg]
        simp only [decide_eq_true_eq]
        rw [UInt64.not_le]; exact hgt
      rw [this]
      exact ⟨s, uniq, us, rfl, by simpa using hg, by simpa using hb, Rest.refl s, Nat.le_refl _⟩
    · rw [if_neg hgt]
      have hle : c.edge.ts ≤ latest := UInt64.not_lt.1 hgt
      rw [List.takeWhile_cons_of_pos (by simpa using hle)]
      obtain ⟨s1, u1, us1, a1, a2, a3, a4, a5⟩ := insertPending_spec hg v (n + i)
      rw [a1, Option.bind_some]
      simp only
      have hent : entsOf 0 xs ++ [(v, n + i)] = entsOf 0 (xs ++ [injected o (v, c)]) := by
        rw [entsOf_append]; simp [entsOf, hn, injected]
      rw [hent] at a2
      have hput := hb.put (injected o (v, c))
      rw [hn, ← a4] at hput
      obtain ⟨s2, u2, us2, b1, b2, b3, b4, b5⟩ := ih { s1 with buff := if s1.buff.length ≤ n + i then s1.buff ++ [(injected o (v, c)).2] else s1.buff.set (n + i) (injected o (v, c)).2 }
        u1 (i + 1) (xs ++ [injected o (v, c)]) us1 (fun y hy => ht y (List.mem_cons_of_mem _ hy)) (by simp [hn]; omega) (a2.congr rfl rfl rfl) hput
      refine ⟨s2, u2, us2, ?_, ?_, ?_, ?_, ?_⟩
      · rw [List.length_cons, show i + ((ex.takeWhile (fun x => decide (x.2.edge.ts ≤ latest))).length + 1) = i + 1 + (ex.takeWhile (fun x => decide (x.2.edge.ts ≤ latest))).length by omega]
        exact b1
      · rw [List.append_assoc] at b2; exact b2
      · rw [List.append_assoc] at b3; exact b3
      · exact a3.trans ⟨b4.verts, b4.numUnique, b4.warn, b4.runs, b4.calls⟩
      · refine Nat.le_trans ?_ b5
        simp only
        rw [a4]
        split <;> simp

/-- Deletes that always hit the oldest edge. -/
theorem heads_spec : ∀ (pre post : List (Edge D)) (dels : List (Change D)), dels.map (fun c => c.edge.didx) = pre.map (·.didx) → (∀ c ∈ dels, c.typ = .del) →
    Good true (pre ++ post) dels ∧ rule (pre ++ post) dels = some post := by
  intro pre
  induction pre with
  | nil =>
    intro post dels h _
    have : dels = [] := by simpa using h
    subst this
    exact ⟨trivial, rfl⟩
  | cons e pre ih =>
    intro post dels h hd
    cases dels with
    | nil => simp at h
    | cons c dels =>
      simp only [List.map_cons, List.cons.injEq] at h
      have hc := hd c (List.mem_cons_self ..)
      obtain ⟨i1, i2⟩ := ih post dels h.2 (fun c hc => hd c (List.mem_cons_of_mem _ hc))
      have hrm : removeFirst c.edge.didx (e :: (pre ++ post)) = some (pre ++ post) := by
        simp [removeFirst, h.1]
      refine ⟨?_, ?_⟩
      · simp only [List.cons_append, Good, hc]
        refine ⟨.inr ⟨trivial, by simp [oldest, h.1]⟩, ?_⟩
        intro es' hes
        rw [hrm] at hes
        injection hes with hes
        subst hes
        have : (oldest (e :: (pre ++ post)) = some c.edge.didx) := by simp [oldest, h.1]
        simp only [this, decide_true, Bool.and_self]
        exact i1
      · simp only [List.cons_append, rule, hc, hrm, Option.bind_some]
        exact i2

/-- Splitting a list at the first element where a downward closed test fails. -/
theorem split_down {α : Type} (p : α → Bool) : ∀ (l : List α), l.Pairwise (fun a b => p b = true → p a = true) →
    l.takeWhile p = l.filter p ∧ l.drop (l.takeWhile p).length = l.filter (fun x => !p x) ∧ l = l.filter p ++ l.filter (fun x => !p x) := by
  intro l
  induction l with
  | nil => intro _; exact ⟨rfl, rfl, rfl⟩
  | cons a l ih =>
    intro h
    obtain ⟨h1, h2⟩ := List.pairwise_cons.1 h
    obtain ⟨i1, i2, i3⟩ := ih h2
    cases ha : p a with
    | true =>
      refine ⟨?_, ?_, ?_⟩
      · rw [List.takeWhile_cons_of_pos ha, List.filter_cons_of_pos ha, i1]
      · rw [List.takeWhile_cons_of_pos ha, List.length_cons, List.drop_succ_cons, i2, List.filter_cons_of_neg (by simp [ha])]
      · rw [List.filter_cons_of_pos ha, List.filter_cons_of_neg (by simp [ha]), List.cons_append, ← i3]
    | false =>
      have hn : ∀ b ∈ l, p b = false := by
        intro b hb
        cases hpb : p b with
        | false => rfl
        | true => have := h1 b hb hpb; rw [ha] at this; cases this
      have hf : l.filter p = [] := by rw [List.filter_eq_nil_iff]; intro b hb; simp [hn b hb]
      have hnf : l.filter (fun x => !p x) = l := by rw [List.filter_eq_self]; intro b hb; simp [hn b hb]
      refine ⟨?_, ?_, ?_⟩
      · rw [List.takeWhile_cons_of_neg (by simp [ha]), List.filter_cons_of_neg (by simp [ha]), hf]
      · rw [List.takeWhile_cons_of_neg (by simp [ha]), List.filter_cons_of_pos (by simp [ha]), hnf]; rfl
      · rw [List.filter_cons_of_neg (by simp [ha]), List.filter_cons_of_pos (by simp [ha]), hf, hnf]; rfl

/-- At time `latest` the window of an edge is over. -/
def over (w latest : UInt64) (e : Edge D) : Bool := decide (e.ts.toNat + w.toNat ≤ latest.toNat)

/-- Nothing but adds with timestamps in order, no overflow. -/
structure Stream (o : Opts) (xs : List (Nat × Change D)) : Prop where
  add : ∀ x ∈ xs, x.2.typ = .add
  sorted : xs.Pairwise (fun a b => a.2.edge.ts ≤ b.2.edge.ts)
  fits : ∀ x ∈ xs, x.2.edge.ts.toNat + o.window.toNat < 2 ^ 64
  clean : ∀ x ∈ xs, Clean x.2.edge
  small : o.canTs = true → ∀ x ∈ xs, x.2.edge.ts.toNat < 2 ^ 63

theorem Stream.sub {o : Opts} {xs ys : List (Nat × Change D)} (h : Stream o ys) (hs : xs.Sublist ys) : Stream o xs :=
  ⟨fun x hx => h.add x (hs.subset hx), h.sorted.sublist hs, fun x hx => h.fits x (hs.subset hx), fun x hx => h.clean x (hs.subset hx),
    fun hc x hx => h.small hc x (hs.subset hx)⟩

theorem queued_ts {o : Opts} {x : Nat × Change D} (h : x.2.edge.ts.toNat + o.window.toNat < 2 ^ 64) (latest : UInt64) :
    decide ((queued o x).2.edge.ts ≤ latest) = over o.window latest x.2.edge := by
  unfold over queued
  simp only [decide_eq_decide]
  rw [UInt64.le_iff_toNat_le, UInt64.toNat_add, Nat.mod_eq_of_lt (by simpa using h)]

theorem injected_queued {o : Opts} (ho : o.timeRange = false) (x : Nat × Change D) : injected o (queued o x) = (x.1, { typ := .del, edge := x.2.edge }) := by
  unfold injected queued
  simp [ho]

/-- Thread state after the add stream `all`; `live` are those whose window was not over. -/
structure WInv (o : Opts) (s : Th D) (live : List (Nat × Change D)) : Prop where
  rest : Rested s
  exp : s.expired = live.map (queued o)
  verts : ∀ v, s.verts v = (ownChanges live v).map (·.edge)

theorem ownChanges_map (g : Nat × Change D → Change D) (xs : List (Nat × Change D)) (v : Nat) :
    ownChanges (xs.map (fun x => (x.1, g x))) v = (xs.filter (fun x => decide (x.1 = v))).map g := by
  unfold ownChanges
  rw [List.filter_map]
  simp [Function.comp_def]

theorem addsOf_own {xs : List (Nat × Change D)} (h : ∀ x ∈ xs, x.2.typ = .add) (v : Nat) : addsOf (ownChanges xs v) = (ownChanges xs v).map (·.edge) := by
  apply addsOf_all
  intro c hc
  obtain ⟨x, hx, rfl⟩ := List.mem_map.1 hc
  simp [isAdd, h x (List.mem_filter.1 hx).1]

/-- One batch under an expiry window. -/
theorem window_step (o : Opts) (ho : o.timeRange = false) (hw : 0 < o.window) (others : Nat → Bool) {s : Th D} {live batch : List (Nat × Change D)} {last : Nat × Change D}
    (hi : WInv o s live) (hs : Stream o (live ++ batch)) (hlast : batch.getLast? = some last) (hfit : batch.length ≤ s.buff.length) :
    ∃ s', enact o others s batch = some s' ∧ WInv o s' ((live ++ batch).filter (fun x => !over o.window last.2.edge.ts x.2.edge)) ∧
      s.buff.length ≤ s'.buff.length ∧
      ∀ v, ∃ calls, callsOf s' v = callsOf s v ++ calls ∧ Explains (s.verts v) calls (s'.verts v) ∧ addedBy calls = (ownChanges batch v).map (·.edge) := by
  have hadd : ∀ x ∈ batch, x.2.typ = .add := fun x hx => hs.add x (List.mem_append_right _ hx)
  have hne : batch ≠ [] := by intro e; rw [e] at hlast; cases hlast
  have hlen : 0 < batch.length := List.length_pos_iff.2 hne
  unfold enact load
  rw [if_pos (by simpa using hfit), Option.bind_some]
  have hg0 : GInv { s with buff := batch.map Prod.snd ++ s.buff.drop (batch.map Prod.snd).length } 0 [] [] := hi.rest.ginv.congr rfl rfl rfl
  obtain ⟨s1, u1, us1, g1, g2, g3, g4, g5⟩ := group_spec o batch _ 0 0 [] [] hg0
  rw [g1, Option.bind_some, if_pos hw]
  rw [List.nil_append] at g2
  have hexp : s1.expired = live.map (queued o) ++ batch := by
    rw [g5]
    simp only [newExpired, hw, if_true]
    rw [hi.exp]
    congr 1
    rw [List.filter_eq_self]
    intro x hx
    simp [isAdd, hadd x hx]
  have hbuf : s1.buff = batch.map Prod.snd ++ s.buff.drop batch.length := by rw [g4]; simp
  have hlastm : last ∈ batch := List.mem_of_getLast? hlast
  have hle : ∀ x ∈ live ++ batch, x.2.edge.ts ≤ last.2.edge.ts := by
    intro x hx
    have hl : (live ++ batch).getLast? = some last := by rw [List.getLast?_append, hlast]; rfl
    obtain ⟨init, hinit⟩ : ∃ init, live ++ batch = init ++ [last] := by
      obtain ⟨init, h⟩ := List.getLast?_eq_some_iff.1 hl
      exact ⟨init, h⟩
    rw [hinit] at hx
    have hsrt := hs.sorted
    rw [hinit, List.pairwise_append] at hsrt
    rw [List.mem_append, List.mem_singleton] at hx
    rcases hx with hx | hx
    · exact hsrt.2.2 x hx last (by simp)
    · rw [hx]; exact UInt64.le_refl _
  have hget : s1.buff[batch.length - 1]? = some last.2 := by
    rw [hbuf, List.getElem?_append_left (by simp; omega), List.getElem?_map]
    rw [List.getLast?_eq_getElem?] at hlast
    rw [hlast]; rfl
  have htake : s1.buff.take batch.length = batch.map Prod.snd := by
    rw [hbuf, List.take_append_of_le_length (by simp), List.take_of_length_le (by simp)]
  have hadj := adjust_spec o last.2.edge.ts batch.length batch [] (live.map (queued o)) (by simp)
    (fun x hx => ⟨hadd x hx, hle x (List.mem_append_right _ hx)⟩)
  simp only [List.append_nil, List.length_nil] at hadj
  rw [← List.map_append] at hadj
  have hholds : Holds s1.buff batch := by
    intro j x hx
    rw [hbuf, List.getElem?_append_left (by have := get_lt hx; simpa using this), List.getElem?_map, hx]; rfl
  obtain ⟨s2, u2, us2, j1, j2, j3, j4, j5⟩ := inject_spec o last.2.edge.ts batch.length ((live ++ batch).map (queued o)) s1 u1 0 batch us1
    (by intro x hx; obtain ⟨y, -, rfl⟩ := List.mem_map.1 hx; rfl) rfl g2 hholds
  -- the split into expired and live edges
  generalize hp : (fun x : Nat × Change D => over o.window last.2.edge.ts x.2.edge) = p
  have hpx : ∀ x, over o.window last.2.edge.ts x.2.edge = p x := fun x => by rw [← hp]
  have hdown : (live ++ batch).Pairwise (fun a b => p b = true → p a = true) := by
    refine hs.sorted.imp ?_
    intro a b hab hb
    rw [← hp] at hb ⊢
    simp only [over, decide_eq_true_eq] at hb ⊢
    rw [UInt64.le_iff_toNat_le] at hab
    omega
  obtain ⟨k1, k2, k3⟩ := split_down p _ hdown
  have htw : ∀ l : List (Nat × Change D), (∀ x ∈ l, x ∈ live ++ batch) → (l.map (queued o)).takeWhile (fun x => decide (x.2.edge.ts ≤ last.2.edge.ts)) = (l.takeWhile p).map (queued o) := by
    intro l
    induction l with
    | nil => intro _; rfl
    | cons x l ih =>
      intro hm
      have e := queued_ts (hs.fits x (hm x (List.mem_cons_self ..))) last.2.edge.ts
      have ih' := ih (fun y hy => hm y (List.mem_cons_of_mem _ hy))
      rw [List.map_cons, List.takeWhile_cons, List.takeWhile_cons, e, hpx, ih']
      split <;> rfl
  rw [htw _ (fun x hx => hx), k1] at j1 j2 j3
  rw [Nat.zero_add, List.length_map] at j1
  have hinj : (((live ++ batch).filter p).map (queued o)).map (injected o) = ((live ++ batch).filter p).map (fun x => (x.1, ({ typ := .del, edge := x.2.edge } : Change D))) := by
    rw [List.map_map]
    apply List.map_congr_left
    intro x _
    exact injected_queued ho x
  rw [hinj] at j2 j3
  have hrun : injectExpired o s1 batch.length u1 = some ({ s2 with expired := ((live ++ batch).filter (fun x => !p x)).map (queued o) }, u2) := by
    unfold injectExpired
    rw [hget]
    simp only
    rw [htake, hexp, hadj, Option.bind_some, j1, Option.map_some, ← k2, k1, List.map_drop]
  rw [hrun, Option.bind_some]
  have hverts : s2.verts = s.verts := by rw [j4.verts, g3.verts]
  have hcalls : ∀ v, callsOf s2 v = callsOf s v := by intro v; unfold callsOf; rw [j4.calls, g3.calls]
  -- what happens at vertex `v`
  generalize hdead : (live ++ batch).filter p = dead at *
  generalize hkeep : (live ++ batch).filter (fun x => !p x) = keep at *
  generalize hs3 : ({ s2 with expired := keep.map (queued o) } : Th D) = s3
  have h3b : s3.buff = s2.buff := by rw [← hs3]
  have h3v : s3.verts = s2.verts := by rw [← hs3]
  have h3c : ∀ v, callsOf s3 v = callsOf s2 v := by intro v; rw [← hs3]; rfl
  have hg3 : GInv s3 u2 (entsOf 0 (batch ++ dead.map (fun x => (x.1, ({ typ := .del, edge := x.2.edge } : Change D))))) us2 :=
    j2.congr (by rw [← hs3]) (by rw [← hs3]) (by rw [← hs3])
  obtain ⟨a1, a2⟩ := apply_spec o others hg3 (by rw [h3b]; exact j3)
  have hown : ∀ v, (s.verts v ++ (ownChanges batch v).map (·.edge)) = (ownChanges dead v).map (·.edge) ++ (ownChanges keep v).map (·.edge) := by
    intro v
    rw [hi.verts, ← List.map_append, ← ownChanges_append, k3, ownChanges_append, List.map_append]
  have hdels : ∀ v, (∀ c ∈ ownChanges (dead.map (fun x => (x.1, ({ typ := .del, edge := x.2.edge } : Change D)))) v, c.typ = .del) ∧
      (ownChanges (dead.map (fun x => (x.1, ({ typ := .del, edge := x.2.edge } : Change D)))) v).map (fun c => c.edge.didx) = ((ownChanges dead v).map (·.edge)).map (·.didx) := by
    intro v
    rw [ownChanges_map (fun x => ({ typ := .del, edge := x.2.edge } : Change D))]
    constructor
    · intro c hc
      obtain ⟨x, -, rfl⟩ := List.mem_map.1 hc; rfl
    · simp [ownChanges, Function.comp_def]
  have hbat : ∀ v, ∀ c ∈ ownChanges batch v, isAdd c = true := by
    intro v c hc
    obtain ⟨x, hx, rfl⟩ := List.mem_map.1 hc
    simp [isAdd, hadd x (List.mem_filter.1 hx).1]
  have hgr : ∀ v, Good true (s.verts v) (ownChanges (batch ++ dead.map (fun x => (x.1, ({ typ := .del, edge := x.2.edge } : Change D)))) v) ∧
      rule (s.verts v) (ownChanges (batch ++ dead.map (fun x => (x.1, ({ typ := .del, edge := x.2.edge } : Change D)))) v) = some ((ownChanges keep v).map (·.edge)) := by
    intro v
    obtain ⟨b1, b2⟩ := heads_spec ((ownChanges dead v).map (·.edge)) ((ownChanges keep v).map (·.edge)) _ (hdels v).2 (hdels v).1
    rw [ownChanges_append]
    constructor
    · have key : ∀ (A : List (Change D)) (es : List (Edge D)) (R : List (Change D)), (∀ c ∈ A, isAdd c = true) → Good true (es ++ A.map (·.edge)) R → Good true es (A ++ R) := by
        intro A
        induction A with
        | nil => intro es R _ h; simpa using h
        | cons c A ih =>
          intro es R hA h
          have hc : c.typ = .add := by have := hA c (List.mem_cons_self ..); simpa [isAdd] using this
          simp only [List.cons_append, Good, hc]
          apply ih _ _ (fun c hc => hA c (List.mem_cons_of_mem _ hc))
          simpa using h
      apply key _ _ _ (hbat v)
      rw [hown]; exact b1
    · rw [rule_append, rule_adds (hbat v), Option.bind_some, hown]; exact b2
  have hado : ∀ v, addsOf (ownChanges (batch ++ dead.map (fun x => (x.1, ({ typ := .del, edge := x.2.edge } : Change D)))) v) = (ownChanges batch v).map (·.edge) := by
    intro v
    rw [ownChanges_append, addsOf_append, addsOf_all (hbat v), addsOf_none, List.append_nil]
    intro c hc
    simp [isAdd, (hdels v).1 c hc]
  have hvok : ∀ v, VOk o (s.verts v) (addsOf (ownChanges (batch ++ dead.map (fun x => (x.1, ({ typ := .del, edge := x.2.edge } : Change D)))) v)) := by
    intro v
    rw [hado]
    have hm : s.verts v ++ (ownChanges batch v).map (·.edge) = (((live ++ batch).filter (fun x => decide (x.1 = v))).map (·.2)).map (·.edge) := by
      rw [hi.verts, ← List.map_append, ← ownChanges_append]; rfl
    have hsub := hs.sub (List.filter_sublist (l := live ++ batch) (p := fun x => decide (x.1 = v)))
    constructor
    · rw [hm]
      intro e he
      rw [List.map_map] at he
      obtain ⟨x, hx, rfl⟩ := List.mem_map.1 he
      exact hsub.clean x hx
    · intro hc
      rw [hm]
      refine ⟨?_, ?_⟩
      · rw [List.map_map, List.pairwise_map]
        exact hsub.sorted
      · intro e he
        rw [List.map_map] at he
        obtain ⟨x, hx, rfl⟩ := List.mem_map.1 he
        exact hsub.small hc x hx
  cases hfin : applyGroups o others { s3 with numUnique := s3.numUnique + u2 } 0 u2 with
  | none =>
    obtain ⟨v, w, n, hb⟩ := a2 hfin
    have h1 := applyAll_rule o ho others _ _ { edges := s3.verts v, calls := [], warn := w, runs := n } (Nat.le_refl _)
      (by rw [h3v, hverts]; exact hvok v) (by rw [h3v, hverts]; exact (hgr v).1)
    rw [hb, h3v, hverts, (hgr v).2] at h1
    cases h1
  | some s' =>
    obtain ⟨b1, b2, b3, b4⟩ := a1 s' hfin
    have hr : ∀ v, s'.verts v = (ownChanges keep v).map (·.edge) := by
      intro v
      have := (b2 v).rule ho (by rw [h3v, hverts]; exact hvok v) (by rw [h3v, hverts]; exact (hgr v).1)
      rw [h3v, hverts, (hgr v).2] at this
      injection this with this; exact this.symm
    have hk : (live ++ batch).filter (fun x => !over o.window last.2.edge.ts x.2.edge) = keep := by rw [← hkeep, ← hp]
    rw [hk]
    refine ⟨s', rfl, ⟨b1, ?_, hr⟩, ?_, ?_⟩
    · rw [b4, ← hs3]
    · rw [b3, h3b]
      refine Nat.le_trans ?_ j5
      rw [hbuf]; simp; omega
    · intro v
      obtain ⟨-, calls, c1, c2, c3, -⟩ := (b2 v).explains ho (by rw [h3v, hverts]; exact hvok v)
      rw [h3c, hcalls] at c1
      rw [h3v, hverts] at c2
      rw [hado] at c3
      exact ⟨calls, c1, c2, c3⟩

theorem Explains.perm {a b : List (Edge D)} {calls : List (Call D)} (h : Explains a calls b) :
    (b ++ deletedBy calls).Perm (a ++ addedBy calls) := by
  induction h with
  | done es => simp [deletedBy, addedBy]
  | add hn h ih =>
    simp only [deletedBy, addedBy, List.flatMap_cons, List.nil_append] at ih ⊢
    rw [← List.append_assoc]
    exact ih
  | @del es rest del es' calls hn h1 h2 h3 h ih =>
    simp only [deletedBy, addedBy, List.flatMap_cons, List.nil_append] at ih ⊢
    have e1 : (es' ++ (del ++ calls.flatMap fun c => match c with | .add _ => [] | .del es => es)).Perm
        (del ++ (es' ++ calls.flatMap fun c => match c with | .add _ => [] | .del es => es)) := by
      rw [← List.append_assoc, ← List.append_assoc]
      exact List.perm_append_comm.append_right _
    refine e1.trans ?_
    refine (ih.append_left del).trans ?_
    rw [← List.append_assoc]
    exact (List.perm_append_comm.trans h3).append_right _

/-- All batches under an expiry window. -/
theorem window_all (o : Opts) (ho : o.timeRange = false) (hw : 0 < o.window) (others : Nat → Bool) : ∀ (bs : List (List (Nat × Change D))) (s : Th D) (live : List (Nat × Change D)),
    WInv o s live → Stream o (live ++ bs.flatten) → (∀ b ∈ bs, b ≠ [] ∧ b.length ≤ s.buff.length) →
    ∃ s' live', enactAll o others s bs = some s' ∧ WInv o s' live' ∧ (bs = [] → live' = live) ∧
      (∀ last, bs.flatten.getLast? = some last → live' = (live ++ bs.flatten).filter (fun x => !over o.window last.2.edge.ts x.2.edge)) ∧
      ∀ v, ∃ calls, callsOf s' v = callsOf s v ++ calls ∧ Explains (s.verts v) calls (s'.verts v) ∧ addedBy calls = (ownChanges bs.flatten v).map (·.edge) := by
  intro bs
  induction bs with
  | nil =>
    intro s live hi _ _
    exact ⟨s, live, rfl, hi, fun _ => rfl, (fun last h => by simp at h), fun v => ⟨[], by simp, .done _, by simp [addedBy, ownChanges]⟩⟩
  | cons b bs ih =>
    intro s live hi hs hb
    obtain ⟨hb1, hb2⟩ := hb b (List.mem_cons_self ..)
    obtain ⟨last, hlast⟩ : ∃ last, b.getLast? = some last := ⟨_, List.getLast?_eq_some_getLast hb1⟩
    rw [List.flatten_cons, ← List.append_assoc] at hs
    obtain ⟨s1, e1, w1, l1, c1⟩ := window_step o ho hw others hi (hs.sub (List.sublist_append_left _ _)) hlast hb2
    have hs1 : Stream o ((live ++ b).filter (fun x => !over o.window last.2.edge.ts x.2.edge) ++ bs.flatten) :=
      hs.sub (List.filter_sublist.append (List.Sublist.refl _))
    obtain ⟨s2, live2, e2, w2, n2, f2, c2⟩ := ih s1 _ w1 hs1 (fun b' hb' => ⟨(hb b' (List.mem_cons_of_mem _ hb')).1, Nat.le_trans (hb b' (List.mem_cons_of_mem _ hb')).2 l1⟩)
    refine ⟨s2, live2, by rw [enactAll, e1, Option.bind_some, e2], w2, by simp, ?_, ?_⟩
    · intro last2 hl2
      by_cases hbs : bs = []
      · subst hbs
        simp only [List.flatten_cons, List.flatten_nil, List.append_nil] at hl2 ⊢
        rw [hlast] at hl2
        injection hl2 with hl2
        subst hl2
        exact n2 rfl
      · have hfl : bs.flatten ≠ [] := by
          cases bs with
          | nil => exact absurd rfl hbs
          | cons b2 bs2 =>
            have := (hb b2 (by simp)).1
            simp [this]
        rw [List.flatten_cons, List.getLast?_append] at hl2
        have hl3 : bs.flatten.getLast? = some last2 := by
          rw [List.getLast?_eq_some_getLast hfl] at hl2 ⊢
          simpa using hl2
        rw [f2 last2 hl3, List.flatten_cons, ← List.append_assoc, List.filter_append _ bs.flatten, List.filter_append _ bs.flatten]
        congr 1
        rw [List.filter_filter]
        apply List.filter_congr
        intro x hx
        have hm1 : last ∈ live ++ b := List.mem_append_right _ (List.mem_of_getLast? hlast)
        have hm2 : last2 ∈ bs.flatten := List.mem_of_getLast? hl3
        have := (List.pairwise_append.1 hs.sorted).2.2 last hm1 last2 hm2
        rw [UInt64.le_iff_toNat_le] at this
        simp only [over]
        by_cases h1 : x.2.edge.ts.toNat + o.window.toNat ≤ last2.2.edge.ts.toNat
        · simp [h1]
        · have h2 : ¬ x.2.edge.ts.toNat + o.window.toNat ≤ last.2.edge.ts.toNat := by omega
          simp [h1, h2]
    · intro v
      obtain ⟨k1, a1, a2, a3⟩ := c1 v
      obtain ⟨k2, b1, b2, b3⟩ := c2 v
      refine ⟨k1 ++ k2, by rw [b1, a1, List.append_assoc], a2.trans b2, ?_⟩
      rw [addedBy_append, a3, b3, List.flatten_cons, ownChanges_append, List.map_append]

end Verif.Enact
