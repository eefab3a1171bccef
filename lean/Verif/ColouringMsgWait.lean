import Verif.ColouringMsgInv

/-!
# Message-passing colouring with wait counts
-/

namespace Verif.ColouringMsg

open Verif.Colouring (comparePriority hash firstUnused firstUnused_spec firstUnused_le prior prior_or prior_asymm prior_irrefl)

/-- What the first part of a visit does to the entries and the wait count. -/
inductive Wrote (p : VP) (n : Note) : VP → Prop
  | init : n.pos = EMPTY → Wrote p n p
  | plain (prev : Nat) : n.pos ≠ EMPTY → p.scratch[n.pos]? = some prev → n.prio = false → Wrote p n { p with scratch := p.scratch.set n.pos n.colour }
  | prior (prev k : Nat) : n.pos ≠ EMPTY → p.scratch[n.pos]? = some prev → n.prio = true → (k = p.colour ∨ (n.colour = p.colour ∧ k = EMPTY)) →
      Wrote p n { scratch := p.scratch.set n.pos n.colour, colour := k, wait := if prev = MAGIC then p.wait - 1 else p.wait }

theorem wrote {p p' : VP} {n : Note} (h : note true p n = some p') : Wrote p n p' := by
  unfold note at h
  split at h
  · next hp => cases h; exact .init hp
  · next hp =>
    split at h
    · cases h
    · next prev hprev =>
      dsimp only at h
      split at h
      · next hpr =>
        simp only [Option.some.injEq] at h
        subst h
        by_cases hc : n.colour = p.colour <;> by_cases hm : prev = MAGIC
        · have := Wrote.prior (p := p) (n := n) prev EMPTY hp hprev hpr (.inr ⟨hc, rfl⟩)
          rw [if_pos hm] at this
          simpa [hc, hm] using this
        · have := Wrote.prior (p := p) (n := n) prev EMPTY hp hprev hpr (.inr ⟨hc, rfl⟩)
          rw [if_neg hm] at this
          simpa [hc, hm] using this
        · have := Wrote.prior (p := p) (n := n) prev p.colour hp hprev hpr (.inl rfl)
          rw [if_pos hm] at this
          simpa [hc, hm] using this
        · have := Wrote.prior (p := p) (n := n) prev p.colour hp hprev hpr (.inl rfl)
          rw [if_neg hm] at this
          simpa [hc, hm] using this
      · next hpr =>
        simp only [Option.some.injEq] at h
        subst h
        exact .plain prev hp hprev (by simpa using hpr)

/-- The `i`-th out-edge goes to where the `i`-th in-edge comes from. -/
def Aligned (c : Cfg) : Prop := ∀ v i e, (links c v)[i]? = some e → (e.1, v, i) ∈ c.es

/-- `col` is the sequential colouring. -/
def Seq (c : Cfg) (col : Nat → Nat) : Prop :=
  ∀ v, (∀ a ∈ c.es, a.2.1 = v → prior a.1 v = true → col a.1 ≠ col v) ∧ ∀ k, k < col v → ∃ a ∈ c.es, a.2.1 = v ∧ prior a.1 v = true ∧ col a.1 = k

/-- A note that brings the colour of a neighbour. -/
def Brings (c : Cfg) (col : Nat → Nat) (s : St) (v : Nat) (n : Note) : Prop :=
  n.pos = EMPTY ∨ ∃ u, (u, v, n.pos) ∈ c.es ∧ n.colour = col u ∧ (s.vp u).colour ≠ EMPTY ∧ n.prio = prior u v ∧ n.colour < MAGIC

structure InvW (c : Cfg) (col : Nat → Nat) (s : St) : Prop where
  cnt : ∀ v, (s.vp v).wait = ((s.vp v).scratch.count MAGIC : Nat)
  slot : ∀ a ∈ c.es, (s.vp a.2.1).scratch.getD a.2.2 EMPTY = (if prior a.1 a.2.1 = true then MAGIC else EMPTY) ∨
    ((s.vp a.2.1).scratch.getD a.2.2 EMPTY = col a.1 ∧ (s.vp a.1).colour ≠ EMPTY ∧ col a.1 < MAGIC)
  hue : ∀ v, (s.vp v).colour = EMPTY ∨ (s.vp v).colour = col v
  pre : ∀ a ∈ c.es, prior a.1 a.2.1 = true → (s.vp a.2.1).colour ≠ EMPTY → (s.vp a.1).colour ≠ EMPTY
  queued : ∀ v, ∀ n ∈ s.queue v, Brings c col s v n
  taken : ∀ t v n left, s.task t = .visit v n left → Brings c col s v n

theorem invW_start {c : Cfg} (hg : Good c) (hw : c.wait = true) (hal : Aligned c) (col : Nat → Nat) : InvW c col (start c) := by
  have hl : ∀ v, looked c v = links c v := fun v => List.take_of_length_le (by rw [hg.deg])
  refine ⟨fun v => ?_, fun a ha => .inl ?_, fun v => .inl rfl, fun a _ _ h => absurd rfl h, fun v n hn => .inl ?_, fun t v n left h => by cases h⟩
  · show (if c.wait = true then _ else _) = _
    rw [if_pos hw]
    show (((looked c v).countP fun e => comparePriority (hash e.1) (hash v) e.1 v : Nat) : Int) = (((looked c v).map fun e => if comparePriority (hash e.1) (hash v) e.1 v = true then MAGIC else EMPTY).count MAGIC : Nat)
    congr 1
    induction looked c v with
    | nil => rfl
    | cons e l ih =>
      rw [List.countP_cons, List.map_cons, List.count_cons, ih]
      congr 1
      by_cases h : comparePriority (hash e.1) (hash v) e.1 v = true
      · rw [if_pos h, if_pos h]; rfl
      · rw [if_neg h, if_neg h]; rfl
  · have hlt : a.2.2 < (links c a.2.1).length := by rw [hg.deg]; exact hg.pos a ha
    show ((looked c a.2.1).map fun e => if comparePriority (hash e.1) (hash a.2.1) e.1 a.2.1 = true then MAGIC else EMPTY).getD a.2.2 EMPTY = _
    rw [hl, List.getD_eq_getElem?_getD, List.getElem?_map, List.getElem?_eq_getElem hlt]
    have h1 := hal a.2.1 a.2.2 _ (List.getElem?_eq_getElem hlt)
    have h2 := hg.src h1 (u' := a.1) ha
    simp only [Option.map_some, Option.getD_some, h2]
    rfl
  · unfold start at hn
    dsimp only at hn
    split at hn
    · rw [List.mem_singleton.1 hn]; rfl
    · cases hn

theorem brings_mono {c : Cfg} {col : Nat → Nat} {s s' : St} {v : Nat} {n : Note} (h : Brings c col s v n) (hm : ∀ u, (s.vp u).colour ≠ EMPTY → (s'.vp u).colour ≠ EMPTY) : Brings c col s' v n := by
  rcases h with h | ⟨u, h1, h2, h3, h4⟩
  · exact .inl h
  · exact .inr ⟨u, h1, h2, hm u h3, h4⟩

/-- A visit that is not about to colour, or not yet. -/
theorem wrote_ent {p p' : VP} {n : Note} (h : Wrote p n p') {q : Nat} (hq : q ≠ EMPTY) : p'.scratch.getD q EMPTY = if n.pos = q then n.colour else p.scratch.getD q EMPTY := by
  have hent : ∀ prev, p.scratch[n.pos]? = some prev → (p.scratch.set n.pos n.colour).getD q EMPTY = if n.pos = q then n.colour else p.scratch.getD q EMPTY := by
    intro prev hp
    have hl := (List.getElem?_eq_some_iff.1 hp).1
    simp only [List.getD_eq_getElem?_getD, List.getElem?_set]
    split
    · next e => subst e; simp
    · rfl
  cases h with
  | init hp => rw [if_neg (by rw [hp]; exact Ne.symm hq)]
  | plain prev _ hp _ => exact hent prev hp
  | prior prev k _ hp _ _ => exact hent prev hp

/-- The state of a vertex after the first part of a visit. -/
structure Local (c : Cfg) (col : Nat → Nat) (s : St) (v : Nat) (p : VP) : Prop where
  len : p.scratch.length = inDeg c v
  cnt : p.wait = (p.scratch.count MAGIC : Nat)
  slot : ∀ a ∈ c.es, a.2.1 = v → p.scratch.getD a.2.2 EMPTY = (if prior a.1 v = true then MAGIC else EMPTY) ∨ (p.scratch.getD a.2.2 EMPTY = col a.1 ∧ (s.vp a.1).colour ≠ EMPTY ∧ col a.1 < MAGIC)
  hue : p.colour = (s.vp v).colour

theorem local_note {c : Cfg} (hg : Good c) {col : Nat → Nat} (hcol : Seq c col) {s : St} (hi : Inv c s) (hiw : InvW c col s) {v : Nat} {n : Note} (hb : Brings c col s v n) {p : VP} (h : Wrote (s.vp v) n p) : Local c col s v p := by
  have hslot : ∀ a ∈ c.es, a.2.1 = v → p.scratch.getD a.2.2 EMPTY = (if prior a.1 v = true then MAGIC else EMPTY) ∨ (p.scratch.getD a.2.2 EMPTY = col a.1 ∧ (s.vp a.1).colour ≠ EMPTY ∧ col a.1 < MAGIC) := by
    intro a ha hav
    rw [wrote_ent h (pos_ne hg ha)]
    split
    · next e =>
      rcases hb with hb | ⟨u, h1, h2, h3, -, h4⟩
      · exact absurd (e.symm.trans hb) (pos_ne hg ha)
      · rw [e] at h1
        have : (a.1, v, a.2.2) ∈ c.es := by rw [← hav]; exact ha
        have := hg.src this h1
        rw [this]
        exact .inr ⟨h2, h3, by rw [← h2]; exact h4⟩
    · rw [← hav]; exact hiw.slot a ha
  -- the note is from a neighbour
  have hcount : ∀ prev, n.pos ≠ EMPTY → (s.vp v).scratch[n.pos]? = some prev → (((s.vp v).scratch.set n.pos n.colour).count MAGIC : Int) = ((s.vp v).scratch.count MAGIC : Nat) - (if prev = MAGIC then 1 else 0) := by
    intro prev hp hprev
    obtain ⟨hlt, he⟩ := List.getElem?_eq_some_iff.1 hprev
    rcases hb with hb | ⟨u, h1, h2, h3, -, h4⟩
    · exact absurd hb hp
    · rw [List.count_set hlt, he]
      have hne : (n.colour == MAGIC) = false := by
        rw [beq_eq_false_iff_ne]; omega
      rw [hne]
      by_cases hm : prev = MAGIC
      · have : 0 < (s.vp v).scratch.count MAGIC := List.count_pos_iff.2 (by rw [← hm, ← he]; exact List.getElem_mem hlt)
        subst hm
        simp only [beq_self_eq_true, if_true, Bool.false_eq_true, if_false]
        omega
      · simp [hm]
  have hcnt : p.wait = (p.scratch.count MAGIC : Nat) := by
    cases h with
    | init hp => exact hiw.cnt v
    | plain prev hp hprev hpr =>
      dsimp only
      rw [hcount prev hp hprev, hiw.cnt v, if_neg]
      · simp
      · intro hm
        rcases hb with hb | ⟨u, h1, h2, h3, h5, h4⟩
        · exact hp hb
        · have := hiw.slot _ h1
          dsimp only at this
          rw [List.getD_eq_getElem?_getD, hprev] at this
          simp only [Option.getD_some] at this
          rw [← h5, hpr] at this
          simp only [Bool.false_eq_true, if_false] at this
          rw [hm] at this
          rcases this with h | h
          · exact absurd h (by decide)
          · omega
    | prior prev k hp hprev hpr hk =>
      dsimp only
      rw [hcount prev hp hprev, hiw.cnt v]
      split <;> simp
  have hlen : p.scratch.length = inDeg c v := by
    rw [← hi.len v]
    cases h <;> simp
  refine ⟨hlen, hcnt, hslot, ?_⟩
  cases h with
  | init => rfl
  | plain => rfl
  | prior prev k hp hprev hpr hk =>
    dsimp only
    rcases hk with h | ⟨h1, h2⟩
    · exact h
    · rcases hb with hb | ⟨u, g1, g2, g3, g5, g4⟩
      · exact absurd hb hp
      · rcases hiw.hue v with he | he
        · rw [h2, he]
        · exact absurd (g2.symm.trans (h1.trans he)) ((hcol v).1 _ g1 rfl (by rw [← g5]; exact hpr))

/-- The colour taken is that of the sequential colouring. -/
theorem best_eq {c : Cfg} (hg : Good c) (hrev : ∀ a ∈ c.es, ∃ q, (a.2.1, a.1, q) ∈ c.es) (hal : Aligned c) {col : Nat → Nat} (hcol : Seq c col) {s : St} (hiw : InvW c col s) {v : Nat} {p : VP} (hl : Local c col s v p)
    (he : p.colour = EMPTY) (hw : ¬ 0 < p.wait) : firstUnused (used p.scratch) = col v ∧ ∀ a ∈ c.es, a.2.1 = v → prior a.1 v = true → (s.vp a.1).colour ≠ EMPTY := by
  have hzero : p.scratch.count MAGIC = 0 := by have := hl.cnt; omega
  have hsm := hg.small v
  -- entries of prior neighbours
  have hprior : ∀ a ∈ c.es, a.2.1 = v → prior a.1 v = true → p.scratch.getD a.2.2 EMPTY = col a.1 ∧ (s.vp a.1).colour ≠ EMPTY ∧ col a.1 < MAGIC := by
    intro a ha hav hp
    rcases hl.slot a ha hav with h | h
    · rw [if_pos hp] at h
      have hlt : a.2.2 < p.scratch.length := by rw [hl.len, ← hav]; exact hg.pos a ha
      rw [List.getD_eq_getElem?_getD, List.getElem?_eq_getElem hlt] at h
      have h : p.scratch[a.2.2] = MAGIC := h
      exact absurd (by rw [← h]; exact List.getElem_mem hlt) (List.count_eq_zero.1 hzero)
    · exact h
  -- entries of the others are empty
  have hother : ∀ a ∈ c.es, a.2.1 = v → prior a.1 v = false → p.scratch.getD a.2.2 EMPTY = EMPTY := by
    intro a ha hav hp
    rcases hl.slot a ha hav with h | h
    · rw [hp] at h; exact h
    · exfalso
      obtain ⟨q, hq⟩ := hrev a ha
      have hpr : prior v a.1 = true := by
        rcases prior_or (hg.loop a ha) with h | h
        · rw [hav, hp] at h; cases h
        · rw [← hav]; exact h
      have := hiw.pre _ hq (by dsimp only; rw [hav]; exact hpr) h.2.1
      dsimp only at this
      rw [hav, ← hl.hue] at this
      exact this he
  have hb := best_le p.scratch
  have hspec := firstUnused_spec (used p.scratch)
  refine ⟨?_, fun a ha hav hp => (hprior a ha hav hp).2.1⟩
  -- not taken
  have h1 : ¬ firstUnused (used p.scratch) < col v := by
    intro hlt
    obtain ⟨a, ha, hav, hp, hk⟩ := (hcol v).2 _ hlt
    obtain ⟨h, -, -⟩ := hprior a ha hav hp
    exact best_not (p := a.2.2) (by rw [hl.len]; exact hsm) (h.trans hk)
  have h2 : ¬ col v < firstUnused (used p.scratch) := by
    intro hlt
    obtain ⟨hm, -⟩ := List.mem_filter.1 (hspec.2 _ hlt)
    obtain ⟨i, hi, e⟩ := List.getElem_of_mem hm
    have hi' : i < (links c v).length := by rw [hg.deg, ← hl.len]; exact hi
    have ha := hal v i _ (List.getElem?_eq_getElem hi')
    have hget : p.scratch.getD i EMPTY = col v := by rw [List.getD_eq_getElem?_getD, List.getElem?_eq_getElem hi]; exact e
    cases hp : prior (links c v)[i].1 v with
    | false =>
      have := hother _ ha rfl hp
      dsimp only at this
      rw [hget] at this
      rw [hl.len] at hb
      simp only [MAGIC, EMPTY] at *
      omega
    | true =>
      have := (hprior _ ha rfl hp).1
      dsimp only at this
      rw [hget] at this
      exact (hcol v).1 _ ha rfl hp this.symm
  omega

theorem invW_step {c : Cfg} (hg : Good c) (hwait : c.wait = true) (hrev : ∀ a ∈ c.es, ∃ q, (a.2.1, a.1, q) ∈ c.es) (hal : Aligned c) {col : Nat → Nat} (hcol : Seq c col) {s s' : St} (hi : Inv c s) (hiw : InvW c col s) (h : Step c s s') : InvW c col s' := by
  cases h with
  | @recv t v n q ht ho hk hq =>
    refine ⟨hiw.cnt, hiw.slot, hiw.hue, hiw.pre, fun w m hm => ?_, fun t' w m left htk => ?_⟩
    · dsimp only at hm
      refine brings_mono (hiw.queued w m ?_) fun _ h => h
      by_cases e : w = v
      · subst e; rw [upd_same] at hm; rw [hq]; exact List.mem_cons_of_mem _ hm
      · rwa [upd_ne _ _ e] at hm
    · dsimp only at htk
      by_cases e : t' = t
      · subst e
        rw [upd_same] at htk
        injection htk with e1 e2
        subst e1; subst e2
        exact brings_mono (hiw.queued v n (by rw [hq]; exact List.mem_cons_self)) fun _ h => h
      · rw [upd_ne _ _ e] at htk
        exact brings_mono (hiw.taken _ _ _ _ htk) fun _ h => h
  | @fin t v ht hk =>
    refine ⟨hiw.cnt, hiw.slot, hiw.hue, hiw.pre, hiw.queued, fun t' w m left htk => ?_⟩
    dsimp only at htk
    by_cases e : t' = t
    · subst e; rw [upd_same] at htk; cases htk
    · rw [upd_ne _ _ e] at htk
      exact brings_mono (hiw.taken _ _ _ _ htk) fun _ h => h
  | @count t v w n l ht hk =>
    refine ⟨hiw.cnt, hiw.slot, hiw.hue, hiw.pre, hiw.queued, fun t' w m left htk => ?_⟩
    dsimp only at htk
    by_cases e : t' = t
    · subst e; rw [upd_same] at htk; cases htk
    · rw [upd_ne _ _ e] at htk
      exact brings_mono (hiw.taken _ _ _ _ htk) fun _ h => h
  | @put t v w n l ht hk =>
    refine ⟨hiw.cnt, hiw.slot, hiw.hue, hiw.pre, fun x m hm => ?_, fun t' w m left htk => ?_⟩
    · dsimp only at hm
      by_cases e : x = w
      · subst e
        rw [upd_same, List.mem_append, List.mem_singleton] at hm
        rcases hm with hm | rfl
        · exact hiw.queued _ _ hm
        · have htk := hi.task t
          rw [hk] at htk
          obtain ⟨h1, h2, h3, h4⟩ := sending_mem hg htk List.mem_cons_self
          have hne : (s.vp v).colour ≠ EMPTY := by simp only [MAGIC, EMPTY] at *; omega
          refine .inr ⟨v, h1, ?_, hne, ?_, by omega⟩
          · rcases hiw.hue v with h | h
            · exact absurd h hne
            · rw [h2, h]
          · rw [h3, not_prior (hg.loop _ h1)]
      · rw [upd_ne _ _ e] at hm; exact hiw.queued _ _ hm
    · dsimp only at htk
      by_cases e : t' = t
      · subst e; rw [upd_same] at htk; cases htk
      · rw [upd_ne _ _ e] at htk
        exact brings_mono (hiw.taken _ _ _ _ htk) fun _ h => h
  | @visit t v n left p p' l ht hk hp hn hc =>
    rw [hwait] at hp
    have hl := local_note hg hcol hi hiw (hiw.taken _ _ _ _ hk) (wrote hp)
    have hsm := hg.small v
    -- the two parts together
    have hs' : p'.scratch = p.scratch ∧ p'.wait = p.wait := by cases hc <;> exact ⟨rfl, rfl⟩
    have hcc : p'.colour = (s.vp v).colour ∨ (p'.colour = col v ∧ p'.colour ≠ EMPTY ∧ ∀ a ∈ c.es, a.2.1 = v → prior a.1 v = true → (s.vp a.1).colour ≠ EMPTY) := by
      cases hc with
      | rest _ => exact .inl hl.hue
      | new he h1 h2 =>
        obtain ⟨h3, h4⟩ := best_eq hg hrev hal hcol hiw hl he fun h => h2 ⟨hwait, h⟩
        refine .inr ⟨h3, ?_, h4⟩
        have := best_le p.scratch
        rw [hl.len] at this
        dsimp only
        simp only [MAGIC, EMPTY] at *
        omega
    have hmono : ∀ u, (s.vp u).colour ≠ EMPTY → (upd s.vp v p' u).colour ≠ EMPTY := by
      intro u hu
      by_cases e : u = v
      · subst e
        rw [upd_same]
        rcases hcc with h | h
        · rw [h]; exact hu
        · exact h.2.1
      · rw [upd_ne _ _ e]; exact hu
    refine ⟨fun x => ?_, fun a ha => ?_, fun x => ?_, fun a ha hpr hca => ?_, fun x m hm => brings_mono (hiw.queued x m hm) hmono, fun t' w m left' htk => ?_⟩
    · dsimp only
      by_cases e : x = v
      · subst e; rw [upd_same, hs'.1, hs'.2]; exact hl.cnt
      · rw [upd_ne _ _ e]; exact hiw.cnt x
    · dsimp only
      by_cases e : a.2.1 = v
      · rw [e, upd_same, hs'.1]
        rcases hl.slot a ha e with h | h
        · exact .inl h
        · exact .inr ⟨h.1, hmono _ h.2.1, h.2.2⟩
      · rw [upd_ne s.vp _ e]
        rcases hiw.slot a ha with h | h
        · exact .inl h
        · exact .inr ⟨h.1, hmono _ h.2.1, h.2.2⟩
    · dsimp only
      by_cases e : x = v
      · subst e
        rw [upd_same]
        rcases hcc with h | h
        · rw [h]; exact hiw.hue x
        · exact .inr h.1
      · rw [upd_ne _ _ e]; exact hiw.hue x
    · dsimp only at hca ⊢
      apply hmono
      by_cases e : a.2.1 = v
      · rw [e, upd_same] at hca
        rcases hcc with h | h
        · rw [h, ← e] at hca; exact hiw.pre a ha hpr hca
        · exact h.2.2 a ha e (by rw [← e]; exact hpr)
      · rw [upd_ne _ _ e] at hca
        exact hiw.pre a ha hpr hca
    · dsimp only at htk
      by_cases e : t' = t
      · subst e; rw [upd_same] at htk; cases htk
      · rw [upd_ne _ _ e] at htk
        exact brings_mono (hiw.taken _ _ _ _ htk) hmono

theorem invW_run {c : Cfg} (hg : Good c) (hwait : c.wait = true) (hrev : ∀ a ∈ c.es, ∃ q, (a.2.1, a.1, q) ∈ c.es) (hal : Aligned c) {col : Nat → Nat} (hcol : Seq c col) :
    ∀ (xs : List Act) (s s' : St), Inv c s → InvW c col s → run c s xs = some s' → InvW c col s'
  | [], s, s', _, hiw, h => by cases h; exact hiw
  | x :: xs, s, s', hi, hiw, h => by
    simp only [run, Option.bind_eq_some_iff] at h
    obtain ⟨s1, h1, h2⟩ := h
    have hs := step_cases hg hi h1
    exact invW_run hg hwait hrev hal hcol xs s1 s' (inv_of_step hg hi hs) (invW_step hg hwait hrev hal hcol hi hiw hs) h2

/-- At rest everything has its colour. -/
theorem quiet_waiting {c : Cfg} (hg : Good c) {col : Nat → Nat} {s : St} (hi : Inv c s) (hiw : InvW c col s) (hal : Aligned c) (hq : Quiet c s) {v : Nat} (hv : v < c.n)
    (ih : ∀ a ∈ c.es, a.2.1 = v → prior a.1 v = true → (s.vp a.1).colour ≠ EMPTY) : (s.vp v).colour ≠ EMPTY := by
  intro he
  obtain ⟨-, h⟩ := quiet_coloured hg hi hq hv he
  have h1 := hiw.cnt v
  have hm : MAGIC ∈ (s.vp v).scratch := List.count_pos_iff.1 (by omega)
  obtain ⟨i, hlt, e⟩ := List.getElem_of_mem hm
  have hi' : i < (links c v).length := by rw [hg.deg, ← hi.len]; exact hlt
  have ha := hal v i _ (List.getElem?_eq_getElem hi')
  have hget : (s.vp v).scratch.getD i EMPTY = MAGIC := by rw [List.getD_eq_getElem?_getD, List.getElem?_eq_getElem hlt]; exact e
  have hs := hiw.slot _ ha
  dsimp only at hs
  rw [hget] at hs
  rcases hs with hs | hs
  · have hp : prior (links c v)[i].1 v = true := by
      by_contra hn
      rw [if_neg hn] at hs
      exact absurd hs (by decide)
    have hcu := ih _ ha rfl hp
    have h2 := quiet_seen hg hi hq ha hcu
    dsimp only at h2 hcu
    rw [hget] at h2
    have hsm := hg.small (links c v)[i].1
    rcases hi.col (links c v)[i].1 with h | h
    · exact hcu h
    · omega
  · omega

end Verif.ColouringMsg
