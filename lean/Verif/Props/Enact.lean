import Verif.EnactCounts

/-!
# Applying events: C24, C25, C26
-/

namespace Verif.Enact

open Verif.Loader (Typ)

variable {D : Type}

/-! ## Specification -/

/-- Places of the events of vertex `v` in a batch. -/
def places (batch : List (Nat × Change D)) (v : Nat) : List Nat :=
  (List.range batch.length).filter (fun i => decide ((batch[i]?).map (·.1) = some v))

/-- Events of vertex `v` in all batches, in order. -/
def history (bs : List (List (Nat × Change D))) (v : Nat) : List (Change D) :=
  (bs.flatten.filter (fun x => decide (x.1 = v))).map (·.2)

/-- The edges added by a history. -/
def added (cs : List (Change D)) : List (Edge D) := (cs.filter (fun c => decide (c.typ = .add))).map (·.edge)

/-- The targets of the deletes of a history. -/
def targets (cs : List (Change D)) : List (Nat × Nat) := (cs.filter (fun c => decide (c.typ = .del))).map (·.edge.didx)

/-- Edges whose position is below `2^31` (the top bit is used as a flag). With timestamps in use, they
are in order and below `2^63`. -/
def Usable (o : Opts) (cs : List (Change D)) : Prop :=
  (∀ e ∈ added cs, e.pos.toNat < 2 ^ 31) ∧
  (o.canTs = true → (added cs).Pairwise (fun a b => a.ts ≤ b.ts) ∧ ∀ e ∈ added cs, e.ts.toNat < 2 ^ 63)

theorem added_eq (cs : List (Change D)) : added cs = addsOf cs := rfl

theorem targets_eq (cs : List (Change D)) : targets cs = delTargets cs := by
  unfold targets delTargets
  congr 1
  apply List.filter_congr
  intro c _
  unfold isAdd
  cases c.typ <;> rfl

theorem history_eq (bs : List (List (Nat × Change D))) (v : Nat) : history bs v = ownChanges bs.flatten v := rfl

theorem usable_vok {o : Opts} {cs : List (Change D)} (h : Usable o cs) : VOk o [] (addsOf cs) :=
  ⟨h.1, h.2⟩

/-! ## C24: grouping -/

theorem range_filter (i : Nat) (batch : List (Nat × Change D)) (v : Nat) :
    pendOf (entsOf i batch) v = ((List.range batch.length).filter (fun j => decide ((batch[j]?).map (·.1) = some v))).map (· + i) := by
  induction batch generalizing i with
  | nil => simp [entsOf, pendOf]
  | cons x batch ih =>
    rw [List.length_cons, List.range_succ_eq_map, List.filter_cons, List.filter_map]
    have h1 : ((fun j => decide (((x :: batch)[j]?).map (·.1) = some v)) ∘ Nat.succ) = fun j => decide ((batch[j]?).map (·.1) = some v) := by
      funext j; simp
    rw [h1]
    have h2 := ih (i + 1)
    unfold pendOf at h2 ⊢
    simp only [entsOf, List.filter_cons, List.getElem?_cons_zero, Option.map_some, Option.some.injEq]
    by_cases e : x.1 = v
    · simp only [e, decide_true, if_true, List.map_cons, h2, List.map_map]
      rw [Nat.zero_add]
      congr 1
      apply List.map_congr_left
      intro j _
      simp; omega
    · simp only [e, decide_false, Bool.false_eq_true, if_false, h2, List.map_map]
      apply List.map_congr_left
      intro j _
      simp; omega

/-- C24: after any batches with any options, the first loop over the next batch makes one pending list
for each source that occurs: the source and the places of its events, in order. The other lists are
empty. -/
theorem C24_pending (o : Opts) (others : Nat → Bool) (slots cap : Nat) (zero : Change D) (bs : List (List (Nat × Change D))) {s : Th D}
    (h : enactAll o others (start slots cap zero) bs = some s) (batch : List (Nat × Change D)) (buff : List (Change D)) :
    ∃ (s' : Th D) (uniq : Nat) (us : List Nat), group o { s with buff := buff } 0 0 batch = some (s', uniq) ∧ us.Nodup ∧ (∀ v, v ∈ us ↔ ∃ c, (v, c) ∈ batch) ∧ us.length = uniq ∧
      s'.pend.take uniq = us.map (fun v => v :: places batch v) ∧ (∀ l ∈ s'.pend.drop uniq, l = []) ∧ s'.verts = s.verts := by
  have hr := enactAll_rested o others bs (rested_start slots cap zero) h
  obtain ⟨s', uniq, us, g1, g2, g3, g4, g5⟩ := group_spec o batch { s with buff := buff } 0 0 [] [] (hr.ginv.congr rfl rfl rfl)
  rw [List.nil_append] at g2
  refine ⟨s', uniq, us, g1, g2.nodup, ?_, g2.len, ?_, ?_, g3.verts⟩
  · intro v
    rw [g2.mem]
    have key : ∀ (l : List (Nat × Change D)) (i : Nat), (∃ j, (v, j) ∈ entsOf i l) ↔ ∃ c, (v, c) ∈ l := by
      intro l
      induction l with
      | nil => intro i; simp [entsOf]
      | cons y l ih =>
        intro i
        obtain ⟨y1, y2⟩ := y
        simp only [entsOf, List.mem_cons, exists_or, ih (i + 1)]
        refine or_congr ?_ Iff.rfl
        constructor
        · rintro ⟨j, hj⟩; injection hj with a b; exact ⟨y2, by rw [a]⟩
        · rintro ⟨c, hc⟩; injection hc with a b; exact ⟨i, by rw [a]⟩
    exact key batch 0
  · apply List.ext_getElem?
    intro j
    rw [List.getElem?_map]
    by_cases hj : j < us.length
    · have hg : us[j]? = some us[j] := List.getElem?_eq_getElem hj
      rw [List.getElem?_take_of_lt (by have := g2.len; omega), g2.slot j _ hg, hg, range_filter]
      simp [places]
    · rw [List.getElem?_eq_none (by simp; have := g2.len; omega), List.getElem?_eq_none (by omega)]; rfl
  · intro l hl
    obtain ⟨j, hj⟩ := List.mem_iff_getElem?.1 hl
    rw [List.getElem?_drop] at hj
    exact g2.free _ l (by omega) hj

/-- C24: without expiry, the algorithm is told about exactly the adds of a vertex, in stream order,
and about as many deleted edges as there are deletes. -/
theorem C24_delivered (o : Opts) (hw : o.window = 0) (others : Nat → Bool) (slots cap : Nat) (zero : Change D) (bs : List (List (Nat × Change D))) {s : Th D}
    (h : enactAll o others (start slots cap zero) bs = some s) (v : Nat) :
    addedBy (callsOf s v) = added (history bs v) ∧ (deletedBy (callsOf s v)).length = (targets (history bs v)).length := by
  obtain ⟨calls, h1, h2, h3⟩ := enactAll_counts o hw others bs _ s (rested_start slots cap zero) h v
  have : callsOf (start slots cap zero) v = [] := rfl
  rw [this, List.nil_append] at h1
  rw [h1, h2, h3, targets_eq]
  exact ⟨rfl, by simp [delTargets, delsOf, history_eq]⟩

/-! ## C25: batched application -/

/-- C25: the edge lists are those of the rule `append on add, remove the earliest edge to the target
on delete`, and a delete without such an edge aborts. -/
def C25Statement (D : Type) : Prop :=
  ∀ (o : Opts), o.timeRange = false → o.window = 0 → ∀ (others : Nat → Bool) (slots cap : Nat) (zero : Change D) (bs : List (List (Nat × Change D))),
    (∀ b ∈ bs, b.length ≤ cap) → (∀ v, Usable o (history bs v)) →
    (∀ s, enactAll o others (start slots cap zero) bs = some s → ∀ v, rule [] (history bs v) = some (s.verts v)) ∧
    (enactAll o others (start slots cap zero) bs = none → ∃ v, rule [] (history bs v) = none)

/-- Edge to vertex `d` of thread 0. -/
def ex (d : Nat) (p : UInt32) (t : UInt64) : Edge Unit := { didx := (0, d), pos := p, ts := t, endT := 0, data := () }
def exAdd (d : Nat) (p : UInt32) (t : UInt64) : Change Unit := { typ := .add, edge := ex d p t }
def exDel (d : Nat) (t : UInt64 := 0) : Change Unit := { typ := .del, edge := ex d 0 t }
def exOpts : Opts := { timeRange := false, canTs := false, window := 0 }

/-- Two edges to 7, then one to 8; delete 8, then 7, in one batch: the second edge to 7 goes. -/
def exBatches : List (List (Nat × Change Unit)) := [[(0, exAdd 7 0 0), (0, exAdd 7 1 0), (0, exAdd 8 0 0)], [(0, exDel 8), (0, exDel 7)]]

/-- The code violates C25: a delete may remove a later parallel edge. -/
theorem C25_false : ¬ C25Statement Unit := by
  intro h
  obtain ⟨h1, -⟩ := h exOpts rfl rfl (fun _ => false) 2 8 (exAdd 0 0 0) exBatches (by decide) (by
    intro v
    refine ⟨?_, by intro hc; cases hc⟩
    intro e he
    have : e ∈ (exBatches.flatten.map (·.2.edge)) := by
      unfold added history at he
      rw [List.mem_map] at he
      obtain ⟨c, hc, rfl⟩ := he
      have := (List.mem_filter.1 hc).1
      rw [List.mem_map] at this
      obtain ⟨x, hx, rfl⟩ := this
      exact List.mem_map.2 ⟨x, (List.mem_filter.1 hx).1, rfl⟩
    have key : ∀ e ∈ (exBatches.flatten.map (·.2.edge)), e.pos.toNat < 2 ^ 31 := by decide
    exact key e this)
  have h2 : (enactAll exOpts (fun _ => false) (start 2 8 (exAdd 0 0 0)) exBatches).map (fun s => s.verts 0) = some [ex 7 0 0] := by decide +kernel
  cases hs : enactAll exOpts (fun _ => false) (start 2 8 (exAdd 0 0 0)) exBatches with
  | none => rw [hs] at h2; cases h2
  | some s =>
    rw [hs] at h2
    have h3 := h1 s hs 0
    injection h2 with h2
    have h4 : s.verts 0 = [ex 7 0 0] := h2
    rw [h4] at h3
    exact absurd h3 (by decide)

/-- C25 for histories in which every delete has at most one edge to choose from, or hits the oldest
edge along with all deletes since the last add. Missing: deletes that choose among parallel edges
which are not the oldest (see `C25_false`). -/
theorem C25_partial (o : Opts) (ho : o.timeRange = false) (hw : o.window = 0) (others : Nat → Bool) (slots cap : Nat) (zero : Change D) (bs : List (List (Nat × Change D)))
    (hcap : ∀ b ∈ bs, b.length ≤ cap) (hu : ∀ v, Usable o (history bs v)) (hg : ∀ v, Good true [] (history bs v)) :
    (∀ s, enactAll o others (start slots cap zero) bs = some s → ∀ v, rule [] (history bs v) = some (s.verts v)) ∧
    (enactAll o others (start slots cap zero) bs = none → ∃ v, rule [] (history bs v) = none) :=
  enactAll_rule o ho hw others bs (start slots cap zero) (rested_start slots cap zero) (by intro b hb; simpa [start] using hcap b hb)
    (fun v => usable_vok (hu v)) hg

/-- Histories by their prefixes. -/
theorem good_of_prefix : ∀ (cs : List (Change D)) (es : List (Edge D)),
    (∀ (a b : List (Change D)) (c : Change D) (es' : List (Edge D)), cs = a ++ c :: b → c.typ = .del → rule es a = some es' → (es'.filter (fun e => decide (e.didx = c.edge.didx))).length ≤ 1) →
    ∀ w, Good w es cs := by
  intro cs
  induction cs with
  | nil => intro es _ w; trivial
  | cons c cs ih =>
    intro es h w
    cases ht : c.typ with
    | add =>
      simp only [Good, ht]
      apply ih
      intro a b c' es' e hc hr
      exact h (c :: a) b c' es' (by rw [e]; rfl) hc (by simp only [rule, ht]; exact hr)
    | del =>
      simp only [Good, ht]
      refine ⟨.inl (h [] cs c es rfl ht rfl), ?_⟩
      intro es1 h1
      apply ih
      intro a b c' es' e hc hr
      exact h (c :: a) b c' es' (by rw [e]; rfl) hc (by simp only [rule, ht, h1, Option.bind_some]; exact hr)

theorem good_of_oldest : ∀ (cs : List (Change D)) (es : List (Edge D)),
    (∀ (a b : List (Change D)) (c : Change D) (es' : List (Edge D)), cs = a ++ c :: b → c.typ = .del → rule es a = some es' → oldest es' = some c.edge.didx) →
    Good true es cs := by
  intro cs
  induction cs with
  | nil => intro es _; trivial
  | cons c cs ih =>
    intro es h
    cases ht : c.typ with
    | add =>
      simp only [Good, ht]
      apply ih
      intro a b c' es' e hc hr
      exact h (c :: a) b c' es' (by rw [e]; rfl) hc (by simp only [rule, ht]; exact hr)
    | del =>
      have hold := h [] cs c es rfl ht rfl
      simp only [Good, ht]
      refine ⟨.inr ⟨trivial, hold⟩, ?_⟩
      intro es1 h1
      simp only [hold, decide_true, Bool.and_self]
      apply ih
      intro a b c' es' e hc hr
      exact h (c :: a) b c' es' (by rw [e]; rfl) hc (by simp only [rule, ht, h1, Option.bind_some]; exact hr)

/-- C25 for streams without parallel edges: whenever an edge is deleted, its source has at most one
edge to that target. -/
theorem C25_simple_partial (o : Opts) (ho : o.timeRange = false) (hw : o.window = 0) (others : Nat → Bool) (slots cap : Nat) (zero : Change D) (bs : List (List (Nat × Change D)))
    (hcap : ∀ b ∈ bs, b.length ≤ cap) (hu : ∀ v, Usable o (history bs v))
    (hs : ∀ (v : Nat) (a b : List (Change D)) (c : Change D) (es : List (Edge D)), history bs v = a ++ c :: b → c.typ = .del → rule [] a = some es →
      (es.filter (fun e => decide (e.didx = c.edge.didx))).length ≤ 1) :
    (∀ s, enactAll o others (start slots cap zero) bs = some s → ∀ v, rule [] (history bs v) = some (s.verts v)) ∧
    (enactAll o others (start slots cap zero) bs = none → ∃ v, rule [] (history bs v) = none) :=
  C25_partial o ho hw others slots cap zero bs hcap hu (fun v => good_of_prefix _ _ (hs v) true)

/-- C25 for streams that always delete the oldest edge of a source. -/
theorem C25_oldest_partial (o : Opts) (ho : o.timeRange = false) (hw : o.window = 0) (others : Nat → Bool) (slots cap : Nat) (zero : Change D) (bs : List (List (Nat × Change D)))
    (hcap : ∀ b ∈ bs, b.length ≤ cap) (hu : ∀ v, Usable o (history bs v))
    (hs : ∀ (v : Nat) (a b : List (Change D)) (c : Change D) (es : List (Edge D)), history bs v = a ++ c :: b → c.typ = .del → rule [] a = some es → oldest es = some c.edge.didx) :
    (∀ s, enactAll o others (start slots cap zero) bs = some s → ∀ v, rule [] (history bs v) = some (s.verts v)) ∧
    (enactAll o others (start slots cap zero) bs = none → ∃ v, rule [] (history bs v) = none) :=
  C25_partial o ho hw others slots cap zero bs hcap hu (fun v => good_of_oldest _ _ (hs v))

/-- C25 for add-only streams: no panic, and every edge list is the adds in stream order. -/
theorem C25_adds (o : Opts) (ho : o.timeRange = false) (hw : o.window = 0) (others : Nat → Bool) (slots cap : Nat) (zero : Change D) (bs : List (List (Nat × Change D)))
    (hcap : ∀ b ∈ bs, b.length ≤ cap) (hu : ∀ v, Usable o (history bs v)) (hadd : ∀ b ∈ bs, ∀ x ∈ b, x.2.typ = .add) :
    ∃ s, enactAll o others (start slots cap zero) bs = some s ∧ ∀ v, s.verts v = (history bs v).map (·.edge) := by
  have hall : ∀ v, ∀ c ∈ history bs v, isAdd c = true := by
    intro v c hc
    unfold history at hc
    obtain ⟨x, hx, rfl⟩ := List.mem_map.1 hc
    have hx := (List.mem_filter.1 hx).1
    obtain ⟨b, hb, hxb⟩ := List.mem_flatten.1 hx
    simp [isAdd, hadd b hb x hxb]
  have hrule : ∀ v, rule [] (history bs v) = some ((history bs v).map (·.edge)) := fun v => by simpa using rule_adds (hall v) []
  obtain ⟨h1, h2⟩ := C25_partial o ho hw others slots cap zero bs hcap hu (fun v => good_of_prefix _ _ (by
    intro a b c es' e hc
    have := hall v c (by rw [e]; simp)
    simp [isAdd, hc] at this) true)
  cases hs : enactAll o others (start slots cap zero) bs with
  | none =>
    obtain ⟨v, hv⟩ := h2 hs
    rw [hrule] at hv; cases hv
  | some s =>
    refine ⟨s, rfl, fun v => ?_⟩
    have := h1 s hs v
    rw [hrule] at this
    injection this with this; exact this.symm

/-- Whatever is deleted, in whichever batches: the callbacks explain the edge list of a vertex step by
step, they announce its adds in order, and they announce one deleted edge to the target of each
delete. -/
theorem C25_callbacks (o : Opts) (ho : o.timeRange = false) (hw : o.window = 0) (others : Nat → Bool) (slots cap : Nat) (zero : Change D) (bs : List (List (Nat × Change D)))
    (hu : ∀ v, Usable o (history bs v)) {s : Th D} (h : enactAll o others (start slots cap zero) bs = some s) (v : Nat) :
    Explains [] (callsOf s v) (s.verts v) ∧ addedBy (callsOf s v) = added (history bs v) ∧
      ((deletedBy (callsOf s v)).map (·.didx)).Perm (targets (history bs v)) := by
  obtain ⟨-, -, h1⟩ := enactAll_explains o ho hw others bs _ s (rested_start slots cap zero) (fun v => usable_vok (hu v)) h
  obtain ⟨calls, a1, a2, a3, -⟩ := h1 v
  obtain ⟨calls2, b1, b2⟩ := enactAll_targets o ho hw others bs _ s (rested_start slots cap zero) (fun v => usable_vok (hu v)) h v
  have : callsOf (start slots cap zero) v = [] := rfl
  rw [this, List.nil_append] at a1 b1
  rw [a1] at b1
  subst b1
  rw [a1, targets_eq]
  exact ⟨a2, a3, b2⟩

/-- So the edges left and the edges deleted are together the edges added. -/
theorem C25_balance (o : Opts) (ho : o.timeRange = false) (hw : o.window = 0) (others : Nat → Bool) (slots cap : Nat) (zero : Change D) (bs : List (List (Nat × Change D)))
    (hu : ∀ v, Usable o (history bs v)) {s : Th D} (h : enactAll o others (start slots cap zero) bs = some s) (v : Nat) :
    (s.verts v ++ deletedBy (callsOf s v)).Perm (added (history bs v)) := by
  obtain ⟨h1, h2, -⟩ := C25_callbacks o ho hw others slots cap zero bs hu h v
  have := h1.perm
  rw [h2] at this
  simpa using this

/-! ## C26: expiry -/

/-- Adds with timestamps in order, for which `timestamp + window` fits in 64 bits. -/
structure AddStream (o : Opts) (bs : List (List (Nat × Change D))) : Prop where
  add : ∀ x ∈ bs.flatten, x.2.typ = .add
  sorted : bs.flatten.Pairwise (fun a b => a.2.edge.ts ≤ b.2.edge.ts)
  fits : ∀ x ∈ bs.flatten, x.2.edge.ts.toNat + o.window.toNat < 2 ^ 64
  pos : ∀ x ∈ bs.flatten, x.2.edge.pos.toNat < 2 ^ 31
  small : o.canTs = true → ∀ x ∈ bs.flatten, x.2.edge.ts.toNat < 2 ^ 63
  nonempty : ∀ b ∈ bs, b ≠ []

/-- Expired at time `t`. -/
def expiredAt (w t : UInt64) (e : Edge D) : Bool := decide (e.ts.toNat + w.toNat ≤ t.toNat)

/-- After the stream, each vertex has the edges that are not expired at the time of the last event; the
others were deleted, once each. -/
def C26Final (o : Opts) (bs : List (List (Nat × Change D))) (s : Th D) : Prop :=
  ∀ last, bs.flatten.getLast? = some last → ∀ v,
    s.verts v = ((history bs v).map (·.edge)).filter (fun e => !expiredAt o.window last.2.edge.ts e) ∧
    (deletedBy (callsOf s v)).Perm (((history bs v).map (·.edge)).filter (expiredAt o.window last.2.edge.ts)) ∧
    addedBy (callsOf s v) = (history bs v).map (·.edge)

/-- An edge is deleted before any edge is added at whose time it is expired. -/
def C26Order (o : Opts) (s : Th D) : Prop :=
  ∀ (v : Nat) (pre post : List (Call D)) (new : List (Edge D)), callsOf s v = pre ++ .add new :: post → ∀ e ∈ new, ∀ x ∈ addedBy pre,
    expiredAt o.window e.ts x = true → x ∈ deletedBy pre

/-- C26 in full. -/
def C26Statement (D : Type) : Prop :=
  ∀ (o : Opts), o.timeRange = false → 0 < o.window → ∀ (others : Nat → Bool) (slots cap : Nat) (zero : Change D) (bs : List (List (Nat × Change D))),
    AddStream o bs → (∀ b ∈ bs, b.length ≤ cap) →
    ∃ s, enactAll o others (start slots cap zero) bs = some s ∧ C26Final o bs s ∧ C26Order o s

/-- C26 without the order of deletes and later adds (see `C26_false`): for adds with timestamps in
order, in any batches, nothing panics and exactly the expired edges are deleted. Missing also: streams
with explicit deletes (see `C26_explicit_delete_panics`). -/
theorem C26_partial (o : Opts) (ho : o.timeRange = false) (hw : 0 < o.window) (others : Nat → Bool) (slots cap : Nat) (zero : Change D) (bs : List (List (Nat × Change D)))
    (hs : AddStream o bs) (hcap : ∀ b ∈ bs, b.length ≤ cap) :
    ∃ s, enactAll o others (start slots cap zero) bs = some s ∧ C26Final o bs s := by
  have hi : WInv o (start slots cap zero) [] := ⟨rested_start slots cap zero, rfl, fun v => rfl⟩
  have hst : Stream o ([] ++ bs.flatten) := by
    rw [List.nil_append]
    exact ⟨hs.add, hs.sorted, hs.fits, hs.pos, hs.small⟩
  obtain ⟨s, live, h1, h2, -, h3, h4⟩ := window_all o ho hw others bs _ [] hi hst (fun b hb => ⟨hs.nonempty b hb, by simpa [start] using hcap b hb⟩)
  refine ⟨s, h1, ?_⟩
  intro last hlast v
  have hlive := h3 last hlast
  rw [List.nil_append] at hlive
  have hv : s.verts v = ((history bs v).map (·.edge)).filter (fun e => !expiredAt o.window last.2.edge.ts e) := by
    rw [h2.verts, hlive]
    unfold ownChanges history
    rw [List.filter_map, List.filter_map, List.filter_filter, List.filter_filter]
    congr 2
    apply List.filter_congr
    intro x _
    simp [over, expiredAt, Bool.and_comm]
  obtain ⟨calls, a1, a2, a3⟩ := h4 v
  have hc0 : callsOf (start slots cap zero) v = [] := rfl
  rw [hc0, List.nil_append] at a1
  refine ⟨hv, ?_, by rw [a1]; exact a3⟩
  have hp := a2.perm
  rw [a3, hv, ← a1] at hp
  have hv0 : (start slots cap zero).verts v = [] := rfl
  rw [hv0, List.nil_append] at hp
  generalize hL : (history bs v).map (·.edge) = L at *
  have hL2 : (ownChanges bs.flatten v).map (·.edge) = L := hL
  rw [hL2] at hp
  have hsplit : (L.filter (fun e => !expiredAt o.window last.2.edge.ts e) ++ L.filter (expiredAt o.window last.2.edge.ts)).Perm L :=
    (List.perm_append_comm).trans (List.filter_append_perm (expiredAt o.window last.2.edge.ts) L)
  exact (List.perm_append_left_iff _).1 (hp.trans hsplit.symm)

def exWin : Opts := { timeRange := false, canTs := true, window := 10 }
def exTimed : List (List (Nat × Change Unit)) := [[(0, exAdd 7 0 1)], [(0, exAdd 8 0 20)]]

theorem exTimed_stream : AddStream exWin exTimed :=
  ⟨by decide, by decide, by decide, by decide, by decide, by decide⟩

/-- The code violates C26: the expired edge is deleted after the later add. -/
theorem C26_false : ¬ C26Statement Unit := by
  intro h
  obtain ⟨s, h1, -, h3⟩ := h exWin rfl (by decide) (fun _ => false) 2 8 (exAdd 0 0 0) exTimed exTimed_stream (by decide)
  have h2 : (enactAll exWin (fun _ => false) (start 2 8 (exAdd 0 0 0)) exTimed).map (fun s => callsOf s 0) =
      some [.add [ex 7 0 1], .add [ex 8 0 20], .del [ex 7 0 1]] := by decide +kernel
  rw [h1] at h2
  injection h2 with h2
  have := h3 0 [.add [ex 7 0 1]] [.del [ex 7 0 1]] [ex 8 0 20] h2 (ex 8 0 20) (by simp) (ex 7 0 1) (by simp [addedBy]) (by decide)
  simp [deletedBy] at this

/-- With an explicit delete in a batch, expiry panics: the queue is indexed as if it had an entry for
every event of the batch. -/
theorem C26_explicit_delete_panics :
    (enactAll exWin (fun _ => false) (start 2 8 (exAdd 0 0 0)) [[(0, exAdd 7 0 1), (0, exAdd 8 0 2), (0, exDel 8 3)]]).isNone = true ∧
    (enactAll { exWin with window := 0 } (fun _ => false) (start 2 8 (exAdd 0 0 0)) [[(0, exAdd 7 0 1), (0, exAdd 8 0 2), (0, exDel 8 3)]]).map (fun s => s.verts 0) =
      some [ex 7 0 1] := by
  decide +kernel

/-- An explicit delete before the adds of its batch does no harm to the queue. Behind an add, the queue
entries are taken one place too early: an older entry is moved by another window, which keeps the edge of
time 1 beyond time 11. -/
theorem C26_explicit_delete_shifts :
    (enactAll exWin (fun _ => false) (start 2 8 (exAdd 0 0 0)) [[(0, exAdd 5 0 1), (0, exAdd 6 0 2)], [(0, exDel 6 3), (0, exAdd 7 0 4)]]).map
      (fun s => s.expired.map fun x => (isAdd x.2, x.2.edge.didx.2, x.2.edge.ts)) = some [(false, 5, 11), (false, 6, 12), (false, 7, 14)] ∧
    (enactAll exWin (fun _ => false) (start 2 8 (exAdd 0 0 0)) [[(0, exAdd 5 0 1)], [(0, exAdd 7 0 15), (0, exAdd 6 0 15), (0, exDel 6 15)]]).map
      (fun s => s.expired.map fun x => (isAdd x.2, x.2.edge.didx.2, x.2.edge.ts)) = some [(false, 5, 21), (false, 7, 25), (true, 6, 15)] ∧
    (enactAll exWin (fun _ => false) (start 2 8 (exAdd 0 0 0)) [[(0, exAdd 5 0 1)], [(0, exAdd 7 0 15), (0, exAdd 6 0 15), (0, exDel 6 15)], [(0, exAdd 8 0 20)]]).map
      (fun s => s.verts 0) = some [ex 5 0 1, ex 7 0 15, ex 8 0 20] := by
  decide +kernel

/-- An edge that was deleted explicitly is deleted again when its time comes, which panics. -/
theorem C26_deleted_twice_panics :
    (enactAll exWin (fun _ => false) (start 2 8 (exAdd 0 0 0)) [[(0, exAdd 7 0 1)], [(0, exDel 7 2)]]).map (fun s => (s.verts 0, s.expired.length)) = some ([], 1) ∧
    (enactAll exWin (fun _ => false) (start 2 8 (exAdd 0 0 0)) [[(0, exAdd 7 0 1)], [(0, exDel 7 2)], [(0, exAdd 8 0 20)]]).isNone = true := by
  decide +kernel

/-- Expiry only looks at the events of one thread: the edge of time 1 expires when one thread has both
vertices, and stays when they are on different threads. -/
theorem C26_threads :
    (enactAll exWin (fun _ => false) (start 2 8 (exAdd 0 0 0)) [[(0, exAdd 7 0 1)], [(1, exAdd 8 0 20)]]).map (fun s => s.verts 0) = some [] ∧
    (enactAll exWin (fun _ => false) (start 2 8 (exAdd 0 0 0)) [[(0, exAdd 7 0 1)]]).map (fun s => s.verts 0) = some [ex 7 0 1] := by
  decide +kernel

/-! ## Concrete cases -/

-- C24: two batches, sources interleaved
example : (enactAll exOpts (fun _ => false) (start 1 8 (exAdd 0 0 0)) [[(3, exAdd 7 0 0), (5, exAdd 7 1 0), (3, exAdd 8 0 0)], [(5, exDel 7), (3, exAdd 9 0 0)]]).map
    (fun s => (s.verts 3, s.verts 5, callsOf s 5)) = some ([ex 7 0 0, ex 8 0 0, ex 9 0 0], [], [.add [ex 7 1 0], .del [ex 7 1 0]]) := by decide +kernel
example : ((enactAll exOpts (fun _ => false) (start 1 8 (exAdd 0 0 0)) [[(3, exAdd 7 0 0)]]).bind fun s =>
    group exOpts s 0 0 [(5, exAdd 7 0 0), (3, exAdd 7 0 0), (5, exDel 7)]).map (fun r => (r.1.pend, r.2)) = some ([[5, 0, 2], [3, 1]], 2) := by decide +kernel
-- C25: a history without parallel edges, over batches, with a selective delete
example : (enactAll exOpts (fun _ => false) (start 1 8 (exAdd 0 0 0)) [[(0, exAdd 7 0 0), (0, exAdd 8 1 0), (0, exAdd 9 0 0)], [(0, exDel 9), (0, exDel 8), (0, exAdd 8 5 0)]]).map
    (fun s => (s.verts 0, callsOf s 0)) = some ([ex 7 0 0, ex 8 5 0], [.add [ex 7 0 0, ex 8 1 0, ex 9 0 0], .del [ex 8 1 0, ex 9 0 0], .add [ex 8 5 0]]) := by decide +kernel
example : Good true [] [exAdd 7 0 0, exAdd 8 1 0, exAdd 9 0 0, exDel 9, exDel 8, exAdd 8 5 0] := by simp [Good, exAdd, exDel, ex, removeFirst]
-- deleting the oldest edges, with parallel edges
example : Good true [] [exAdd 7 0 0, exAdd 7 1 0, exDel 7, exDel 7] := by simp [Good, exAdd, exDel, ex, removeFirst, oldest]
example : (enactAll exOpts (fun _ => false) (start 1 8 (exAdd 0 0 0)) [[(0, exDel 7)]]).isNone = true := by decide +kernel
example : Usable exWin [exAdd 7 0 1, exAdd 8 0 20] := by
  refine ⟨by decide, fun _ => ⟨by decide, by decide⟩⟩
-- C26
example : (enactAll exWin (fun _ => false) (start 2 8 (exAdd 0 0 0)) [[(0, exAdd 7 0 1), (0, exAdd 8 0 2), (1, exAdd 7 0 3)], [(1, exAdd 9 0 12)], [(0, exAdd 5 0 13)]]).map
    (fun s => (s.verts 0, s.verts 1, callsOf s 0)) =
    some ([ex 5 0 13], [ex 9 0 12], [.add [ex 7 0 1, ex 8 0 2], .del [ex 7 0 1, ex 8 0 2], .add [ex 5 0 13]]) := by decide +kernel

end Verif.Enact
