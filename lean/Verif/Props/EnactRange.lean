import Verif.EnactRange
import Verif.Props.Enact

/-!
# C98: edges with an end time

`Options.TimeRange` (set by `lp-temporal-paths`): deletes do not remove an edge, they give it an end.
-/

namespace Verif.Enact

open Verif.Loader (Typ)

variable {D : Type}

/-! ## Specification -/

/-- Place of the first edge to `d` that began at `ts` and has not ended. -/
def placeOf (d : Nat × Nat) (ts : UInt64) (es : List (Edge D)) : Option Nat :=
  (List.range es.length).find? fun i => match es[i]? with | none => false | some e => decide (e.didx = d ∧ e.ts = ts ∧ e.endT = 0)

/-- The simple rule: append on add; a delete gives its end time to the first edge with its target and
start that has not ended. Without such an edge it aborts. -/
def endRule : List (Edge D) → List (Change D) → Option (List (Edge D))
  | es, [] => some es
  | es, c :: cs =>
    match c.typ with
    | .add => endRule (es ++ [c.edge]) cs
    | .del => (placeOf c.edge.didx c.edge.ts es).bind fun i => endRule (es.modify i (fun e => { e with endT := c.edge.endT })) cs

/-- C98 in full: deletes with an end time end the edge they name, whatever the batches. -/
def C98Statement (D : Type) : Prop :=
  ∀ (o : Opts), o.timeRange = true → o.window = 0 → ∀ (others : Nat → Bool) (slots cap : Nat) (zero : Change D) (bs : List (List (Nat × Change D))),
    (∀ b ∈ bs, b.length ≤ cap) → (∀ x ∈ bs.flatten, x.2.typ = .del → x.2.edge.endT ≠ 0) →
    (∀ s, enactAll o others (start slots cap zero) bs = some s → ∀ v, endRule [] (history bs v) = some (s.verts v)) ∧
    (enactAll o others (start slots cap zero) bs = none → ∃ v, endRule [] (history bs v) = none)

/-! ## The rule of the code -/

theorem endFirst_ended {p : Edge D → Bool} {t : UInt64} : ∀ {es : List (Edge D)} {r : List (Edge D) × Edge D}, endFirst p t es = some r →
    ∃ (i : Nat) (e : Edge D), es[i]? = some e ∧ p e = true ∧ (∀ x ∈ es.take i, p x = false) ∧ r.1 = es.set i { e with endT := t } ∧ r.2 = { e with endT := t } := by
  intro es
  induction es with
  | nil => intro r h; simp [endFirst] at h
  | cons a es ih =>
    intro r h
    simp only [endFirst] at h
    split at h
    · rename_i hp
      injection h with h
      subst h
      exact ⟨0, a, rfl, hp, by simp, rfl, rfl⟩
    · rename_i hp
      obtain ⟨q, h1, h2⟩ := Option.map_eq_some_iff.1 h
      obtain ⟨i, e, a1, a2, a3, a4, a5⟩ := ih h1
      subst h2
      refine ⟨i + 1, e, by simpa using a1, a2, ?_, by simp [a4], a5⟩
      intro x hx
      rw [List.take_succ_cons, List.mem_cons] at hx
      rcases hx with rfl | hx
      · simpa using hp
      · exact a3 x hx

theorem endFirst_none {p : Edge D → Bool} {t : UInt64} : ∀ {es : List (Edge D)}, endFirst p t es = none ↔ ∀ x ∈ es, p x = false := by
  intro es
  induction es with
  | nil => simp [endFirst]
  | cons a es ih =>
    simp only [endFirst]
    cases hp : p a with
    | true => simp [hp]
    | false => simp [hp, ih]

/-- C98: what a run does to a vertex is what its changes do one at a time, by the rule of the code: a
delete ends the first edge that has not ended if that leads to the target, otherwise the first with
its target and start. Batches, runs of deletes and the index kept during a run do not matter. The
algorithm is told about the adds and about the ended edges, with their end times, in this order. -/
theorem C98_rule (o : Opts) (ho : o.timeRange = true) (hw : o.window = 0) (others : Nat → Bool) (slots cap : Nat) (zero : Change D) (bs : List (List (Nat × Change D)))
    (hcap : ∀ b ∈ bs, b.length ≤ cap) (hz : ∀ x ∈ bs.flatten, x.2.typ = .del → x.2.edge.endT ≠ 0) :
    (∀ s, enactAll o others (start slots cap zero) bs = some s → ∀ v, rangeRule [] (history bs v) = some (s.verts v, deletedBy (callsOf s v)) ∧
      addedBy (callsOf s v) = added (history bs v)) ∧
    (enactAll o others (start slots cap zero) bs = none → ∃ v, rangeRule [] (history bs v) = none) := by
  obtain ⟨h1, h2⟩ := enactAll_range o ho hw others bs (start slots cap zero) (rested_start slots cap zero) (by intro b hb; simpa [start] using hcap b hb) hz
  refine ⟨fun s h v => ?_, h2⟩
  obtain ⟨calls, a1, a2, a3⟩ := h1 s h v
  have : callsOf (start slots cap zero) v = [] := rfl
  rw [this, List.nil_append] at a1
  rw [a1]
  exact ⟨a3, a2⟩

/-- Nothing but the end of one edge changes, which leads to the target and had not ended. -/
theorem C98_one {c : Edge D} {es : List (Edge D)} {r : List (Edge D) × Edge D} (h : rangeDel c es = some r) :
    ∃ (i : Nat) (e : Edge D), es[i]? = some e ∧ e.didx = c.didx ∧ e.endT = 0 ∧ r.1 = es.set i { e with endT := c.endT } ∧ r.2 = { e with endT := c.endT } := by
  unfold rangeDel at h
  obtain ⟨e0, h1, h2⟩ := Option.bind_eq_some_iff.1 h
  split at h2
  · rename_i hd
    obtain ⟨i, e, a1, a2, a3, a4, a5⟩ := endFirst_ended h2
    have : es.find? running = some e := (endFirst_at running 0 es i e a1 a2 a3).2
    rw [this] at h1
    injection h1 with h1
    subst h1
    exact ⟨i, e, a1, hd, by simpa [running] using a2, a4, a5⟩
  · obtain ⟨i, e, a1, a2, -, a4, a5⟩ := endFirst_ended h2
    simp only [decide_eq_true_eq] at a2
    exact ⟨i, e, a1, a2.1, a2.2.1, a4, a5⟩

/-! ## The simple rule -/

/-- Every delete names its edge: all edges to its target that have not ended began at the time given. -/
def Named : List (Edge D) → List (Change D) → Prop
  | _, [] => True
  | es, c :: cs =>
    match c.typ with
    | .add => Named (es ++ [c.edge]) cs
    | .del => (∀ e ∈ es, e.didx = c.edge.didx → e.endT = 0 → e.ts = c.edge.ts) ∧
      ∀ i, placeOf c.edge.didx c.edge.ts es = some i → Named (es.modify i (fun e => { e with endT := c.edge.endT })) cs

theorem placeOf_some {d : Nat × Nat} {ts : UInt64} {es : List (Edge D)} {i : Nat} {e : Edge D} (h1 : es[i]? = some e) (h2 : e.didx = d ∧ e.ts = ts ∧ e.endT = 0)
    (h3 : ∀ x ∈ es.take i, ¬ (x.didx = d ∧ x.ts = ts ∧ x.endT = 0)) : placeOf d ts es = some i := by
  have hi := get_lt h1
  unfold placeOf
  rw [List.find?_range_eq_some]
  refine ⟨by simp [h1, h2], by simpa using hi, ?_⟩
  intro j hj
  have hlt : j < es.length := by omega
  have hg : es[j]? = some es[j] := List.getElem?_eq_getElem hlt
  have hm : es[j] ∈ es.take i := List.mem_of_getElem? (by rw [List.getElem?_take_of_lt hj]; exact hg)
  have := h3 _ hm
  simp only [hg]
  simp only [this, decide_false, Bool.not_false]

theorem placeOf_none {d : Nat × Nat} {ts : UInt64} {es : List (Edge D)} (h : ∀ x ∈ es, ¬ (x.didx = d ∧ x.ts = ts ∧ x.endT = 0)) : placeOf d ts es = none := by
  unfold placeOf
  rw [List.find?_eq_none]
  intro i hi
  have hlt : i < es.length := by simpa using hi
  have hg : es[i]? = some es[i] := List.getElem?_eq_getElem hlt
  simp only [hg]
  simpa using h _ (List.getElem_mem hlt)

theorem set_modify {es : List (Edge D)} {i : Nat} {e : Edge D} (f : Edge D → Edge D) (h : es[i]? = some e) : es.set i (f e) = es.modify i f := by
  apply List.ext_getElem?
  intro j
  by_cases hj : i = j
  · subst hj
    rw [List.getElem?_set_self (get_lt h), List.getElem?_modify_eq, h]; rfl
  · rw [List.getElem?_set_ne hj, List.getElem?_modify_ne _ _ hj]

/-- A delete that names its edge. -/
theorem rangeDel_named {c : Edge D} {es : List (Edge D)} (h : ∀ e ∈ es, e.didx = c.didx → e.endT = 0 → e.ts = c.ts) :
    (rangeDel c es).map (·.1) = (placeOf c.didx c.ts es).map fun i => es.modify i (fun e => { e with endT := c.endT }) := by
  have hex : ∀ r, endFirst (fun x => decide (x.didx = c.didx ∧ x.endT = 0 ∧ x.ts = c.ts)) c.endT es = some r →
      (placeOf c.didx c.ts es).map (fun i => es.modify i (fun e => { e with endT := c.endT })) = some r.1 := by
    intro r hr
    obtain ⟨i, e, a1, a2, a3, a4, a5⟩ := endFirst_ended hr
    simp only [decide_eq_true_eq] at a2
    rw [placeOf_some a1 ⟨a2.1, a2.2.2, a2.2.1⟩ (by
      intro x hx hh
      have := a3 x hx
      simp only [decide_eq_false_iff_not] at this
      exact this ⟨hh.1, hh.2.2, hh.2.1⟩)]
    rw [a4, Option.map_some, set_modify (fun e => { e with endT := c.endT }) a1]
  unfold rangeDel
  cases hf : es.find? running with
  | none =>
    rw [List.find?_eq_none] at hf
    rw [placeOf_none (by intro x hx hh; have := hf x hx; simp [running, hh.2.2] at this)]
    rfl
  | some e =>
    simp only [Option.bind_some]
    have hem := List.mem_of_find?_eq_some hf
    have her : e.endT = 0 := by have := List.find?_some hf; simpa [running] using this
    split
    · rename_i hd
      have hts := h e hem hd her
      cases hr : endFirst running c.endT es with
      | none =>
        rw [endFirst_none] at hr
        have := hr e hem
        simp [running, her] at this
      | some r =>
        obtain ⟨i, e', a1, a2, a3, a4, a5⟩ := endFirst_ended hr
        have he' : es.find? running = some e' := (endFirst_at running 0 es i e' a1 a2 a3).2
        rw [hf] at he'
        injection he' with he'
        subst he'
        rw [placeOf_some a1 ⟨hd, hts, her⟩ (by
          intro x hx hh
          have := a3 x hx
          simp [running, hh.2.2] at this)]
        rw [Option.map_some, Option.map_some, a4, set_modify (fun e => { e with endT := c.endT }) a1]
    · cases hr : endFirst (fun x => decide (x.didx = c.didx ∧ x.endT = 0 ∧ x.ts = c.ts)) c.endT es with
      | none =>
        rw [endFirst_none] at hr
        rw [placeOf_none (by
          intro x hx hh
          have := hr x hx
          simp only [decide_eq_false_iff_not] at this
          exact this ⟨hh.1, hh.2.2, hh.2.1⟩)]
        rfl
      | some r => rw [hex r hr]; rfl

theorem rangeRule_named : ∀ (cs : List (Change D)) (es : List (Edge D)), Named es cs → (rangeRule es cs).map (·.1) = endRule es cs := by
  intro cs
  induction cs with
  | nil => intro es _; rfl
  | cons c cs ih =>
    intro es h
    cases hc : c.typ with
    | add =>
      simp only [Named, hc] at h
      rw [rangeRule_add hc, ih _ h]
      simp only [endRule, hc]
    | del =>
      simp only [Named, hc] at h
      rw [rangeRule_del hc]
      simp only [endRule, hc]
      have hd := rangeDel_named (c := c.edge) h.1
      cases hp : placeOf c.edge.didx c.edge.ts es with
      | none =>
        rw [hp] at hd
        cases hr : rangeDel c.edge es with
        | none => rfl
        | some r => rw [hr] at hd; cases hd
      | some i =>
        rw [hp] at hd
        cases hr : rangeDel c.edge es with
        | none => rw [hr] at hd; cases hd
        | some r =>
          rw [hr] at hd
          simp only [Option.map_some, Option.some.injEq] at hd
          simp only [Option.bind_some, Option.map_map]
          rw [← ih _ (h.2 i hp), ← hd]
          congr 1

/-- C98 for histories in which, whenever an edge is ended, no other edge to the same target with another
start is running. Missing: parallel edges of which a later one is ended first (see `C98_false`). -/
theorem C98_partial (o : Opts) (ho : o.timeRange = true) (hw : o.window = 0) (others : Nat → Bool) (slots cap : Nat) (zero : Change D) (bs : List (List (Nat × Change D)))
    (hcap : ∀ b ∈ bs, b.length ≤ cap) (hz : ∀ x ∈ bs.flatten, x.2.typ = .del → x.2.edge.endT ≠ 0) (hn : ∀ v, Named [] (history bs v)) :
    (∀ s, enactAll o others (start slots cap zero) bs = some s → ∀ v, endRule [] (history bs v) = some (s.verts v)) ∧
    (enactAll o others (start slots cap zero) bs = none → ∃ v, endRule [] (history bs v) = none) := by
  obtain ⟨h1, h2⟩ := C98_rule o ho hw others slots cap zero bs hcap hz
  constructor
  · intro s h v
    rw [← rangeRule_named _ _ (hn v), (h1 s h v).1]; rfl
  · intro h
    obtain ⟨v, hv⟩ := h2 h
    exact ⟨v, by rw [← rangeRule_named _ _ (hn v), hv]; rfl⟩

def exRange : Opts := { timeRange := true, canTs := true, window := 0 }
/-- The end at time `t` of the edge to `d` that began at `ts`. -/
def exEnd (d : Nat) (ts t : UInt64) : Change Unit := { typ := .del, edge := { ex d 0 ts with endT := t } }

/-- Two edges to 7, from times 1 and 5; the one from time 5 is ended at 9. -/
def exEnds : List (List (Nat × Change Unit)) := [[(0, exAdd 7 0 1), (0, exAdd 7 1 5)], [(0, exEnd 7 5 9)]]

/-- The code violates C98: the first edge that has not ended is taken without regard to its start. -/
theorem C98_false : ¬ C98Statement Unit := by
  intro h
  obtain ⟨h1, -⟩ := h exRange rfl rfl (fun _ => false) 2 8 (exAdd 0 0 0) exEnds (by decide) (by decide)
  have h2 : (enactAll exRange (fun _ => false) (start 2 8 (exAdd 0 0 0)) exEnds).map (fun s => s.verts 0) = some [{ ex 7 0 1 with endT := 9 }, ex 7 1 5] := by decide +kernel
  cases hs : enactAll exRange (fun _ => false) (start 2 8 (exAdd 0 0 0)) exEnds with
  | none => rw [hs] at h2; cases h2
  | some s =>
    rw [hs] at h2
    have h3 := h1 s hs 0
    injection h2 with h2
    have h4 : s.verts 0 = [{ ex 7 0 1 with endT := 9 }, ex 7 1 5] := h2
    rw [h4] at h3
    exact absurd h3 (by decide)

/-- With an edge to 8 before them, the same delete ends the edge it names. -/
theorem C98_depends :
    (enactAll exRange (fun _ => false) (start 2 8 (exAdd 0 0 0)) ([(0, exAdd 8 0 0)] :: exEnds)).map (fun s => s.verts 0) =
      some [ex 8 0 0, ex 7 0 1, { ex 7 1 5 with endT := 9 }] := by decide +kernel

/-! ## Deletes of a file -/

theorem rangeRun_zero : ∀ (cs : List (Change D)) (es : List (Edge D)) (k : Nat) (del : List (Edge D)) (r : List (Edge D) × List (Edge D)),
    (∀ c ∈ cs, c.edge.endT = 0) → rangeRun es k del cs = some r → r.1 = es := by
  intro cs
  induction cs with
  | nil =>
    intro es k del r _ h
    simp only [rangeRun, Option.some.injEq] at h
    subst h; rfl
  | cons c cs ih =>
    intro es k del r hz h
    have h0 := hz c (List.mem_cons_self ..)
    have hz' : ∀ c ∈ cs, c.edge.endT = 0 := fun c hc => hz c (List.mem_cons_of_mem _ hc)
    have hrun : ∀ (n k k' : Nat), es.length ≤ n + k → skipEnded es k = some k' → ∃ e, es[k']? = some e ∧ e.endT = 0 := by
      intro n
      induction n with
      | zero =>
        intro k k' hn hk
        rw [skipEnded_none (List.getElem?_eq_none (by omega))] at hk; cases hk
      | succ n ih2 =>
        intro k k' hn hk
        cases hg : es[k]? with
        | none => rw [skipEnded_none hg] at hk; cases hk
        | some e =>
          rw [skipEnded_some hg] at hk
          split at hk
          · rename_i he
            injection hk with hk
            subst hk
            exact ⟨e, hg, he⟩
          · exact ih2 (k + 1) k' (by omega) hk
    simp only [rangeRun] at h
    cases hs : skipEnded es k with
    | none => rw [hs] at h; cases h
    | some k' =>
      obtain ⟨e, g1, g2⟩ := hrun es.length k k' (by omega) hs
      rw [hs] at h
      simp only [g1] at h
      have same : ∀ (i : Nat) (x : Edge D), es[i]? = some x → x.endT = 0 → es.set i { x with endT := c.edge.endT } = es := by
        intro i x hx hx0
        rw [h0, ← hx0]
        apply List.ext_getElem?
        intro j
        by_cases hj : i = j
        · subst hj; rw [List.getElem?_set_self (get_lt hx), hx]
        · rw [List.getElem?_set_ne hj]
      split at h
      · rw [same k' e g1 g2] at h
        exact ih _ _ _ _ hz' h
      · rw [searchEnd_eq] at h
        cases hr : endFirst (fun x => decide (x.didx = c.edge.didx ∧ x.endT = 0 ∧ x.ts = c.edge.ts)) c.edge.endT es with
        | none => rw [hr] at h; cases h
        | some q =>
          rw [hr] at h
          obtain ⟨i, x, a1, a2, -, a4, -⟩ := endFirst_ended hr
          simp only [decide_eq_true_eq] at a2
          rw [same i x a1 a2.2.1] at a4
          have := ih _ _ _ _ hz' h
          rw [this, a4]

theorem applyAll_zero (o : Opts) (ho : o.timeRange = true) (others : Nat → Bool) : ∀ (n : Nat) (cs : List (Change D)) (s s' : VSt D), cs.length ≤ n →
    (∀ c ∈ cs, c.edge.endT = 0) → applyAll o others s cs = some s' → s'.edges = s.edges ++ addsOf cs := by
  intro n
  induction n with
  | zero =>
    intro cs s s' hn _ h
    have : cs = [] := List.length_eq_zero_iff.1 (by omega)
    subst this
    rw [applyAll] at h
    injection h with h; subst h
    simp [addsOf]
  | succ n ih =>
    intro cs s s' hn hz h
    by_cases hne : cs = []
    · subst hne
      rw [applyAll] at h
      injection h with h; subst h
      simp [addsOf]
    · obtain ⟨A, B, R, e, hlt, hA, hB, heq⟩ := applyAll_split o others cs hne
      rw [heq] at h
      cases h1 : applyDels o others (applyAdds s A) B with
      | none => rw [h1] at h; cases h
      | some s1 =>
        rw [h1, Option.bind_some] at h
        have h2 : s1.edges = (applyAdds s A).edges := by
          unfold applyDels at h1
          split at h1
          · injection h1 with h1; rw [h1]
          · obtain ⟨r, a1, a2⟩ := Option.map_eq_some_iff.1 h1
            have := rangeRun_zero B _ _ _ r (fun c hc => hz c (by rw [e]; simp [hc])) a1
            rw [← a2, ← this]
        rw [ih R s1 s' (by omega) (fun c hc => hz c (by rw [e]; simp [hc])) h, h2, (applyAdds_edges s A).1, e, addsOf_append, addsOf_append,
          addsOf_all hA, addsOf_none hB]
        simp

/-- A delete that is read from a file has no end time, since `ParseProperty` does not set one
(`graph-edge.go:184-188`): it ends nothing. The edges stay as they were added, whatever is deleted. -/
theorem C98_file_deletes (o : Opts) (ho : o.timeRange = true) (hw : o.window = 0) (others : Nat → Bool) (slots cap : Nat) (zero : Change D) : ∀ (bs : List (List (Nat × Change D))),
    (∀ x ∈ bs.flatten, x.2.edge.endT = 0) → ∀ (s : Th D), enactAll o others (start slots cap zero) bs = some s → ∀ v, s.verts v = added (history bs v) := by
  have key : ∀ (bs : List (List (Nat × Change D))) (s0 s : Th D), Rested s0 → (∀ x ∈ bs.flatten, x.2.edge.endT = 0) → enactAll o others s0 bs = some s →
      ∀ v, s.verts v = s0.verts v ++ addsOf (ownChanges bs.flatten v) := by
    intro bs
    induction bs with
    | nil =>
      intro s0 s _ _ h v
      injection h with h; subst h
      simp [ownChanges, addsOf]
    | cons b bs ih =>
      intro s0 s hr hz h v
      simp only [enactAll] at h
      cases h1 : enact o others s0 b with
      | none => rw [h1] at h; cases h
      | some s1 =>
        rw [h1, Option.bind_some] at h
        obtain ⟨a1, a2, -, -⟩ := (enact_spec o hw others hr b).1 s1 h1
        obtain ⟨w, n, r, b1, b2, b3⟩ := a2 v
        have := applyAll_zero o ho others _ _ _ _ (Nat.le_refl _) (by
          intro c hc
          obtain ⟨x, hx, rfl⟩ := List.mem_map.1 hc
          exact hz x (by simp [(List.mem_filter.1 hx).1])) b1
        rw [ih s1 s a1 (fun x hx => hz x (by rw [List.flatten_cons]; exact List.mem_append_right _ hx)) h v, b2, this, List.flatten_cons, ownChanges_append, addsOf_append]
        simp
  intro bs hz s h v
  have := key bs _ s (rested_start slots cap zero) hz h v
  rw [this]
  rfl

/-! ## The sliding window -/

/-- Adds of edges without end, with timestamps in order for which `timestamp + window` fits in 64 bits,
in batches that are not empty. -/
structure RangeStream (o : Opts) (bs : List (List (Nat × Change D))) : Prop where
  add : ∀ x ∈ bs.flatten, x.2.typ = .add
  sorted : bs.flatten.Pairwise (fun a b => a.2.edge.ts ≤ b.2.edge.ts)
  fits : ∀ x ∈ bs.flatten, x.2.edge.ts.toNat + o.window.toNat < 2 ^ 64
  fresh : ∀ x ∈ bs.flatten, x.2.edge.endT = 0
  nonempty : ∀ b ∈ bs, b ≠ []

/-- With a sliding window: nothing panics, no edge is removed or moved, an edge has an end if and only
if its window is over at the time of the last event, and it is its start plus the window. The
algorithm is told about each add, and once about each end, in order. -/
theorem C98_window (o : Opts) (ho : o.timeRange = true) (hw : 0 < o.window) (others : Nat → Bool) (slots cap : Nat) (zero : Change D) (bs : List (List (Nat × Change D)))
    (hs : RangeStream o bs) (hcap : ∀ b ∈ bs, b.length ≤ cap) :
    ∃ s, enactAll o others (start slots cap zero) bs = some s ∧ ∀ last, bs.flatten.getLast? = some last → ∀ v,
      s.verts v = ((history bs v).map (·.edge)).map (fun e => if expiredAt o.window last.2.edge.ts e then { e with endT := e.ts + o.window } else e) ∧
      deletedBy (callsOf s v) = (((history bs v).map (·.edge)).filter (expiredAt o.window last.2.edge.ts)).map (fun e => { e with endT := e.ts + o.window }) ∧
      addedBy (callsOf s v) = (history bs v).map (·.edge) := by
  have hi : RInv o (start slots cap zero) [] 0 := ⟨rested_start slots cap zero, rfl, fun v => rfl, fun v => rfl, fun v => rfl⟩
  obtain ⟨s, h1, h2, -⟩ := range_all o ho hw others bs _ [] 0 hi (by rw [List.nil_append]; exact ⟨hs.add, hs.sorted, hs.fits, hs.fresh⟩)
    (fun x _ => by rw [UInt64.le_iff_toNat_le]; exact Nat.zero_le _) (fun b hb => ⟨hs.nonempty b hb, by simpa [start] using hcap b hb⟩)
  refine ⟨s, h1, ?_⟩
  intro last hlast v
  have i := h2 last hlast
  rw [List.nil_append] at i
  exact ⟨i.verts v, i.dels v, i.adds v⟩

/-! ## Concrete cases -/

def exRangeWin : Opts := { exRange with window := 10 }

example : RangeStream exRangeWin [[(0, exAdd 7 0 1), (0, exAdd 8 0 2), (1, exAdd 7 0 3)], [(1, exAdd 9 0 12)]] :=
  ⟨by decide, by decide, by decide, by decide, by decide⟩
example : (enactAll exRangeWin (fun _ => false) (start 2 8 (exAdd 0 0 0)) [[(0, exAdd 7 0 1), (0, exAdd 8 0 2), (1, exAdd 7 0 3)], [(1, exAdd 9 0 12)]]).map
    (fun s => (s.verts 0, s.verts 1, callsOf s 0)) =
    some ([{ ex 7 0 1 with endT := 11 }, { ex 8 0 2 with endT := 12 }], [ex 7 0 3, ex 9 0 12],
      [.add [ex 7 0 1, ex 8 0 2], .del [{ ex 7 0 1 with endT := 11 }, { ex 8 0 2 with endT := 12 }]]) := by decide +kernel
-- the second of three edges is ended, then the first, over batches
example : (enactAll exRange (fun _ => false) (start 2 8 (exAdd 0 0 0)) [[(0, exAdd 7 0 1), (0, exAdd 8 0 2), (0, exEnd 8 2 6)], [(0, exEnd 7 1 8), (0, exAdd 7 1 9)]]).map
    (fun s => (s.verts 0, callsOf s 0)) =
    some ([{ ex 7 0 1 with endT := 8 }, { ex 8 0 2 with endT := 6 }, ex 7 1 9],
      [.add [ex 7 0 1, ex 8 0 2], .del [{ ex 8 0 2 with endT := 6 }], .del [{ ex 7 0 1 with endT := 8 }], .add [ex 7 1 9]]) := by decide +kernel
example : Named [] [exAdd 7 0 1, exAdd 8 0 2, exEnd 8 2 6, exEnd 7 1 8, exAdd 7 1 9] := by
  refine ⟨?_, fun i hi => ?_⟩
  · simp [ex, exAdd, exEnd]
  · obtain rfl : i = 1 := by
      have : placeOf (0, 8) 2 [ex 7 0 1, ex 8 0 2] = some 1 := by decide
      rw [show placeOf (exEnd 8 2 6).edge.didx (exEnd 8 2 6).edge.ts ([] ++ [(exAdd 7 0 1).edge] ++ [(exAdd 8 0 2).edge]) = some 1 from this] at hi
      injection hi with hi; exact hi.symm
    refine ⟨?_, fun i hi => trivial⟩
    simp [ex, exAdd, exEnd]
-- a delete without an end time, as in a file: the algorithm is told, the edge stays
example : (enactAll exRange (fun _ => false) (start 2 8 (exAdd 0 0 0)) [[(0, exAdd 7 0 1)], [(0, exDel 7 1)]]).map (fun s => (s.verts 0, callsOf s 0)) =
    some ([ex 7 0 1], [.add [ex 7 0 1], .del [ex 7 0 1]]) := by decide +kernel
-- two deletes of the only edge in one batch abort, in two batches they do not
example : (enactAll exRange (fun _ => false) (start 2 8 (exAdd 0 0 0)) [[(0, exAdd 7 0 1)], [(0, exDel 7 1), (0, exDel 7 1)]]).isNone = true ∧
    (enactAll exRange (fun _ => false) (start 2 8 (exAdd 0 0 0)) [[(0, exAdd 7 0 1)], [(0, exDel 7 1)], [(0, exDel 7 1)]]).isSome = true := by decide +kernel
example : (enactAll exRange (fun _ => false) (start 2 8 (exAdd 0 0 0)) [[(0, exAdd 7 0 1), (0, exEnd 8 1 6)]]).isNone = true := by decide +kernel

end Verif.Enact
