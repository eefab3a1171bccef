import Verif.EnactCounts
import Verif.EnactWindow

/-!
# Lemmas about edges with an end time (`Options.TimeRange`)
-/

namespace Verif.Enact

open Verif.Loader (Typ)

variable {D : Type}

/-- The edge has not ended. -/
def running (e : Edge D) : Bool := decide (e.endT = 0)

/-- End the first edge with property `p` at time `t`. -/
def endFirst (p : Edge D → Bool) (t : UInt64) : List (Edge D) → Option (List (Edge D) × Edge D)
  | [] => none
  | e :: es => if p e then some ({ e with endT := t } :: es, { e with endT := t }) else (endFirst p t es).map fun r => (e :: r.1, r.2)

/-- One delete: if the first running edge leads to the target, it is the one; otherwise the first
running edge to the target that began at the time given. -/
def rangeDel (c : Edge D) (es : List (Edge D)) : Option (List (Edge D) × Edge D) :=
  (es.find? running).bind fun e =>
    if e.didx = c.didx then endFirst running c.endT es
    else endFirst (fun x => decide (x.didx = c.didx ∧ x.endT = 0 ∧ x.ts = c.ts)) c.endT es

/-- Adds and deletes one at a time: the edges, and those that were ended. -/
def rangeRule : List (Edge D) → List (Change D) → Option (List (Edge D) × List (Edge D))
  | es, [] => some (es, [])
  | es, c :: cs =>
    match c.typ with
    | .add => rangeRule (es ++ [c.edge]) cs
    | .del => (rangeDel c.edge es).bind fun r => (rangeRule r.1 cs).map fun r2 => (r2.1, r.2 :: r2.2)

theorem rangeRule_add {c : Change D} (h : c.typ = .add) (es : List (Edge D)) (cs : List (Change D)) : rangeRule es (c :: cs) = rangeRule (es ++ [c.edge]) cs := by
  simp only [rangeRule, h]

theorem rangeRule_del {c : Change D} (h : c.typ = .del) (es : List (Edge D)) (cs : List (Change D)) :
    rangeRule es (c :: cs) = (rangeDel c.edge es).bind fun r => (rangeRule r.1 cs).map fun r2 => (r2.1, r.2 :: r2.2) := by
  simp only [rangeRule, h]

theorem rangeRule_append (es : List (Edge D)) (a b : List (Change D)) :
    rangeRule es (a ++ b) = (rangeRule es a).bind fun r => (rangeRule r.1 b).map fun r2 => (r2.1, r.2 ++ r2.2) := by
  induction a generalizing es with
  | nil => simp [rangeRule]
  | cons c a ih =>
    rw [List.cons_append]
    cases hc : c.typ with
    | add => rw [rangeRule_add hc, rangeRule_add hc, ih]
    | del =>
      rw [rangeRule_del hc, rangeRule_del hc]
      cases rangeDel c.edge es with
      | none => rfl
      | some r =>
        simp only [Option.bind_some]
        rw [ih]
        cases rangeRule r.1 a with
        | none => rfl
        | some r2 =>
          simp only [Option.bind_some, Option.map_some]
          cases rangeRule r2.1 b with
          | none => rfl
          | some r3 => rfl

theorem rangeRule_adds {A : List (Change D)} (hA : ∀ c ∈ A, isAdd c = true) (es : List (Edge D)) : rangeRule es A = some (es ++ A.map (·.edge), []) := by
  induction A generalizing es with
  | nil => simp [rangeRule]
  | cons c A ih =>
    have hc : c.typ = .add := by simpa [isAdd] using hA c (List.mem_cons_self ..)
    rw [rangeRule_add hc, ih (fun c' h => hA c' (List.mem_cons_of_mem _ h))]
    simp

theorem searchEnd_eq (c : Edge D) (es : List (Edge D)) :
    searchEnd c es = endFirst (fun x => decide (x.didx = c.didx ∧ x.endT = 0 ∧ x.ts = c.ts)) c.endT es := by
  induction es with
  | nil => rfl
  | cons e es ih =>
    simp only [searchEnd, endFirst, decide_eq_true_eq]
    rw [ih]

theorem endFirst_at (p : Edge D → Bool) (t : UInt64) : ∀ (es : List (Edge D)) (k : Nat) (e : Edge D), es[k]? = some e → p e = true → (∀ x ∈ es.take k, p x = false) →
    endFirst p t es = some (es.set k { e with endT := t }, { e with endT := t }) ∧ es.find? p = some e := by
  intro es
  induction es with
  | nil => intro k e h; simp at h
  | cons a es ih =>
    intro k e h hp hk
    cases k with
    | zero =>
      simp only [List.getElem?_cons_zero, Option.some.injEq] at h
      subst h
      simp [endFirst, hp]
    | succ k =>
      have ha : p a = false := hk a (by simp)
      obtain ⟨i1, i2⟩ := ih k e (by simpa using h) hp (fun x hx => hk x (by simp [hx]))
      constructor
      · simp only [endFirst, ha, i1, List.set_cons_succ]; simp
      · rw [List.find?_cons_of_neg (by simp [ha]), i2]

theorem endFirst_take (p : Edge D → Bool) (t : UInt64) (ht : t ≠ 0) : ∀ (es es' : List (Edge D)) (e : Edge D) (k : Nat), endFirst p t es = some (es', e) →
    (∀ x ∈ es.take k, x.endT ≠ 0) → ∀ x ∈ es'.take k, x.endT ≠ 0 := by
  intro es
  induction es with
  | nil => intro es' e k h; simp [endFirst] at h
  | cons a es ih =>
    intro es' e k h hk x hx
    cases k with
    | zero => simp at hx
    | succ k =>
      simp only [endFirst] at h
      split at h
      · simp only [Option.some.injEq, Prod.mk.injEq] at h
        obtain ⟨rfl, rfl⟩ := h
        rw [List.take_succ_cons, List.mem_cons] at hx
        rcases hx with rfl | hx
        · exact ht
        · exact hk x (by simp [hx])
      · obtain ⟨r, h1, h2⟩ := Option.map_eq_some_iff.1 h
        simp only [Prod.mk.injEq] at h2
        obtain ⟨rfl, rfl⟩ := h2
        rw [List.take_succ_cons, List.mem_cons] at hx
        rcases hx with rfl | hx
        · exact hk x (by simp)
        · exact ih r.1 r.2 k h1 (fun y hy => hk y (by simp [hy])) x hx

theorem take_snoc {α : Type} {l : List α} {k : Nat} {a : α} (h : l[k]? = some a) : l.take (k + 1) = l.take k ++ [a] := by
  rw [List.take_add_one, h]; rfl

theorem skipEnded_none {es : List (Edge D)} {k : Nat} (h : es[k]? = none) : skipEnded es k = none := by
  rw [skipEnded]
  split
  · rfl
  · rename_i e he; rw [h] at he; cases he

theorem skipEnded_some {es : List (Edge D)} {k : Nat} {e : Edge D} (h : es[k]? = some e) :
    skipEnded es k = if e.endT = 0 then some k else skipEnded es (k + 1) := by
  rw [skipEnded]
  split
  · rename_i he; rw [h] at he; cases he
  · rename_i e' he; rw [h] at he; injection he with he; subst he; rfl

theorem skipEnded_spec (es : List (Edge D)) : ∀ (n k : Nat), es.length ≤ n + k → (∀ x ∈ es.take k, x.endT ≠ 0) →
    (skipEnded es k = none ∧ es.find? running = none) ∨
    ∃ k' e, skipEnded es k = some k' ∧ es[k']? = some e ∧ e.endT = 0 ∧ ∀ x ∈ es.take k', x.endT ≠ 0 := by
  intro n
  induction n with
  | zero =>
    intro k hn hk
    refine .inl ⟨skipEnded_none (List.getElem?_eq_none (by omega)), ?_⟩
    rw [List.find?_eq_none]
    intro x hx
    have := hk x (by rw [List.take_of_length_le (by omega)]; exact hx)
    simp [running, this]
  | succ n ih =>
    intro k hn hk
    cases hg : es[k]? with
    | none =>
      refine .inl ⟨skipEnded_none hg, ?_⟩
      rw [List.find?_eq_none]
      intro x hx
      have := hk x (by rw [List.take_of_length_le (List.getElem?_eq_none_iff.1 hg)]; exact hx)
      simp [running, this]
    | some e =>
      rw [skipEnded_some hg]
      by_cases he : e.endT = 0
      · rw [if_pos he]
        exact .inr ⟨k, e, rfl, hg, he, hk⟩
      · rw [if_neg he]
        apply ih (k + 1) (by omega)
        intro x hx
        rw [take_snoc hg, List.mem_append, List.mem_singleton] at hx
        rcases hx with hx | rfl
        · exact hk x hx
        · exact he

/-- A run of deletes is what its deletes do one at a time; `deleteIdx` does not matter. -/
theorem rangeRun_eq : ∀ (cs : List (Change D)) (es : List (Edge D)) (k : Nat) (del : List (Edge D)), (∀ c ∈ cs, c.typ = .del ∧ c.edge.endT ≠ 0) →
    (∀ x ∈ es.take k, x.endT ≠ 0) → rangeRun es k del cs = (rangeRule es cs).map fun r => (r.1, del ++ r.2) := by
  intro cs
  induction cs with
  | nil => intro es k del _ _; simp [rangeRun, rangeRule]
  | cons c cs ih =>
    intro es k del hc hk
    obtain ⟨h1, h2⟩ := hc c (List.mem_cons_self ..)
    have hc' : ∀ c ∈ cs, c.typ = .del ∧ c.edge.endT ≠ 0 := fun c h => hc c (List.mem_cons_of_mem _ h)
    rw [rangeRule_del h1]
    simp only [rangeRun]
    rcases skipEnded_spec es es.length k (by omega) hk with ⟨g0, hs⟩ | ⟨k', e, g0, g1, g2, g3⟩
    · rw [g0]
      simp [rangeDel, hs]
    · rw [g0]
      simp only [g1]
      obtain ⟨f1, f2⟩ := endFirst_at running c.edge.endT es k' e g1 (by simp [running, g2]) (fun x hx => by simp [running, g3 x hx])
      by_cases hd : e.didx = c.edge.didx
      · rw [if_pos hd]
        have hdel : rangeDel c.edge es = some (es.set k' { e with endT := c.edge.endT }, { e with endT := c.edge.endT }) := by
          unfold rangeDel; rw [f2, Option.bind_some, if_pos hd, f1]
        rw [ih _ _ _ hc', hdel]
        · simp only [Option.bind_some, Option.map_map]
          congr 1
          funext r
          simp
        · intro x hx
          have hset : (es.set k' { e with endT := c.edge.endT })[k']? = some { e with endT := c.edge.endT } := List.getElem?_set_self (get_lt g1)
          rw [take_snoc hset, List.mem_append, List.mem_singleton] at hx
          rcases hx with hx | rfl
          · exact endFirst_take running c.edge.endT h2 es _ _ k' f1 g3 x hx
          · exact h2
      · rw [if_neg hd, searchEnd_eq]
        have hdel : rangeDel c.edge es = endFirst (fun x => decide (x.didx = c.edge.didx ∧ x.endT = 0 ∧ x.ts = c.edge.ts)) c.edge.endT es := by
          unfold rangeDel; rw [f2, Option.bind_some, if_neg hd]
        rw [hdel]
        cases hse : endFirst (fun x => decide (x.didx = c.edge.didx ∧ x.endT = 0 ∧ x.ts = c.edge.ts)) c.edge.endT es with
        | none => rfl
        | some r =>
          simp only [Option.bind_some, Option.map_map]
          rw [ih _ _ _ hc' (endFirst_take _ _ h2 _ _ _ k' hse g3)]
          congr 1
          funext r
          simp

theorem applyAdds_deleted (s : VSt D) (A : List (Change D)) : deletedBy (applyAdds s A).calls = deletedBy s.calls := by
  obtain ⟨calls, h1, -, -, h2⟩ := applyAdds_explains s A
  rw [h1, deletedBy_append, h2, List.append_nil]

/-- The changes of a vertex, however they fall into runs, do what they do one at a time. -/
theorem applyAll_range (o : Opts) (ho : o.timeRange = true) (others : Nat → Bool) : ∀ (n : Nat) (cs : List (Change D)) (s : VSt D), cs.length ≤ n →
    (∀ c ∈ cs, c.typ = .del → c.edge.endT ≠ 0) →
    (applyAll o others s cs).map (fun r => (r.edges, deletedBy r.calls)) = (rangeRule s.edges cs).map fun r => (r.1, deletedBy s.calls ++ r.2) := by
  intro n
  induction n with
  | zero =>
    intro cs s hn _
    have : cs = [] := List.length_eq_zero_iff.1 (by omega)
    subst this
    rw [applyAll]; simp [rangeRule]
  | succ n ih =>
    intro cs s hn hz
    by_cases hne : cs = []
    · subst hne; rw [applyAll]; simp [rangeRule]
    obtain ⟨A, B, R, hcs, hlt, hA, hB, heq⟩ := applyAll_split o others cs hne
    rw [heq s]
    obtain ⟨e1, -, -⟩ := applyAdds_edges s A
    have hrule : rangeRule s.edges cs = (rangeRule (applyAdds s A).edges B).bind fun r => (rangeRule r.1 R).map fun r2 => (r2.1, r.2 ++ r2.2) := by
      rw [hcs, List.append_assoc, rangeRule_append, rangeRule_adds hA, Option.bind_some, e1, rangeRule_append]
      simp
    have hdel : (applyDels o others (applyAdds s A) B).map (fun r => (r.edges, deletedBy r.calls)) =
        (rangeRule (applyAdds s A).edges B).map fun r => (r.1, deletedBy s.calls ++ r.2) := by
      unfold applyDels
      by_cases hb : B = []
      · rw [if_pos hb]; subst hb; simp [rangeRule, applyAdds_deleted]
      · rw [if_neg hb, if_pos ho]
        rw [rangeRun_eq B _ 0 [] (by
          intro c hc
          have h1 : c.typ = .del := by have := hB c hc; cases ht : c.typ <;> simp_all [isAdd]
          exact ⟨h1, hz c (by rw [hcs]; simp [hc]) h1⟩) (by simp)]
        simp only [Option.map_map]
        congr 1
        funext r
        simp only [Function.comp_apply, List.nil_append, deletedBy_append, applyAdds_deleted]
        simp [deletedBy]
    rw [hrule]
    cases had : applyDels o others (applyAdds s A) B with
    | none =>
      rw [had] at hdel
      have : rangeRule (applyAdds s A).edges B = none := by
        cases hr : rangeRule (applyAdds s A).edges B with
        | none => rfl
        | some r => rw [hr] at hdel; cases hdel
      rw [this]; rfl
    | some s1 =>
      rw [had] at hdel
      cases hr : rangeRule (applyAdds s A).edges B with
      | none => rw [hr] at hdel; cases hdel
      | some r =>
        rw [hr] at hdel
        simp only [Option.map_some, Option.some.injEq, Prod.mk.injEq] at hdel
        simp only [Option.bind_some]
        rw [ih R s1 (by omega) (fun c hc => hz c (by rw [hcs]; simp [hc])), hdel.1, hdel.2]
        simp only [Option.map_map]
        congr 1
        funext r2
        simp

/-- What one application does to a vertex. -/
theorem Applied.range {o : Opts} (ho : o.timeRange = true) {others : Nat → Bool} {s s' : Th D} {v : Nat} {cs : List (Change D)}
    (h : Applied o others s s' v cs) (hz : ∀ c ∈ cs, c.typ = .del → c.edge.endT ≠ 0) :
    ∃ calls, callsOf s' v = callsOf s v ++ calls ∧ addedBy calls = addsOf cs ∧ rangeRule (s.verts v) cs = some (s'.verts v, deletedBy calls) := by
  obtain ⟨w, n, r, h1, h2, h3⟩ := h
  obtain ⟨calls, c1, c2, -⟩ := applyAll_counts o others _ _ _ _ (Nat.le_refl _) h1
  simp only [List.nil_append] at c1
  subst c1
  refine ⟨r.calls, h3, c2, ?_⟩
  have := applyAll_range o ho others _ cs { edges := s.verts v, calls := [], warn := w, runs := n } (Nat.le_refl _) hz
  rw [h1] at this
  simp only [Option.map_some] at this
  cases hr : rangeRule (s.verts v) cs with
  | none => rw [hr] at this; cases this
  | some q =>
    rw [hr] at this
    simp only [Option.map_some, Option.some.injEq, Prod.mk.injEq] at this
    rw [h2, this.1, this.2]
    simp [deletedBy]

/-- Many batches: the edge list of each vertex. -/
theorem enactAll_range (o : Opts) (ho : o.timeRange = true) (hw : o.window = 0) (others : Nat → Bool) :
    ∀ (bs : List (List (Nat × Change D))) (s : Th D), Rested s → (∀ b ∈ bs, b.length ≤ s.buff.length) →
    (∀ x ∈ bs.flatten, x.2.typ = .del → x.2.edge.endT ≠ 0) →
    (∀ s', enactAll o others s bs = some s' → ∀ v, ∃ calls, callsOf s' v = callsOf s v ++ calls ∧ addedBy calls = addsOf (ownChanges bs.flatten v) ∧
      rangeRule (s.verts v) (ownChanges bs.flatten v) = some (s'.verts v, deletedBy calls)) ∧
    (enactAll o others s bs = none → ∃ v, rangeRule (s.verts v) (ownChanges bs.flatten v) = none) := by
  intro bs
  induction bs with
  | nil =>
    intro s hr _ _
    refine ⟨?_, by intro h; cases h⟩
    intro s' h v
    injection h with h; subst h
    exact ⟨[], by simp, rfl, rfl⟩
  | cons b bs ih =>
    intro s hr hl hz
    have hzb : ∀ v, ∀ c ∈ ownChanges b v, c.typ = .del → c.edge.endT ≠ 0 := by
      intro v c hc
      obtain ⟨x, hx, rfl⟩ := List.mem_map.1 hc
      exact hz x (by simp [(List.mem_filter.1 hx).1])
    obtain ⟨e1, e2⟩ := enact_spec o hw others hr b
    simp only [enactAll]
    cases h1 : enact o others s b with
    | none =>
      refine ⟨(fun s' h => by cases h), fun _ => ?_⟩
      rcases e2 h1 with h | ⟨v, w, n, h⟩
      · have := hl b (List.mem_cons_self ..); omega
      · refine ⟨v, ?_⟩
        rw [List.flatten_cons, ownChanges_append, rangeRule_append]
        have := applyAll_range o ho others (ownChanges b v).length (ownChanges b v) { edges := s.verts v, calls := [], warn := w, runs := n } (Nat.le_refl _) (hzb v)
        rw [h] at this
        have h0 : rangeRule (s.verts v) (ownChanges b v) = none := by
          cases hq : rangeRule (s.verts v) (ownChanges b v) with
          | none => rfl
          | some q => simp only at this; rw [hq] at this; cases this
        rw [h0]; rfl
    | some s1 =>
      rw [Option.bind_some]
      obtain ⟨a1, a2, a3, -⟩ := e1 s1 h1
      have hru := fun v => (a2 v).range ho (hzb v)
      obtain ⟨f1, f2⟩ := ih s1 a1 (fun b' hb' => by rw [a3]; exact hl b' (List.mem_cons_of_mem _ hb'))
        (fun x hx => hz x (by rw [List.flatten_cons]; exact List.mem_append_right _ hx))
      refine ⟨fun s' h v => ?_, fun h => ?_⟩
      · obtain ⟨k1, p1, p2, p3⟩ := hru v
        obtain ⟨k2, q1, q2, q3⟩ := f1 s' h v
        refine ⟨k1 ++ k2, by rw [q1, p1, List.append_assoc], by rw [addedBy_append, p2, q2, List.flatten_cons, ownChanges_append, addsOf_append], ?_⟩
        rw [List.flatten_cons, ownChanges_append, rangeRule_append, p3, Option.bind_some, q3, deletedBy_append]
        rfl
      · obtain ⟨v, hn⟩ := f2 h
        obtain ⟨k1, p1, p2, p3⟩ := hru v
        exact ⟨v, by rw [List.flatten_cons, ownChanges_append, rangeRule_append, p3, Option.bind_some, hn]; rfl⟩

/-! ## Expiry -/

/-- The edge as it is after its window is over. -/
def closed (w : UInt64) (e : Edge D) : Edge D := { e with endT := e.ts + w }

/-- The delete that is injected for an added edge. -/
def closing (w : UInt64) (x : Nat × Change D) : Nat × Change D := (x.1, { typ := .del, edge := closed w x.2.edge })

theorem injected_closing {o : Opts} (ho : o.timeRange = true) (x : Nat × Change D) : injected o (queued o x) = closing o.window x := by
  unfold injected queued closing closed
  simp [ho]

/-- Up to the loop over the vertices: what a batch of adds puts into the pending lists. -/
theorem window_inject (o : Opts) (hw : 0 < o.window) (others : Nat → Bool) {s : Th D} {live batch : List (Nat × Change D)} {last : Nat × Change D}
    (hrest : Rested s) (hexp0 : s.expired = live.map (queued o)) (hadd : ∀ x ∈ batch, x.2.typ = .add)
    (hsort : (live ++ batch).Pairwise (fun a b => a.2.edge.ts ≤ b.2.edge.ts)) (hfits : ∀ x ∈ live ++ batch, x.2.edge.ts.toNat + o.window.toNat < 2 ^ 64)
    (hlast : batch.getLast? = some last) (hfit : batch.length ≤ s.buff.length) :
    ∃ s3 uniq us, enact o others s batch = applyGroups o others { s3 with numUnique := s3.numUnique + uniq } 0 uniq ∧
      GInv s3 uniq (entsOf 0 (batch ++ ((live ++ batch).filter (fun x => over o.window last.2.edge.ts x.2.edge)).map (fun x => injected o (queued o x)))) us ∧
      Holds s3.buff (batch ++ ((live ++ batch).filter (fun x => over o.window last.2.edge.ts x.2.edge)).map (fun x => injected o (queued o x))) ∧
      s3.verts = s.verts ∧ (∀ v, callsOf s3 v = callsOf s v) ∧
      s3.expired = ((live ++ batch).filter (fun x => !over o.window last.2.edge.ts x.2.edge)).map (queued o) ∧ s.buff.length ≤ s3.buff.length := by
  have hne : batch ≠ [] := by intro e; rw [e] at hlast; cases hlast
  have hlen : 0 < batch.length := List.length_pos_iff.2 hne
  unfold enact load
  rw [if_pos (by simpa using hfit), Option.bind_some]
  have hg0 : GInv { s with buff := batch.map Prod.snd ++ s.buff.drop (batch.map Prod.snd).length } 0 [] [] := hrest.ginv.congr rfl rfl rfl
  obtain ⟨s1, u1, us1, g1, g2, g3, g4, g5⟩ := group_spec o batch _ 0 0 [] [] hg0
  rw [g1, Option.bind_some, if_pos hw]
  rw [List.nil_append] at g2
  have hexp : s1.expired = live.map (queued o) ++ batch := by
    rw [g5]
    simp only [newExpired, hw, if_true]
    rw [hexp0]
    congr 1
    rw [List.filter_eq_self]
    intro x hx
    simp [isAdd, hadd x hx]
  have hbuf : s1.buff = batch.map Prod.snd ++ s.buff.drop batch.length := by rw [g4]; simp
  have hlastm : last ∈ batch := List.mem_of_getLast? hlast
  have hle : ∀ x ∈ live ++ batch, x.2.edge.ts ≤ last.2.edge.ts := by
    intro x hx
    have hl : (live ++ batch).getLast? = some last := by rw [List.getLast?_append, hlast]; rfl
    obtain ⟨init, hinit⟩ : ∃ init, live ++ batch = init ++ [last] := by
      obtain ⟨init, h⟩ := List.getLast?_eq_some_iff.1 hl
      exact ⟨init, h⟩
    rw [hinit] at hx
    have hsrt := hsort
    rw [hinit, List.pairwise_append] at hsrt
    rw [List.mem_append, List.mem_singleton] at hx
    rcases hx with hx | hx
    · exact hsrt.2.2 x hx last (by simp)
    · rw [hx]; exact UInt64.le_refl _
  have hget : s1.buff[batch.length - 1]? = some last.2 := by
    rw [hbuf, List.getElem?_append_left (by simp; omega), List.getElem?_map]
    rw [List.getLast?_eq_getElem?] at hlast
    rw [hlast]; rfl
  have htake : s1.buff.take batch.length = batch.map Prod.snd := by
    rw [hbuf, List.take_append_of_le_length (by simp), List.take_of_length_le (by simp)]
  have hadj := adjust_spec o last.2.edge.ts batch.length batch [] (live.map (queued o)) (by simp)
    (fun x hx => ⟨hadd x hx, hle x (List.mem_append_right _ hx)⟩)
  simp only [List.append_nil, List.length_nil] at hadj
  rw [← List.map_append] at hadj
  have hholds : Holds s1.buff batch := by
    intro j x hx
    rw [hbuf, List.getElem?_append_left (by have := get_lt hx; simpa using this), List.getElem?_map, hx]; rfl
  obtain ⟨s2, u2, us2, j1, j2, j3, j4, j5⟩ := inject_spec o last.2.edge.ts batch.length ((live ++ batch).map (queued o)) s1 u1 0 batch us1
    (by intro x hx; obtain ⟨y, -, rfl⟩ := List.mem_map.1 hx; rfl) rfl g2 hholds
  generalize hp : (fun x : Nat × Change D => over o.window last.2.edge.ts x.2.edge) = p
  have hpx : ∀ x, over o.window last.2.edge.ts x.2.edge = p x := fun x => by rw [← hp]
  have hdown : (live ++ batch).Pairwise (fun a b => p b = true → p a = true) := by
    refine hsort.imp ?_
    intro a b hab hb
    rw [← hp] at hb ⊢
    simp only [over, decide_eq_true_eq] at hb ⊢
    rw [UInt64.le_iff_toNat_le] at hab
    omega
  obtain ⟨k1, k2, k3⟩ := split_down p _ hdown
  have htw : ∀ l : List (Nat × Change D), (∀ x ∈ l, x ∈ live ++ batch) → (l.map (queued o)).takeWhile (fun x => decide (x.2.edge.ts ≤ last.2.edge.ts)) = (l.takeWhile p).map (queued o) := by
    intro l
    induction l with
    | nil => intro _; rfl
    | cons x l ih =>
      intro hm
      have e := queued_ts (hfits x (hm x (List.mem_cons_self ..))) last.2.edge.ts
      have ih' := ih (fun y hy => hm y (List.mem_cons_of_mem _ hy))
      rw [List.map_cons, List.takeWhile_cons, List.takeWhile_cons, e, hpx, ih']
      split <;> rfl
  rw [htw _ (fun x hx => hx), k1, List.map_map] at j2 j3
  rw [htw _ (fun x hx => hx), k1] at j1
  rw [Nat.zero_add, List.length_map] at j1
  have hrun : injectExpired o s1 batch.length u1 = some ({ s2 with expired := ((live ++ batch).filter (fun x => !p x)).map (queued o) }, u2) := by
    unfold injectExpired
    rw [hget]
    simp only
    rw [htake, hexp, hadj, Option.bind_some, j1, Option.map_some, ← k2, k1, List.map_drop]
  rw [hrun, Option.bind_some]
  refine ⟨{ s2 with expired := ((live ++ batch).filter (fun x => !p x)).map (queued o) }, u2, us2, rfl, j2.congr rfl rfl rfl, j3, ?_, ?_, ?_, ?_⟩
  · show s2.verts = s.verts
    rw [j4.verts, g3.verts]
  · intro v
    show callsOf s2 v = callsOf s v
    unfold callsOf; rw [j4.calls, g3.calls]
  · simp only [hpx]
  · show s.buff.length ≤ s2.buff.length
    refine Nat.le_trans ?_ j5
    rw [hbuf]; simp; omega

/-- Deletes that always hit the first running edge. -/
theorem heads_range (w : UInt64) : ∀ (pre gone post : List (Edge D)) (dels : List (Change D)), (∀ e ∈ gone, e.endT ≠ 0) → (∀ e ∈ pre, e.endT = 0 ∧ e.ts + w ≠ 0) →
    (∀ c ∈ dels, c.typ = .del) → dels.map (fun c => (c.edge.didx, c.edge.endT)) = pre.map (fun e => (e.didx, e.ts + w)) →
    rangeRule (gone ++ pre ++ post) dels = some (gone ++ pre.map (closed w) ++ post, pre.map (closed w)) := by
  intro pre
  induction pre with
  | nil =>
    intro gone post dels _ _ _ h
    have : dels = [] := by simpa using h
    subst this
    simp [rangeRule]
  | cons e pre ih =>
    intro gone post dels hg hp hd h
    cases dels with
    | nil => simp at h
    | cons c dels =>
      simp only [List.map_cons, List.cons.injEq, Prod.mk.injEq] at h
      obtain ⟨⟨h1, h2⟩, h3⟩ := h
      obtain ⟨p1, p2⟩ := hp e (List.mem_cons_self ..)
      obtain ⟨f1, f2⟩ := endFirst_at running c.edge.endT (gone ++ e :: pre ++ post) gone.length e (by simp) (by simp [running, p1])
        (by intro x hx; rw [List.append_assoc, List.take_left] at hx; simp [running, hg x hx])
      rw [rangeRule_del (hd c (List.mem_cons_self ..))]
      have hdel : rangeDel c.edge (gone ++ e :: pre ++ post) = some ((gone ++ [closed w e]) ++ pre ++ post, closed w e) := by
        unfold rangeDel
        rw [f2, Option.bind_some, if_pos h1.symm, f1, h2]
        simp [closed]
      rw [hdel, Option.bind_some]
      simp only
      rw [ih (gone ++ [closed w e]) post dels (by
        intro x hx
        rw [List.mem_append, List.mem_singleton] at hx
        rcases hx with hx | rfl
        · exact hg x hx
        · exact p2) (fun x hx => hp x (List.mem_cons_of_mem _ hx)) (fun c hc => hd c (List.mem_cons_of_mem _ hc)) h3]
      simp

/-- The edge as it is at time `t`. -/
def shut (w t : UInt64) (e : Edge D) : Edge D := if over w t e then closed w e else e

theorem down_over (w t : UInt64) {L : List (Edge D)} (h : L.Pairwise (fun a b => a.ts ≤ b.ts)) : L.Pairwise (fun a b => over w t b = true → over w t a = true) := by
  refine h.imp ?_
  intro a b hab hb
  simp only [over, decide_eq_true_eq] at hb ⊢
  rw [UInt64.le_iff_toNat_le] at hab
  omega

theorem shut_split (w t : UInt64) {L : List (Edge D)} (h : L.Pairwise (fun a b => a.ts ≤ b.ts)) :
    L.map (shut w t) = (L.filter (over w t)).map (closed w) ++ L.filter (fun e => !over w t e) := by
  obtain ⟨-, -, k⟩ := split_down (over w t) L (down_over w t h)
  conv => lhs; rw [k]
  rw [List.map_append]
  congr 1
  · apply List.map_congr_left
    intro e he
    simp [shut, (List.mem_filter.1 he).2]
  · conv => rhs; rw [← List.map_id (L.filter (fun e => !over w t e))]
    apply List.map_congr_left
    intro e he
    have := (List.mem_filter.1 he).2
    simp at this
    simp [shut, this]

theorem over_mono {w t t' : UInt64} (h : t ≤ t') {e : Edge D} (he : over w t e = true) : over w t' e = true := by
  simp only [over, decide_eq_true_eq] at he ⊢
  rw [UInt64.le_iff_toNat_le] at h
  omega

/-- The edge list of a vertex between two batches, before the deletes of the second. -/
theorem list_split (w t t' : UInt64) (htt : t ≤ t') {La Lb : List (Edge D)} (hs : (La ++ Lb).Pairwise (fun a b => a.ts ≤ b.ts)) :
    La.map (shut w t) ++ Lb = (La.filter (over w t)).map (closed w) ++ ((La.filter (fun e => !over w t e) ++ Lb).filter (over w t')) ++ (La ++ Lb).filter (fun e => !over w t' e) ∧
    (La ++ Lb).filter (over w t') = La.filter (over w t) ++ (La.filter (fun e => !over w t e) ++ Lb).filter (over w t') := by
  have hsa := (List.pairwise_append.1 hs).1
  have hsub : (La.filter (fun e => !over w t e) ++ Lb).Sublist (La ++ Lb) := List.filter_sublist.append (List.Sublist.refl _)
  obtain ⟨-, -, k⟩ := split_down (over w t') _ (down_over w t' (hs.sublist hsub))
  obtain ⟨-, -, k0⟩ := split_down (over w t) La (down_over w t hsa)
  have hout : (La.filter (fun e => !over w t e) ++ Lb).filter (fun e => !over w t' e) = (La ++ Lb).filter (fun e => !over w t' e) := by
    rw [List.filter_append, List.filter_append, List.filter_filter]
    congr 1
    apply List.filter_congr
    intro e _
    cases h1 : over w t e with
    | false => simp
    | true => simp [over_mono htt h1]
  constructor
  · rw [shut_split w t hsa, List.append_assoc, List.append_assoc]
    congr 1
    conv => lhs; rw [k]
    rw [hout]
  · conv => lhs; rw [k0]
    rw [List.append_assoc, List.filter_append]
    congr 1
    rw [List.filter_eq_self]
    intro e he
    exact over_mono htt (List.mem_filter.1 he).2

/-- Adds of edges without end, with timestamps in order, no overflow. -/
structure RStream (o : Opts) (xs : List (Nat × Change D)) : Prop where
  add : ∀ x ∈ xs, x.2.typ = .add
  sorted : xs.Pairwise (fun a b => a.2.edge.ts ≤ b.2.edge.ts)
  fits : ∀ x ∈ xs, x.2.edge.ts.toNat + o.window.toNat < 2 ^ 64
  fresh : ∀ x ∈ xs, x.2.edge.endT = 0

theorem RStream.sub {o : Opts} {xs ys : List (Nat × Change D)} (h : RStream o ys) (hs : xs.Sublist ys) : RStream o xs :=
  ⟨fun x hx => h.add x (hs.subset hx), h.sorted.sublist hs, fun x hx => h.fits x (hs.subset hx), fun x hx => h.fresh x (hs.subset hx)⟩

/-- Thread state after the add stream `all`, at time `t`. -/
structure RInv (o : Opts) (s : Th D) (all : List (Nat × Change D)) (t : UInt64) : Prop where
  rest : Rested s
  exp : s.expired = (all.filter (fun x => !over o.window t x.2.edge)).map (queued o)
  verts : ∀ v, s.verts v = ((ownChanges all v).map (·.edge)).map (shut o.window t)
  dels : ∀ v, deletedBy (callsOf s v) = (((ownChanges all v).map (·.edge)).filter (over o.window t)).map (closed o.window)
  adds : ∀ v, addedBy (callsOf s v) = (ownChanges all v).map (·.edge)

theorem own_edges_filter (q : Edge D → Bool) (xs : List (Nat × Change D)) (v : Nat) :
    (ownChanges (xs.filter (fun x => q x.2.edge)) v).map (·.edge) = ((ownChanges xs v).map (·.edge)).filter q := by
  unfold ownChanges
  rw [List.filter_map, List.filter_map, List.filter_filter, List.filter_filter]
  congr 2
  apply List.filter_congr
  intro x _
  simp [Bool.and_comm]

theorem range_step (o : Opts) (ho : o.timeRange = true) (hw : 0 < o.window) (others : Nat → Bool) {s : Th D} {all batch : List (Nat × Change D)} {last : Nat × Change D} {t : UInt64}
    (hi : RInv o s all t) (hs : RStream o (all ++ batch)) (ht : ∀ x ∈ batch, t ≤ x.2.edge.ts) (hlast : batch.getLast? = some last) (hfit : batch.length ≤ s.buff.length) :
    ∃ s', enact o others s batch = some s' ∧ RInv o s' (all ++ batch) last.2.edge.ts ∧ s.buff.length ≤ s'.buff.length := by
  have hlastm : last ∈ batch := List.mem_of_getLast? hlast
  have htt := ht last hlastm
  have hsub : (all.filter (fun x => !over o.window t x.2.edge) ++ batch).Sublist (all ++ batch) := List.filter_sublist.append (List.Sublist.refl _)
  have hs1 := hs.sub hsub
  obtain ⟨s3, uniq, us, w1, w2, w3, w4, w5, w6, w7⟩ := window_inject o hw others hi.rest hi.exp
    (fun x hx => hs.add x (List.mem_append_right _ hx)) hs1.sorted hs1.fits hlast hfit
  rw [w1]
  have hfun : (fun x : Nat × Change D => injected o (queued o x)) = closing o.window := funext fun x => injected_closing ho x
  rw [hfun] at w2 w3
  generalize hdead : (all.filter (fun x => !over o.window t x.2.edge) ++ batch).filter (fun x => over o.window last.2.edge.ts x.2.edge) = dead at *
  have hdm : ∀ x ∈ dead, x ∈ all ++ batch := by
    intro x hx
    rw [← hdead] at hx
    exact hsub.subset (List.mem_filter.1 hx).1
  obtain ⟨a1, a2⟩ := apply_spec o others w2 w3
  have hz : ∀ x ∈ all ++ batch, x.2.edge.ts + o.window ≠ 0 := by
    intro x hx e
    have h1 := hs.fits x hx
    have h2 : (x.2.edge.ts + o.window).toNat = 0 := by rw [e]; rfl
    rw [UInt64.toNat_add, Nat.mod_eq_of_lt h1] at h2
    rw [UInt64.lt_iff_toNat_lt] at hw
    have : (0 : UInt64).toNat = 0 := rfl
    omega
  have hbat : ∀ v, ∀ c ∈ ownChanges batch v, isAdd c = true := by
    intro v c hc
    obtain ⟨x, hx, rfl⟩ := List.mem_map.1 hc
    simp [isAdd, hs.add x (List.mem_append_right _ (List.mem_filter.1 hx).1)]
  have hcl : ∀ v, ownChanges (dead.map (closing o.window)) v = ((ownChanges dead v).map (·.edge)).map (fun e => ({ typ := .del, edge := closed o.window e } : Change D)) := by
    intro v
    have := ownChanges_map (fun x : Nat × Change D => ({ typ := .del, edge := closed o.window x.2.edge } : Change D)) dead v
    rw [show dead.map (closing o.window) = dead.map (fun x => (x.1, ({ typ := .del, edge := closed o.window x.2.edge } : Change D))) from rfl, this]
    simp [ownChanges, Function.comp_def]
  have hnz : ∀ v, ∀ c ∈ ownChanges (batch ++ dead.map (closing o.window)) v, c.typ = .del → c.edge.endT ≠ 0 := by
    intro v c hc htyp
    rw [ownChanges_append, List.mem_append] at hc
    rcases hc with hc | hc
    · have := hbat v c hc; simp [isAdd, htyp] at this
    · obtain ⟨x, hx, rfl⟩ := List.mem_map.1 hc
      obtain ⟨y, hy, rfl⟩ := List.mem_map.1 (List.mem_filter.1 hx).1
      exact hz y (hdm y hy)
  have hmem : ∀ v, ∀ e ∈ (ownChanges (all ++ batch) v).map (·.edge), ∃ x ∈ all ++ batch, x.2.edge = e := by
    intro v e he
    obtain ⟨c, hc, rfl⟩ := List.mem_map.1 he
    obtain ⟨x, hx, rfl⟩ := List.mem_map.1 hc
    exact ⟨x, (List.mem_filter.1 hx).1, rfl⟩
  have key : ∀ v, rangeRule (s.verts v) (ownChanges (batch ++ dead.map (closing o.window)) v) =
      some (((ownChanges (all ++ batch) v).map (·.edge)).map (shut o.window last.2.edge.ts), ((ownChanges dead v).map (·.edge)).map (closed o.window)) ∧
      ((ownChanges (all ++ batch) v).map (·.edge)).filter (over o.window last.2.edge.ts) =
        ((ownChanges all v).map (·.edge)).filter (over o.window t) ++ (ownChanges dead v).map (·.edge) := by
    intro v
    have hsv : ((ownChanges (all ++ batch) v).map (·.edge)).Pairwise (fun a b => a.ts ≤ b.ts) := by
      unfold ownChanges
      rw [List.map_map, List.pairwise_map]
      exact hs.sorted.sublist List.filter_sublist
    have hdv : (ownChanges dead v).map (·.edge) = ((((ownChanges all v).map (·.edge)).filter (fun e => !over o.window t e) ++ (ownChanges batch v).map (·.edge))).filter (over o.window last.2.edge.ts) := by
      rw [← hdead, own_edges_filter (over o.window last.2.edge.ts), ownChanges_append, List.map_append, own_edges_filter (fun e => !over o.window t e)]
    have hsv0 := hsv
    rw [ownChanges_append, List.map_append] at hsv
    obtain ⟨l1, l2⟩ := list_split o.window t last.2.edge.ts htt hsv
    rw [← hdv] at l1 l2
    rw [← List.map_append, ← ownChanges_append] at l2
    refine ⟨?_, l2⟩
    rw [ownChanges_append batch, rangeRule_append, rangeRule_adds (hbat v), Option.bind_some, hi.verts, l1, hcl]
    simp only
    rw [heads_range o.window]
    · simp only [Option.map_some, List.nil_append]
      rw [shut_split o.window _ hsv0, l2]
      simp only [ownChanges_append, List.map_append]
    · intro e he
      obtain ⟨x, hx, rfl⟩ := List.mem_map.1 he
      obtain ⟨y, hy, rfl⟩ := hmem v x (by rw [ownChanges_append, List.map_append]; exact List.mem_append_left _ (List.mem_filter.1 hx).1)
      exact hz y hy
    · intro e he
      obtain ⟨c, hc, rfl⟩ := List.mem_map.1 he
      obtain ⟨x, hx, rfl⟩ := List.mem_map.1 hc
      have := hdm x (List.mem_filter.1 hx).1
      exact ⟨hs.fresh x this, hz x this⟩
    · intro c hc
      obtain ⟨x, -, rfl⟩ := List.mem_map.1 hc; rfl
    · simp [closed, Function.comp_def]
  cases hfin : applyGroups o others { s3 with numUnique := s3.numUnique + uniq } 0 uniq with
  | none =>
    obtain ⟨v, w, n, hb⟩ := a2 hfin
    have h1 := applyAll_range o ho others _ _ { edges := s3.verts v, calls := [], warn := w, runs := n } (Nat.le_refl _) (hnz v)
    rw [hb] at h1
    simp only at h1
    rw [w4, (key v).1] at h1
    cases h1
  | some s' =>
    obtain ⟨b1, b2, b3, b4⟩ := a1 s' hfin
    have hv : ∀ v, ∃ calls, callsOf s' v = callsOf s v ++ calls ∧ addedBy calls = (ownChanges batch v).map (·.edge) ∧
        s'.verts v = ((ownChanges (all ++ batch) v).map (·.edge)).map (shut o.window last.2.edge.ts) ∧ deletedBy calls = ((ownChanges dead v).map (·.edge)).map (closed o.window) := by
      intro v
      obtain ⟨calls, c1, c2, c3⟩ := (b2 v).range ho (hnz v)
      rw [w4, (key v).1] at c3
      simp only [Option.some.injEq, Prod.mk.injEq] at c3
      rw [w5] at c1
      refine ⟨calls, c1, ?_, c3.1.symm, c3.2.symm⟩
      rw [c2, ownChanges_append, addsOf_append, addsOf_all (hbat v), addsOf_none, List.append_nil]
      intro c hc
      rw [hcl] at hc
      obtain ⟨x, -, rfl⟩ := List.mem_map.1 hc; rfl
    refine ⟨s', rfl, ⟨b1, ?_, fun v => ?_, fun v => ?_, fun v => ?_⟩, by rw [b3]; exact w7⟩
    · rw [b4, w6, List.filter_append, List.filter_append, List.filter_filter]
      congr 2
      apply List.filter_congr
      intro x _
      cases h1 : over o.window t x.2.edge with
      | false => simp
      | true => simp [over_mono htt h1]
    · obtain ⟨calls, -, -, c, -⟩ := hv v
      exact c
    · obtain ⟨calls, c1, -, -, c2⟩ := hv v
      rw [c1, deletedBy_append, hi.dels, c2, (key v).2, List.map_append]
    · obtain ⟨calls, c1, c2, -, -⟩ := hv v
      rw [c1, addedBy_append, hi.adds, c2, ownChanges_append, List.map_append]

theorem range_all (o : Opts) (ho : o.timeRange = true) (hw : 0 < o.window) (others : Nat → Bool) : ∀ (bs : List (List (Nat × Change D))) (s : Th D) (all : List (Nat × Change D)) (t : UInt64),
    RInv o s all t → RStream o (all ++ bs.flatten) → (∀ x ∈ bs.flatten, t ≤ x.2.edge.ts) → (∀ b ∈ bs, b ≠ [] ∧ b.length ≤ s.buff.length) →
    ∃ s', enactAll o others s bs = some s' ∧ (∀ last, bs.flatten.getLast? = some last → RInv o s' (all ++ bs.flatten) last.2.edge.ts) ∧ (bs = [] → s' = s) := by
  intro bs
  induction bs with
  | nil =>
    intro s all t hi _ _ _
    exact ⟨s, rfl, (fun last h => by simp at h), fun _ => rfl⟩
  | cons b bs ih =>
    intro s all t hi hs ht hb
    obtain ⟨hb1, hb2⟩ := hb b (List.mem_cons_self ..)
    obtain ⟨last, hlast⟩ : ∃ last, b.getLast? = some last := ⟨_, List.getLast?_eq_some_getLast hb1⟩
    rw [List.flatten_cons, ← List.append_assoc] at hs
    obtain ⟨s1, e1, i1, l1⟩ := range_step o ho hw others hi (hs.sub (List.sublist_append_left _ _)) (fun x hx => ht x (by rw [List.flatten_cons]; exact List.mem_append_left _ hx)) hlast hb2
    obtain ⟨s2, e2, i2, n2⟩ := ih s1 (all ++ b) last.2.edge.ts i1 hs (fun x hx =>
        (List.pairwise_append.1 hs.sorted).2.2 last (List.mem_append_right _ (List.mem_of_getLast? hlast)) x hx)
      (fun b' hb' => ⟨(hb b' (List.mem_cons_of_mem _ hb')).1, Nat.le_trans (hb b' (List.mem_cons_of_mem _ hb')).2 l1⟩)
    refine ⟨s2, by rw [enactAll, e1, Option.bind_some, e2], ?_, by simp⟩
    intro last2 hl2
    by_cases hbs : bs = []
    · subst hbs
      simp only [List.flatten_cons, List.flatten_nil, List.append_nil] at hl2 ⊢
      rw [hlast] at hl2
      injection hl2 with hl2
      subst hl2
      rw [n2 rfl]; exact i1
    · have hfl : bs.flatten ≠ [] := by
        cases bs with
        | nil => exact absurd rfl hbs
        | cons b2 bs2 =>
          have := (hb b2 (by simp)).1
          simp [this]
      rw [List.flatten_cons, List.getLast?_append] at hl2
      have hl3 : bs.flatten.getLast? = some last2 := by
        rw [List.getLast?_eq_some_getLast hfl] at hl2 ⊢
        simpa using hl2
      rw [List.flatten_cons, ← List.append_assoc]
      exact i2 last2 hl3

end Verif.Enact
