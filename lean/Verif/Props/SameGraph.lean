import Verif.SameGraph
import Verif.EnactAny
import Verif.Props.AnswerRanks
import Mathlib.Data.List.Nodup

/-!
# C88: graphs of the same events pass the structure check
-/

namespace Verif.Props.SameGraph

open Verif Verif.SameGraph
open Verif.Pipeline (Params REv owner Inv inv_run inv_start lookup lookup_spec ThOk)
open Verif.Loader (Typ Ev Ops)
open Verif.Props.EndToEnd (taken)

variable {E : Type}

/-! ## Specification -/

/-- What a user can ask about a raw id: is it in the graph, and with how many edges? -/
def degree (g : G) (raw : UInt32) : Option Nat := (fromRaw g raw).map g.deg

/-- The tables of every thread are in order, as C45 has it. -/
def Tidy (g : G) : Prop := 0 < g.T ∧ ∀ t, ThOk g.T t (g.th t)

/-- The events of a stream, without their places, times and properties. -/
def ends (e : Ev E) : Typ × UInt32 × UInt32 := (e.typ, e.src, e.dst)

/-- **C88**, with or without the race on closing queues: the graphs of two runs on streams with the same events in any
order, each run with its own number of threads, queues, schedule, batches and properties, pass the check. Nothing
expires; if there are deletions, edges are kept on deletion in both runs or in none. -/
def StructureRight (races : Prop) : Prop :=
  ∀ (E E' : Type) (p : Params E) (p' : Params E') (tm : E → UInt64 × UInt64) (tm' : E' → UInt64 × UInt64) (o o' : Enact.Opts)
    (stream : List (Ev E)) (stream' : List (Ev E')) (s : Pipeline.St E) (s' : Pipeline.St E') (S : Nat → Enact.Th E) (S' : Nat → Enact.Th E'),
    Done races p tm o stream s S → Done races p' tm' o' stream' s' S' → o.window = 0 → o'.window = 0 → (o.timeRange = o'.timeRange ∨ ∀ e ∈ stream, e.typ = .add) →
    (stream.map ends).Perm (stream'.map ends) → check (built p s S) (built p' s' S') = .same

/-- **C88**, full statement. -/
def C88Statement : Prop := StructureRight True

/-! ## The check -/

/-- The raw ids in the order of `NodeForEachVertex`. -/
def raws (g : G) : List UInt32 := (List.range g.T).flatMap fun t => (g.th t).verts.map (·.raw)

theorem raws_length (g : G) : (raws g).length = count g := by
  unfold raws count
  rw [List.length_flatMap]
  simp

theorem mem_raws {g : G} (h : Tidy g) (r : UInt32) : r ∈ raws g ↔ ∃ v, fromRaw g r = some v := by
  unfold raws fromRaw
  simp only [List.mem_flatMap, List.mem_range, List.mem_map]
  constructor
  · rintro ⟨t, ht, v, hv, rfl⟩
    obtain ⟨i, hi⟩ := List.mem_iff_getElem?.1 hv
    obtain ⟨h1, h2⟩ := (h.2 t).bwd i v hi
    exact ⟨(t, i), by rw [h2, h1]; rfl⟩
  · rintro ⟨v, hv⟩
    obtain ⟨i, hi, rfl⟩ := Option.map_eq_some_iff.1 hv
    obtain ⟨x, h1, h2⟩ := (h.2 _).fwd r i hi
    exact ⟨_, Nat.mod_lt _ h.1, x, List.mem_of_getElem? h1, h2⟩

theorem raws_nodup {g : G} (h : Tidy g) : (raws g).Nodup := by
  unfold raws
  rw [List.nodup_flatMap]
  constructor
  · intro t _
    rw [List.nodup_iff_injective_getElem]
    intro ⟨i, hi⟩ ⟨j, hj⟩ e
    simp only [List.length_map] at hi hj
    simp only [List.getElem_map] at e
    have h1 := ((h.2 t).bwd i _ (List.getElem?_eq_getElem hi)).1
    have h2 := ((h.2 t).bwd j _ (List.getElem?_eq_getElem hj)).1
    rw [e, h2] at h1
    injection h1 with h1
    exact Fin.ext h1.symm
  · refine List.Pairwise.imp_of_mem ?_ (List.nodup_range (n := g.T))
    intro a b _ _ hab r ha hb
    obtain ⟨x, hx, rfl⟩ := List.mem_map.1 ha
    obtain ⟨y, hy, e⟩ := List.mem_map.1 hb
    obtain ⟨i, hi⟩ := List.mem_iff_getElem?.1 hx
    obtain ⟨j, hj⟩ := List.mem_iff_getElem?.1 hy
    have h1 := ((h.2 a).bwd i _ hi).2
    have h2 := ((h.2 b).bwd j _ hj).2
    rw [← e, h2] at h1
    exact hab h1.symm

theorem mem_vertices {g : G} (t i : Nat) : (t, i) ∈ vertices g ↔ t < g.T ∧ i < (g.th t).verts.length := by
  unfold vertices
  simp only [List.mem_flatMap, List.mem_range, List.mem_map, Prod.mk.injEq]
  constructor
  · rintro ⟨a, ha, b, hb, rfl, rfl⟩; exact ⟨ha, hb⟩
  · rintro ⟨ha, hb⟩; exact ⟨t, ha, i, hb, rfl, rfl⟩

theorem compare_iff (g1 g2 : G) : ∀ vs : List (Nat × Nat), (∀ v ∈ vs, v.2 < (g1.th v.1).verts.length) →
    (agree g1 g2 vs = .same ↔ ∀ v ∈ vs, ∀ x, (g1.th v.1).verts[v.2]? = some x → degree g2 x.raw = some (g1.deg v))
  | [], _ => by simp [agree]
  | v :: vs, h => by
    have ih := compare_iff g1 g2 vs fun w hw => h w (List.mem_cons_of_mem _ hw)
    have hx := List.getElem?_eq_getElem (h v List.mem_cons_self)
    unfold agree
    simp only [hx, List.forall_mem_cons, Option.some.injEq, forall_eq']
    unfold degree at ih ⊢
    cases hf : fromRaw g2 ((g1.th v.1).verts[v.2]'(h v List.mem_cons_self)).raw with
    | none => simp
    | some w =>
      simp only [Option.map_some, Option.some.injEq]
      by_cases hd : g1.deg v = g2.deg w
      · rw [if_neg (by simpa using hd), ih]
        exact ⟨fun h => ⟨hd.symm, h⟩, fun h => h.2⟩
      · rw [if_pos hd]
        exact ⟨fun h => (by cases h), fun h => absurd h.1.symm hd⟩

/-- **C88**: the check passes exactly if both graphs have the same raw ids with the same numbers of edges. In every
other case it panics, also if a vertex is missing. -/
theorem C88_check (g1 g2 : G) (h1 : Tidy g1) (h2 : Tidy g2) : check g1 g2 = .same ↔ ∀ raw, degree g1 raw = degree g2 raw := by
  have hc := compare_iff g1 g2 (vertices g1) fun v hv => ((mem_vertices v.1 v.2).1 hv).2
  have half : (∀ v ∈ vertices g1, ∀ x, (g1.th v.1).verts[v.2]? = some x → degree g2 x.raw = some (g1.deg v)) ↔
      ∀ raw d, degree g1 raw = some d → degree g2 raw = some d := by
    constructor
    · intro h raw d hd
      obtain ⟨v, hv, rfl⟩ := Option.map_eq_some_iff.1 hd
      obtain ⟨i, hi, rfl⟩ := Option.map_eq_some_iff.1 hv
      obtain ⟨x, a1, rfl⟩ := (h1.2 _).fwd raw i hi
      exact h _ ((mem_vertices _ _).2 ⟨Nat.mod_lt _ h1.1, (List.getElem?_eq_some_iff.1 a1).1⟩) x a1
    · intro h v hv x hx
      refine h _ _ ?_
      obtain ⟨a1, a2⟩ := (h1.2 v.1).bwd v.2 x hx
      unfold degree fromRaw
      rw [a2, a1]
      rfl
  have hsome : ∀ g raw, (∃ d, degree g raw = some d) ↔ ∃ v, fromRaw g raw = some v := by
    intro g raw
    unfold degree
    simp [Option.map_eq_some_iff]
  unfold check
  by_cases hn : count g1 = count g2
  · rw [if_neg (by simpa using hn), hc, half]
    constructor
    · intro h raw
      have hsub : raws g1 ⊆ raws g2 := fun r hr => by
        obtain ⟨d, hd⟩ := (hsome g1 r).2 ((mem_raws h1 r).1 hr)
        exact (mem_raws h2 r).2 ((hsome g2 r).1 ⟨d, h r d hd⟩)
      have hp : (raws g1).Perm (raws g2) := ((raws_nodup h1).subperm hsub).perm_of_length_le (by rw [raws_length, raws_length, hn])
      cases hd : degree g1 raw with
      | some d => exact (h raw d hd).symm
      | none =>
        cases hd2 : degree g2 raw with
        | none => rfl
        | some d =>
          have := (mem_raws h2 raw).2 ((hsome g2 raw).1 ⟨d, hd2⟩)
          obtain ⟨d', hd'⟩ := (hsome g1 raw).2 ((mem_raws h1 raw).1 (hp.mem_iff.2 this))
          rw [hd] at hd'; cases hd'
    · intro h raw d hd; rw [← h raw, hd]
  · rw [if_pos hn]
    constructor
    · intro h; cases h
    · intro h
      exfalso
      apply hn
      rw [← raws_length, ← raws_length]
      refine ((List.perm_ext_iff_of_nodup (raws_nodup h1) (raws_nodup h2)).2 fun r => ?_).length_eq
      rw [mem_raws h1, mem_raws h2, ← hsome, ← hsome, h r]

/-! ## Graphs that were built -/

/-- Only vertices of the stream are in the tables. -/
def OnlyNamed (stream : List (Ev E)) (s : Pipeline.St E) : Prop := ∀ t r i, (s.th t).vmap r = some i → ∃ e ∈ stream, r = e.src ∨ r = e.dst

theorem lookup_named {stream : List (Ev E)} {th : Pipeline.Th} {raw : UInt32} {n : Nat} (hr : ∃ e ∈ stream, raw = e.src ∨ raw = e.dst)
    (h : ∀ r i, th.vmap r = some i → ∃ e ∈ stream, r = e.src ∨ r = e.dst) :
    ∀ r i, (lookup th raw n).1.vmap r = some i → ∃ e ∈ stream, r = e.src ∨ r = e.dst := by
  intro r i hi
  unfold lookup at hi
  split at hi
  · exact h r i hi
  · unfold Pipeline.newVertex at hi
    dsimp only at hi
    by_cases e : r = raw
    · subst e; exact hr
    · rw [upd_ne _ _ e] at hi; exact h r i hi

theorem onlyNamed_step {p : Params E} {stream : List (Ev E)} {s s' : Pipeline.St E} (a : Pipeline.Act) (hi : Inv p stream s) (hn : OnlyNamed stream s)
    (h : Pipeline.step p stream s a = some s') : OnlyNamed stream s' := by
  have same : s'.th = s.th → OnlyNamed stream s' := fun e t r i hv => hn t r i (e ▸ hv)
  cases a with
  | emitPut =>
    unfold Pipeline.step at h
    dsimp only at h
    split at h
    · cases h
    · split at h
      · cases h; exact same rfl
      · cases h
  | emitOrder =>
    unfold Pipeline.step at h
    dsimp only at h
    split at h
    · cases h
    · split at h
      · cases h; exact same rfl
      · cases h
  | emitClose =>
    unfold Pipeline.step at h
    dsimp only at h
    split at h
    · cases h; exact same rfl
    · cases h
  | threadClose t =>
    unfold Pipeline.step at h
    dsimp only at h
    split at h
    · cases h; exact same rfl
    · cases h
  | remTake =>
    unfold Pipeline.step at h
    dsimp only at h
    split at h
    · cases h; exact same rfl
    · cases h
  | remStop =>
    unfold Pipeline.step at h
    dsimp only at h
    split at h
    · split at h
      · cases h; exact same rfl
      · cases h
    · cases h
  | remGet =>
    unfold Pipeline.step at h
    dsimp only at h
    split at h
    · split at h
      · cases h
      · cases h; exact same rfl
    · cases h
  | remLook =>
    unfold Pipeline.step at h
    dsimp only at h
    split at h
    · split at h
      · cases h; exact same rfl
      · cases h
    · cases h
  | remRetry =>
    unfold Pipeline.step at h
    dsimp only at h
    split at h
    · split at h
      · cases h; exact same rfl
      · cases h
    · cases h
  | remGiveUp =>
    unfold Pipeline.step at h
    dsimp only at h
    split at h
    · split at h
      · cases h; exact same rfl
      · cases h
    · cases h
  | remPut =>
    unfold Pipeline.step at h
    dsimp only at h
    split at h
    · split at h
      · split at h
        · cases h; exact same rfl
        · split at h
          · cases h; exact same rfl
          · cases h; exact same rfl
      · cases h
    · cases h
  | remQuery =>
    unfold Pipeline.step at h
    dsimp only at h
    split at h
    · split at h
      · cases h; exact same rfl
      · cases h
    · cases h
  | convert t =>
    unfold Pipeline.step at h
    dsimp only at h
    split at h
    · split at h
      · cases h
      · next e he =>
        have hm : e ∈ stream := by
          have := List.mem_of_getElem? he
          rw [hi.fe t] at this
          exact List.mem_of_mem_take (List.mem_filter.1 this).1
        have hl := lookup_named (n := e.idx) ⟨e, hm, .inr rfl⟩ (hn t)
        unfold Pipeline.convert at h
        generalize lookup (s.th t) e.dst e.idx = q at h hl
        obtain ⟨th, i⟩ := q
        dsimp only at h hl
        split at h
        · cases h
        · next th' r hc =>
          injection h with h
          subst h
          intro u r' j hv
          dsimp only at hv
          by_cases eu : u = t
          · subst eu
            rw [upd_same] at hv
            split at hc
            · split at hc
              · cases hc
              · injection hc with hc
                injection hc with h1 h2
                subst h1
                exact hl r' j hv
            · injection hc with hc
              injection hc with h1 h2
              subst h1
              exact hl r' j hv
          · rw [upd_ne _ _ eu] at hv
            exact hn u r' j hv
    · cases h
  | enact t =>
    unfold Pipeline.step at h
    dsimp only at h
    split at h
    · split at h
      · cases h
      · next r hr =>
        have hm : ∃ e ∈ stream, r.src = e.src ∨ r.src = e.dst := by
          have := List.mem_of_getElem? hr
          rw [hi.topo t] at this
          obtain ⟨k, hk⟩ := List.mem_iff_getElem?.1 (List.mem_filter.1 this).1
          obtain ⟨e, he, hc⟩ := hi.remd k r hk
          exact ⟨e, List.mem_of_getElem? he, .inl hc.src⟩
        have hl := lookup_named (n := r.idx) hm (hn t)
        injection h with h
        subst h
        intro u r' j hv
        dsimp only at hv
        by_cases eu : u = t
        · subst eu
          rw [upd_same] at hv
          exact hl r' j hv
        · rw [upd_ne _ _ eu] at hv
          exact hn u r' j hv
    · cases h

theorem onlyNamed_run {p : Params E} {stream : List (Ev E)} : ∀ (as : List Pipeline.Act) {s s' : Pipeline.St E}, Pipeline.Act.remGiveUp ∉ as → Inv p stream s →
    OnlyNamed stream s → Pipeline.run p stream s as = some s' → OnlyNamed stream s'
  | [], s, s', _, _, hn, h => by injection h with h; subst h; exact hn
  | a :: as, s, s', hg, hi, hn, h => by
    obtain ⟨s1, h1, h2⟩ := Option.bind_eq_some_iff.1 h
    have hi1 : Inv p stream s1 := inv_run p stream [a] (fun hm => hg (by rw [List.mem_singleton.1 hm]; exact List.mem_cons_self)) hi (by simp [Pipeline.run, h1])
    exact onlyNamed_run as (fun hm => hg (List.mem_cons_of_mem _ hm)) hi1 (onlyNamed_step a hi hn h1) h2

section
variable {p : Params E} {tm : E → UInt64 × UInt64} {o : Enact.Opts} {stream : List (Ev E)} {s : Pipeline.St E} {S : Nat → Enact.Th E}

theorem tidy_built {races : Prop} (h : Done races p tm o stream s S) : Tidy (built p s S) := by
  obtain ⟨bs, -, hr⟩ := h.run
  exact ⟨h.threads, (Props.Pipeline.invT_run bs (Props.Pipeline.invT_start p) hr).th⟩

/-- The vertices of the graph are those of the stream. -/
theorem Done.vertices (h : Done False p tm o stream s S) (u : UInt32) : (∃ v, fromRaw (built p s S) u = some v) ↔ ∃ e ∈ stream, u = e.src ∨ u = e.dst := by
  obtain ⟨bs, hg, hr⟩ := h.run
  have hg := hg (by simp)
  constructor
  · rintro ⟨v, hv⟩
    obtain ⟨i, hi, -⟩ := Option.map_eq_some_iff.1 hv
    exact onlyNamed_run bs hg (inv_start p stream) (fun t r i h => by cases h) hr _ u i hi
  · rintro ⟨e, he, hu⟩
    obtain ⟨-, h2⟩ := Props.Pipeline.C52_complete_partial p stream bs s hg hr h.stopped
    have ht : owner p.T e.src < p.T := Nat.mod_lt _ h.threads
    have h3 := h2 _ (h.drained _ ht)
    have h4 : e ∈ (s.enacted (owner p.T e.src)).map (fun x => Props.Pipeline.strip x.2) := by
      rw [h3]; exact List.mem_filter.2 ⟨he, by simp⟩
    obtain ⟨⟨i, r⟩, h5, rfl⟩ := List.mem_map.1 h4
    obtain ⟨h6, h7⟩ := Props.Pipeline.C45_endpoints p stream bs s hg hr _ i r h5
    rcases hu with rfl | rfl
    · exact ⟨_, h6⟩
    · exact ⟨_, h7⟩

/-- How many events of type `typ` with source `u` there are. -/
def times (l : List (Typ × UInt32 × UInt32)) (typ : Typ) (u : UInt32) : Nat := l.countP fun x => decide (x.1 = typ) && decide (x.2.1 = u)

theorem eventsOf_times (stream : List (Ev E)) (typ : Typ) (u : UInt32) :
    ((EndToEnd.eventsOf stream u).filter fun x => decide (x.1.typ = typ)).length = times (stream.map ends) typ u := by
  unfold EndToEnd.eventsOf times
  rw [List.filter_filter, ← List.countP_eq_length_filter]
  conv_rhs => rw [← Props.Answer.numbered_fst stream, List.map_map, List.countP_map]
  rfl

/-- The number of edges: that of the additions, less the deletions unless edges are kept. -/
theorem Done.degree (h : Done False p tm o stream s S) (hw : o.window = 0) (u : UInt32) (v : Nat × Nat) (hv : fromRaw (built p s S) u = some v) :
    (built p s S).deg v + (if o.timeRange then 0 else times (stream.map ends) .del u) = times (stream.map ends) .add u := by
  obtain ⟨as, hg, hr⟩ := h.run
  have hg := hg (by simp)
  have hi := inv_run p stream as hg (inv_start p stream) hr
  have hrl : s.remitted.length = stream.length := by
    have hr := hi.rem
    simp only [Pipeline.RemOk, h.stopped] at hr
    exact hr.2
  obtain ⟨t, i⟩ := v
  have hv' : Pipeline.fromRaw p s u = some (t, i) := hv
  have ht : t < p.T := by
    obtain ⟨j, -, hj⟩ := Option.map_eq_some_iff.1 hv'
    injection hj with hj
    rw [← hj]
    exact Nat.mod_lt _ h.threads
  obtain ⟨others, slots, cap, zero, bs, h1, -, h3⟩ := h.enacted t ht
  have hhist : Enact.history bs i = (EndToEnd.eventsOf stream u).map (EndToEnd.mk tm (fun d => (Pipeline.fromRaw p s d).getD (0, 0))) := by
    unfold Enact.history
    rw [h1]
    exact EndToEnd.taken_own hi hrl tm (h.drained t ht) hv'
  obtain ⟨c1, c2⟩ := Enact.C24_delivered o hw others slots cap zero bs h3 i
  obtain ⟨calls, a1, -, a3⟩ := Enact.enactAll_any o others bs _ _ (Enact.rested_start slots cap zero) h3 i
  have e0 : Enact.callsOf (Enact.start slots cap zero) i = [] := rfl
  rw [e0, List.nil_append] at a1
  rw [← a1] at a3
  have hadd : (Enact.addedBy (Enact.callsOf (S t) i)).length = times (stream.map ends) .add u := by
    rw [c1, hhist, ← eventsOf_times]
    unfold Enact.added
    rw [List.length_map, List.filter_map, List.length_map]
    rfl
  have hdel : (Enact.deletedBy (Enact.callsOf (S t) i)).length = times (stream.map ends) .del u := by
    rw [c2, hhist, ← eventsOf_times]
    unfold Enact.targets
    rw [List.length_map, List.filter_map, List.length_map]
    rfl
  have hst : (Enact.start slots cap zero).verts i = [] := rfl
  show ((S t).verts i).length + _ = _
  cases hb : o.timeRange with
  | false =>
    have := a3.length hb
    rw [hst] at this
    simp only [Bool.false_eq_true, if_false, List.length_nil] at this ⊢
    omega
  | true =>
    have := congrArg List.length (a3.keeps hb)
    rw [hst] at this
    simp only [List.length_map, List.map_nil, List.nil_append] at this
    simp only [if_true]
    omega

end

/-- **C88**, what holds: without the race on closing queues, two runs on the same events in any order pass the check.
Missing for the full statement: runs with that race. -/
theorem C88_same_partial : StructureRight False := by
  intro E E' p p' tm tm' o o' stream stream' s s' S S' h h' hw hw' ho hp
  rw [C88_check _ _ (tidy_built h) (tidy_built h')]
  intro u
  have hmem : ∀ {E : Type} (st : List (Ev E)), (∃ e ∈ st, u = e.src ∨ u = e.dst) ↔ ∃ x ∈ st.map ends, u = x.2.1 ∨ u = x.2.2 := by
    intro E st
    simp only [List.mem_map, exists_exists_and_eq_and, ends]
  have hv : (∃ v, fromRaw (built p s S) u = some v) ↔ ∃ v, fromRaw (built p' s' S') u = some v := by
    rw [Done.vertices h, Done.vertices h', hmem, hmem]
    exact ⟨fun ⟨x, a, b⟩ => ⟨x, hp.mem_iff.1 a, b⟩, fun ⟨x, a, b⟩ => ⟨x, hp.mem_iff.2 a, b⟩⟩
  unfold degree
  cases h1 : fromRaw (built p s S) u with
  | none =>
    cases h2 : fromRaw (built p' s' S') u with
    | none => rfl
    | some v =>
      obtain ⟨w, hw⟩ := hv.2 ⟨v, h2⟩
      rw [h1] at hw; cases hw
  | some v =>
    obtain ⟨w, h2⟩ := hv.1 ⟨v, h1⟩
    rw [h2]
    have d1 := Done.degree h hw u v h1
    have d2 := Done.degree h' hw' u w h2
    have ht : ∀ typ, times (stream.map ends) typ u = times (stream'.map ends) typ u := fun typ => hp.countP_eq _
    simp only [Option.map_some, Option.some.injEq]
    rcases ho with ho | ha
    · rw [ht, ht, ho] at d1
      omega
    · have h0 : times (stream.map ends) .del u = 0 := by
        unfold times
        rw [List.countP_eq_zero]
        intro x hx
        obtain ⟨e, he, rfl⟩ := List.mem_map.1 hx
        simp [ends, ha e he]
      have h0' : times (stream'.map ends) .del u = 0 := by rw [← ht]; exact h0
      rw [h0, ite_self] at d1
      rw [h0', ite_self] at d2
      have := ht .add
      omega

/-- C88: what is in the graph after a run without the race, in terms of the stream. -/
theorem C88_degree_partial (p : Params E) (tm : E → UInt64 × UInt64) (o : Enact.Opts) (stream : List (Ev E)) (s : Pipeline.St E) (S : Nat → Enact.Th E)
    (h : Done False p tm o stream s S) (hw : o.window = 0) (u : UInt32) :
    ((∃ e ∈ stream, u = e.src ∨ u = e.dst) ↔ ∃ d, degree (built p s S) u = some d) ∧
    ∀ d, degree (built p s S) u = some d →
      d + (if o.timeRange then 0 else stream.countP fun e => decide (e.typ = .del) && decide (e.src = u)) = stream.countP fun e => decide (e.typ = .add) && decide (e.src = u) := by
  refine ⟨?_, fun d hd => ?_⟩
  · rw [← Done.vertices h]
    unfold degree
    simp [Option.map_eq_some_iff]
  · obtain ⟨v, hv, rfl⟩ := Option.map_eq_some_iff.1 hd
    have := Done.degree h hw u v hv
    unfold times at this
    rw [List.countP_map, List.countP_map] at this
    exact this

/-! ## The test events of the tests and their file -/

/-- The edges of a file that was loaded without the races on closing queues. -/
theorem done_of_loaded {ops : Ops E} {c : Loader.Cfg} {p : Params E} {tm : E → UInt64 × UInt64} {o : Enact.Opts} {file : List (List UInt8)}
    {evs stream : List (Ev E)} {s : Pipeline.St E} {S : Nat → Enact.Th E} (L : Answer.Loaded False ops c p tm o file evs stream s S) :
    Done False p tm o stream s S := by
  obtain ⟨bs, h1, h2⟩ := L.complete.pipeline L.reads L.emitted
  exact ⟨L.threads, ⟨bs, fun _ => h1, h2⟩, L.complete.stopped, L.complete.drained, L.complete.enacted⟩

theorem isStream_add {ops : Ops E} {c : Loader.Cfg} {evs stream : List (Ev E)} (h : Props.Loader.IsStream ops c evs stream) (ha : ∀ e ∈ evs, e.typ = .add) :
    ∀ e ∈ stream, e.typ = .add := by
  intro e he
  obtain ⟨k, hk⟩ := List.mem_iff_getElem?.1 he
  cases hu : c.undirected with
  | false =>
    rw [h.1 hu k] at hk
    obtain ⟨x, hx, rfl⟩ := Option.map_eq_some_iff.1 hk
    exact ha x (List.mem_of_getElem? hx)
  | true =>
    rcases Nat.even_or_odd' k with ⟨j, rfl | rfl⟩
    · rw [(h.2 hu j).1] at hk
      obtain ⟨x, hx, rfl⟩ := Option.map_eq_some_iff.1 hk
      exact ha x (List.mem_of_getElem? hx)
    · rw [(h.2 hu j).2] at hk
      obtain ⟨x, hx, rfl⟩ := Option.map_eq_some_iff.1 hk
      exact ha x (List.mem_of_getElem? hx)

/-- **C88** as the tests use it: a file was loaded, and a list of additions with the same edges, in any order, was sent
as test events, both directed or both undirected; properties, threads and schedules may differ. The graphs pass the
check, either way round. Missing: runs with the races on closing queues. -/
theorem C88_tests_partial {E' : Type} {ops : Ops E} {c : Loader.Cfg} {p : Params E} {tm : E → UInt64 × UInt64} {o : Enact.Opts} {file : List (List UInt8)}
    {evs stream : List (Ev E)} {s : Pipeline.St E} {S : Nat → Enact.Th E} (L : Answer.Loaded False ops c p tm o file evs stream s S)
    (p' : Params E') (tm' : E' → UInt64 × UInt64) (o' : Enact.Opts) (hw : o'.window = 0) (scs : List (TestEv E')) (hadd : ∀ e ∈ scs, e.word &&& 3 = 0)
    (hsame : (scs.map fun e => (e.src, e.dst)).Perm (evs.map fun e => (e.src, e.dst))) (s' : Pipeline.St E') (S' : Nat → Enact.Th E')
    (h' : Done False p' tm' o' (sent c.undirected scs) s' S') :
    check (built p' s' S') (built p s S) = .same ∧ check (built p s S) (built p' s' S') = .same := by
  have hperm : ((sent c.undirected scs).map ends).Perm (stream.map ends) := by
    have e1 : stream.map ends = (Answer.arrows c evs).map fun x => (Typ.add, x.1, x.2) := by
      rw [← Answer.stream_arrows L.emitted, List.map_map]
      refine List.map_congr_left fun e he => ?_
      simp only [ends, Function.comp]
      rw [isStream_add L.emitted (Built.reads_add L.reads) e he]
    have e2 : Answer.arrows c evs = (evs.map fun e => (e.src, e.dst)).flatMap fun x => if c.undirected then [(x.1, x.2), (x.2, x.1)] else [(x.1, x.2)] := by
      unfold Answer.arrows
      rw [List.flatMap_map]
    have e3 : (sent c.undirected scs).map ends = ((scs.map fun e => (e.src, e.dst)).flatMap fun x => if c.undirected then [(x.1, x.2), (x.2, x.1)] else [(x.1, x.2)]).map
        fun x => (Typ.add, x.1, x.2) := by
      unfold sent
      rw [List.flatMap_map, List.map_flatMap, List.map_flatMap]
      refine List.flatMap_congr fun e he => ?_
      unfold sendOne
      rw [if_pos (hadd e he)]
      cases c.undirected <;> rfl
    rw [e1, e2, e3]
    exact (hsame.flatMap_right _).map _
  have hd := done_of_loaded L
  have h1 : ∀ e ∈ stream, e.typ = .add := isStream_add L.emitted (Built.reads_add L.reads)
  have h2 : ∀ e ∈ sent c.undirected scs, e.typ = .add := by
    intro e he
    have : ends e ∈ (sent c.undirected scs).map ends := List.mem_map_of_mem he
    obtain ⟨x, hx, h3⟩ := List.mem_map.1 (hperm.mem_iff.1 this)
    have := congrArg Prod.fst h3
    exact this.symm.trans (h1 x hx)
  exact ⟨C88_same_partial E' E p' p tm' tm o' o _ _ s' s S' S h' hd hw L.window (.inr h2) hperm,
    C88_same_partial E E' p p' tm tm' o o' _ _ s s' S S' hd h' L.window hw (.inr h1) hperm.symm⟩

end Verif.Props.SameGraph
