import Verif.Props.Pipeline
import Verif.Props.Enact
import Verif.EnactAny

/-!
# C54: from the stream to the edge lists

`Verif.Pipeline` says which events each thread gets, `Verif.Enact` what it does with them. Together:
after a complete run, the edge list of every raw vertex is that of applying its events of the stream
one at a time, whatever the number of threads, the schedule and the batches.
-/

namespace Verif.Props.EndToEnd

open Verif.Pipeline (Params St Act REv run start owner fromRaw rawId Inv inv_run inv_start countAdds ownR RemOk)
open Verif.Props.Pipeline (strip)
open Verif.Loader (Typ Ev)
open Verif.Enact (Opts Edge Change Th enactAll rule history)

variable {E : Type}

/-! ## Specification -/

/-- The stream, each event with the number of earlier adds to the same destination. -/
def numbered (stream : List (Ev E)) : List (Ev E × Nat) :=
  stream.mapIdx (fun k e => (e, ((stream.take k).filter (fun x => decide (x.typ = .add) && decide (x.dst = e.dst))).length))

/-- The events of raw vertex `u`. -/
def eventsOf (stream : List (Ev E)) (u : UInt32) : List (Ev E × Nat) := (numbered stream).filter (fun x => decide (x.1.src = u))

/-- An edge as a user sees it: raw destination, in-edge position, property. -/
abbrev RawEdge (E : Type) := UInt32 × Nat × E

/-- One event at a time: append on add, remove the earliest edge to the target on delete. -/
def rawRule : List (RawEdge E) → List (Ev E × Nat) → Option (List (RawEdge E))
  | es, [] => some es
  | es, x :: xs =>
    match x.1.typ with
    | .add => rawRule (es ++ [(x.1.dst, x.2, x.1.prop)]) xs
    | .del =>
      if es.any (fun e => decide (e.1 = x.1.dst)) then rawRule (es.eraseP (fun e => decide (e.1 = x.1.dst))) xs else none

/-- The edge as it is in the graph after the run. -/
def view (s : St E) (e : Edge E) : Option UInt32 × Nat × E := (rawId s e.didx, e.pos.toNat, e.data)

/-! ## The events as they reach `EnactTopologyEvents` -/

/-- The event in the topology queue, as the change that `Verif.Enact` applies (`stream.go:68-73`);
`tm` reads timestamp and end time of an edge property. -/
def change (tm : E → UInt64 × UInt64) (r : REv E) : Change E :=
  { typ := r.typ,
    edge := { didx := r.didx, pos := match r.pos with | some n => UInt32.ofNat n | none => 0xFFFFFFFF,
              ts := (tm r.prop).1, endT := (tm r.prop).2, data := r.prop } }

/-- The thread's events, as it takes them from its queue. -/
def taken (tm : E → UInt64 × UInt64) (s : St E) (t : Nat) : List (Nat × Change E) := (s.enacted t).map (fun x => (x.1, change tm x.2))

/-- **C54**, full statement: after a complete run without the race of C52, the edge lists are those of
applying the stream's events one at a time, for any batches. (Without expiry and time ranges.) -/
def C54Statement (E : Type) : Prop :=
  ∀ (p : Params E) (stream : List (Ev E)) (as : List Act) (s : St E), Act.remGiveUp ∉ as → run p stream (start p) as = some s → s.rem = .stopped →
    ∀ (tm : E → UInt64 × UInt64) (o : Opts), o.timeRange = false → o.window = 0 → stream.length ≤ 2 ^ 31 →
    (o.canTs = true → stream.Pairwise (fun a b => (tm a.prop).1 ≤ (tm b.prop).1) ∧ ∀ e ∈ stream, (tm e.prop).1.toNat < 2 ^ 63) →
    ∀ (others : Nat → Bool) (slots cap : Nat) (zero : Change E) (t : Nat), s.topoN t = (s.topo t).length →
    ∀ (bs : List (List (Nat × Change E))), bs.flatten = taken tm s t → (∀ b ∈ bs, b.length ≤ cap) →
    ∀ S, enactAll o others (Enact.start slots cap zero) bs = some S → ∀ u i, fromRaw p s u = some (t, i) →
      ∃ L, rawRule [] (eventsOf stream u) = some L ∧ (S.verts i).map (view s) = L.map (fun e => (some e.1, e.2.1, e.2.2))

/-! ## Proof -/

/-- Change made from a numbered event, with `idOf` naming the vertices. -/
def mk (tm : E → UInt64 × UInt64) (idOf : UInt32 → Nat × Nat) (x : Ev E × Nat) : Change E :=
  { typ := x.1.typ,
    edge := { didx := idOf x.1.dst, pos := if x.1.typ = .add then UInt32.ofNat x.2 else 0xFFFFFFFF,
              ts := (tm x.1.prop).1, endT := (tm x.1.prop).2, data := x.1.prop } }

def toEdge (tm : E → UInt64 × UInt64) (idOf : UInt32 → Nat × Nat) (x : RawEdge E) : Edge E :=
  { didx := idOf x.1, pos := UInt32.ofNat x.2.1, ts := (tm x.2.2).1, endT := (tm x.2.2).2, data := x.2.2 }

theorem eraseP_map' {α β : Type} (f : α → β) (p : β → Bool) (q : α → Bool) : ∀ (l : List α), (∀ a ∈ l, p (f a) = q a) → (l.map f).eraseP p = (l.eraseP q).map f := by
  intro l
  induction l with
  | nil => intro _; rfl
  | cons a l ih =>
    intro h
    have ha := h a (List.mem_cons_self ..)
    cases hq : q a with
    | true => rw [hq] at ha; simp [ha, hq]
    | false =>
      rw [hq] at ha
      simp only [List.map_cons]
      rw [List.eraseP_cons_of_neg (by simp [ha]), List.eraseP_cons_of_neg (by simp [hq]), ih (fun b hb => h b (List.mem_cons_of_mem _ hb))]
      rfl

/-- The two rules agree when ids are injective. -/
theorem rule_raw (tm : E → UInt64 × UInt64) (idOf : UInt32 → Nat × Nat) (S : UInt32 → Prop) (hinj : ∀ a b, S a → S b → idOf a = idOf b → a = b) :
    ∀ (xs : List (Ev E × Nat)) (es : List (RawEdge E)), (∀ x ∈ xs, S x.1.dst) → (∀ e ∈ es, S e.1) →
    rule (es.map (toEdge tm idOf)) (xs.map (mk tm idOf)) = (rawRule es xs).map (fun l => l.map (toEdge tm idOf)) ∧
    ∀ l, rawRule es xs = some l → ∀ e ∈ l, S e.1 ∧ (e ∈ es ∨ ∃ x ∈ xs, e = (x.1.dst, x.2, x.1.prop)) := by
  intro xs
  induction xs with
  | nil =>
    intro es _ hes
    refine ⟨rfl, ?_⟩
    intro l h e he
    injection h with h; subst h
    exact ⟨hes e he, .inl he⟩
  | cons x xs ih =>
    intro es hx hes
    have hx' := fun y hy => hx y (List.mem_cons_of_mem _ hy)
    cases ht : x.1.typ with
    | add =>
      have e1 : (mk tm idOf x).typ = .add := ht
      have e2 : (mk tm idOf x).edge = toEdge tm idOf (x.1.dst, x.2, x.1.prop) := by simp [mk, toEdge, ht]
      simp only [List.map_cons, rule, e1, rawRule, ht]
      obtain ⟨i1, i2⟩ := ih (es ++ [(x.1.dst, x.2, x.1.prop)]) hx' (by
        intro e he
        rw [List.mem_append, List.mem_singleton] at he
        rcases he with he | he
        · exact hes e he
        · rw [he]; exact hx x (List.mem_cons_self ..))
      rw [List.map_append, List.map_singleton, ← e2] at i1
      refine ⟨i1, ?_⟩
      intro l hl e he
      obtain ⟨a, b⟩ := i2 l hl e he
      refine ⟨a, ?_⟩
      rcases b with b | ⟨y, hy, b⟩
      · rw [List.mem_append, List.mem_singleton] at b
        rcases b with b | b
        · exact .inl b
        · exact .inr ⟨x, List.mem_cons_self .., b⟩
      · exact .inr ⟨y, List.mem_cons_of_mem _ hy, b⟩
    | del =>
      have e1 : (mk tm idOf x).typ = .del := ht
      have e2 : (mk tm idOf x).edge.didx = idOf x.1.dst := rfl
      have hp : ∀ e ∈ es, decide ((toEdge tm idOf e).didx = idOf x.1.dst) = decide (e.1 = x.1.dst) := by
        intro e he
        rw [decide_eq_decide]
        constructor
        · intro h; exact hinj _ _ (hes e he) (hx x (List.mem_cons_self ..)) h
        · intro h; simp [toEdge, h]
      have hany : (es.map (toEdge tm idOf)).any (fun e => decide (e.didx = idOf x.1.dst)) = es.any (fun e => decide (e.1 = x.1.dst)) := by
        rw [List.any_map, Bool.eq_iff_iff, List.any_eq_true, List.any_eq_true]
        constructor
        · rintro ⟨e, he, h⟩; exact ⟨e, he, by rw [← hp e he]; exact h⟩
        · rintro ⟨e, he, h⟩; exact ⟨e, he, by rw [← hp e he] at h; exact h⟩
      simp only [List.map_cons, rule, e1, rawRule, ht, e2, Verif.Enact.removeFirst, hany]
      by_cases hc : es.any (fun e => decide (e.1 = x.1.dst)) = true
      · rw [if_pos hc, if_pos hc, Option.bind_some, eraseP_map' (toEdge tm idOf) _ (fun e => decide (e.1 = x.1.dst)) es hp]
        have hsub : (es.eraseP (fun e => decide (e.1 = x.1.dst))).Sublist es := List.eraseP_sublist
        obtain ⟨i1, i2⟩ := ih (es.eraseP (fun e => decide (e.1 = x.1.dst))) hx' (fun e he => hes e (hsub.subset he))
        refine ⟨i1, ?_⟩
        intro l hl e he
        obtain ⟨a, b⟩ := i2 l hl e he
        refine ⟨a, ?_⟩
        rcases b with b | ⟨y, hy, b⟩
        · exact .inl (hsub.subset b)
        · exact .inr ⟨y, List.mem_cons_of_mem _ hy, b⟩
      · rw [if_neg hc, if_neg hc]
        exact ⟨rfl, by intro l hl; cases hl⟩

/-- The thread's events are those of the stream. -/
theorem taken_own {p : Params E} {stream : List (Ev E)} {s : St E} (hi : Inv p stream s) (hr : s.remitted.length = stream.length)
    (tm : E → UInt64 × UInt64) {t : Nat} (hd : s.topoN t = (s.topo t).length) {i : Nat} {u : UInt32} (hu : fromRaw p s u = some (t, i)) :
    ((taken tm s t).filter (fun x => decide (x.1 = i))).map (·.2) = (eventsOf stream u).map (mk tm (fun d => (fromRaw p s d).getD (0, 0))) := by
  -- what the remitter passed on
  have hrem : s.remitted.map (fun r => (r.src, change tm r)) = (numbered stream).map (fun x => (x.1.src, mk tm (fun d => (fromRaw p s d).getD (0, 0)) x)) := by
    apply List.ext_getElem?
    intro k
    rw [List.getElem?_map, List.getElem?_map]
    unfold numbered
    rw [List.getElem?_mapIdx]
    by_cases hk : k < stream.length
    · have h1 : s.remitted[k]? = some (s.remitted[k]'(by omega)) := List.getElem?_eq_getElem (by omega)
      obtain ⟨e, he, hc⟩ := hi.remd k _ h1
      rw [h1, he]
      simp only [Option.map_some, Option.some.injEq, Prod.mk.injEq]
      refine ⟨hc.src, ?_⟩
      have hv : fromRaw p s e.dst = some (s.remitted[k]'(by omega)).didx := by
        unfold fromRaw
        rw [hc.vertex, Option.map_some, ← hc.thread]
      unfold change mk
      simp only [hv, Option.getD_some, hc.typ, hc.prop, hc.pos]
      congr 2
      by_cases ha : e.typ = .add
      · simp only [if_pos ha, countAdds, List.countP_eq_length_filter]
      · simp only [if_neg ha]
    · rw [List.getElem?_eq_none (by omega), List.getElem?_eq_none (by omega)]; rfl
  obtain ⟨j, hj, hji⟩ := Option.map_eq_some_iff.1 hu
  injection hji with ho hj'
  subst hj'
  -- the events of vertex `j` are those with source `u`
  have hsel : ∀ x ∈ s.enacted t, decide (x.1 = j) = decide (x.2.src = u) := by
    rintro ⟨k, r⟩ hx
    have h1 := hi.enS t k r hx
    rw [decide_eq_decide]
    rw [ho] at hj
    constructor
    · intro e
      simp only at e
      subst e
      obtain ⟨v1, a1, a2⟩ := (hi.th t).fwd _ _ h1
      obtain ⟨v2, b1, b2⟩ := (hi.th t).fwd _ _ hj
      rw [a1] at b1
      injection b1 with b1
      rw [← a2, b1, b2]
    · intro e
      simp only at e
      subst e
      rw [hj] at h1
      injection h1 with h1; exact h1.symm
  unfold taken
  rw [List.filter_map, List.map_map]
  have h1 : (s.enacted t).filter ((fun x : Nat × Change E => decide (x.1 = j)) ∘ fun x => (x.1, change tm x.2)) = (s.enacted t).filter (fun x => decide (x.2.src = u)) := by
    apply List.filter_congr
    intro x hx
    exact hsel x hx
  rw [h1]
  have h2 : ((s.enacted t).filter (fun x => decide (x.2.src = u))).map ((fun x : Nat × Change E => x.2) ∘ fun x => (x.1, change tm x.2)) =
      (((s.enacted t).map Prod.snd).filter (fun r => decide (r.src = u))).map (change tm) := by
    rw [List.filter_map, List.map_map]; rfl
  rw [h2, hi.en t, hd, List.take_length, hi.topo t, List.filter_filter]
  have h3 : s.remitted.filter (fun a => decide (a.src = u) && ownR p.T t a) = s.remitted.filter (fun a => decide (a.src = u)) := by
    apply List.filter_congr
    intro r _
    by_cases e : r.src = u
    · simp [e, ownR, ho]
    · simp [e]
  rw [h3]
  have h4 : (s.remitted.filter (fun a => decide (a.src = u))).map (change tm) =
      ((s.remitted.map (fun r => (r.src, change tm r))).filter (fun x => decide (x.1 = u))).map (·.2) := by
    rw [List.filter_map, List.map_map]; rfl
  rw [h4, hrem, List.filter_map, List.map_map]
  rfl

theorem numbered_mem {stream : List (Ev E)} {x : Ev E × Nat} (h : x ∈ numbered stream) : x.1 ∈ stream ∧ x.2 < stream.length := by
  unfold numbered at h
  obtain ⟨k, hk⟩ := List.mem_iff_getElem?.1 h
  rw [List.getElem?_mapIdx] at hk
  obtain ⟨e, he, rfl⟩ := Option.map_eq_some_iff.1 hk
  have hlt := (List.getElem?_eq_some_iff.1 he).1
  refine ⟨List.mem_of_getElem? he, ?_⟩
  have h1 := List.length_filter_le (fun x : Ev E => decide (x.typ = .add) && decide (x.dst = e.dst)) (stream.take k)
  simp only [List.length_take] at h1
  simp only
  omega

/-- **C54**, what holds: take a complete run of the pipeline without the race of C52, any batches, and
a stream in which deletes find at most one edge to their target. Then after applying its events, a
thread's edge lists are those of the stream for each of its raw vertices; if a delete has no edge, the
run aborts. Missing: deletes among parallel edges (`C25_false`), expiry (C26), time ranges. -/
theorem C54_graph_partial (p : Params E) (stream : List (Ev E)) (as : List Act) (s : St E) (hn : Act.remGiveUp ∉ as)
    (h : run p stream (start p) as = some s) (hs : s.rem = .stopped)
    (tm : E → UInt64 × UInt64) (o : Opts) (ho : o.timeRange = false) (hw : o.window = 0) (hlen : stream.length ≤ 2 ^ 31)
    (hts : o.canTs = true → stream.Pairwise (fun a b => (tm a.prop).1 ≤ (tm b.prop).1) ∧ ∀ e ∈ stream, (tm e.prop).1.toNat < 2 ^ 63)
    (hone : ∀ (u : UInt32) (a b : List (Ev E × Nat)) (x : Ev E × Nat) (es : List (RawEdge E)), eventsOf stream u = a ++ x :: b → x.1.typ = .del →
      rawRule [] a = some es → (es.filter (fun e => decide (e.1 = x.1.dst))).length ≤ 1)
    (others : Nat → Bool) (slots cap : Nat) (zero : Change E)
    (t : Nat) (hd : s.topoN t = (s.topo t).length) (bs : List (List (Nat × Change E))) (hbs : bs.flatten = taken tm s t) (hcap : ∀ b ∈ bs, b.length ≤ cap) :
    (∀ S, enactAll o others (Enact.start slots cap zero) bs = some S → ∀ u i, fromRaw p s u = some (t, i) →
      ∃ L, rawRule [] (eventsOf stream u) = some L ∧ (S.verts i).map (view s) = L.map (fun e => (some e.1, e.2.1, e.2.2))) ∧
    (enactAll o others (Enact.start slots cap zero) bs = none → ∃ u, rawRule [] (eventsOf stream u) = none) := by
  have hi := inv_run p stream as hn (inv_start p stream) h
  have hr := hi.rem
  simp only [RemOk, hs] at hr
  have hrl : s.remitted.length = stream.length := hr.2
  generalize hid : (fun d => (fromRaw p s d).getD (0, 0)) = idOf
  have hown : ∀ u i, fromRaw p s u = some (t, i) → history bs i = (eventsOf stream u).map (mk tm idOf) := by
    intro u i hu
    unfold history
    rw [hbs, taken_own hi hrl tm hd hu, hid]
  -- vertices that are not there have no events
  have hmiss : ∀ i, (∀ u, fromRaw p s u ≠ some (t, i)) → history bs i = [] := by
    intro i hu
    unfold history
    rw [hbs, List.map_eq_nil_iff, List.filter_eq_nil_iff]
    intro x hx
    unfold taken at hx
    obtain ⟨⟨k, r⟩, hx', rfl⟩ := List.mem_map.1 hx
    simp only [decide_eq_true_eq]
    intro e
    subst e
    exact hu r.src (Verif.Props.Pipeline.C45_endpoints p stream as s hn h t k r hx').1
  -- destinations in the stream have ids
  have hdst : ∀ e ∈ stream, ∃ id, fromRaw p s e.dst = some id := by
    intro e he
    obtain ⟨k, hk⟩ := List.mem_iff_getElem?.1 he
    have hlt := (List.getElem?_eq_some_iff.1 hk).1
    have h1 : s.remitted[k]? = some (s.remitted[k]'(by omega)) := List.getElem?_eq_getElem (by omega)
    obtain ⟨e', he', hc⟩ := hi.remd k _ h1
    rw [hk] at he'
    injection he' with he'; subst he'
    refine ⟨(s.remitted[k]'(by omega)).didx, ?_⟩
    unfold fromRaw
    rw [hc.vertex, Option.map_some, ← hc.thread]
  have hraw : ∀ d, (∃ id, fromRaw p s d = some id) → rawId s (idOf d) = some d := by
    rintro d ⟨id, hd⟩
    have : idOf d = id := by rw [← hid]; simp [hd]
    rw [this]
    exact ((Verif.Props.Pipeline.C45_one_id p stream as s h d id).1 hd).1
  have hinj : ∀ a b, (∃ id, fromRaw p s a = some id) → (∃ id, fromRaw p s b = some id) → idOf a = idOf b → a = b := by
    intro a b ha hb e
    have h1 := hraw a ha
    have h2 := hraw b hb
    rw [e, h2] at h1
    injection h1 with h1; exact h1.symm
  have hS : ∀ u, ∀ x ∈ eventsOf stream u, (∃ id, fromRaw p s x.1.dst = some id) := by
    intro u x hx
    exact hdst _ (numbered_mem (List.mem_filter.1 hx).1).1
  have hrule : ∀ (xs : List (Ev E × Nat)), (∀ x ∈ xs, (∃ id, fromRaw p s x.1.dst = some id)) →
      rule [] (xs.map (mk tm idOf)) = (rawRule [] xs).map (fun l => l.map (toEdge tm idOf)) ∧
      ∀ l, rawRule [] xs = some l → ∀ e ∈ l, (∃ id, fromRaw p s e.1 = some id) ∧ ∃ x ∈ xs, e = (x.1.dst, x.2, x.1.prop) := by
    intro xs hx
    obtain ⟨a, b⟩ := rule_raw tm idOf (fun d => ∃ id, fromRaw p s d = some id) hinj xs [] hx (by simp)
    refine ⟨a, ?_⟩
    intro l hl e he
    obtain ⟨c, d⟩ := b l hl e he
    exact ⟨c, d.resolve_left (by simp)⟩
  -- the hypotheses of C25
  have huse : ∀ i, Enact.Usable o (history bs i) := by
    intro i
    by_cases hex : ∃ u, fromRaw p s u = some (t, i)
    · obtain ⟨u, hu⟩ := hex
      rw [hown u i hu]
      have hadds : ∀ e ∈ Enact.added ((eventsOf stream u).map (mk tm idOf)), ∃ x ∈ eventsOf stream u, x.1.typ = .add ∧ e = (mk tm idOf x).edge := by
        intro e he
        unfold Enact.added at he
        obtain ⟨c, hc, rfl⟩ := List.mem_map.1 he
        obtain ⟨hc1, hc2⟩ := List.mem_filter.1 hc
        obtain ⟨x, hx, rfl⟩ := List.mem_map.1 hc1
        exact ⟨x, hx, of_decide_eq_true hc2, rfl⟩
      refine ⟨?_, ?_⟩
      · intro e he
        obtain ⟨x, hx, hx2, rfl⟩ := hadds e he
        have := (numbered_mem (List.mem_filter.1 hx).1).2
        simp only [mk, hx2, if_true]
        rw [UInt32.toNat_ofNat_of_lt' (by simp only [UInt32.size]; omega)]
        omega
      · intro hc
        obtain ⟨h1, h2⟩ := hts hc
        refine ⟨?_, ?_⟩
        · unfold Enact.added
          rw [List.pairwise_map]
          refine List.Pairwise.filter _ ?_
          rw [List.pairwise_map]
          unfold eventsOf
          refine List.Pairwise.filter _ ?_
          have hm : (numbered stream).map (·.1) = stream := by
            unfold numbered
            apply List.ext_getElem?
            intro k
            rw [List.getElem?_map, List.getElem?_mapIdx]
            cases stream[k]? <;> rfl
          rw [← hm, List.pairwise_map] at h1
          exact h1
        · intro e he
          obtain ⟨x, hx, hx2, rfl⟩ := hadds e he
          exact h2 x.1 (numbered_mem (List.mem_filter.1 hx).1).1
    · rw [hmiss i (fun u hu => hex ⟨u, hu⟩)]
      exact ⟨by simp [Enact.added], fun _ => ⟨by simp [Enact.added], by simp [Enact.added]⟩⟩
  have hsimple : ∀ (v : Nat) (a b : List (Change E)) (c : Change E) (es : List (Edge E)), history bs v = a ++ c :: b → c.typ = .del → rule [] a = some es →
      (es.filter (fun e => decide (e.didx = c.edge.didx))).length ≤ 1 := by
    intro v a b c es he hc hru
    by_cases hex : ∃ u, fromRaw p s u = some (t, v)
    · obtain ⟨u, hu⟩ := hex
      rw [hown u v hu] at he
      obtain ⟨a', l2, hsp, ha, h2⟩ := List.map_eq_append_iff.1 he
      obtain ⟨x, b', h2', hx, hb⟩ := List.map_eq_cons_iff.1 h2
      subst h2'
      have hxt : x.1.typ = .del := by rw [← hx] at hc; exact hc
      have hmem : ∀ y ∈ a', (∃ id, fromRaw p s y.1.dst = some id) := fun y hy => hS u y (by rw [hsp]; exact List.mem_append_left _ hy)
      obtain ⟨q1, q2⟩ := hrule a' hmem
      rw [ha, hru] at q1
      cases hrr : rawRule [] a' with
      | none => rw [hrr] at q1; cases q1
      | some L =>
        rw [hrr] at q1
        simp only [Option.map_some, Option.some.injEq] at q1
        have := hone u a' b' x L hsp hxt hrr
        rw [q1, List.filter_map, List.length_map]
        refine Nat.le_trans (Nat.le_of_eq ?_) this
        congr 1
        apply List.filter_congr
        intro e hem
        rw [← hx]
        simp only [Function.comp, decide_eq_decide]
        constructor
        · intro heq
          exact hinj _ _ (q2 L hrr e hem).1 (hS u x (by rw [hsp]; simp)) heq
        · intro heq; simp [toEdge, mk, heq]
    · rw [hmiss v (fun u hu => hex ⟨u, hu⟩)] at he
      exact absurd he (by simp)
  obtain ⟨r1, r2⟩ := Enact.C25_simple_partial o ho hw others slots cap zero bs hcap huse hsimple
  refine ⟨?_, ?_⟩
  · intro S hS1 u i hu
    have h1 := r1 S hS1 i
    rw [hown u i hu] at h1
    obtain ⟨q1, q2⟩ := hrule (eventsOf stream u) (hS u)
    rw [h1] at q1
    cases hrr : rawRule [] (eventsOf stream u) with
    | none => rw [hrr] at q1; cases q1
    | some L =>
      rw [hrr] at q1
      simp only [Option.map_some, Option.some.injEq] at q1
      refine ⟨L, rfl, ?_⟩
      rw [q1, List.map_map]
      apply List.map_congr_left
      intro e he
      obtain ⟨q3, x, hx, rfl⟩ := q2 L hrr e he
      have hlt := (numbered_mem (List.mem_filter.1 hx).1).2
      simp only [Function.comp, view, toEdge]
      rw [hraw _ q3, UInt32.toNat_ofNat_of_lt' (by simp only [UInt32.size]; omega)]
  · intro hnone
    obtain ⟨v, hv⟩ := r2 hnone
    by_cases hex : ∃ u, fromRaw p s u = some (t, v)
    · obtain ⟨u, hu⟩ := hex
      refine ⟨u, ?_⟩
      rw [hown u v hu, (hrule (eventsOf stream u) (hS u)).1, Option.map_eq_none_iff] at hv
      exact hv
    · rw [hmiss v (fun u hu => hex ⟨u, hu⟩)] at hv
      cases hv

theorem rawRule_adds : ∀ (xs : List (Ev E × Nat)) (es : List (RawEdge E)), (∀ x ∈ xs, x.1.typ = .add) →
    rawRule es xs = some (es ++ xs.map (fun x => (x.1.dst, x.2, x.1.prop))) := by
  intro xs
  induction xs with
  | nil => intro es _; simp [rawRule]
  | cons x xs ih =>
    intro es h
    simp only [rawRule, h x (List.mem_cons_self ..)]
    rw [ih _ (fun y hy => h y (List.mem_cons_of_mem _ hy))]
    simp

/-- **C54** for add-only streams: nothing panics, and the edge list of every raw vertex is its adds in
stream order, each with the number of earlier adds to the same destination. The right-hand side does
not mention threads, schedule or batches. -/
theorem C54_adds (p : Params E) (stream : List (Ev E)) (as : List Act) (s : St E) (hn : Act.remGiveUp ∉ as)
    (h : run p stream (start p) as = some s) (hs : s.rem = .stopped) (hadd : ∀ e ∈ stream, e.typ = .add)
    (tm : E → UInt64 × UInt64) (o : Opts) (ho : o.timeRange = false) (hw : o.window = 0) (hlen : stream.length ≤ 2 ^ 31)
    (hts : o.canTs = true → stream.Pairwise (fun a b => (tm a.prop).1 ≤ (tm b.prop).1) ∧ ∀ e ∈ stream, (tm e.prop).1.toNat < 2 ^ 63)
    (others : Nat → Bool) (slots cap : Nat) (zero : Change E)
    (t : Nat) (hd : s.topoN t = (s.topo t).length) (bs : List (List (Nat × Change E))) (hbs : bs.flatten = taken tm s t) (hcap : ∀ b ∈ bs, b.length ≤ cap) :
    ∃ S, enactAll o others (Enact.start slots cap zero) bs = some S ∧ ∀ u i, fromRaw p s u = some (t, i) →
      (S.verts i).map (view s) = (eventsOf stream u).map (fun x => (some x.1.dst, x.2, x.1.prop)) := by
  have hall : ∀ u, ∀ x ∈ eventsOf stream u, x.1.typ = .add := fun u x hx => hadd _ (numbered_mem (List.mem_filter.1 hx).1).1
  obtain ⟨h1, h2⟩ := C54_graph_partial p stream as s hn h hs tm o ho hw hlen hts (by
    intro u a b x es he hx
    have := hall u x (by rw [he]; simp)
    rw [hx] at this; cases this) others slots cap zero t hd bs hbs hcap
  cases hE : enactAll o others (Enact.start slots cap zero) bs with
  | none =>
    obtain ⟨u, hu⟩ := h2 hE
    rw [rawRule_adds _ _ (hall u)] at hu
    cases hu
  | some S =>
    refine ⟨S, rfl, ?_⟩
    intro u i hu
    obtain ⟨L, a1, a2⟩ := h1 S hE u i hu
    rw [rawRule_adds _ _ (hall u)] at a1
    injection a1 with a1
    rw [a2, ← a1, List.nil_append, List.map_map]
    rfl

/-- **C54** for add-only streams and whatever options, expiry aside: also with edge ends, and with timestamps in no
order. -/
theorem C54_adds_any (p : Params E) (stream : List (Ev E)) (as : List Act) (s : St E) (hn : Act.remGiveUp ∉ as)
    (h : run p stream (start p) as = some s) (hs : s.rem = .stopped) (hadd : ∀ e ∈ stream, e.typ = .add)
    (tm : E → UInt64 × UInt64) (o : Opts) (hw : o.window = 0) (hlen : stream.length ≤ 2 ^ 32)
    (others : Nat → Bool) (slots cap : Nat) (zero : Change E)
    (t : Nat) (hd : s.topoN t = (s.topo t).length) (bs : List (List (Nat × Change E))) (hbs : bs.flatten = taken tm s t)
    (S : Th E) (hS : enactAll o others (Enact.start slots cap zero) bs = some S) (u : UInt32) (i : Nat) (hu : fromRaw p s u = some (t, i)) :
    (S.verts i).map (view s) = (eventsOf stream u).map (fun x => (some x.1.dst, x.2, x.1.prop)) := by
  have hi := inv_run p stream as hn (inv_start p stream) h
  have hr := hi.rem
  simp only [RemOk, hs] at hr
  have hrl : s.remitted.length = stream.length := hr.2
  have hall : ∀ x ∈ eventsOf stream u, x.1.typ = .add := fun x hx => hadd _ (numbered_mem (List.mem_filter.1 hx).1).1
  have hhist : history bs i = (eventsOf stream u).map (mk tm (fun d => (fromRaw p s d).getD (0, 0))) := by
    unfold history
    rw [hbs, taken_own hi hrl tm hd hu]
  obtain ⟨c1, c2⟩ := Enact.C24_delivered o hw others slots cap zero bs hS i
  obtain ⟨calls, a1, -, a3⟩ := Enact.enactAll_any o others bs _ _ (Enact.rested_start slots cap zero) hS i
  have e0 : Enact.callsOf (Enact.start slots cap zero) i = [] := rfl
  rw [e0, List.nil_append] at a1
  rw [← a1] at a3
  have hdel : Enact.deletedBy (Enact.callsOf S i) = [] := by
    rw [← List.length_eq_zero_iff, c2, hhist]
    unfold Enact.targets
    rw [List.length_map, List.length_eq_zero_iff, List.filter_eq_nil_iff]
    intro c hc
    obtain ⟨x, hx, rfl⟩ := List.mem_map.1 hc
    have e1 : (mk tm (fun d => (fromRaw p s d).getD (0, 0)) x).typ = .add := hall x hx
    rw [e1]
    decide
  have hv : S.verts i = ((eventsOf stream u).map (mk tm (fun d => (fromRaw p s d).getD (0, 0)))).map (·.edge) := by
    have := a3.same hdel
    rw [this, c1, hhist]
    unfold Enact.added
    rw [List.filter_eq_self.2]
    · rfl
    · intro c hc
      obtain ⟨x, hx, rfl⟩ := List.mem_map.1 hc
      have e1 : (mk tm (fun d => (fromRaw p s d).getD (0, 0)) x).typ = .add := hall x hx
      rw [e1]
      decide
  rw [hv, List.map_map, List.map_map]
  refine List.map_congr_left fun x hx => ?_
  obtain ⟨hx1, hx2⟩ := numbered_mem (List.mem_filter.1 hx).1
  have hid : ∃ id, fromRaw p s x.1.dst = some id := by
    obtain ⟨k, hk⟩ := List.mem_iff_getElem?.1 hx1
    have hlt := (List.getElem?_eq_some_iff.1 hk).1
    have h1 : s.remitted[k]? = some (s.remitted[k]'(by omega)) := List.getElem?_eq_getElem (by omega)
    obtain ⟨e', he', hc⟩ := hi.remd k _ h1
    rw [hk] at he'
    injection he' with he'; subst he'
    refine ⟨(s.remitted[k]'(by omega)).didx, ?_⟩
    unfold fromRaw
    rw [hc.vertex, Option.map_some, ← hc.thread]
  obtain ⟨id, hid⟩ := hid
  have h1 := ((Verif.Props.Pipeline.C45_one_id p stream as s h x.1.dst id).1 hid).1
  have hp : (UInt32.ofNat x.2).toNat = x.2 := by
    simp only [UInt32.toNat_ofNat']
    omega
  simp only [Function.comp, view, mk, hid, Option.getD_some, h1, if_pos (hall x hx), hp]

/-- **C54**: two complete runs on the same add-only stream - any numbers of threads, any schedules, any
batches - end with the same edge lists. -/
theorem C54_same_graph (p p' : Params E) (stream : List (Ev E)) (as as' : List Act) (s s' : St E) (hn : Act.remGiveUp ∉ as) (hn' : Act.remGiveUp ∉ as')
    (h : run p stream (start p) as = some s) (h' : run p' stream (start p') as' = some s') (hs : s.rem = .stopped) (hs' : s'.rem = .stopped)
    (hadd : ∀ e ∈ stream, e.typ = .add)
    (tm : E → UInt64 × UInt64) (o : Opts) (ho : o.timeRange = false) (hw : o.window = 0) (hlen : stream.length ≤ 2 ^ 31)
    (hts : o.canTs = true → stream.Pairwise (fun a b => (tm a.prop).1 ≤ (tm b.prop).1) ∧ ∀ e ∈ stream, (tm e.prop).1.toNat < 2 ^ 63)
    (others others' : Nat → Bool) (slots slots' cap cap' : Nat) (zero zero' : Change E)
    (u : UInt32) (t t' i i' : Nat) (hu : fromRaw p s u = some (t, i)) (hu' : fromRaw p' s' u = some (t', i'))
    (hd : s.topoN t = (s.topo t).length) (hd' : s'.topoN t' = (s'.topo t').length)
    (bs bs' : List (List (Nat × Change E))) (hbs : bs.flatten = taken tm s t) (hbs' : bs'.flatten = taken tm s' t')
    (hcap : ∀ b ∈ bs, b.length ≤ cap) (hcap' : ∀ b ∈ bs', b.length ≤ cap') :
    ∃ S S', enactAll o others (Enact.start slots cap zero) bs = some S ∧ enactAll o others' (Enact.start slots' cap' zero') bs' = some S' ∧
      (S.verts i).map (view s) = (S'.verts i').map (view s') := by
  obtain ⟨S, a1, a2⟩ := C54_adds p stream as s hn h hs hadd tm o ho hw hlen hts others slots cap zero t hd bs hbs hcap
  obtain ⟨S', b1, b2⟩ := C54_adds p' stream as' s' hn' h' hs' hadd tm o ho hw hlen hts others' slots' cap' zero' t' hd' bs' hbs' hcap'
  exact ⟨S, S', a1, b1, by rw [a2 u i hu, b2 u i' hu']⟩

/-! ## Concrete case: the two-thread run of `Verif.Props.Pipeline`, thread 1 in two batches -/

open Verif.Props.Pipeline (twoThreads three exAs)

def noTime : Unit → UInt64 × UInt64 := fun _ => (0, 0)

example : (run twoThreads three (start twoThreads) exAs).map (fun s => (decide (s.topoN 1 = (s.topo 1).length), (taken noTime s 1).length, fromRaw twoThreads s 5)) =
    some (true, 2, some (1, 1)) := by decide +kernel

example : ((run twoThreads three (start twoThreads) exAs).bind fun s =>
    (enactAll Enact.exOpts (fun _ => false) (Enact.start 1 4 (Enact.exAdd 0 0 0)) [(taken noTime s 1).take 1, (taken noTime s 1).drop 1]).map fun S =>
      (S.verts 1).map (view s)) = some [(some 7, 0, ())] := by decide +kernel

example : eventsOf three 5 = [(⟨.add, 0, 5, 7, ()⟩, 0)] := by decide +kernel

/-! ## The full statement fails -/

def oneThread : Params Unit := ⟨1, 4, 4, 4, 4, none, ()⟩

/-- Two edges 0 -> 7, one edge 0 -> 8; delete 0 -> 8, then 0 -> 7. -/
def five : List (Ev Unit) := [⟨.add, 0, 0, 7, ()⟩, ⟨.add, 1, 0, 7, ()⟩, ⟨.add, 2, 0, 8, ()⟩, ⟨.del, 3, 0, 8, ()⟩, ⟨.del, 4, 0, 7, ()⟩]

def fiveAs : List Act :=
  (List.replicate 5 [Act.emitPut, .emitOrder, .convert 0, .remTake, .remGet, .remPut, .enact 0]).flatten ++ [.emitClose, .emitClose, .remStop]

/-- The edges of vertex 0 when its thread takes `k` events in the first batch. -/
def fiveEdges (k : Nat) : Option (List (Option UInt32 × Nat × Unit)) :=
  (run oneThread five (start oneThread) fiveAs).bind fun s =>
    (enactAll Enact.exOpts (fun _ => false) (Enact.start 1 8 (Enact.exAdd 0 0 0)) [(taken noTime s 0).take k, (taken noTime s 0).drop k]).map fun S =>
      (S.verts 1).map (view s)

/-- The final graph depends on where the batches end: the remaining edge is the second one or the first. -/
theorem C54_batches_matter : fiveEdges 4 = some [(some 7, 1, ())] ∧ fiveEdges 3 = some [(some 7, 0, ())] := by
  constructor <;> decide +kernel

theorem C54_false : ¬ C54Statement Unit := by
  intro h
  have hb := C54_batches_matter.2
  unfold fiveEdges at hb
  obtain ⟨s, hs, hb⟩ := Option.bind_eq_some_iff.1 hb
  obtain ⟨S, hS, hb⟩ := Option.map_eq_some_iff.1 hb
  have ho : (run oneThread five (start oneThread) fiveAs).map (fun s => (decide (s.topoN 0 = (s.topo 0).length), fromRaw oneThread s 0, (taken noTime s 0).length,
      match s.rem with | .stopped => true | _ => false)) = some (true, some (0, 1), 5, true) := by decide +kernel
  rw [hs] at ho
  simp only [Option.map_some, Option.some.injEq, Prod.mk.injEq, decide_eq_true_eq] at ho
  obtain ⟨o1, o2, o3, o4⟩ := ho
  have hst : s.rem = .stopped := by
    cases hr : s.rem <;> rw [hr] at o4 <;> first | rfl | (cases o4)
  obtain ⟨L, hL, hv⟩ := h oneThread five fiveAs s (by decide) hs hst noTime Enact.exOpts rfl rfl (by decide) (by intro hc; cases hc) (fun _ => false) 1 8
    (Enact.exAdd 0 0 0) 0 o1 [(taken noTime s 0).take 3, (taken noTime s 0).drop 3] (by simp) (by
      intro b hb
      simp only [List.mem_cons, List.not_mem_nil, or_false] at hb
      rcases hb with rfl | rfl
      · rw [List.length_take]; omega
      · rw [List.length_drop]; omega) S hS 0 1 o2
  have h5 : rawRule [] (eventsOf five 0) = some [(7, 1, ())] := by decide +kernel
  rw [h5] at hL
  injection hL with hL
  subst hL
  rw [hb] at hv
  exact absurd hv (by decide)

end Verif.Props.EndToEnd
