import Verif.Props.Loader
import Verif.Props.EndToEnd
import Verif.Async

/-!
# From a file to the graph an algorithm runs on

The stages between the file and the algorithm, one after the other: `EdgeEnqueueToEmitter` and `Emitter`
(`Verif/Loader.lean`), emitter to graph threads and remitter (`Verif/Pipeline.lean`), `EnactTopologyEvents`
(`Verif/Enact.lean`). All stages run at once; each of the machines takes steps whenever its inputs allow, so the
steps of one stage can be considered after those of the stage before it.

In a static run (`graph/algorithm.go:185-201`) the algorithm then runs on the edge lists as they are.
-/

namespace Verif.Built

open Verif.Loader (Ops Ev)
open Verif.Pipeline (Params fromRaw rawId owner)
open Verif.Props.Loader (Reads IsStream FromFile numbered mirror)
open Verif.Props.EndToEnd (taken eventsOf view)

variable {E D : Type}

/-- The number of an internal id: thread and index (`graph/graph-vertex.go:57-61`,
`graph/stream-enact-events.go:16-17`); as `Verif/Ids.lean`, without the 32 bits. -/
def pack (id : Nat × Nat) : Nat := id.1 * 2 ^ 27 + id.2

theorem pack_inj {a b : Nat × Nat} (ha : a.2 < 2 ^ 27) (hb : b.2 < 2 ^ 27) (h : pack a = pack b) : a = b := by
  unfold pack at h
  obtain ⟨a1, a2⟩ := a
  obtain ⟨b1, b2⟩ := b
  simp only at ha hb h
  have : a1 = b1 := by omega
  subst this
  have : a2 = b2 := by omega
  rw [this]

/-- The stages up to the graph are complete: `s` is the state of the pipeline and `S t` what thread `t` has applied.
`races` says whether the two races on closing queues may have happened (`C21_statement_false`, `C52_statement_false`). -/
structure Complete (races : Prop) (ops : Ops E) (c : Loader.Cfg) (p : Params E) (tm : E → UInt64 × UInt64) (o : Enact.Opts)
    (file : List (List UInt8)) (s : Pipeline.St E) (S : Nat → Enact.Th E) : Prop where
  stages : ∃ n qs as l bs, 0 < n ∧ FromFile ops c n file qs ∧ Loader.run ops c n qs Loader.start as = some l ∧ l.done = true ∧
    (¬ races → l.taken l.turn = l.sent l.turn ∧ Pipeline.Act.remGiveUp ∉ bs) ∧
    Pipeline.run p l.out (Pipeline.start p) bs = some s
  stopped : s.rem = .stopped
  drained : ∀ t, t < p.T → s.topoN t = (s.topo t).length
  enacted : ∀ t, t < p.T → ∃ others slots cap zero bs, bs.flatten = taken tm s t ∧ (∀ b ∈ bs, b.length ≤ cap) ∧
    Enact.enactAll o others (Enact.start slots cap zero) bs = some (S t)

/-- The edge lists the algorithm runs on: vertex `v` is vertex `v % 2^27` of thread `v / 2^27`. `f` picks what an
algorithm reads of an edge: its position and property. -/
def graphOf (f : Nat → E → D) (p : Params E) (s : Pipeline.St E) (S : Nat → Enact.Th E) (v : Nat) : List (Async.Edge D) :=
  if v / 2 ^ 27 < p.T ∧ v % 2 ^ 27 < (s.th (v / 2 ^ 27)).verts.length then
    ((S (v / 2 ^ 27)).verts (v % 2 ^ 27)).map fun e => ⟨pack e.didx, f e.pos.toNat e.data⟩
  else []

theorem reads_add {o : Ops E} {c : Loader.Cfg} {k : Nat} {file : List (List UInt8)} {evs : List (Ev E)} (h : Reads o c k file evs) :
    ∀ e ∈ evs, e.typ = .add := by
  induction h with
  | nil => intro e he; cases he
  | comment _ _ _ _ _ _ ih => exact ih
  | edge k line file e evs hc he _ ih =>
    intro x hx
    rcases List.mem_cons.1 hx with rfl | hx
    · obtain ⟨_, _, _, _, _, _, h1, _⟩ := he
      exact h1
    · exact ih x hx

/-- What an algorithm reads of an edge does not depend on the fields that name the other end or a logical time. -/
def Blind (ops : Ops E) (w : E → D) : Prop := ∀ x, (∀ r, w (ops.replaceRaw r x) = w x) ∧ ∀ k, w (ops.replaceTs k x) = w x

/-- The edges written in the file; in undirected mode an edge can be used in both directions. -/
def FileEdge (c : Loader.Cfg) (w : E → D) (evs : List (Ev E)) (a b : UInt32) (x : D) : Prop :=
  ∃ e ∈ evs, w e.prop = x ∧ (e.src = a ∧ e.dst = b ∨ c.undirected = true ∧ e.src = b ∧ e.dst = a)

theorem fileEdge_iff {ops : Ops E} {c : Loader.Cfg} {evs stream : List (Ev E)} (h : IsStream ops c evs stream) {w : E → D} (hw : Blind ops w)
    (a b : UInt32) (x : D) : (∃ e ∈ stream, e.src = a ∧ e.dst = b ∧ w e.prop = x) ↔ FileEdge c w evs a b x := by
  cases hu : c.undirected with
  | false =>
    have h1 := h.1 hu
    constructor
    · rintro ⟨e, he, rfl, rfl, rfl⟩
      obtain ⟨k, hk⟩ := List.mem_iff_getElem?.1 he
      rw [h1 k] at hk
      obtain ⟨e', he', rfl⟩ := Option.map_eq_some_iff.1 hk
      exact ⟨e', List.mem_of_getElem? he', rfl, .inl ⟨rfl, rfl⟩⟩
    · rintro ⟨e, he, rfl, ⟨rfl, rfl⟩ | ⟨hc, -⟩⟩
      · obtain ⟨k, hk⟩ := List.mem_iff_getElem?.1 he
        exact ⟨numbered e k, List.mem_of_getElem? (by rw [h1 k, hk]; rfl), rfl, rfl, rfl⟩
      · rw [hu] at hc; cases hc
  | true =>
    have h1 := h.2 hu
    have hm : ∀ e k, w (mirror ops c e k).prop = w e.prop := by
      intro e k
      unfold mirror
      dsimp only
      split
      · rw [(hw _).2, (hw _).1]
      · rw [(hw _).1]
    constructor
    · rintro ⟨e, he, rfl, rfl, rfl⟩
      obtain ⟨k, hk⟩ := List.mem_iff_getElem?.1 he
      rcases Nat.even_or_odd' k with ⟨j, rfl | rfl⟩
      · rw [(h1 j).1] at hk
        obtain ⟨e', he', rfl⟩ := Option.map_eq_some_iff.1 hk
        exact ⟨e', List.mem_of_getElem? he', rfl, .inl ⟨rfl, rfl⟩⟩
      · rw [(h1 j).2] at hk
        obtain ⟨e', he', rfl⟩ := Option.map_eq_some_iff.1 hk
        exact ⟨e', List.mem_of_getElem? he', (hm _ _).symm, .inr ⟨hu, rfl, rfl⟩⟩
    · rintro ⟨e, he, rfl, ⟨rfl, rfl⟩ | ⟨-, rfl, rfl⟩⟩
      · obtain ⟨k, hk⟩ := List.mem_iff_getElem?.1 he
        exact ⟨numbered e (2 * k), List.mem_of_getElem? (by rw [(h1 k).1, hk]; rfl), rfl, rfl, rfl⟩
      · obtain ⟨k, hk⟩ := List.mem_iff_getElem?.1 he
        exact ⟨mirror ops c e (2 * k + 1), List.mem_of_getElem? (by rw [(h1 k).2, hk]; rfl), rfl, rfl, hm _ _⟩

theorem stream_add {ops : Ops E} {c : Loader.Cfg} {file : List (List UInt8)} {evs stream : List (Ev E)} (h : Reads ops c 0 file evs)
    (hst : IsStream ops c evs stream) : ∀ e ∈ stream, e.typ = .add := by
  have h0 := reads_add h
  intro e he
  obtain ⟨k, hk⟩ := List.mem_iff_getElem?.1 he
  cases hu : c.undirected with
  | false =>
    rw [hst.1 hu k] at hk
    obtain ⟨e', he', rfl⟩ := Option.map_eq_some_iff.1 hk
    exact h0 e' (List.mem_of_getElem? he')
  | true =>
    rcases Nat.even_or_odd' k with ⟨j, rfl | rfl⟩
    · rw [(hst.2 hu j).1] at hk
      obtain ⟨e', he', rfl⟩ := Option.map_eq_some_iff.1 hk
      exact h0 e' (List.mem_of_getElem? he')
    · rw [(hst.2 hu j).2] at hk
      obtain ⟨e', he', rfl⟩ := Option.map_eq_some_iff.1 hk
      exact h0 e' (List.mem_of_getElem? he')

section
variable {ops : Ops E} {c : Loader.Cfg} {p : Params E} {tm : E → UInt64 × UInt64} {o : Enact.Opts} {file : List (List UInt8)}
  {s : Pipeline.St E} {S : Nat → Enact.Th E} {evs stream : List (Ev E)}

/-- The pipeline was given the stream of the file. -/
theorem Complete.pipeline (hb : Complete False ops c p tm o file s S) (h : Reads ops c 0 file evs) (hst : IsStream ops c evs stream) :
    ∃ bs, Pipeline.Act.remGiveUp ∉ bs ∧ Pipeline.run p stream (Pipeline.start p) bs = some s := by
  obtain ⟨n, qs, as, l, bs, h1, h2, h3, h4, h5, h6⟩ := hb.stages
  obtain ⟨h7, h8⟩ := h5 (by simp)
  have := Props.Loader.C21_complete_partial ops c file evs stream h hst n h1 qs h2 as l h3 h4 h7
  exact ⟨bs, h8, this ▸ h6⟩

/-- Both ends of every event have an id. -/
theorem Complete.ends (hb : Complete False ops c p tm o file s S) (hT : 0 < p.T) (h : Reads ops c 0 file evs) (hst : IsStream ops c evs stream)
    (e : Ev E) (he : e ∈ stream) : ∃ a b, fromRaw p s e.src = some a ∧ fromRaw p s e.dst = some b := by
  obtain ⟨bs, hn, hr⟩ := hb.pipeline h hst
  obtain ⟨-, h2⟩ := Props.Pipeline.C52_complete_partial p stream bs s hn hr hb.stopped
  have ht : owner p.T e.src < p.T := Nat.mod_lt _ hT
  have h3 := h2 _ (hb.drained _ ht)
  have h4 : e ∈ (s.enacted (owner p.T e.src)).map (fun x => Props.Pipeline.strip x.2) := by
    rw [h3]; exact List.mem_filter.2 ⟨he, by simp⟩
  obtain ⟨⟨i, r⟩, h5, rfl⟩ := List.mem_map.1 h4
  obtain ⟨h6, h7⟩ := Props.Pipeline.C45_endpoints p stream bs s hn hr _ i r h5
  exact ⟨_, _, h6, h7⟩

/-- The edge list of the vertex with raw id `u`: its events in the order of the stream. -/
theorem Complete.edges (hb : Complete False ops c p tm o file s S) (hT : 0 < p.T) (h : Reads ops c 0 file evs) (hst : IsStream ops c evs stream)
    (ho : o.window = 0) (hlen : stream.length ≤ 2 ^ 32) (hv : ∀ t, t < p.T → (s.th t).verts.length ≤ 2 ^ 27) (f : Nat → E → D)
    (u : UInt32) (a : Nat × Nat) (hu : fromRaw p s u = some a) :
    graphOf f p s S (pack a) = (eventsOf stream u).map fun x => ⟨pack ((fromRaw p s x.1.dst).getD (0, 0)), f x.2 x.1.prop⟩ := by
  obtain ⟨bs, hn, hr⟩ := hb.pipeline h hst
  obtain ⟨h1, h2⟩ := (Props.Pipeline.C45_one_id p stream bs s hr u a).1 hu
  have ht : a.1 < p.T := by rw [h2]; exact Nat.mod_lt _ hT
  have hi : a.2 < (s.th a.1).verts.length := by
    obtain ⟨v, h3, -⟩ := Option.map_eq_some_iff.1 h1
    exact (List.getElem?_eq_some_iff.1 h3).1
  have hq := hv a.1 ht
  have e1 : pack a / 2 ^ 27 = a.1 := by unfold pack; omega
  have e2 : pack a % 2 ^ 27 = a.2 := by unfold pack; omega
  unfold graphOf
  rw [e1, e2, if_pos ⟨ht, hi⟩]
  obtain ⟨others, slots, cap, zero, cs, c1, c2, c3⟩ := hb.enacted a.1 ht
  have d3 := Props.EndToEnd.C54_adds_any p stream bs s hn hr hb.stopped (stream_add h hst) tm o ho hlen
    others slots cap zero a.1 (hb.drained _ ht) cs c1 _ c3 u a.2 hu
  -- the ids in the edges are those of the raw destinations
  have d4 : ∀ e ∈ (S a.1).verts a.2, ∃ r, rawId s e.didx = some r ∧ fromRaw p s r = some e.didx := by
    intro e he
    have : view s e ∈ ((S a.1).verts a.2).map (view s) := List.mem_map.2 ⟨e, he, rfl⟩
    rw [d3] at this
    obtain ⟨x, -, hx⟩ := List.mem_map.1 this
    unfold view at hx
    injection hx with hx _
    refine ⟨x.1.dst, hx.symm, ?_⟩
    exact (Props.Pipeline.C45_one_id p stream bs s hr _ _).2 ⟨hx.symm, Props.Pipeline.C45_owner p stream bs s hr _ _ hx.symm⟩
  have e3 : ((S a.1).verts a.2).map (fun e => (⟨pack e.didx, f e.pos.toNat e.data⟩ : Async.Edge D)) =
      (((S a.1).verts a.2).map (view s)).map
        (fun x => ⟨pack ((fromRaw p s (x.1.getD 0)).getD (0, 0)), f x.2.1 x.2.2⟩) := by
    rw [List.map_map]
    refine List.map_congr_left fun e he => ?_
    obtain ⟨r, r1, r2⟩ := d4 e he
    simp [view, r1, r2]
  rw [e3, d3, List.map_map]
  rfl

/-- Only vertices of the file have edges. -/
theorem Complete.vertex (hb : Complete False ops c p tm o file s S) (h : Reads ops c 0 file evs) (hst : IsStream ops c evs stream)
    (f : Nat → E → D) (v : Nat) (hne : graphOf f p s S v ≠ []) : ∃ u a, fromRaw p s u = some a ∧ v = pack a := by
  obtain ⟨bs, hn, hr⟩ := hb.pipeline h hst
  unfold graphOf at hne
  split at hne
  · next hc =>
    have h1 : rawId s (v / 2 ^ 27, v % 2 ^ 27) = some ((s.th (v / 2 ^ 27)).verts[v % 2 ^ 27]'hc.2).raw := by
      unfold rawId
      rw [List.getElem?_eq_getElem hc.2]
      rfl
    refine ⟨_, (v / 2 ^ 27, v % 2 ^ 27), (Props.Pipeline.C45_one_id p stream bs s hr _ _).2 ⟨h1, Props.Pipeline.C45_owner p stream bs s hr _ _ h1⟩, ?_⟩
    unfold pack
    simp only
    omega
  · exact absurd rfl hne

theorem eventsOf_mem {x : Ev E} {u : UInt32} : (∃ k, (x, k) ∈ eventsOf stream u) ↔ x ∈ stream ∧ x.src = u := by
  unfold eventsOf Props.EndToEnd.numbered
  constructor
  · rintro ⟨k, hk⟩
    obtain ⟨h1, h2⟩ := List.mem_filter.1 hk
    exact ⟨(Props.EndToEnd.numbered_mem h1).1, of_decide_eq_true h2⟩
  · rintro ⟨hx, hu⟩
    obtain ⟨k, hk⟩ := List.mem_iff_getElem?.1 hx
    refine ⟨((stream.take k).filter (fun y => decide (y.typ = .add) && decide (y.dst = x.dst))).length,
      List.mem_filter.2 ⟨List.mem_iff_getElem?.2 ⟨k, ?_⟩, by simpa using hu⟩⟩
    rw [List.getElem?_mapIdx, hk]
    rfl

/-- Two raw ids with the same number are the same. -/
theorem Complete.inj (hb : Complete False ops c p tm o file s S) (hT : 0 < p.T) (h : Reads ops c 0 file evs) (hst : IsStream ops c evs stream)
    (hv : ∀ t, t < p.T → (s.th t).verts.length ≤ 2 ^ 27) (u u' : UInt32) (a a' : Nat × Nat) (hu : fromRaw p s u = some a) (hu' : fromRaw p s u' = some a')
    (he : pack a = pack a') : u = u' := by
  obtain ⟨bs, hn, hr⟩ := hb.pipeline h hst
  have bound : ∀ u a, fromRaw p s u = some a → a.2 < 2 ^ 27 ∧ rawId s a = some u := by
    intro u a hu
    obtain ⟨h1, h2⟩ := (Props.Pipeline.C45_one_id p stream bs s hr u a).1 hu
    obtain ⟨v, h3, -⟩ := Option.map_eq_some_iff.1 h1
    have := (List.getElem?_eq_some_iff.1 h3).1
    have := hv a.1 (by rw [h2]; exact Nat.mod_lt _ hT)
    exact ⟨by omega, h1⟩
  obtain ⟨b1, b2⟩ := bound u a hu
  obtain ⟨b3, b4⟩ := bound u' a' hu'
  have := pack_inj b1 b3 he
  subst this
  rw [b2] at b4
  injection b4

/-- **The graph of a file.** Between the vertices of two raw ids there is an edge exactly if the file has one. -/
theorem Complete.graph (hb : Complete False ops c p tm o file s S) (hT : 0 < p.T) (h : Reads ops c 0 file evs) (hst : IsStream ops c evs stream)
    (ho : o.window = 0) (hlen : stream.length ≤ 2 ^ 32) (hv : ∀ t, t < p.T → (s.th t).verts.length ≤ 2 ^ 27) {w : E → D} (hw : Blind ops w)
    (u u' : UInt32) (a a' : Nat × Nat) (hu : fromRaw p s u = some a) (hu' : fromRaw p s u' = some a') (x : D) :
    (⟨pack a', x⟩ : Async.Edge D) ∈ graphOf (fun _ => w) p s S (pack a) ↔ FileEdge c w evs u u' x := by
  rw [hb.edges hT h hst ho hlen hv _ u a hu, ← fileEdge_iff hst hw]
  constructor
  · intro hm
    obtain ⟨⟨e, k⟩, h1, h2⟩ := List.mem_map.1 hm
    injection h2 with h2 h3
    obtain ⟨h4, h5⟩ := eventsOf_mem.1 ⟨k, h1⟩
    obtain ⟨-, b, -, h6⟩ := hb.ends hT h hst e h4
    dsimp only at h2 h3
    rw [h6, Option.getD_some] at h2
    exact ⟨e, h4, h5, hb.inj hT h hst hv _ _ _ _ h6 hu' h2, h3⟩
  · rintro ⟨e, h4, h5, h6, h7⟩
    obtain ⟨k, hk⟩ := eventsOf_mem.2 ⟨h4, h5⟩
    refine List.mem_map.2 ⟨(e, k), hk, ?_⟩
    dsimp only
    rw [h6, hu', h7]
    rfl

/-- Edges lead to vertices of the file. -/
theorem Complete.target (hb : Complete False ops c p tm o file s S) (hT : 0 < p.T) (h : Reads ops c 0 file evs) (hst : IsStream ops c evs stream)
    (ho : o.window = 0) (hlen : stream.length ≤ 2 ^ 32) (hv : ∀ t, t < p.T → (s.th t).verts.length ≤ 2 ^ 27) (f : Nat → E → D)
    (v : Nat) (e : Async.Edge D) (he : e ∈ graphOf f p s S v) :
    ∃ u a u' a', fromRaw p s u = some a ∧ v = pack a ∧ fromRaw p s u' = some a' ∧ e.dst = pack a' := by
  obtain ⟨u, a, hu, rfl⟩ := hb.vertex h hst f v (List.ne_nil_of_mem he)
  rw [hb.edges hT h hst ho hlen hv _ u a hu] at he
  obtain ⟨⟨x, k⟩, h1, rfl⟩ := List.mem_map.1 he
  obtain ⟨-, b, -, h6⟩ := hb.ends hT h hst x (eventsOf_mem.1 ⟨k, h1⟩).1
  exact ⟨u, a, x.dst, b, hu, rfl, h6, by simp [h6]⟩

end

end Verif.Built
