import Verif.Props.Answer
import Verif.Props.TempPathsEngine
import Verif.Props.EdgeProps

/-!
# C89: the windows of reachability for a file with timestamps

The answer of temporal paths (`cmd/lp-temporal-paths`) in terms of the lines of the file: loading, numbering, appending of
edges and the algorithm, put together as in C81. The main program runs with `TimeRange` (`cmd/lp-temporal-paths/main.go:15`); a file has start
times only (`TimeRangeEdge.ParseProperty`, `graph-edge.go:184-188`).
-/

namespace Verif.Props.AnswerTimes

open Verif Verif.Engine Verif.Built Verif.Props.Answer
open Verif.Async (Edge)
open Verif.Loader (Ops Ev)
open Verif.Pipeline (Params fromRaw)
open Verif.Props.Loader (Reads IsStream)
open Verif.Props.Engine Verif.Props.Converge
open Verif.Props.MinLabel (NoDeletes)
open Verif.TempPaths (Link tp VP Mail TAct trun cfg begin loaded)
open Verif.Props.TempPaths (TimeOrdered Reach added)
open Verif.Props.TempPathsEngine (trun_grows C63_paths C64_paths_partial Grows)

variable {E : Type}

/-! ## Specification -/

/-- The timestamp of an edge of the file. -/
def time (tm : E → UInt64 × UInt64) (e : Ev E) : Nat := (tm e.prop).1.toNat

/-- What `tm` reads is what `ReplaceTimestamp` writes (`graph-edge.go:174-176`), and the raw id is elsewhere. -/
structure Clock (ops : Ops E) (tm : E → UInt64 × UInt64) : Prop where
  raw : ∀ r x, tm (ops.replaceRaw r x) = tm x
  set : ∀ n x, n < 2 ^ 64 → (tm (ops.replaceTs n x)).1.toNat = n ∧ (tm (ops.replaceTs n x)).2 = (tm x).2

/-- The file says that one can go from `a` to `b` from time `t` on. In undirected mode one can also go back along a
line; with logical time the way back comes one later (C22). -/
def FileLink (c : Loader.Cfg) (tm : E → UInt64 × UInt64) (evs : List (Ev E)) (a b : UInt32) (t : Nat) : Prop :=
  ∃ k e, evs[k]? = some e ∧ (e.src = a ∧ e.dst = b ∧ t = time tm e ∨
    c.undirected = true ∧ e.dst = a ∧ e.src = b ∧ t = if c.logicalTime then 2 * k + 1 else time tm e)

/-- One can be at `u` at time `t`, starting at `src`: along lines of the file, each of which is taken after the one
before it. Times are after 0 and before the largest number. -/
inductive FileReach (c : Loader.Cfg) (tm : E → UInt64 × UInt64) (evs : List (Ev E)) (src : UInt32) : UInt32 → Nat → Prop
  | source {t : Nat} : 0 < t → t < 2 ^ 64 - 1 → FileReach c tm evs src src t
  | along {a b : UInt32} {t0 t : Nat} : FileReach c tm evs src a t0 → FileLink c tm evs a b t0 → t0 < t → t < 2 ^ 64 - 1 → FileReach c tm evs src b t

/-- A file of edges in order of time, none of them ended; with logical time the order does not matter, as the
timestamps are replaced. -/
structure InOrder (c : Loader.Cfg) (tm : E → UInt64 × UInt64) (evs : List (Ev E)) : Prop where
  sorted : c.logicalTime = false → evs.Pairwise fun a b => time tm a ≤ time tm b
  small : c.logicalTime = false → ∀ e ∈ evs, time tm e < 2 ^ 64 - 1
  open_ : ∀ e ∈ evs, (tm e.prop).2 = 0

/-- The edge as the algorithm sees it. -/
def link (tm : E → UInt64 × UInt64) (pos : Nat) (x : E) : Link := ⟨pos, (tm x).1.toNat, (tm x).2.toNat⟩

/-- A run of the algorithm on the loaded graph, as `Ran` (C81): `L` are the edges loaded before the algorithm starts,
`slots` the sizes of the mailboxes then. -/
structure RanPaths (T : Nat) (ow : Nat → Nat) (src max : Nat) (p : Params E) (s : Pipeline.St E) (g : Nat → List (Edge Link)) (L : List (Nat × Edge Link)) (slots : Nat → Nat)
    (xs0 : List (Async.Act Link)) (r0 r : Engine.St VP Mail Unit Link) (xs : List (Act Link)) : Prop where
  batch : 0 < max
  own : ∀ v, ow v < T
  first : Async.run tp (cfg T ow src) (begin L slots) xs0 = some r0.alg
  start : Start (cfg T ow src) max r0
  run : Engine.run tp (cfg T ow src) max r0 xs = some r
  keeps0 : NoDeletes xs0
  keeps : ∀ t v b, Act.topo (.del t v b) ∉ xs
  graph : ∀ v, loaded L v ++ appended (xs0 ++ topos xs) v = g v
  inited : ∀ u i, fromRaw p s u = some i → r.alg.inited (pack i) = true

/-- **C89**, with or without the races on closing queues: every vertex named in the file is in the graph, and its
windows are the times at which one can be there. -/
def WindowsRight (races : Prop) : Prop :=
  ∀ (E : Type) (ops : Ops E) (c : Loader.Cfg) (p : Params E) (tm : E → UInt64 × UInt64) (o : Enact.Opts) (file : List (List UInt8))
    (evs stream : List (Ev E)) (s : Pipeline.St E) (S : Nat → Enact.Th E), Loaded races ops c p tm o file evs stream s S →
  Clock ops tm → InOrder c tm evs → stream.length < 2 ^ 32 →
  ∀ (src : UInt32) (i0 : Nat × Nat), fromRaw p s src = some i0 →
  ∀ T ow max L slots xs0 r0 r xs, RanPaths T ow (pack i0) max p s (graphOf (link tm) p s S) L slots xs0 r0 r xs → Finished (cfg T ow (pack i0)) r →
  ∀ u, InFile evs u → ∃ i, fromRaw p s u = some i ∧
    ∀ t, t < 2 ^ 64 - 1 → ((∃ w ∈ (r.alg.prop (pack i)).windows, w.start < t ∧ t < w.stop) ↔ FileReach c tm evs src u t)

/-- **C89**, full statement. -/
def C89Statement : Prop := WindowsRight True

/-- Who can be there at some time can be there at all later times: no edge ends. -/
theorem FileReach.later {c : Loader.Cfg} {tm : E → UInt64 × UInt64} {evs : List (Ev E)} {src u : UInt32} {t t' : Nat} (h : FileReach c tm evs src u t) (h1 : t ≤ t') (h2 : t' < 2 ^ 64 - 1) :
    FileReach c tm evs src u t' := by
  cases h with
  | source h3 _ => exact .source (by omega) h2
  | along h3 h4 h5 _ => exact .along h3 h4 (by omega) h2

/-! ## The stream -/

section
variable {ops : Ops E} {c : Loader.Cfg} {p : Params E} {tm : E → UInt64 × UInt64} {o : Enact.Opts} {file : List (List UInt8)}
  {evs stream : List (Ev E)} {s : Pipeline.St E} {S : Nat → Enact.Th E}

/-- The events of the stream: the lines, and in undirected mode the ways back. -/
theorem event_iff (hst : IsStream ops c evs stream) (k : Nat) (x : Ev E) : stream[k]? = some x ↔
    (c.undirected = false ∧ ∃ e, evs[k]? = some e ∧ x = Props.Loader.numbered e k) ∨
    (c.undirected = true ∧ ∃ e, evs[k / 2]? = some e ∧ x = if k % 2 = 0 then Props.Loader.numbered e k else Props.Loader.mirror ops c e k) := by
  cases hu : c.undirected with
  | false =>
    rw [hst.1 hu k, Option.map_eq_some_iff]
    simp [eq_comm]
  | true =>
    have h2 := hst.2 hu (k / 2)
    rcases Nat.mod_two_eq_zero_or_one k with hk | hk
    · have e1 : 2 * (k / 2) = k := by omega
      rw [e1] at h2
      rw [h2.1, Option.map_eq_some_iff]
      simp [hk, eq_comm]
    · have e1 : 2 * (k / 2) + 1 = k := by omega
      rw [e1] at h2
      rw [h2.2, Option.map_eq_some_iff]
      simp [hk, eq_comm]

/-- The time of the way back. -/
theorem mirror_time (hc : Clock ops tm) (e : Ev E) (k : Nat) (hk : k < 2 ^ 64) :
    time tm (Props.Loader.mirror ops c e k) = (if c.logicalTime then k else time tm e) ∧ (tm (Props.Loader.mirror ops c e k).prop).2 = (tm e.prop).2 := by
  unfold time Props.Loader.mirror
  cases h : c.logicalTime with
  | false => simp [hc.raw]
  | true => simp [(hc.set k _ hk).1, (hc.set k _ hk).2, hc.raw]

theorem link_iff (hst : IsStream ops c evs stream) (hc : Clock ops tm) (hlen : stream.length < 2 ^ 32) (a b : UInt32) (t : Nat) :
    (∃ e ∈ stream, e.src = a ∧ e.dst = b ∧ time tm e = t) ↔ FileLink c tm evs a b t := by
  constructor
  · rintro ⟨x, hx, rfl, rfl, rfl⟩
    obtain ⟨k, hk⟩ := List.mem_iff_getElem?.1 hx
    have hk' := (List.getElem?_eq_some_iff.1 hk).1
    rcases (event_iff hst k x).1 hk with ⟨-, e, he, rfl⟩ | ⟨hu, e, he, rfl⟩
    · exact ⟨k, e, he, .inl ⟨rfl, rfl, rfl⟩⟩
    · refine ⟨k / 2, e, he, ?_⟩
      by_cases h2 : k % 2 = 0
      · rw [if_pos h2]; exact .inl ⟨rfl, rfl, rfl⟩
      · rw [if_neg h2]
        refine .inr ⟨hu, rfl, rfl, ?_⟩
        rw [(mirror_time hc e k (by omega)).1, show 2 * (k / 2) + 1 = k by omega]
  · rintro ⟨k, e, he, ⟨rfl, rfl, rfl⟩ | ⟨hu, rfl, rfl, rfl⟩⟩
    · cases hu : c.undirected with
      | false => exact ⟨_, List.mem_of_getElem? ((event_iff hst k _).2 (.inl ⟨hu, e, he, rfl⟩)), rfl, rfl, rfl⟩
      | true =>
        refine ⟨Props.Loader.numbered e (2 * k), List.mem_of_getElem? (i := 2 * k) ((event_iff hst (2 * k) _).2 (.inr ⟨hu, e, ?_, ?_⟩)), rfl, rfl, rfl⟩
        · rw [show 2 * k / 2 = k by omega]; exact he
        · rw [if_pos (by omega)]
    · have h := (event_iff hst (2 * k + 1) (Props.Loader.mirror ops c e (2 * k + 1))).2 (.inr ⟨hu, e, by rw [show (2 * k + 1) / 2 = k by omega]; exact he, by rw [if_neg (by omega)]⟩)
      have hk := (List.getElem?_eq_some_iff.1 h).1
      exact ⟨_, List.mem_of_getElem? h, rfl, rfl, (mirror_time hc e _ (by omega)).1⟩

/-- With logical time the timestamps are the positions in the stream. -/
theorem logical (h : Reads ops c 0 file evs) (hst : IsStream ops c evs stream) (hc : Clock ops tm) (hlt : c.logicalTime = true) (hlen : stream.length < 2 ^ 32) (k : Nat) (x : Ev E)
    (hk : stream[k]? = some x) : time tm x = k := by
  have base : ∀ (j : Nat) (file : List (List UInt8)) (evs : List (Ev E)), Reads ops c j file evs → ∀ m (e0 : Ev E), evs[m]? = some e0 → 2 * (j + m) < 2 ^ 64 →
      time tm e0 = if c.undirected then 2 * (j + m) else j + m := by
    intro j file evs h
    induction h with
    | nil k => intro m e0 h; simp at h
    | comment k line file evs _ _ ih => exact ih
    | edge k line file e evs _ he _ ih =>
      intro m e0 hm hb
      cases m with
      | zero =>
        simp at hm; subst hm
        obtain ⟨s, d, rest, -, -, -, -, -, p, -, hp, -⟩ := he
        unfold time
        rw [hp, hc.raw, if_pos hlt, (hc.set _ _ (by split <;> omega)).1]; rfl
      | succ m =>
        rw [List.getElem?_cons_succ] at hm
        rw [ih m e0 hm (by omega)]; simp only [show k + 1 + m = k + (m + 1) by omega]
  have hk' := (List.getElem?_eq_some_iff.1 hk).1
  rcases (event_iff hst k x).1 hk with ⟨hu, e, he, rfl⟩ | ⟨hu, e, he, rfl⟩
  · have := base 0 file evs h k e he (by omega)
    rw [hu] at this
    simpa [time, Props.Loader.numbered] using this
  · by_cases h2 : k % 2 = 0
    · rw [if_pos h2]
      have := base 0 file evs h (k / 2) e he (by omega)
      rw [hu, if_pos rfl] at this
      have e1 : time tm (Props.Loader.numbered e k) = time tm e := rfl
      rw [e1, this]; omega
    · rw [if_neg h2, (mirror_time hc e k (by omega)).1, if_pos hlt]

theorem sorted (h : Reads ops c 0 file evs) (hst : IsStream ops c evs stream) (hc : Clock ops tm) (ho : InOrder c tm evs) (hlen : stream.length < 2 ^ 32) :
    (∀ (i j : Nat) (x y : Ev E), i ≤ j → stream[i]? = some x → stream[j]? = some y → time tm x ≤ time tm y) ∧ (∀ x ∈ stream, time tm x < 2 ^ 64 - 1) ∧ ∀ x ∈ stream, (tm x.prop).2 = 0 := by
  have hof : ∀ (k : Nat) (x : Ev E), stream[k]? = some x → c.logicalTime = false → ∃ e, evs[if c.undirected then k / 2 else k]? = some e ∧ time tm x = time tm e := by
    intro k x hk hlt
    have hk' := (List.getElem?_eq_some_iff.1 hk).1
    rcases (event_iff hst k x).1 hk with ⟨hu, e, he, rfl⟩ | ⟨hu, e, he, rfl⟩
    · rw [hu]; exact ⟨e, he, rfl⟩
    · rw [hu]
      refine ⟨e, he, ?_⟩
      split
      · rfl
      · rw [(mirror_time hc e k (by omega)).1, hlt]; rfl
  refine ⟨fun i j x y hij hx hy => ?_, fun x hx => ?_, fun x hx => ?_⟩
  · cases hlt : c.logicalTime with
    | true => rw [logical h hst hc hlt hlen i x hx, logical h hst hc hlt hlen j y hy]; exact hij
    | false =>
      obtain ⟨a, ha, h1⟩ := hof i x hx hlt
      obtain ⟨b, hb, h2⟩ := hof j y hy hlt
      rw [h1, h2]
      have hle : (if c.undirected then i / 2 else i) ≤ if c.undirected then j / 2 else j := by split <;> omega
      generalize (if c.undirected then i / 2 else i) = i' at ha hle
      generalize (if c.undirected then j / 2 else j) = j' at hb hle
      rcases Nat.lt_or_eq_of_le hle with hl | rfl
      · obtain ⟨a1, rfl⟩ := List.getElem?_eq_some_iff.1 ha
        obtain ⟨b1, rfl⟩ := List.getElem?_eq_some_iff.1 hb
        exact List.pairwise_iff_getElem.1 (ho.sorted hlt) _ _ a1 b1 hl
      · rw [ha] at hb; cases hb; exact le_refl _
  · obtain ⟨k, hk⟩ := List.mem_iff_getElem?.1 hx
    have hk' := (List.getElem?_eq_some_iff.1 hk).1
    cases hlt : c.logicalTime with
    | true => rw [logical h hst hc hlt hlen k x hk]; omega
    | false =>
      obtain ⟨a, ha, h1⟩ := hof k x hk hlt
      rw [h1]
      exact ho.small hlt a (List.mem_of_getElem? ha)
  · obtain ⟨k, hk⟩ := List.mem_iff_getElem?.1 hx
    have hk' := (List.getElem?_eq_some_iff.1 hk).1
    rcases (event_iff hst k x).1 hk with ⟨hu, e, he, rfl⟩ | ⟨hu, e, he, rfl⟩
    · exact ho.open_ e (List.mem_of_getElem? he)
    · split
      · exact ho.open_ e (List.mem_of_getElem? he)
      · rw [(mirror_time hc e k (by omega)).2]
        exact ho.open_ e (List.mem_of_getElem? he)

/-! ## The list of edges -/

attribute [local irreducible] pack

/-- The edges of the stream between numbers of vertices. -/
def quads (tm : E → UInt64 × UInt64) (p : Params E) (s : Pipeline.St E) (stream : List (Ev E)) : List (Nat × Edge Link) :=
  (Props.EndToEnd.numbered stream).map fun x => (pack ((fromRaw p s x.1.src).getD (0, 0)), ⟨pack ((fromRaw p s x.1.dst).getD (0, 0)), link tm x.2 x.1.prop⟩)

theorem loaded_quads (L : Loaded False ops c p tm o file evs stream s S) : loaded (quads tm p s stream) = graphOf (link tm) p s S := by
  funext v
  by_cases hv : ∃ u i, fromRaw p s u = some i ∧ v = pack i
  · obtain ⟨u, i, hu, rfl⟩ := hv
    rw [L.complete.edges L.threads L.reads L.emitted L.window L.length L.verts _ u i hu]
    unfold loaded quads
    rw [filter_triples (P := fun x : Ev E × Nat => x.1.src = u), List.map_map]
    · rfl
    · intro x hx
      obtain ⟨j, -, h1, -⟩ := L.complete.ends L.threads L.reads L.emitted x.1 (numbered_lt hx).1
      rw [h1, Option.getD_some]
      refine ⟨fun h => L.inj h1 hu h, fun h => ?_⟩
      rw [h, hu] at h1
      cases h1
      rfl
  · have h1 : graphOf (link tm) p s S v = [] := by
      by_contra hne
      exact hv (L.complete.vertex L.reads L.emitted _ v hne)
    rw [h1]
    unfold loaded quads
    rw [List.map_eq_nil_iff, List.filter_eq_nil_iff]
    intro y hy
    obtain ⟨x, hx, rfl⟩ := List.mem_map.1 hy
    obtain ⟨j, -, h2, -⟩ := L.complete.ends L.threads L.reads L.emitted x.1 (numbered_lt hx).1
    simp only [h2, Option.getD_some, decide_eq_true_eq]
    exact fun h => hv ⟨_, j, h2, h.symm⟩

theorem pos_count (stream : List (Ev E)) (i j : Nat) (hij : i < j) (x y : Ev E) (hx : stream[i]? = some x) (hd : x.dst = y.dst) (ht : x.typ = .add) :
    ((stream.take i).filter fun z => decide (z.typ = .add) && decide (z.dst = x.dst)).length < ((stream.take j).filter fun z => decide (z.typ = .add) && decide (z.dst = y.dst)).length := by
  rw [← hd]
  obtain ⟨hi, rfl⟩ := List.getElem?_eq_some_iff.1 hx
  have h3 : stream.take (i + 1) <+: stream.take j := List.take_prefix_take_left (by omega)
  have h4 := (h3.filter (fun z => decide (z.typ = Loader.Typ.add) && decide (z.dst = stream[i].dst))).length_le
  rw [← List.take_concat_get' _ _ hi, List.filter_append] at h4
  simp [ht] at h4
  omega

theorem mem_quads {a : Nat × Edge Link} (h : a ∈ quads tm p s stream) : ∃ (k : Nat) (x : Ev E), stream[k]? = some x ∧
    a = (pack ((fromRaw p s x.src).getD (0, 0)), ⟨pack ((fromRaw p s x.dst).getD (0, 0)), link tm ((stream.take k).filter fun z => decide (z.typ = .add) && decide (z.dst = x.dst)).length x.prop⟩) := by
  obtain ⟨y, hy, rfl⟩ := List.mem_map.1 h
  obtain ⟨k, hk⟩ := List.mem_iff_getElem?.1 hy
  unfold Props.EndToEnd.numbered at hk
  rw [List.getElem?_mapIdx] at hk
  obtain ⟨x, h1, rfl⟩ := Option.map_eq_some_iff.1 hk
  exact ⟨k, x, h1, rfl⟩

theorem quads_ordered (L : Loaded False ops c p tm o file evs stream s S) (hc : Clock ops tm) (ho : InOrder c tm evs) (hlen : stream.length < 2 ^ 32) : TimeOrdered (quads tm p s stream) := by
  obtain ⟨h1, h2, -⟩ := sorted L.reads L.emitted hc ho hlen
  have hdst : ∀ (x y : Ev E), x ∈ stream → y ∈ stream → pack ((fromRaw p s x.dst).getD (0, 0)) = pack ((fromRaw p s y.dst).getD (0, 0)) → x.dst = y.dst := by
    intro x y hx hy h
    obtain ⟨-, a, -, ha⟩ := L.complete.ends L.threads L.reads L.emitted x hx
    obtain ⟨-, b, -, hb⟩ := L.complete.ends L.threads L.reads L.emitted y hy
    rw [ha, hb, Option.getD_some, Option.getD_some] at h
    exact L.inj ha hb h
  have hadd := stream_add L.reads L.emitted
  refine ⟨?_, ?_, ?_, ?_, ?_⟩
  · unfold quads Props.EndToEnd.numbered
    rw [List.map_map, List.Nodup, List.pairwise_map, List.pairwise_iff_getElem]
    intro i j hi hj hij
    simp only [List.getElem_mapIdx, Function.comp]
    rw [List.length_mapIdx] at hi hj
    intro he
    injection he with e1 e2
    have := pos_count stream i j hij stream[i] stream[j] (List.getElem?_eq_getElem hi) (hdst _ _ (List.getElem_mem _) (List.getElem_mem _) e1) (hadd _ (List.getElem_mem _))
    simp only [link] at e2
    omega
  · intro a ha b hb hd hp
    obtain ⟨i, x, hx, rfl⟩ := mem_quads ha
    obtain ⟨j, y, hy, rfl⟩ := mem_quads hb
    dsimp only [link] at hd hp ⊢
    have hd' := hdst x y (List.mem_of_getElem? hx) (List.mem_of_getElem? hy) hd
    by_cases hij : i ≤ j
    · exact h1 i j x y hij hx hy
    · have := pos_count stream j i (by omega) y x hy hd'.symm (hadd _ (List.mem_of_getElem? hy))
      omega
  · unfold quads Props.EndToEnd.numbered
    rw [List.pairwise_map, List.pairwise_iff_getElem]
    intro i j hi hj hij _
    rw [List.length_mapIdx] at hi hj
    simp only [List.getElem_mapIdx]
    exact h1 i j _ _ (by omega) (List.getElem?_eq_getElem hi) (List.getElem?_eq_getElem hj)
  · intro a ha
    obtain ⟨y, hy, rfl⟩ := List.mem_map.1 ha
    have := (numbered_lt hy).2
    dsimp only [link]
    omega
  · intro a ha
    obtain ⟨i, x, hx, rfl⟩ := mem_quads ha
    exact h2 x (List.mem_of_getElem? hx)

end

theorem loaded_count (l : List (Nat × Edge Link)) (a : Nat × Edge Link) : l.countP (fun x => decide (x = a)) = (loaded l a.1).countP fun e => decide (e = a.2) := by
  unfold loaded
  rw [List.countP_map, List.countP_filter]
  refine List.countP_congr fun x _ => ?_
  obtain ⟨x1, x2⟩ := x
  obtain ⟨a1, a2⟩ := a
  simp [and_comm]

theorem loaded_perm {l l' : List (Nat × Edge Link)} (h : loaded l = loaded l') : l.Perm l' := by
  rw [List.perm_iff_count]
  intro a
  have h1 := loaded_count l a
  have h2 := loaded_count l' a
  rw [h] at h1
  rw [List.count_eq_countP, List.count_eq_countP]
  have e : (fun x => x == a) = fun x => decide (x = a) := by funext x; by_cases h : x = a <;> simp [h]
  rw [e, h1, h2]

theorem outOf_iff (l : List (Nat × Edge Link)) : (l.Pairwise fun a b => a.1 = b.1 → a.2.data.ts ≤ b.2.data.ts) ↔ ∀ v, (loaded l v).Pairwise fun a b => a.data.ts ≤ b.data.ts := by
  constructor
  · intro h v
    unfold loaded
    rw [List.pairwise_map]
    refine (List.Pairwise.and_mem.1 (h.filter _)).imp fun {a b} ⟨ha, hb, hab⟩ => hab ?_
    rw [of_decide_eq_true (List.mem_filter.1 ha).2, of_decide_eq_true (List.mem_filter.1 hb).2]
  · induction l with
    | nil => intro _; exact .nil
    | cons a l ih =>
      intro h
      refine List.pairwise_cons.2 ⟨fun b hb he => ?_, ih fun v => ?_⟩
      · have := h a.1
        unfold loaded at this
        rw [List.filter_cons_of_pos (by simp), List.map_cons, List.pairwise_cons] at this
        exact this.1 b.2 (List.mem_map.2 ⟨b, List.mem_filter.2 ⟨hb, by simp [he]⟩, rfl⟩)
      · have := h v
        unfold loaded at this ⊢
        rw [List.filter_cons] at this
        split at this
        · rw [List.map_cons] at this; exact (List.pairwise_cons.1 this).2
        · exact this

/-- What matters is the order among the edges of each vertex. -/
theorem ordered_of {l l' : List (Nat × Edge Link)} (h : loaded l = loaded l') (ho : TimeOrdered l') : TimeOrdered l := by
  have hp := loaded_perm h
  refine ⟨(hp.map _).nodup_iff.2 ho.distinct, fun a ha b hb => ho.into a (hp.mem_iff.1 ha) b (hp.mem_iff.1 hb), ?_, fun a ha => ho.pos a (hp.mem_iff.1 ha), fun a ha => ho.ts a (hp.mem_iff.1 ha)⟩
  rw [outOf_iff, h, ← outOf_iff]
  exact ho.outOf

theorem loaded_append (l l' : List (Nat × Edge Link)) (v : Nat) : loaded (l ++ l') v = loaded l v ++ loaded l' v := by
  simp [loaded]

theorem loaded_added (ys : List (Async.Act Link)) (v : Nat) : loaded (added (ys.map TAct.of)) v = appended ys v := by
  induction ys with
  | nil => rfl
  | cons y ys ih =>
    have : added ((y :: ys).map TAct.of) = added [TAct.of y] ++ added (ys.map TAct.of) := by simp [added]
    rw [this, loaded_append, ih, appended_cons]
    congr 1
    cases y with
    | add t u es =>
      by_cases e : u = v
      · subst e
        simp [loaded, added, appended, TAct.of, List.filter_map, Function.comp_def]
      · simp [loaded, added, appended, TAct.of, e, List.filter_map, Function.comp_def]
    | _ => simp [loaded, added, appended, TAct.of]

/-! ## The run -/

section
variable {T : Nat} {ow : Nat → Nat} {n0 max : Nat} {p : Params E} {s : Pipeline.St E} {g : Nat → List (Edge Link)} {L : List (Nat × Edge Link)} {slots : Nat → Nat}
  {xs0 : List (Async.Act Link)} {r0 r : Engine.St VP Mail Unit Link} {xs : List (Act Link)}

theorem RanPaths.edges (h : RanPaths T ow n0 max p s g L slots xs0 r0 r xs) : r.alg.edges = g := by
  funext v
  obtain ⟨-, -, ys, h1, h2⟩ := proj h.run
  have hn : NoDeletes ys := by
    intro t u b hm
    exact h.keeps t u b (mem_topos (h2 ▸ List.mem_filter.2 ⟨hm, rfl⟩))
  rw [edges_go ys _ _ hn h1 v, edges_go xs0 _ _ h.keeps0 h.first v, ← appended_changes ys, h2, List.append_assoc, ← appended_append]
  exact h.graph v

theorem RanPaths.list (h : RanPaths T ow n0 max p s g L slots xs0 r0 r xs) : loaded (L ++ added (xs0.map TAct.of ++ (topos xs).map TAct.of)) = g := by
  funext v
  rw [loaded_append, ← List.map_append, loaded_added]
  exact h.graph v

end

section
variable {ops : Ops E} {c : Loader.Cfg} {p : Params E} {tm : E → UInt64 × UInt64} {o : Enact.Opts} {file : List (List UInt8)}
  {evs stream : List (Ev E)} {s : Pipeline.St E} {S : Nat → Enact.Th E}

attribute [local irreducible] pack

/-- An edge of the graph is a line of the file. -/
theorem edge_link (L : Loaded False ops c p tm o file evs stream s S) (hc : Clock ops tm) (ho : InOrder c tm evs) (hlen : stream.length < 2 ^ 32) (u v : UInt32) (i j : Nat × Nat)
    (hu : fromRaw p s u = some i) (hv : fromRaw p s v = some j) (t : Nat) :
    (∃ e ∈ graphOf (link tm) p s S (pack i), e.dst = pack j ∧ e.data.ts = t) ↔ FileLink c tm evs u v t := by
  rw [← link_iff L.emitted hc hlen, L.complete.edges L.threads L.reads L.emitted L.window L.length L.verts _ u i hu]
  constructor
  · rintro ⟨e, he, h1, rfl⟩
    obtain ⟨x, hx, rfl⟩ := List.mem_map.1 he
    obtain ⟨h2, h3⟩ := List.mem_filter.1 hx
    have h4 := (numbered_lt h2).1
    obtain ⟨-, b, -, hb⟩ := L.complete.ends L.threads L.reads L.emitted x.1 h4
    dsimp only at h1
    rw [hb, Option.getD_some] at h1
    exact ⟨x.1, h4, of_decide_eq_true h3, L.inj hb hv h1, rfl⟩
  · rintro ⟨x, hx, rfl, rfl, rfl⟩
    obtain ⟨k, hk⟩ := List.mem_iff_getElem?.1 hx
    refine ⟨_, List.mem_map.2 ⟨(x, ((stream.take k).filter (fun z => decide (z.typ = .add) && decide (z.dst = x.dst))).length), List.mem_filter.2 ⟨?_, by simp⟩, rfl⟩, ?_, rfl⟩
    · refine List.mem_of_getElem? (i := k) ?_
      unfold Props.EndToEnd.numbered
      rw [List.getElem?_mapIdx, hk]; rfl
    · dsimp only
      rw [hv, Option.getD_some]

theorem edge_open (L : Loaded False ops c p tm o file evs stream s S) (hc : Clock ops tm) (ho : InOrder c tm evs) (hlen : stream.length < 2 ^ 32) (v : Nat) (e : Edge Link)
    (he : e ∈ graphOf (link tm) p s S v) : e.data.te = 0 := by
  obtain ⟨-, -, h3⟩ := sorted L.reads L.emitted hc ho hlen
  rw [← loaded_quads L] at he
  obtain ⟨a, ha, rfl⟩ := List.mem_map.1 he
  obtain ⟨k, x, hx, rfl⟩ := mem_quads (List.mem_filter.1 ha).1
  dsimp only [link]
  rw [h3 x (List.mem_of_getElem? hx)]
  rfl

theorem link_in {a b : UInt32} {t : Nat} (h : FileLink c tm evs a b t) : InFile evs a ∧ InFile evs b := by
  obtain ⟨k, e, he, ⟨h1, h2, -⟩ | ⟨-, h1, h2, -⟩⟩ := h
  · exact ⟨⟨e, List.mem_of_getElem? he, .inl h1⟩, ⟨e, List.mem_of_getElem? he, .inr h2⟩⟩
  · exact ⟨⟨e, List.mem_of_getElem? he, .inr h1⟩, ⟨e, List.mem_of_getElem? he, .inl h2⟩⟩

/-- Reachability in the graph is that in the file. -/
theorem reach_iff (L : Loaded False ops c p tm o file evs stream s S) (hc : Clock ops tm) (ho : InOrder c tm evs) (hlen : stream.length < 2 ^ 32) {src : UInt32} {i0 : Nat × Nat}
    (h0 : fromRaw p s src = some i0) {u : UInt32} {i : Nat × Nat} (hu : fromRaw p s u = some i) (t : Nat) :
    Reach (graphOf (link tm) p s S) (pack i0) (pack i) t ↔ FileReach c tm evs src u t := by
  constructor
  · have : ∀ y t, Reach (graphOf (link tm) p s S) (pack i0) y t → ∃ u i, fromRaw p s u = some i ∧ y = pack i ∧ FileReach c tm evs src u t := by
      intro y t h
      induction h with
      | source h1 h2 => exact ⟨src, i0, h0, rfl, .source h1 h2⟩
      | along _ he h1 h2 h3 ih =>
        obtain ⟨a, ia, g1, rfl, g3⟩ := ih
        obtain ⟨-, -, b, ib, -, -, h6, h7⟩ := L.target _ _ _ he
        exact ⟨b, ib, h6, h7, .along g3 ((edge_link L hc ho hlen a b ia ib g1 h6 _).1 ⟨_, he, h7, rfl⟩) h1 (h3 (edge_open L hc ho hlen _ _ he))⟩
    intro h
    obtain ⟨u', i', h1, h2, h3⟩ := this _ t h
    obtain rfl := L.inj hu h1 h2
    exact h3
  · intro h
    induction h generalizing i with
    | source h1 h2 =>
      rw [h0] at hu
      cases hu
      exact .source h1 h2
    | along _ hl h1 h2 ih =>
      obtain ⟨j, hj⟩ := L.vertex _ (link_in hl).1
      obtain ⟨e, he, g1, g2⟩ := (edge_link L hc ho hlen _ _ j i hj hu _).2 hl
      rw [← g1]
      have h3 := edge_open L hc ho hlen _ _ he
      refine .along (by rw [g2]; exact ih hj) he (by rw [g2]; exact h1) (fun h => absurd h3 h) fun _ => h2

end

/-- **C89**, in runs without the races on closing queues. -/
theorem C89_windows_partial : WindowsRight False := by
  intro E ops c p tm o file evs stream s S L hc ho hlen src i0 h0 T ow max Ld slots xs0 r0 r xs R hd u hu
  obtain ⟨i, hi⟩ := L.vertex u hu
  refine ⟨i, hi, fun t ht => ?_⟩
  have hf : trun (cfg T ow (pack i0)) (begin Ld slots) (xs0.map TAct.of) = some r0.alg := by
    rw [trun_grows (fun t v k hm => R.keeps0 t v k hm)]
    exact R.first
  rw [C63_paths max R.batch R.own (xs0.map TAct.of) r0 r hf R.start xs R.keeps (ordered_of (R.list.trans (loaded_quads L).symm) (quads_ordered L hc ho hlen)) R.run hd (R.inited src i0 h0) (pack i) t ht,
    R.edges, reach_iff L hc ho hlen h0 hi]

/-- An execution on the loaded graph, as `Runs` (C81). -/
structure RunsPaths {T : Nat} {ow : Nat → Nat} {src max : Nat} (p : Params E) (s : Pipeline.St E) (g : Nat → List (Edge Link)) (L : List (Nat × Edge Link)) (slots : Nat → Nat)
    (xs0 : List (Async.Act Link)) (e : Exec tp (cfg T ow src) max) (m : Nat) : Prop where
  batch : 0 < max
  own : ∀ v, ow v < T
  first : Async.run tp (cfg T ow src) (begin L slots) xs0 = some (e.st 0).alg
  start : Start (cfg T ow src) max (e.st 0)
  fair : e.Fair
  fresh : Fresh e
  closed : ∀ t, t < T → (e.st m).term.closed t = true
  noTopo : ∀ i y, m ≤ i → e.act i ≠ .topo y
  keeps0 : NoDeletes xs0
  keeps : ∀ i t v b, e.act i ≠ .topo (.del t v b)
  graph : ∀ v, loaded L v ++ appended (xs0 ++ topos ((List.range m).map e.act)) v = g v
  inited : ∀ u i, fromRaw p s u = some i → (e.st m).alg.inited (pack i) = true

theorem RunsPaths.ran {T : Nat} {ow : Nat → Nat} {n0 max : Nat} {p : Params E} {s : Pipeline.St E} {g : Nat → List (Edge Link)} {L : List (Nat × Edge Link)} {slots : Nat → Nat}
    {xs0 : List (Async.Act Link)} {e : Exec tp (cfg T ow n0) max} {m : Nat} (h : RunsPaths p s g L slots xs0 e m) :
    RanPaths T ow n0 max p s g L slots xs0 (e.st 0) (e.st m) ((List.range m).map e.act) :=
  ⟨h.batch, h.own, h.first, h.start, exec_run tp _ max e m, h.keeps0, fun t v b hm => by
    obtain ⟨i, -, hi⟩ := List.mem_map.1 hm
    exact h.keeps i t v b hi, h.graph, h.inited⟩

/-- **C89**, and the run returns (restricted as `C64_partial`). -/
theorem C89_return_partial {ops : Ops E} {c : Loader.Cfg} {p : Params E} {tm : E → UInt64 × UInt64} {o : Enact.Opts} {file : List (List UInt8)}
    {evs stream : List (Ev E)} {s : Pipeline.St E} {S : Nat → Enact.Th E} (L : Loaded False ops c p tm o file evs stream s S)
    (hc : Clock ops tm) (ho : InOrder c tm evs) (hlen : stream.length < 2 ^ 32) (src : UInt32) (i0 : Nat × Nat) (h0 : fromRaw p s src = some i0)
    {T : Nat} {ow : Nat → Nat} {max : Nat} {Ld : List (Nat × Edge Link)} {slots : Nat → Nat} {xs0 : List (Async.Act Link)} {e : Exec tp (cfg T ow (pack i0)) max} {m : Nat}
    (R : RunsPaths p s (graphOf (link tm) p s S) Ld slots xs0 e m) :
    ∃ n, Finished (cfg T ow (pack i0)) (e.st n) ∧ ∀ u, InFile evs u → ∃ i, fromRaw p s u = some i ∧
      ∀ t, t < 2 ^ 64 - 1 → ((∃ w ∈ ((e.st n).alg.prop (pack i)).windows, w.start < t ∧ t < w.stop) ↔ FileReach c tm evs src u t) := by
  have hf : trun (cfg T ow (pack i0)) (begin Ld slots) (xs0.map TAct.of) = some (e.st 0).alg := by
    rw [trun_grows (fun t v k hm => R.keeps0 t v k hm)]
    exact R.first
  obtain ⟨n, hn, -, hw⟩ := C64_paths_partial max R.batch R.own (xs0.map TAct.of) e hf R.start R.fair R.fresh m R.closed R.noTopo R.keeps
    (ordered_of (R.ran.list.trans (loaded_quads L).symm) (quads_ordered L hc ho hlen)) (R.inited src i0 h0)
  refine ⟨n, hn, fun u hu => ?_⟩
  obtain ⟨i, hi⟩ := L.vertex u hu
  refine ⟨i, hi, fun t ht => ?_⟩
  rw [hw (pack i) t ht, R.ran.edges, reach_iff L hc ho hlen h0 hi]

/-! ## The edges of lp-temporal-paths -/

open Verif.EdgeProps (TimeRange rangeOps rangeTimes)

theorem range_clock : Clock rangeOps rangeTimes := by
  refine ⟨fun _ _ => rfl, fun n x hn => ⟨?_, rfl⟩⟩
  show (UInt64.ofNat n).toNat = n
  rw [UInt64.toNat_ofNat']
  omega

/-- A file cannot give an end time. -/
theorem range_open {c : Loader.Cfg} {k : Nat} {file : List (List UInt8)} {evs : List (Ev TimeRange)} (h : Reads rangeOps c k file evs) : ∀ e ∈ evs, (rangeTimes e.prop).2 = 0 := by
  induction h with
  | nil => simp
  | comment _ _ _ _ _ _ ih => exact ih
  | edge k line file e evs _ he _ ih =>
    intro x hx
    rcases List.mem_cons.1 hx with rfl | hx
    · obtain ⟨s, d, rest, -, -, -, -, -, p, hp, hq, -⟩ := he
      have h1 : p.stop = 0 := by
        rw [hp]
        split
        · rfl
        · cases c.tPos.bind (rest[·]?) <;> rfl
      rw [hq]
      cases c.logicalTime
      · exact h1
      · exact h1
    · exact ih x hx

/-- **C89** for the edge type of lp-temporal-paths: it is enough that the timestamps in the file come in order and are
below 2^64 - 1 (C90 says how they are read). -/
theorem C89_range_partial {c : Loader.Cfg} {p : Params TimeRange} {o : Enact.Opts} {file : List (List UInt8)} {evs stream : List (Ev TimeRange)} {s : Pipeline.St TimeRange}
    {S : Nat → Enact.Th TimeRange} (L : Loaded False rangeOps c p rangeTimes o file evs stream s S)
    (hsorted : c.logicalTime = false → evs.Pairwise fun a b => a.prop.ts ≤ b.prop.ts) (hsmall : c.logicalTime = false → ∀ e ∈ evs, e.prop.ts.toNat < 2 ^ 64 - 1)
    (hlen : stream.length < 2 ^ 32) (src : UInt32) (i0 : Nat × Nat) (h0 : fromRaw p s src = some i0)
    {T : Nat} {ow : Nat → Nat} {max : Nat} {Ld : List (Nat × Edge Link)} {slots : Nat → Nat} {xs0 : List (Async.Act Link)} {r0 r : Engine.St VP Mail Unit Link} {xs : List (Act Link)}
    (R : RanPaths T ow (pack i0) max p s (graphOf (link rangeTimes) p s S) Ld slots xs0 r0 r xs) (hd : Finished (cfg T ow (pack i0)) r) (u : UInt32) (hu : InFile evs u) :
    ∃ i, fromRaw p s u = some i ∧ ∀ t, t < 2 ^ 64 - 1 → ((∃ w ∈ (r.alg.prop (pack i)).windows, w.start < t ∧ t < w.stop) ↔ FileReach c rangeTimes evs src u t) :=
  C89_windows_partial _ rangeOps c p rangeTimes o file evs stream s S L range_clock
    ⟨fun h => (hsorted h).imp fun hab => UInt64.le_iff_toNat_le.1 hab, hsmall, range_open L.reads⟩ hlen src i0 h0 T ow max Ld slots xs0 r0 r xs R hd u hu

end Verif.Props.AnswerTimes
