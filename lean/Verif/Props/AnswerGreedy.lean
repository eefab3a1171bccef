import Verif.Props.AnswerSyncRanks
import Verif.Props.ColouringMsg

/-!
# C100: the greedy colouring for a file

Colouring with wait counts, from the lines of a file in undirected mode to the colours at the vertices. The variant by messages
needs the out-edges and in-edges of a vertex in the same order (C70); the emitter, the numbering of in-edges and the appending of
out-edges together make it so.
-/

namespace Verif.Props.AnswerGreedy

open Verif Verif.Engine Verif.Built
open Verif.Async (Alg Edge)
open Verif.Loader (Ops Ev)
open Verif.Pipeline (Params fromRaw)
open Verif.Props.Answer Verif.Props.Engine Verif.Props.AnswerSync
open Verif.Props.ColouringWait (Mirrored Sequential Earlier Static)
open Verif.Colouring (comparePriority)

/-! ## Arrows, and their numbers at the destination -/

section
variable {α : Type} [DecidableEq α]

/-- Arrows with the number of earlier ones to the same destination. -/
def counted (l : List (α × α)) : List (α × α × Nat) := l.mapIdx fun k a => (a.1, a.2, (l.take k).countP fun x => decide (x.2 = a.2))

theorem counted_snoc (l : List (α × α)) (a : α × α) : counted (l ++ [a]) = counted l ++ [(a.1, a.2, l.countP fun x => decide (x.2 = a.2))] := by
  unfold counted
  rw [List.mapIdx_append]
  congr 1
  · refine List.ext_getElem (by simp) fun k h1 h2 => ?_
    simp only [List.length_mapIdx] at h1
    simp only [List.getElem_mapIdx]
    rw [List.take_append_of_le_length (by omega)]
  · simp

/-- The `i`-th arrow to `v` has number `i`. -/
theorem counted_get (v : α) : ∀ (l : List (α × α)) (i : Nat) (a : α × α), (l.filter fun x => decide (x.2 = v))[i]? = some a → (a.1, v, i) ∈ counted l := by
  intro l
  induction l using List.reverseRecOn with
  | nil => intro i a h; simp at h
  | append_singleton l b ih =>
    intro i a h
    rw [counted_snoc, List.mem_append]
    rw [List.filter_append, List.getElem?_append] at h
    split at h
    · exact .inl (ih i a h)
    · next hi =>
      right
      by_cases hb : b.2 = v
      · rw [List.filter_cons_of_pos (by simpa using hb), List.filter_nil] at h
        have h0 : i - (l.filter fun x => decide (x.2 = v)).length = 0 := by
          by_contra hne
          rw [List.getElem?_eq_none (by simp; omega)] at h
          cases h
        rw [h0] at h
        simp only [List.getElem?_cons_zero, Option.some.injEq] at h
        subst h
        rw [List.mem_singleton, Prod.mk.injEq, Prod.mk.injEq]
        refine ⟨rfl, hb.symm, ?_⟩
        rw [hb, List.countP_eq_length_filter]
        omega
      · rw [List.filter_cons_of_neg (by simpa using hb), List.filter_nil, List.getElem?_nil] at h
        cases h

theorem counted_lt : ∀ (l : List (α × α)) (a : α × α × Nat), a ∈ counted l → a.2.2 < l.countP fun x => decide (x.2 = a.2.1) := by
  intro l
  induction l using List.reverseRecOn with
  | nil => intro a h; simp [counted] at h
  | append_singleton l b ih =>
    intro a h
    rw [counted_snoc, List.mem_append] at h
    rw [List.countP_append]
    rcases h with h | h
    · exact Nat.lt_of_lt_of_le (ih a h) (Nat.le_add_right _ _)
    · rw [List.mem_singleton] at h
      subst h
      simp

theorem counted_mem {l : List (α × α)} {a : α × α × Nat} (h : a ∈ counted l) : (a.1, a.2.1) ∈ l := by
  unfold counted at h
  obtain ⟨k, hk, rfl⟩ := List.mem_mapIdx.1 h
  exact List.getElem_mem _

theorem counted_pairs (l : List (α × α)) : (counted l).map (fun a => (a.1, a.2.1)) = l := by
  unfold counted
  refine List.ext_getElem (by simp) fun k h1 h2 => by simp

theorem counted_filter {β : Type} (l : List (α × α)) (u : α) (f : α → β) :
    ((counted l).filter fun a => decide (a.1 = u)).map (fun a => f a.2.1) = (l.filter fun a => decide (a.1 = u)).map fun a => f a.2 := by
  have e : (l.filter fun a => decide (a.1 = u)) = ((counted l).filter fun a => decide (a.1 = u)).map fun a => (a.1, a.2.1) := by
    conv_lhs => rw [← counted_pairs l]
    rw [List.filter_map]
    rfl
  rw [e, List.map_map]
  rfl

theorem counted_countP (l : List (α × α)) (u : α) : (l.countP fun a => decide (a.2 = u)) = (counted l).countP fun a => decide (a.2.1 = u) := by
  conv_lhs => rw [← counted_pairs l, List.countP_map]
  rfl

theorem renamed_dense (l : List (α × α)) (f : α → Nat) (a : Nat × Nat × Nat) (h : a ∈ (counted l).map fun a => (f a.1, f a.2.1, a.2.2)) :
    a.2.2 < ((counted l).map fun a => (f a.1, f a.2.1, a.2.2)).countP fun b => decide (b.2.1 = a.2.1) := by
  obtain ⟨b, hb, rfl⟩ := List.mem_map.1 h
  refine Nat.lt_of_lt_of_le (counted_lt _ b hb) ?_
  rw [counted_countP, List.countP_map]
  refine List.countP_mono_left fun x hx hq => ?_
  have : x.2.1 = b.2.1 := of_decide_eq_true hq
  simp [this]

/-- Every arrow with its reverse right after it. -/
def doubled (l : List (α × α)) : List (α × α) := l.flatMap fun a => [(a.1, a.2), (a.2, a.1)]

omit [DecidableEq α] in
theorem doubled_perm (l : List (α × α)) : ((doubled l).map fun a => (a.1, a.2)).Perm ((doubled l).map fun a => (a.2, a.1)) := by
  induction l with
  | nil => exact .refl _
  | cons a l ih =>
    simp only [doubled, List.flatMap_cons, List.cons_append, List.nil_append, List.map_cons] at ih ⊢
    exact (List.Perm.swap _ _ _).trans ((ih.cons _).cons _)

/-- Where the arrows from `v` go, in order, is where those to `v` come from. -/
theorem doubled_aligned (v : α) (l : List (α × α)) :
    ((doubled l).filter fun a => decide (a.1 = v)).map Prod.snd = ((doubled l).filter fun a => decide (a.2 = v)).map Prod.fst := by
  induction l with
  | nil => rfl
  | cons a l ih =>
    have e : doubled (a :: l) = [(a.1, a.2), (a.2, a.1)] ++ doubled l := rfl
    rw [e, List.filter_append, List.filter_append, List.map_append, List.map_append, ih]
    congr 1
    by_cases h1 : a.1 = v <;> by_cases h2 : a.2 = v <;> simp [h1, h2]

/-- The same for the graph with vertices renamed. -/
theorem graph_aligned (l : List (α × α)) (f : α → Nat) (u : α) (hinj : ∀ a ∈ doubled l, f a.1 = f u → a.1 = u) (k : Nat) (e : Edge Nat)
    (he : (Colouring.graph ((counted (doubled l)).map fun a => (f a.1, f a.2.1, a.2.2)) (f u))[k]? = some e) :
    ∃ w, e.dst = f w ∧ (w, u, k) ∈ counted (doubled l) := by
  have h1 : (Colouring.graph ((counted (doubled l)).map fun a => (f a.1, f a.2.1, a.2.2)) (f u)).map Edge.dst = (((doubled l).filter fun a => decide (a.2 = u)).map Prod.fst).map f := by
    unfold Colouring.graph
    rw [← doubled_aligned, List.map_map, List.filter_map, List.map_map, List.map_map]
    have h2 : (counted (doubled l)).filter ((fun a : Nat × Nat × Nat => decide (a.1 = f u)) ∘ fun a => (f a.1, f a.2.1, a.2.2)) = (counted (doubled l)).filter fun a => decide (a.1 = u) := by
      refine List.filter_congr fun a ha => ?_
      simp only [Function.comp]
      exact decide_eq_decide.2 ⟨fun h => hinj _ (counted_mem ha) h, fun h => by rw [h]⟩
    rw [h2]
    exact counted_filter (doubled l) u f
  have h2 : ((((doubled l).filter fun a => decide (a.2 = u)).map Prod.fst).map f)[k]? = some e.dst := by
    rw [← h1, List.getElem?_map, he]; rfl
  rw [List.map_map, List.getElem?_map, Option.map_eq_some_iff] at h2
  obtain ⟨a, ha, hb⟩ := h2
  exact ⟨a.1, hb.symm, counted_get u _ k a ha⟩

end

/-! ## The graph of a file -/

variable {E D : Type} {ops : Ops E} {c : Loader.Cfg} {p : Params E} {tm : E → UInt64 × UInt64} {o : Enact.Opts} {file : List (List UInt8)}
  {evs stream : List (Ev E)} {s : Pipeline.St E} {S : Nat → Enact.Th E}

/-- The number of a vertex. -/
def num (p : Params E) (s : Pipeline.St E) (u : UInt32) : Nat := pack ((fromRaw p s u).getD (0, 0))

theorem prior_pack (i j : Nat × Nat) (hi : i.2 < 2 ^ 27) (hj : j.2 < 2 ^ 27) :
    comparePriority (Colouring.hash (pack j)) (Colouring.hash (pack i)) (pack j) (pack i) = true ↔ j.2 < i.2 ∨ (j.2 = i.2 ∧ j.1 < i.1) := by
  have hh : ∀ a : Nat × Nat, a.2 < 2 ^ 27 → Colouring.hash (pack a) = a.2 := by
    intro a ha
    unfold Colouring.hash pack
    rw [show (1 <<< 27 - 1 : Nat) = 2 ^ 27 - 1 from rfl, Nat.and_two_pow_sub_one_eq_mod]
    omega
  unfold comparePriority
  rw [hh i hi, hh j hj]
  simp only [Bool.or_eq_true, Bool.and_eq_true, decide_eq_true_eq]
  unfold pack
  constructor
  · rintro (h | ⟨h1, h2⟩)
    · exact .inl h
    · exact .inr ⟨h1, by omega⟩
  · rintro (h | ⟨h1, h2⟩)
    · exact .inl h
    · exact .inr ⟨h1, by omega⟩

attribute [local irreducible] pack

theorem within (L : Loaded False ops c p tm o file evs stream s S) {u : UInt32} {i : Nat × Nat} (h : fromRaw p s u = some i) : i.2 < 2 ^ 27 := by
  obtain ⟨bs, -, hr⟩ := L.complete.pipeline L.reads L.emitted
  obtain ⟨h3, h4⟩ := (Props.Pipeline.C45_one_id p stream bs s hr u i).1 h
  have ht : i.1 < p.T := by rw [h4]; exact Nat.mod_lt _ L.threads
  obtain ⟨x, h5, -⟩ := Option.map_eq_some_iff.1 h3
  have := (List.getElem?_eq_some_iff.1 h5).1
  have := L.verts i.1 ht
  omega

theorem numbered_counted (hadd : ∀ e ∈ stream, e.typ = .add) :
    (Props.EndToEnd.numbered stream).map (fun x => (x.1.src, x.1.dst, x.2)) = counted (stream.map fun e => (e.src, e.dst)) := by
  unfold Props.EndToEnd.numbered counted
  refine List.ext_getElem (by simp) fun k h1 h2 => ?_
  simp only [List.length_map, List.length_mapIdx] at h1
  simp only [List.getElem_map, List.getElem_mapIdx]
  rw [← List.map_take, List.countP_map, ← List.countP_eq_length_filter]
  congr 2
  refine List.countP_congr fun x hx => ?_
  simp [hadd x (List.mem_of_mem_take hx)]

theorem arrows_doubled (hund : c.undirected = true) : arrows c evs = doubled (evs.map fun e => (e.src, e.dst)) := by
  unfold arrows doubled
  rw [List.flatMap_map]
  simp [hund]

/-- The edges of the graph, in the order of the stream, between raw ids. -/
theorem triples_counted (L : Loaded False ops c p tm o file evs stream s S) (hund : c.undirected = true) :
    triples p s stream = (counted (doubled (evs.map fun e => (e.src, e.dst)))).map fun a => (num p s a.1, num p s a.2.1, a.2.2) := by
  rw [← arrows_doubled hund, ← stream_arrows L.emitted, ← numbered_counted (stream_add L.reads L.emitted), List.map_map]
  rfl

theorem num_eq {u : UInt32} {i : Nat × Nat} (h : fromRaw p s u = some i) : num p s u = pack i := by
  unfold num
  rw [h, Option.getD_some]

theorem num_inj (L : Loaded False ops c p tm o file evs stream s S) {u v : UInt32} (hu : InFile evs u) (hv : InFile evs v) (h : num p s u = num p s v) : u = v := by
  obtain ⟨i, hi⟩ := L.vertex u hu
  obtain ⟨j, hj⟩ := L.vertex v hv
  unfold num at h
  rw [hi, hj] at h
  exact L.inj hi hj h

theorem doubled_inFile {a : UInt32 × UInt32} (h : a ∈ doubled (evs.map fun e => (e.src, e.dst))) : InFile evs a.1 ∧ InFile evs a.2 := by
  unfold doubled at h
  obtain ⟨b, hb, ha⟩ := List.mem_flatMap.1 h
  obtain ⟨e, he, rfl⟩ := List.mem_map.1 hb
  simp only [List.mem_cons, List.not_mem_nil, or_false] at ha
  rcases ha with rfl | rfl
  · exact ⟨⟨e, he, .inl rfl⟩, ⟨e, he, .inr rfl⟩⟩
  · exact ⟨⟨e, he, .inr rfl⟩, ⟨e, he, .inl rfl⟩⟩

theorem mirrored_triples (L : Loaded False ops c p tm o file evs stream s S) (hund : c.undirected = true) : Mirrored (triples p s stream) := by
  unfold Mirrored
  rw [triples_counted L hund, List.map_map, List.map_map]
  have e1 : ∀ f : UInt32 → UInt32 → Nat × Nat, (counted (doubled (evs.map fun e => (e.src, e.dst)))).map (fun a => f a.1 a.2.1) =
      (doubled (evs.map fun e => (e.src, e.dst))).map fun a => f a.1 a.2 := by
    intro f
    unfold counted
    refine List.ext_getElem (by simp) fun k h1 h2 => by simp
  have h := (doubled_perm (evs.map fun e => (e.src, e.dst))).map fun a : UInt32 × UInt32 => (num p s a.1, num p s a.2)
  rw [List.map_map, List.map_map] at h
  rw [show ((fun a : Nat × Nat × Nat => (a.1, a.2.1)) ∘ fun a : UInt32 × UInt32 × Nat => (num p s a.1, num p s a.2.1, a.2.2)) = fun a => (fun x y => (num p s x, num p s y)) a.1 a.2.1 from rfl,
    show ((fun a : Nat × Nat × Nat => (a.2.1, a.1)) ∘ fun a : UInt32 × UInt32 × Nat => (num p s a.1, num p s a.2.1, a.2.2)) = fun a => (fun x y => (num p s y, num p s x)) a.1 a.2.1 from rfl,
    e1 fun x y => (num p s x, num p s y), e1 fun x y => (num p s y, num p s x)]
  exact h

theorem mirrored_perm {l l' : List (Nat × Nat × Nat)} (h : l.Perm l') (hm : Mirrored l') : Mirrored l :=
  ((h.map _).trans hm).trans (h.map _).symm

/-- **C100.** In undirected mode, the `i`-th out-edge of a vertex goes to where its `i`-th in-edge comes from. -/
theorem C100_aligned_partial (L : Loaded False ops c p tm o file evs stream s S) (hund : c.undirected = true) (u v : UInt32) (i j : Nat × Nat)
    (hu : fromRaw p s u = some i) (hv : fromRaw p s v = some j) (k : Nat) (e : Edge Nat) (he : (graphOf (fun pos (_ : E) => pos) p s S (pack i))[k]? = some e) (hd : e.dst = pack j) :
    ∃ e' ∈ graphOf (fun pos (_ : E) => pos) p s S (pack j), e'.dst = pack i ∧ e'.data = k := by
  rw [← L.graph_triples] at he ⊢
  have hT := triples_counted L hund
  have hn : num p s u = pack i := num_eq hu
  rw [hT, ← hn] at he
  have hinj : ∀ a ∈ doubled (evs.map fun e => (e.src, e.dst)), num p s a.1 = num p s u → a.1 = u := by
    intro a ha h
    obtain ⟨i', hi'⟩ := L.vertex a.1 (doubled_inFile ha).1
    rw [hn, num_eq hi'] at h
    exact L.inj hi' hu h
  obtain ⟨w, h1, h2⟩ := graph_aligned _ (num p s) u hinj k e he
  obtain ⟨j', hj'⟩ := L.vertex w (doubled_inFile (counted_mem h2)).1
  rw [num_eq hj', hd] at h1
  have hw := L.inj hv hj' h1
  subst hw
  have hm : (pack j, pack i, k) ∈ triples p s stream := by
    rw [hT, ← hn, ← num_eq hv]
    exact List.mem_map_of_mem (f := fun a : UInt32 × UInt32 × Nat => (num p s a.1, num p s a.2.1, a.2.2)) h2
  exact ⟨⟨pack i, k⟩, List.mem_map_of_mem (f := fun a : Nat × Nat × Nat => (⟨a.2.1, a.2.2⟩ : Edge Nat)) (List.mem_filter.2 ⟨hm, decide_eq_true rfl⟩), rfl, rfl⟩

/-! ## The greedy colouring of a file -/

/-- Two raw ids are joined by a line of the file. -/
def Joined (evs : List (Ev E)) (u v : UInt32) : Prop := ∃ e ∈ evs, (e.src = u ∧ e.dst = v) ∨ (e.src = v ∧ e.dst = u)

/-- `colour` gives every vertex of the file the least colour that none of those joined to it and numbered before it has: first by position
in its thread, then by thread (`hash`, `comparePriority`, `colouring.go` 51-59). -/
def Greedy (p : Params E) (s : Pipeline.St E) (evs : List (Ev E)) (colour : Nat → Nat) : Prop :=
  ∀ u, InFile evs u → ∃ i, fromRaw p s u = some i ∧
    IsLeast {k | ∀ w j, Joined evs w u → fromRaw p s w = some j → (j.2 < i.2 ∨ (j.2 = i.2 ∧ j.1 < i.1)) → colour (pack j) ≠ k} (colour (pack i))

theorem joined_edge (hund : c.undirected = true) (u v : UInt32) : FileEdge c (fun _ => ()) evs u v () ↔ Joined evs u v := by
  unfold FileEdge Joined
  simp [hund]

theorem triples_joined (L : Loaded False ops c p tm o file evs stream s S) (hund : c.undirected = true) {u v : UInt32} {i j : Nat × Nat}
    (hu : fromRaw p s u = some i) (hv : fromRaw p s v = some j) : (∃ q, (pack i, pack j, q) ∈ triples p s stream) ↔ Joined evs u v := by
  rw [← joined_edge hund, ← L.adj (fun pos _ => pos) u v i j hu hv, ← L.graph_triples]
  unfold MinLabel.Adj
  constructor
  · rintro ⟨q, hq⟩
    exact edge_of_mem hq
  · intro h
    obtain ⟨a, ha, h1, h2⟩ := mem_of_edge h
    refine ⟨a.2.2, ?_⟩
    rw [← h1, ← h2]
    exact ha

/-- The sequential colouring of the graph is the greedy one of the file. -/
theorem greedy_of_sequential (L : Loaded False ops c p tm o file evs stream s S) (hund : c.undirected = true) {es : List (Nat × Nat × Nat)} (hes : es.Perm (triples p s stream))
    {col : Nat → Nat} (hc : Sequential es col) {colour : Nat → Nat} (h : ∀ u, InFile evs u → ∀ i, fromRaw p s u = some i → colour (pack i) = col (pack i)) :
    Greedy p s evs colour := by
  intro u hu
  obtain ⟨i, hi⟩ := L.vertex u hu
  refine ⟨i, hi, ?_⟩
  have hset : {k | ∀ w j, Joined evs w u → fromRaw p s w = some j → (j.2 < i.2 ∨ (j.2 = i.2 ∧ j.1 < i.1)) → colour (pack j) ≠ k} = {k | ∀ x, Earlier es x (pack i) → col x ≠ k} := by
    ext k
    constructor
    · rintro hk x ⟨⟨q, hq⟩, hp⟩
      have hm := hes.mem_iff.1 hq
      obtain ⟨w, j, -, -, h1, h2, -, -⟩ := ends_triples L _ hm
      dsimp only at h2
      subst h2
      have hj : Joined evs w u := (triples_joined L hund h1 hi).1 ⟨q, hm⟩
      have hw : InFile evs w := by
        obtain ⟨e, he, h | h⟩ := hj
        · exact ⟨e, he, .inl h.1⟩
        · exact ⟨e, he, .inr h.2⟩
      rw [← h w hw j h1]
      exact hk w j hj h1 ((prior_pack i j (within L hi) (within L h1)).1 hp)
    · intro hk w j hj h1 hp
      have hw : InFile evs w := by
        obtain ⟨e, he, h | h⟩ := hj
        · exact ⟨e, he, .inl h.1⟩
        · exact ⟨e, he, .inr h.2⟩
      rw [h w hw j h1]
      obtain ⟨q, hq⟩ := (triples_joined L hund h1 hi).2 hj
      exact hk _ ⟨⟨q, hes.mem_iff.2 hq⟩, (prior_pack i j (within L hi) (within L h1)).2 hp⟩
  rw [hset, h u hu i hi]
  exact hc (pack i)

theorem static_appended : ∀ {ys : List (Async.Act Nat)}, Static ys → ∀ v, appended ys v = [] := by
  intro ys h v
  unfold appended
  rw [List.flatMap_eq_nil_iff]
  intro y hy
  cases y with
  | add t u es => exact (h.1 t u es hy).elim
  | _ => rfl

section
open Verif.ColouringWait (waiting)

/-- **C100 (missing: runs with the races on closing queues, as C81).** Colouring with wait counts on the graph of a file: when the threads
have left their loops, the colours are the greedy colouring of the file. -/
theorem C100_greedy_partial (L : Loaded False ops c p tm o file evs stream s S) (hund : c.undirected = true) (hlen : stream.length ≤ 2147483646) (T : Nat) (own : Nat → Nat) {max : Nat}
    {es : List (Nat × Nat × Nat)} {xs0 : List (Async.Act Nat)} {r0 r : Engine.St Nat ColouringWait.Mail Unit Nat} {xs : List (Act Nat)}
    (R : Ran (waiting es) (ColouringWait.cfg T own) max p s (graphOf (fun pos _ => pos) p s S) (Colouring.graph es) xs0 r0 r xs) (hstat : Static (xs0 ++ topos xs))
    (hd : Finished (ColouringWait.cfg T own) r) : Greedy p s evs r.alg.prop := by
  have hg : Colouring.graph es = Colouring.graph (triples p s stream) := by
    rw [L.graph_triples]
    funext v
    rw [← R.graph v, static_appended hstat, List.append_nil]
  have hes := graph_perm hg
  obtain ⟨col, hc⟩ := ColouringWait.sequential_exists es
  obtain ⟨hq, -, ys, hys, hk⟩ := C63_final (waiting es) (ColouringWait.cfg T own) max R.batch R.own r0 r R.start xs R.run hd
  have hsy : Static (xs0 ++ ys) := by
    have hmem : ∀ y ∈ ys, (topoThread y).isSome = true → y ∈ topos xs := fun y hy h => by rw [← hk]; exact List.mem_filter.2 ⟨hy, h⟩
    refine ⟨fun t v es h => ?_, fun t v k h => ?_⟩
    · rcases List.mem_append.1 h with h | h
      · exact hstat.1 t v es (List.mem_append_left _ h)
      · exact hstat.1 t v es (List.mem_append_right _ (hmem _ h rfl))
    · rcases List.mem_append.1 h with h | h
      · exact hstat.2 t v k (List.mem_append_left _ h)
      · exact hstat.2 t v k (List.mem_append_right _ (hmem _ h rfl))
  refine greedy_of_sequential L hund hes hc fun u hu i hi => ?_
  refine ColouringWait.C68_greedy T own R.own es (positions_perm hes (L.positions hlen)) (mirrored_perm hes (mirrored_triples L hund)) col hc (xs0 ++ ys) hsy r.alg
    (Converge.run_append _ _ xs0 ys _ _ _ R.first hys) hq (fun a ha => ?_) (pack i) (R.inited u i hi)
  obtain ⟨w, j, -, -, h1, h2, -, -⟩ := ends_triples L a (hes.mem_iff.1 ha)
  rw [h2]
  exact R.inited w j h1

/-- **C100**: and under every fair schedule the threads leave their loops, with these colours. -/
theorem C100_returns_partial (L : Loaded False ops c p tm o file evs stream s S) (hund : c.undirected = true) (hlen : stream.length ≤ 2147483646) (T : Nat) (own : Nat → Nat) {max : Nat}
    {es : List (Nat × Nat × Nat)} {xs0 : List (Async.Act Nat)} {e : Exec (waiting es) (ColouringWait.cfg T own) max} {m : Nat}
    (R : Runs p s (graphOf (fun pos _ => pos) p s S) (Colouring.graph es) xs0 e m) (hstat : Static (xs0 ++ topos ((List.range m).map e.act))) :
    ∃ k, Finished (ColouringWait.cfg T own) (e.st k) ∧ Greedy p s evs (e.st k).alg.prop := by
  have hg : Colouring.graph es = Colouring.graph (triples p s stream) := by
    rw [L.graph_triples]
    funext v
    rw [← R.graph v, static_appended hstat, List.append_nil]
  have hes := graph_perm hg
  obtain ⟨col, hc⟩ := ColouringWait.sequential_exists es
  obtain ⟨k, h1, h2⟩ := ColouringWait.C68_returns_partial T own R.own max R.batch es (positions_perm hes (L.positions hlen)) (mirrored_perm hes (mirrored_triples L hund)) col hc xs0
    ⟨fun t v es h => hstat.1 t v es (List.mem_append_left _ h), fun t v k h => hstat.2 t v k (List.mem_append_left _ h)⟩ e R.first R.start R.fair R.fresh m R.closed R.noTopo
    ⟨fun t v es h => hstat.1 t v es (List.mem_append_right _ h), fun t v k h => hstat.2 t v k (List.mem_append_right _ h)⟩ fun a ha => by
      obtain ⟨w, j, -, -, h1, h2, -, -⟩ := ends_triples L a (hes.mem_iff.1 ha)
      rw [h2]
      exact R.inited w j h1
  exact ⟨k, h1, greedy_of_sequential L hund hes hc fun u hu i hi => h2 (pack i) (R.inited u i hi)⟩

end

/-! ## By messages -/

section
open Verif.ColouringMsg (Cfg St Act run start Quiet links)
open Verif.Props.ColouringMsg (noColour Stuck)

/-- The machine of the variant by messages runs on the graph of the file. Numbers that no vertex has count as vertices without edges. -/
structure OnFile (p : Params E) (s : Pipeline.St E) (S : Nat → Enact.Th E) (k : Cfg) : Prop where
  graph : Colouring.graph k.es = graphOf (fun pos _ => pos) p s S
  size : k.n = p.T * 2 ^ 27
  owned : ∀ v, v < k.n → k.own v < k.T

theorem onFile_loaded (L : Loaded False ops c p tm o file evs stream s S) (hund : c.undirected = true) (hlen : stream.length ≤ 2147483646) (hloop : ∀ e ∈ evs, e.src ≠ e.dst)
    {k : Cfg} (h : OnFile p s S k) : ColouringMsg.Loaded k := by
  have hes : k.es.Perm (triples p s stream) := graph_perm (h.graph.trans L.graph_triples.symm)
  have hends : ∀ a ∈ k.es, ∃ u i v j, fromRaw p s u = some i ∧ a.1 = pack i ∧ fromRaw p s v = some j ∧ a.2.1 = pack j := fun a ha => ends_triples L a (hes.mem_iff.1 ha)
  refine ⟨(positions_perm hes (L.positions hlen)).distinct, fun a ha => ?_, mirrored_perm hes (mirrored_triples L hund), ?_, fun a ha he => ?_, fun a ha => ?_, h.owned⟩
  · have hm := hes.mem_iff.1 ha
    rw [hes.countP_eq]
    rw [triples_counted L hund] at hm ⊢
    exact renamed_dense _ (num p s) a hm
  · rw [hes.length_eq]
    unfold triples Props.EndToEnd.numbered
    rw [List.length_map, List.length_mapIdx]
    omega
  · obtain ⟨u, i, v, j, h1, h2, h3, h4⟩ := hends a ha
    have huv := L.inj h1 h3 (h2.symm.trans (he.trans h4))
    subst huv
    have hj : Joined evs u u := (triples_joined L hund h1 h3).1 ⟨a.2.2, by rw [← h2, ← h4]; exact hes.mem_iff.1 ha⟩
    obtain ⟨y, hy, b | b⟩ := hj
    · exact hloop y hy (b.1.trans b.2.symm)
    · exact hloop y hy (b.1.trans b.2.symm)
  · obtain ⟨u, i, v, j, h1, h2, h3, h4⟩ := hends a ha
    rw [h.size, h2, h4]
    exact ⟨L.below h1, L.below h3⟩

/-- The order of edges that `C70_wait_partial` asks for. -/
theorem onFile_aligned (L : Loaded False ops c p tm o file evs stream s S) (hund : c.undirected = true) {k : Cfg} (h : OnFile p s S k) :
    ∀ v i e, (links k v)[i]? = some e → (e.1, v, i) ∈ k.es := by
  intro v i e he
  have hes : k.es.Perm (triples p s stream) := graph_perm (h.graph.trans L.graph_triples.symm)
  have hl : links k v = (Colouring.graph k.es v).map fun e => (e.dst, e.data) := by
    unfold links Colouring.graph
    rw [List.map_map]
    rfl
  rw [hl, h.graph, List.getElem?_map, Option.map_eq_some_iff] at he
  obtain ⟨x, hx, rfl⟩ := he
  obtain ⟨u, a, w, b, h1, rfl, h3, h4⟩ := L.target _ v x (List.mem_of_getElem? hx)
  obtain ⟨y, hy, h5, h6⟩ := C100_aligned_partial L hund u w a b h1 h3 i x hx h4
  rw [← h.graph] at hy
  obtain ⟨z, hz, rfl⟩ := List.mem_map.1 hy
  obtain ⟨hz1, hz2⟩ := List.mem_filter.1 hz
  have : z.1 = pack b := of_decide_eq_true hz2
  dsimp only at h5 h6 ⊢
  rw [h4, ← this, ← h5, ← h6]
  exact hz1

/-- **C100** by messages (missing: as above; and files with self-loops, on which these runs never end, C70): one number bounds the steps of every
run, no run panics, at any moment a vertex has no colour or the one it has at the end, and a run that cannot go on has the greedy colouring of the file. -/
theorem C100_messages_partial (L : Loaded False ops c p tm o file evs stream s S) (hund : c.undirected = true) (hlen : stream.length ≤ 2147483646) (hloop : ∀ e ∈ evs, e.src ≠ e.dst)
    (k : Cfg) (h : OnFile p s S k) (hw : k.wait = true) :
    ∃ (B : Nat) (col : Nat → Nat), Greedy p s evs col ∧ ∀ xs r, run k (start k) xs = some r → xs.length ≤ B ∧ r.crashed = false ∧
      (∀ v, (r.vp v).colour = noColour ∨ (r.vp v).colour = col v) ∧ (Stuck k r → Greedy p s evs fun v => (r.vp v).colour) := by
  have hl := onFile_loaded L hund hlen hloop h
  have hes : k.es.Perm (triples p s stream) := graph_perm (h.graph.trans L.graph_triples.symm)
  obtain ⟨col, hc⟩ := ColouringWait.sequential_exists k.es
  obtain ⟨B, hB⟩ := ColouringMsg.C70_bound k hl
  refine ⟨B, col, greedy_of_sequential L hund hes hc fun _ _ _ _ => rfl, fun xs r hr => ⟨hB xs r hr, ColouringMsg.C70_safe k hl xs r hr, ?_⟩⟩
  obtain ⟨h1, h2⟩ := ColouringMsg.C70_wait_partial k hl hw (onFile_aligned L hund h) col hc xs r hr
  refine ⟨h1, fun hst => greedy_of_sequential L hund hes hc fun u hu i hi => ?_⟩
  refine h2 (ColouringMsg.C70_rest k hl xs r hr hst) (pack i) ?_
  rw [h.size]
  exact L.below hi

/-- **C100** by messages without wait counts: a run that cannot go on has given the ends of every line different colours. -/
theorem C100_proper_partial (L : Loaded False ops c p tm o file evs stream s S) (hund : c.undirected = true) (hlen : stream.length ≤ 2147483646) (hloop : ∀ e ∈ evs, e.src ≠ e.dst)
    (k : Cfg) (h : OnFile p s S k) (hw : k.wait = false) :
    ∃ B : Nat, ∀ xs r, run k (start k) xs = some r → xs.length ≤ B ∧ r.crashed = false ∧
      (Stuck k r → ∀ e ∈ evs, ∃ i j, fromRaw p s e.src = some i ∧ fromRaw p s e.dst = some j ∧ (r.vp (pack i)).colour ≠ noColour ∧ (r.vp (pack i)).colour ≠ (r.vp (pack j)).colour) := by
  have hl := onFile_loaded L hund hlen hloop h
  have hes : k.es.Perm (triples p s stream) := graph_perm (h.graph.trans L.graph_triples.symm)
  obtain ⟨B, hB⟩ := ColouringMsg.C70_bound k hl
  refine ⟨B, fun xs r hr => ⟨hB xs r hr, ColouringMsg.C70_safe k hl xs r hr, fun hst e he => ?_⟩⟩
  obtain ⟨i, hi⟩ := L.vertex e.src ⟨e, he, .inl rfl⟩
  obtain ⟨j, hj⟩ := L.vertex e.dst ⟨e, he, .inr rfl⟩
  obtain ⟨h1, h2⟩ := ColouringMsg.C70_proper k hl hw xs r hr (ColouringMsg.C70_rest k hl xs r hr hst)
  obtain ⟨q, hq⟩ := (triples_joined L hund hi hj).2 ⟨e, he, .inl ⟨rfl, rfl⟩⟩
  refine ⟨i, j, hi, hj, (h1 (pack i) ?_).1, h2 _ (hes.mem_iff.2 hq)⟩
  rw [h.size]
  exact L.below hi

end

end Verif.Props.AnswerGreedy
