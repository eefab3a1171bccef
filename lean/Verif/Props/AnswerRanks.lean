import Verif.Props.Answer
import Verif.Props.PageRankConv
import Mathlib.Data.Finset.Dedup
import Mathlib.Algebra.Order.BigOperators.Group.List

/-!
# C87: the ranks for a file

The same as C81 for PageRank: from the lines of a file to the ranks at the vertices when the threads have left their
loops. The equations are those of the lines of the file; numbering of vertices, threads and schedules do not occur.
-/

namespace Verif.Props.Answer

open Verif Verif.Engine Verif.Built
open Verif.Async (Alg Edge)
open Verif.Loader (Ops Ev)
open Verif.Pipeline (Params fromRaw)
open Verif.Props.Loader (Reads IsStream)
open Verif.Props.Engine Verif.Props.MinLabel Verif.Props.Converge
open Verif.PageRank (PR alg cfg Always)
open Verif.Props.PageRank (passedOn Solves)

variable {E : Type}

/-- The lines of the file as arrows; in undirected mode every line is one in both directions. -/
def arrows (c : Loader.Cfg) (evs : List (Ev E)) : List (UInt32 × UInt32) :=
  evs.flatMap fun e => if c.undirected then [(e.src, e.dst), (e.dst, e.src)] else [(e.src, e.dst)]

/-- The number of arrows that leave `a`. -/
def leaving (as : List (UInt32 × UInt32)) (a : UInt32) : Nat := as.countP fun x => decide (x.1 = a)

/-- What the arrows pass on to `u` if the ranks are `x`: for every arrow to `u` an equal part of `d` times the rank of
its source. -/
def arriving (d : ℚ) (as : List (UInt32 × UInt32)) (x : UInt32 → ℚ) (u : UInt32) : ℚ :=
  (as.map fun a => if a.2 = u then d * x a.1 / leaving as a.1 else 0).sum

/-- The vertices named in the file. -/
def named (as : List (UInt32 × UInt32)) : Finset UInt32 := (as.map Prod.fst ++ as.map Prod.snd).toFinset

/-- The PageRank equations of the file. -/
def FileRanks (d : ℚ) (as : List (UInt32 × UInt32)) (x : UInt32 → ℚ) : Prop := ∀ u ∈ named as, x u = (1 - d) + arriving d as x u

theorem named_iff (c : Loader.Cfg) (evs : List (Ev E)) (u : UInt32) : u ∈ named (arrows c evs) ↔ InFile evs u := by
  unfold named arrows InFile
  simp only [List.mem_toFinset, List.mem_append, List.mem_map, List.mem_flatMap]
  constructor
  · rintro (⟨a, ⟨e, he, ha⟩, rfl⟩ | ⟨a, ⟨e, he, ha⟩, rfl⟩)
    · refine ⟨e, he, ?_⟩
      split at ha
      · simp only [List.mem_cons, List.not_mem_nil, or_false] at ha
        rcases ha with rfl | rfl
        · exact .inl rfl
        · exact .inr rfl
      · rcases List.mem_singleton.1 ha with rfl; exact .inl rfl
    · refine ⟨e, he, ?_⟩
      split at ha
      · simp only [List.mem_cons, List.not_mem_nil, or_false] at ha
        rcases ha with rfl | rfl
        · exact .inr rfl
        · exact .inl rfl
      · rcases List.mem_singleton.1 ha with rfl; exact .inr rfl
  · rintro ⟨e, he, h⟩
    have hm : (e.src, e.dst) ∈ (if c.undirected then [(e.src, e.dst), (e.dst, e.src)] else [(e.src, e.dst)]) := by
      split <;> simp
    rcases h with rfl | rfl
    · exact .inl ⟨_, ⟨e, he, hm⟩, rfl⟩
    · exact .inr ⟨_, ⟨e, he, hm⟩, rfl⟩

/-! ## Sums over sources -/

/-- A sum over a list, grouped by a number below `n`. -/
theorem sum_grouped {α : Type} (key : α → Nat) (F : α → ℚ) (n : Nat) : ∀ l : List α, (∀ a ∈ l, key a < n) →
    ∑ w ∈ Finset.range n, ((l.filter fun a => decide (key a = w)).map F).sum = (l.map F).sum
  | [], _ => by simp
  | a :: l, h => by
    have ih := sum_grouped key F n l fun b hb => h b (List.mem_cons_of_mem _ hb)
    have e : ∀ w, (((a :: l).filter fun a => decide (key a = w)).map F).sum = (if key a = w then F a else 0) + ((l.filter fun a => decide (key a = w)).map F).sum := by
      intro w
      by_cases hw : key a = w
      · simp [hw]
      · simp [hw]
    simp only [e, Finset.sum_add_distrib, ih, List.map_cons, List.sum_cons]
    congr 1
    rw [Finset.sum_ite_eq, if_pos (Finset.mem_range.2 (h a List.mem_cons_self))]

/-- What the arrows pass on, as a sum over sources. -/
theorem arriving_grouped {D : Type} (d : ℚ) (as : List (UInt32 × UInt32)) (x : UInt32 → ℚ) (u : UInt32) (key : UInt32 → Nat) (n : Nat)
    (mass : Nat → ℚ) (edges : Nat → List (Edge D)) (hkey : ∀ a ∈ as, key a.1 < n) (hinj : ∀ a ∈ as, ∀ b, (b = u ∨ ∃ a' ∈ as, b = a'.1) → ∀ b', (b' = a.1 ∨ b' = a.2) → key b' = key b → b' = b)
    (hm : ∀ a ∈ as, mass (key a.1) = x a.1)
    (he : ∀ w, (edges w).map (fun e => e.dst) = (as.filter fun a => decide (key a.1 = w)).map fun a => key a.2) :
    ∑ w ∈ Finset.range n, passedOn d mass edges w (key u) = arriving d as x u := by
  unfold arriving
  rw [← sum_grouped (fun a => key a.1) _ n as hkey]
  refine Finset.sum_congr rfl fun w _ => ?_
  have hlen : (edges w).length = (as.filter fun a => decide (key a.1 = w)).length := by
    have := congrArg List.length (he w)
    simpa using this
  have e1 : passedOn d mass edges w (key u) = (((edges w).map (fun e => e.dst)).map fun y => if y = key u then d * mass w / (edges w).length else 0).sum := by
    unfold passedOn
    rw [List.map_map]
    rfl
  rw [e1, he w, List.map_map, hlen]
  congr 1
  refine List.map_congr_left fun a ha => ?_
  obtain ⟨h1, h2⟩ := List.mem_filter.1 ha
  have h2 := of_decide_eq_true h2
  have h3 : (key a.2 = key u) ↔ a.2 = u := ⟨fun h => hinj a h1 u (.inl rfl) a.2 (.inr rfl) h, fun h => by rw [h]⟩
  have h4 : (as.filter fun a => decide (key a.1 = w)).length = leaving as a.1 := by
    unfold leaving
    rw [List.countP_eq_length_filter]
    congr 1
    refine List.filter_congr fun b hb => decide_eq_decide.2 ⟨fun h => ?_, fun h => by rw [h, h2]⟩
    exact hinj b hb a.1 (.inr ⟨a, h1, rfl⟩) b.1 (.inl rfl) (h.trans h2.symm)
  simp only [Function.comp, h3]
  rw [h4, ← hm a h1, h2]

/-! ## The exact ranks of a file -/

section
variable (as : List (UInt32 × UInt32))

/-- The vertices of the file, one after the other. -/
def order : List UInt32 := (as.map Prod.fst ++ as.map Prod.snd).dedup

theorem order_mem {u : UInt32} : u ∈ order as ↔ u ∈ named as := by
  unfold order named
  rw [List.mem_dedup, List.mem_toFinset]

theorem named_ends {a : UInt32 × UInt32} (h : a ∈ as) : a.1 ∈ named as ∧ a.2 ∈ named as := by
  unfold named
  simp only [List.mem_toFinset, List.mem_append, List.mem_map]
  exact ⟨.inl ⟨a, h, rfl⟩, .inr ⟨a, h, rfl⟩⟩

/-- The graph of the arrows, with the vertices numbered in that order. -/
def ordered (w : Nat) : List (Edge Unit) := (as.filter fun a => decide ((order as).idxOf a.1 = w)).map fun a => ⟨(order as).idxOf a.2, ()⟩

theorem order_get {u : UInt32} (h : u ∈ named as) : (order as).getD ((order as).idxOf u) 0 = u := by
  have h1 := List.idxOf_lt_length_of_mem ((order_mem as).2 h)
  rw [List.getD_eq_getElem _ _ h1, List.getElem_idxOf h1]

theorem order_idx {w : Nat} (h : w < (order as).length) : (order as).idxOf ((order as).getD w 0) = w := by
  rw [List.getD_eq_getElem _ _ h]
  exact (List.nodup_dedup _).idxOf_getElem w h

theorem sum_ordered (d : ℚ) (x : UInt32 → ℚ) (u : UInt32) (hu : u ∈ named as) :
    ∑ w ∈ Finset.range (order as).length, passedOn d (fun w => x ((order as).getD w 0)) (ordered as) w ((order as).idxOf u) = arriving d as x u := by
  refine arriving_grouped d as x u (fun u => (order as).idxOf u) _ _ _ (fun a ha => ?_) (fun a ha b hb b' hb' h => ?_) (fun a ha => ?_) fun w => ?_
  · exact List.idxOf_lt_length_of_mem ((order_mem as).2 (named_ends as ha).1)
  · have h1 : b ∈ named as := by
      rcases hb with rfl | ⟨a', ha', rfl⟩
      · exact hu
      · exact (named_ends as ha').1
    have h2 : b' ∈ named as := by
      rcases hb' with rfl | rfl
      · exact (named_ends as ha).1
      · exact (named_ends as ha).2
    rw [← order_get as h1, ← order_get as h2, h]
  · rw [order_get as (named_ends as ha).1]
  · unfold ordered
    rw [List.map_map]
    rfl

theorem sum_order (f : UInt32 → ℚ) : ∑ w ∈ Finset.range (order as).length, f ((order as).getD w 0) = ∑ u ∈ named as, f u := by
  refine Finset.sum_nbij' (fun w => (order as).getD w 0) (fun u => (order as).idxOf u) (fun w hw => ?_) (fun u hu => ?_) (fun w hw => ?_) (fun u hu => ?_) fun w _ => rfl
  · have := Finset.mem_range.1 hw
    rw [← order_mem, List.getD_eq_getElem _ _ this]
    exact List.getElem_mem _
  · exact Finset.mem_range.2 (List.idxOf_lt_length_of_mem ((order_mem as).2 hu))
  · exact order_idx as (Finset.mem_range.1 hw)
  · exact order_get as hu

theorem order_length : (order as).length = (named as).card := by
  unfold order named
  rw [List.card_toFinset]

theorem solves_iff (d : ℚ) (x : UInt32 → ℚ) : FileRanks d as x ↔ Solves d (ordered as) (order as).length fun w => x ((order as).getD w 0) := by
  constructor
  · intro h v hv
    have hm : (order as).getD v 0 ∈ named as := by
      rw [← order_mem, List.getD_eq_getElem _ _ hv]
      exact List.getElem_mem _
    have := sum_ordered as d x _ hm
    rw [order_idx as hv] at this
    rw [this]
    exact h _ hm
  · intro h u hu
    have h1 := h ((order as).idxOf u) (List.idxOf_lt_length_of_mem ((order_mem as).2 hu))
    rw [sum_ordered as d x u hu] at h1
    dsimp only at h1
    rwa [order_get as hu] at h1

/-- Ranks that nearly solve the equations of the file are near the exact ranks. -/
theorem near_file {d δ : ℚ} (h0 : 0 ≤ d) (h1 : d < 1) (x y : UInt32 → ℚ) (hy : FileRanks d as y)
    (hx : ∀ u ∈ named as, |x u - ((1 - d) + arriving d as x u)| ≤ (1 - d) * δ) : ∑ u ∈ named as, |x u - y u| ≤ (named as).card * δ := by
  rw [← sum_order as fun u => |x u - y u|, ← order_length]
  refine PageRank.near_solution h0 h1 (ordered as) (order as).length (fun w => x ((order as).getD w 0)) (fun w => y ((order as).getD w 0)) ((solves_iff as d y).1 hy) fun v hv => ?_
  have hm : (order as).getD v 0 ∈ named as := by
    rw [← order_mem, List.getD_eq_getElem _ _ hv]
    exact List.getElem_mem _
  have := sum_ordered as d x _ hm
  rw [order_idx as hv] at this
  rw [this]
  exact hx _ hm

end

/-- **C87.** The equations of every file have a solution, and only one. -/
theorem C87_exact (d : ℚ) (h0 : 0 ≤ d) (h1 : d < 1) (c : Loader.Cfg) (evs : List (Ev E)) :
    ∃ y, FileRanks d (arrows c evs) y ∧ ∀ z, FileRanks d (arrows c evs) z → ∀ u, InFile evs u → z u = y u := by
  obtain ⟨y, hy, -⟩ := PageRank.C66_exact d h0 h1 (ordered (arrows c evs)) (order (arrows c evs)).length
  let z0 : UInt32 → ℚ := fun u => y ((order (arrows c evs)).idxOf u)
  have hz0 : ∀ w, w < (order (arrows c evs)).length → z0 ((order (arrows c evs)).getD w 0) = y w := fun w hw => congrArg y (order_idx _ hw)
  have hs : FileRanks d (arrows c evs) z0 := by
    refine (solves_iff _ d z0).2 fun v hv => ?_
    dsimp only
    rw [hz0 v hv, hy v hv]
    congr 1
    refine Finset.sum_congr rfl fun w hw => ?_
    unfold passedOn
    dsimp only
    rw [hz0 w (Finset.mem_range.1 hw)]
  refine ⟨z0, hs, fun z hz u hu' => ?_⟩
  have := near_file (δ := 0) _ h0 h1 z z0 hs fun v hv => by rw [← hz v hv]; simp
  rw [mul_zero] at this
  have h2 := (Finset.sum_eq_zero_iff_of_nonneg (fun _ _ => abs_nonneg _)).1 (le_antisymm this (Finset.sum_nonneg fun _ _ => abs_nonneg _)) u ((named_iff c evs u).2 hu')
  exact sub_eq_zero.1 (abs_eq_zero.1 h2)

/-! ## The file and the graph -/

theorem stream_arrows {ops : Ops E} {c : Loader.Cfg} : ∀ {evs stream : List (Ev E)}, IsStream ops c evs stream → stream.map (fun e => (e.src, e.dst)) = arrows c evs := by
  intro evs stream h
  cases hu : c.undirected with
  | false =>
    have h1 := h.1 hu
    have e1 : arrows c evs = evs.map fun e => (e.src, e.dst) := by
      unfold arrows
      rw [hu]
      simp only [Bool.false_eq_true, if_false]
      exact List.flatMap_pure_eq_map _ _
    rw [e1]
    refine List.ext_getElem? fun k => ?_
    rw [List.getElem?_map, List.getElem?_map, h1 k, Option.map_map]
    rfl
  | true =>
    have h1 := h.2 hu
    refine List.ext_getElem? fun k => ?_
    have e2 : ∀ (evs : List (Ev E)) k, (arrows c evs)[2 * k]? = (evs[k]?).map (fun e => (e.src, e.dst)) ∧
        (arrows c evs)[2 * k + 1]? = (evs[k]?).map fun e => (e.dst, e.src) := by
      intro evs
      induction evs with
      | nil => intro k; simp [arrows]
      | cons e evs ih =>
        intro k
        have : arrows c (e :: evs) = (e.src, e.dst) :: (e.dst, e.src) :: arrows c evs := by simp [arrows, hu]
        rw [this]
        cases k with
        | zero => exact ⟨rfl, rfl⟩
        | succ k => exact ih k
    rcases Nat.even_or_odd' k with ⟨j, rfl | rfl⟩
    · rw [List.getElem?_map, (h1 j).1, (e2 evs j).1, Option.map_map]
      rfl
    · rw [List.getElem?_map, (h1 j).2, (e2 evs j).2, Option.map_map]
      rfl

theorem numbered_fst (stream : List (Ev E)) : (Props.EndToEnd.numbered stream).map Prod.fst = stream := by
  unfold Props.EndToEnd.numbered
  refine List.ext_getElem? fun k => ?_
  rw [List.getElem?_map, List.getElem?_mapIdx, Option.map_map]
  cases stream[k]? <;> rfl

theorem map_dst {α D : Type} (l : List α) (n : α → Nat) (g : α → D) : (l.map fun x => (⟨n x, g x⟩ : Edge D)).map (fun e => e.dst) = l.map n := by
  rw [List.map_map]
  rfl

theorem arrows_from (stream : List (Ev E)) (k : UInt32 → Nat) (w : Nat) :
    ((stream.map fun e => (e.src, e.dst)).filter fun a => decide (k a.1 = w)).map (fun a => k a.2) =
      ((Props.EndToEnd.numbered stream).filter fun x => decide (k x.1.src = w)).map fun x => k x.1.dst := by
  conv_lhs => rw [← numbered_fst stream]
  rw [List.map_map, List.filter_map, List.map_map]
  rfl

section
variable {ops : Ops E} {c : Loader.Cfg} {p : Params E} {tm : E → UInt64 × UInt64} {o : Enact.Opts} {file : List (List UInt8)}
  {evs stream : List (Ev E)} {s : Pipeline.St E} {S : Nat → Enact.Th E} {D : Type}

/-- The number of the vertex with raw id `u`. -/
def number (p : Params E) (s : Pipeline.St E) (u : UInt32) : Nat := pack ((fromRaw p s u).getD (0, 0))

theorem Loaded.below (L : Loaded False ops c p tm o file evs stream s S) {u : UInt32} {i : Nat × Nat} (h : fromRaw p s u = some i) : pack i < p.T * 2 ^ 27 := by
  obtain ⟨bs, -, hr⟩ := L.complete.pipeline L.reads L.emitted
  obtain ⟨h3, h4⟩ := (Props.Pipeline.C45_one_id p stream bs s hr u i).1 h
  have ht : i.1 < p.T := by rw [h4]; exact Nat.mod_lt _ L.threads
  obtain ⟨x, h5, -⟩ := Option.map_eq_some_iff.1 h3
  have := (List.getElem?_eq_some_iff.1 h5).1
  have := L.verts i.1 ht
  unfold pack
  have : (i.1 + 1) * 2 ^ 27 ≤ p.T * 2 ^ 27 := Nat.mul_le_mul_right _ ht
  omega

theorem number_eq (u : UInt32) : number p s u = pack ((fromRaw p s u).getD (0, 0)) := rfl

attribute [local irreducible] pack number

/-- What the edges of the graph pass on is what the arrows of the file pass on. -/
theorem Loaded.passed (L : Loaded False ops c p tm o file evs stream s S) (f : Nat → E → D) (d : ℚ) (mass : Nat → ℚ) (x : UInt32 → ℚ)
    (hx : ∀ u i, fromRaw p s u = some i → x u = mass (pack i)) (u : UInt32) (i : Nat × Nat) (hu : fromRaw p s u = some i) :
    ∑ w ∈ Finset.range (p.T * 2 ^ 27), passedOn d mass (graphOf f p s S) w (pack i) = arriving d (arrows c evs) x u := by
  have hend : ∀ a ∈ arrows c evs, (∃ j, fromRaw p s a.1 = some j) ∧ ∃ j, fromRaw p s a.2 = some j := by
    intro a ha
    rw [← stream_arrows L.emitted] at ha
    obtain ⟨e, he, rfl⟩ := List.mem_map.1 ha
    obtain ⟨j, j', h1, h2⟩ := L.complete.ends L.threads L.reads L.emitted e he
    exact ⟨⟨j, h1⟩, j', h2⟩
  have hnum : ∀ {v j}, fromRaw p s v = some j → number p s v = pack j := by
    intro v j h
    rw [number_eq, h]
    rfl
  rw [← hnum hu]
  refine arriving_grouped d _ x u (number p s) _ mass _ (fun a ha => ?_) (fun a ha b hb b' hb' h => ?_) (fun a ha => ?_) fun w => ?_
  · obtain ⟨⟨j, hj⟩, -⟩ := hend a ha
    rw [hnum hj]
    exact L.below hj
  · have h1 : ∃ j, fromRaw p s b = some j := by
      rcases hb with rfl | ⟨a', ha', rfl⟩
      · exact ⟨i, hu⟩
      · exact (hend a' ha').1
    have h2 : ∃ j, fromRaw p s b' = some j := by
      rcases hb' with rfl | rfl
      · exact (hend a ha).1
      · exact (hend a ha).2
    obtain ⟨j, hj⟩ := h1
    obtain ⟨j', hj'⟩ := h2
    rw [hnum hj, hnum hj'] at h
    exact L.inj hj' hj h
  · obtain ⟨⟨j, hj⟩, -⟩ := hend a ha
    rw [hnum hj, hx _ _ hj]
  · by_cases hw : ∃ v j, fromRaw p s v = some j ∧ w = pack j
    · obtain ⟨v, j, hv, rfl⟩ := hw
      rw [L.complete.edges L.threads L.reads L.emitted L.window L.length L.verts _ v j hv, map_dst _ (fun x : Ev E × Nat => pack ((fromRaw p s x.1.dst).getD (0, 0))),
        ← stream_arrows L.emitted, arrows_from]
      have e1 : (Props.EndToEnd.numbered stream).filter (fun x => decide (number p s x.1.src = pack j)) = Props.EndToEnd.eventsOf stream v := by
        unfold Props.EndToEnd.eventsOf
        refine List.filter_congr fun y hy => decide_eq_decide.2 ?_
        have hy' : y.1 ∈ stream := by rw [← numbered_fst stream]; exact List.mem_map_of_mem hy
        obtain ⟨l, -, h1, -⟩ := L.complete.ends L.threads L.reads L.emitted y.1 hy'
        rw [hnum h1]
        exact ⟨fun h => L.inj h1 hv h, fun h => by rw [h, hv] at h1; cases h1; rfl⟩
      rw [e1]
      simp only [number_eq]
    · have h1 : graphOf f p s S w = [] := by
        by_contra hne
        exact hw (L.complete.vertex L.reads L.emitted _ w hne)
      rw [h1]
      symm
      rw [List.map_nil, List.map_eq_nil_iff, List.filter_eq_nil_iff]
      intro a ha
      obtain ⟨⟨j, hj⟩, -⟩ := hend a ha
      rw [hnum hj, decide_eq_true_eq]
      exact fun h => hw ⟨_, j, hj, h.symm⟩

end

/-! ## The ranks -/

/-- At no moment of the run, nor while the initial mails are sent, a mailbox holds exactly the threshold. -/
structure NeverAt {D : Type} (d ε : ℚ) (T : Nat) (own : Nat → Nat) (max : Nat) (es0 : Nat → List (Edge D)) (xs0 : List (Async.Act D)) (r0 : Engine.St PR ℚ Unit D)
    (xs : List (Act D)) : Prop where
  before : ∀ ys zs q, xs0 = ys ++ zs → Async.run (alg d ε) (cfg T own) (Async.start (alg d ε) es0) ys = some q → ∀ v, |q.inbox v| ≠ ε
  during : ∀ ys zs q, xs = ys ++ zs → Engine.run (alg d ε) (cfg T own) max r0 ys = some q → ∀ v, |q.alg.inbox v| ≠ ε

section
variable {D : Type} {d ε : ℚ} {T : Nat} {own : Nat → Nat} {max : Nat} {es0 : Nat → List (Edge D)} {xs0 : List (Async.Act D)} {r0 r : Engine.St PR ℚ Unit D} {xs : List (Act D)}

/-- The steps of the algorithm in a run of the threads pass only states that the run passes. -/
theorem proj_always {P : Async.St PR ℚ Unit D → Prop} : ∀ {xs : List (Act D)} {r0 r : Engine.St PR ℚ Unit D}, Engine.run (alg d ε) (cfg T own) max r0 xs = some r →
    (∀ ys zs q, xs = ys ++ zs → Engine.run (alg d ε) (cfg T own) max r0 ys = some q → P q.alg) →
    ∃ ys, Async.run (alg d ε) (cfg T own) r0.alg ys = some r.alg ∧ Always (alg d ε) (cfg T own) P r0.alg ys
  | [], r0, r, h, hP => by
    simp only [Engine.run, Option.some.injEq] at h
    subst h
    refine ⟨[], rfl, fun ys zs q he hq => ?_⟩
    obtain ⟨rfl, -⟩ := List.append_eq_nil_iff.1 he.symm
    simp only [Async.run, Option.some.injEq] at hq
    subst hq
    exact hP [] [] _ rfl rfl
  | x :: xs, r0, r, h, hP => by
    simp only [Engine.run] at h
    obtain ⟨r1, h1, h2⟩ := Option.bind_eq_some_iff.1 h
    obtain ⟨ys, i1, i2⟩ := proj_always h2 fun ys zs q he hq => hP (x :: ys) zs q (by rw [he]; rfl) (by simp only [Engine.run]; rw [h1]; exact hq)
    rcases alg_step h1 with ⟨e, -⟩ | ⟨y, hy, -⟩
    · rw [e] at i1 i2
      exact ⟨ys, i1, i2⟩
    · refine ⟨y :: ys, by rw [Async.run, hy]; exact i1, fun us zs q he hq => ?_⟩
      cases us with
      | nil =>
        simp only [Async.run, Option.some.injEq] at hq
        subst hq
        exact hP [] (x :: xs) _ rfl rfl
      | cons u us =>
        rw [List.cons_append] at he
        injection he with h3 h4
        subst h3
        simp only [Async.run] at hq
        rw [hy] at hq
        exact i2 us zs q h4 hq

theorem always_append {c : Async.Cfg ℚ Unit} {P : Async.St PR ℚ Unit D → Prop} : ∀ {xs ys : List (Async.Act D)} {s s' : Async.St PR ℚ Unit D}, Async.run (alg d ε) c s xs = some s' →
    Always (alg d ε) c P s xs → Always (alg d ε) c P s' ys → Always (alg d ε) c P s (xs ++ ys)
  | [], ys, s, s', h, _, h2 => by
    simp only [Async.run, Option.some.injEq] at h
    subst h
    exact h2
  | x :: xs, ys, s, s', h, h1, h2 => by
    simp only [Async.run] at h
    obtain ⟨s1, a1, a2⟩ := Option.bind_eq_some_iff.1 h
    have ih := always_append a2 (fun us zs q he hq => h1 (x :: us) zs q (by rw [he]; rfl) (by simp only [Async.run]; rw [a1]; exact hq)) h2
    intro us zs q he hq
    cases us with
    | nil => exact h1 [] (x :: xs) q rfl hq
    | cons u us =>
      rw [List.cons_append, List.cons_append] at he
      injection he with h3 h4
      subst h3
      simp only [Async.run] at hq
      rw [a1] at hq
      exact ih us zs q h4 hq

end

section
variable {ops : Ops E} {c : Loader.Cfg} {p : Params E} {tm : E → UInt64 × UInt64} {o : Enact.Opts} {file : List (List UInt8)}
  {evs stream : List (Ev E)} {s : Pipeline.St E} {S : Nat → Enact.Th E} {D : Type} {f : Nat → E → D} {d ε : ℚ} {T : Nat} {own : Nat → Nat} {max : Nat}
  {es0 : Nat → List (Edge D)} {xs0 : List (Async.Act D)} {r0 r : Engine.St PR ℚ Unit D} {xs : List (Act D)}

attribute [local irreducible] pack

theorem Loaded.empty (f : Nat → E → D) (w : Nat) (hw : p.T * 2 ^ 27 ≤ w) : graphOf f p s S w = [] := by
  unfold graphOf
  rw [if_neg]
  rintro ⟨h, -⟩
  omega

/-- **C87 (missing: runs with the races on closing queues, as C81).** When the threads have left their loops, the rank of
every vertex named in the file is its own share and what the lines of the file pass on, less what waits in its mailbox
and what it withholds; and it withholds no more than the threshold. -/
theorem C87_ledger_partial (L : Loaded False ops c p tm o file evs stream s S) (hd1 : d < 1) (hε : 0 < ε)
    (R : Ran (alg d ε) (cfg T own) max p s (graphOf f p s S) es0 xs0 r0 r xs) (hf : Finished (cfg T own) r)
    (x : UInt32 → ℚ) (hx : ∀ u i, fromRaw p s u = some i → x u = (r.alg.prop (pack i)).mass) (u : UInt32) (hu : InFile evs u) :
    ∃ i, fromRaw p s u = some i ∧ |(r.alg.prop (pack i)).inflow| ≤ ε ∧
      x u = (1 - d) * (1 - r.alg.inbox (pack i) - (r.alg.prop (pack i)).inflow) + arriving d (arrows c evs) x u := by
  obtain ⟨i, hi⟩ := L.vertex u hu
  obtain ⟨hq, -, ys, hys, -⟩ := C63_final _ _ max R.batch R.own r0 r R.start xs R.run hf
  have hrun := Converge.run_append _ _ xs0 ys _ _ _ R.first hys
  obtain ⟨b, hb⟩ := finite_of_append (L.finite f) fun v => ⟨_, R.graph v⟩
  refine ⟨i, hi, PageRank.C33_withheld d ε hε.le T own _ _ hrun _, ?_⟩
  have h1 := PageRank.C33_ledger d ε (ne_of_lt hd1) T own ⟨b, fun u hu => (hb u).1 hu⟩ _ _ hrun hq.1 (p.T * 2 ^ 27)
    (by rw [R.edges]; exact fun w hw => Loaded.empty f w hw) (pack i)
  rw [R.edges, L.passed f d _ x hx u i hi, if_pos (R.inited u i hi)] at h1
  rw [hx u i hi]
  exact h1

/-- **C87 (missing: runs with the races on closing queues, as C81; runs in which a mailbox holds exactly the threshold, as
C33).** When the threads have left their loops, the ranks solve the equations of the file up to twice the threshold (times
`1 - d`) per vertex. -/
theorem C87_ranks_partial (L : Loaded False ops c p tm o file evs stream s S) (hd1 : d < 1) (hε : 0 < ε)
    (R : Ran (alg d ε) (cfg T own) max p s (graphOf f p s S) es0 xs0 r0 r xs) (hf : Finished (cfg T own) r) (hne : NeverAt d ε T own max es0 xs0 r0 xs)
    (x : UInt32 → ℚ) (hx : ∀ u i, fromRaw p s u = some i → x u = (r.alg.prop (pack i)).mass) (u : UInt32) (hu : InFile evs u) :
    (∃ i, fromRaw p s u = some i) ∧ |x u - ((1 - d) + arriving d (arrows c evs) x u)| ≤ (1 - d) * (2 * ε) := by
  obtain ⟨i, hi⟩ := L.vertex u hu
  refine ⟨⟨i, hi⟩, ?_⟩
  obtain ⟨hq, -, -⟩ := C63_final _ _ max R.batch R.own r0 r R.start xs R.run hf
  obtain ⟨ys, hys, hal⟩ := proj_always (P := fun q => ∀ v, |q.inbox v| ≠ ε) R.run hne.during
  have hrun := Converge.run_append _ _ xs0 ys _ _ _ R.first hys
  obtain ⟨b, hb⟩ := finite_of_append (L.finite f) fun v => ⟨_, R.graph v⟩
  have h1 := PageRank.C33_ranks_partial d ε hd1 hε T own ⟨b, fun u hu => (hb u).1 hu⟩ _ _ (always_append R.first hne.before hal) hrun hq (p.T * 2 ^ 27)
    (by rw [R.edges]; exact fun w hw => Loaded.empty f w hw) (pack i) (R.inited u i hi)
  rw [R.edges, L.passed f d _ x hx u i hi] at h1
  rw [hx u i hi]
  exact h1

/-- **C87 (missing: as `C87_ranks_partial`).** The ranks differ from the exact ranks of the file by at most twice the
threshold per vertex, on average. -/
theorem C87_error_partial (L : Loaded False ops c p tm o file evs stream s S) (hd0 : 0 ≤ d) (hd1 : d < 1) (hε : 0 < ε)
    (R : Ran (alg d ε) (cfg T own) max p s (graphOf f p s S) es0 xs0 r0 r xs) (hf : Finished (cfg T own) r) (hne : NeverAt d ε T own max es0 xs0 r0 xs)
    (x : UInt32 → ℚ) (hx : ∀ u i, fromRaw p s u = some i → x u = (r.alg.prop (pack i)).mass) (y : UInt32 → ℚ) (hy : FileRanks d (arrows c evs) y) :
    ∑ u ∈ named (arrows c evs), |x u - y u| ≤ (named (arrows c evs)).card * (2 * ε) :=
  near_file _ hd0 hd1 x y hy fun u hu => (C87_ranks_partial L hd1 hε R hf hne x hx u ((named_iff c evs u).1 hu)).2

/-- **C87 (missing: as `C87_ledger_partial`, and executions that read a vote between the two stores, as C64)**, with
termination. -/
theorem C87_returns_partial (L : Loaded False ops c p tm o file evs stream s S) (hd0 : 0 ≤ d) (hd1 : d < 1) (hε : 0 < ε)
    {e : Exec (alg d ε) (cfg T own) max} {m : Nat} (R : Runs p s (graphOf f p s S) es0 xs0 e m) :
    ∃ n, Finished (cfg T own) (e.st n) ∧ Ran (alg d ε) (cfg T own) max p s (graphOf f p s S) es0 xs0 (e.st 0) (e.st n) ((List.range n).map e.act) := by
  obtain ⟨-, -, ys, hys, -⟩ := proj (exec_run _ _ max e m)
  have hrun := Converge.run_append _ _ xs0 ys _ _ _ R.first hys
  obtain ⟨n, hk, hd⟩ := C64_partial _ _ max R.batch e R.start R.fair R.fresh m R.closed R.noTopo
    (PageRank.C66_bound d ε hd0 hd1 hε T own es0 (finite_of_append (L.finite f) fun v => ⟨_, R.graph v⟩) _ _ hrun)
  obtain ⟨zs, hz, hr, -⟩ := seg_alg e m (fun i hi => by
    cases hx : e.act i with
    | topo y => exact absurd hx (R.noTopo i y hi)
    | _ => rfl) (n - m)
  rw [show m + (n - m) = n by omega] at hr
  refine ⟨n, hd, R.batch, R.own, R.first, R.start, exec_run _ _ max e n, R.keeps0, fun t v b hm => ?_, fun v => ?_, fun u i hu => ?_⟩
  · obtain ⟨i, -, hi⟩ := List.mem_map.1 hm
    exact R.keeps i t v b hi
  · have e1 : topos ((List.range n).map e.act) = topos ((List.range m).map e.act) := by
      have h1 : (List.range n).map e.act = (List.range m).map e.act ++ (List.range (n - m)).map fun i => e.act (m + i) := by
        conv_lhs => rw [show n = m + (n - m) by omega, List.range_add, List.map_append, List.map_map]
        rfl
      have h2 : topos ((List.range (n - m)).map fun i => e.act (m + i)) = [] := by
        rw [topos, List.filterMap_eq_nil_iff]
        intro x hx
        obtain ⟨i, -, hi⟩ := List.mem_map.1 hx
        cases x with
        | topo y => exact absurd hi (R.noTopo (m + i) y (Nat.le_add_right _ _))
        | _ => rfl
      rw [h1]
      unfold topos at h2 ⊢
      rw [List.filterMap_append, h2, List.append_nil]
    rw [e1]
    exact R.graph v
  · rw [(Converge.stay_run hz hr).2]
    exact R.inited u i hu

end

end Verif.Props.Answer
