import Verif.Props.AnswerSync
import Verif.Props.AnswerRanks
import Verif.Props.ColouringConv

/-!
# C93: ranks and colours for a file in synchronous runs

C87 and the part of C81 about colours, for the two synchronous variants.
-/

namespace Verif.Props.AnswerSync

open Verif Verif.Built
open Verif.Async (Alg Edge)
open Verif.Loader (Ops Ev)
open Verif.Pipeline (Params fromRaw)
open Verif.Props.Answer Verif.Props.Sync
open Verif.PageRank (PR alg AlwaysSync)
open Verif.Props.PageRank (passedOn)

variable {E D : Type} {ops : Ops E} {c : Loader.Cfg} {p : Params E} {tm : E → UInt64 × UInt64} {o : Enact.Opts} {file : List (List UInt8)}
  {evs stream : List (Ev E)} {s : Pipeline.St E} {S : Nat → Enact.Th E} {ρ : Nat → Nat}

section
attribute [local irreducible] pack

/-- What an edge list passes on to a vertex is not changed by the numbering. -/
theorem Numbered.passed (L : Loaded False ops c p tm o file evs stream s S) {n : Nat} {f : Nat → E → D} {es0 : Nat → List (Edge D)}
    (h : Numbered n p s (graphOf f p s S) ρ es0) (d : ℚ) (mass : Nat → ℚ) {u v : UInt32} {i j : Nat × Nat} (hu : fromRaw p s u = some i) (hv : fromRaw p s v = some j) :
    passedOn d mass es0 (ρ (pack j)) (ρ (pack i)) = passedOn d (fun w => mass (ρ w)) (graphOf f p s S) (pack j) (pack i) := by
  unfold passedOn
  rw [h.edges v j hv, List.map_map, List.length_map]
  congr 1
  refine List.map_congr_left fun e he => ?_
  obtain ⟨-, -, u', i', -, -, h1, h2⟩ := L.target f _ e he
  simp only [Function.comp]
  by_cases hq : e.dst = pack i
  · rw [if_pos hq, if_pos (by rw [hq])]
  · rw [if_neg hq, if_neg]
    intro hr
    rw [h2] at hr hq
    exact hq (h.inj u' u i' i h1 hu hr)

theorem passedOn_none (d : ℚ) (mass : Nat → ℚ) {g : Nat → List (Edge D)} {w : Nat} (h : g w = []) (v : Nat) : passedOn d mass g w v = 0 := by
  unfold passedOn
  rw [h]
  rfl

/-- The sum over all vertices is the one of the file. -/
theorem Numbered.arriving (L : Loaded False ops c p tm o file evs stream s S) {n : Nat} {f : Nat → E → D} {es0 : Nat → List (Edge D)}
    (h : Numbered n p s (graphOf f p s S) ρ es0) (d : ℚ) (mass : Nat → ℚ) (x : UInt32 → ℚ) (hx : ∀ u i, fromRaw p s u = some i → x u = mass (ρ (pack i)))
    (u : UInt32) (i : Nat × Nat) (hu : fromRaw p s u = some i) :
    ∑ w ∈ Finset.range n, passedOn d mass es0 w (ρ (pack i)) = arriving d (arrows c evs) x u := by
  rw [← L.passed f d (fun w => mass (ρ w)) x hx u i hu]
  have hsub : ∀ w, (∃ v j, fromRaw p s v = some j ∧ w = pack j) ∨ graphOf f p s S w = [] := by
    intro w
    cases hg : graphOf f p s S w with
    | nil => exact .inr rfl
    | cons e l =>
      obtain ⟨v, j, -, -, h1, h2, -⟩ := L.target f w e (by rw [hg]; exact List.mem_cons_self)
      exact .inl ⟨v, j, h1, h2⟩
  classical
  let A := (Finset.range (p.T * 2 ^ 27)).filter fun w => ∃ v j, fromRaw p s v = some j ∧ w = pack j
  have hA : ∀ w, w ∈ A ↔ ∃ v j, fromRaw p s v = some j ∧ w = pack j := by
    intro w
    rw [Finset.mem_filter, Finset.mem_range]
    refine ⟨And.right, ?_⟩
    rintro ⟨v, j, h1, rfl⟩
    exact ⟨L.below h1, v, j, h1, rfl⟩
  have e1 : ∑ w ∈ Finset.range (p.T * 2 ^ 27), passedOn d (fun w => mass (ρ w)) (graphOf f p s S) w (pack i) =
      ∑ w ∈ A, passedOn d (fun w => mass (ρ w)) (graphOf f p s S) w (pack i) := by
    refine (Finset.sum_subset (Finset.filter_subset _ _) fun w _ hw => ?_).symm
    rcases hsub w with h1 | h1
    · exact absurd ((hA w).2 h1) hw
    · exact passedOn_none _ _ h1 _
  have e2 : Finset.range n = A.image ρ := by
    ext w
    rw [Finset.mem_range, h.onto, Finset.mem_image]
    constructor
    · rintro ⟨v, j, h1, rfl⟩
      exact ⟨pack j, (hA _).2 ⟨v, j, h1, rfl⟩, rfl⟩
    · rintro ⟨w', hw, rfl⟩
      obtain ⟨v, j, h1, rfl⟩ := (hA _).1 hw
      exact ⟨v, j, h1, rfl⟩
  rw [e1, e2, Finset.sum_image]
  · refine Finset.sum_congr rfl fun w hw => ?_
    obtain ⟨v, j, h1, rfl⟩ := (hA _).1 hw
    exact h.passed L d mass hu h1
  · intro w hw w' hw' he
    obtain ⟨v, j, h1, rfl⟩ := (hA _).1 hw
    obtain ⟨v', j', h2, rfl⟩ := (hA _).1 hw'
    exact h.inj v v' j j' h1 h2 he

end

/-- **C93**, synchronous PageRank (missing: runs with the races on closing queues, as C81, and runs in which a mailbox holds exactly
the threshold, as C33): when the iterations have stopped, the ranks solve the equations of the file up to twice the threshold. -/
theorem C93_ranks_partial (L : Loaded False ops c p tm o file evs stream s S) {d ε : ℚ} (hd1 : d < 1) (hε : 0 < ε)
    (k : Sync.Cfg ℚ) (hk : k.Ok) {f : Nat → E → D} {es0 : Nat → List (Edge D)} (hn : Numbered k.n p s (graphOf f p s S) ρ es0)
    (hi : ∀ v, k.initMail v = some 1) (xs : List Sync.Act) (r : Sync.St PR ℚ Unit D) (h : Sync.run (alg d ε) k (Sync.start (alg d ε) es0) xs = some r)
    (hstop : r.phase = .stopped) (hne : AlwaysSync (alg d ε) k (fun s => ∀ v, |s.inbox v| ≠ ε) (Sync.start (alg d ε) es0) xs)
    (x : UInt32 → ℚ) (hx : ∀ u i, fromRaw p s u = some i → x u = (r.prop (ρ (pack i))).mass) (u : UInt32) (hu : InFile evs u) :
    (∃ i, fromRaw p s u = some i) ∧ |x u - ((1 - d) + arriving d (arrows c evs) x u)| ≤ (1 - d) * (2 * ε) := by
  obtain ⟨i, hi'⟩ := L.vertex u hu
  refine ⟨⟨i, hi'⟩, ?_⟩
  have := PageRank.sync_solves d ε hd1 hε k hk hi es0 (hn.within L) xs r h hstop hne (ρ (pack i)) ((hn.onto _).2 ⟨u, i, hi', rfl⟩)
  rw [hn.arriving L d (fun u => (r.prop u).mass) x hx u i hi', ← hx u i hi'] at this
  exact this

/-- **C93** (missing: as `C93_ranks_partial`): on average the ranks are within twice the threshold of the exact ranks of the file. -/
theorem C93_ranks_error_partial (L : Loaded False ops c p tm o file evs stream s S) {d ε : ℚ} (hd0 : 0 ≤ d) (hd1 : d < 1) (hε : 0 < ε)
    (k : Sync.Cfg ℚ) (hk : k.Ok) {f : Nat → E → D} {es0 : Nat → List (Edge D)} (hn : Numbered k.n p s (graphOf f p s S) ρ es0)
    (hi : ∀ v, k.initMail v = some 1) (xs : List Sync.Act) (r : Sync.St PR ℚ Unit D) (h : Sync.run (alg d ε) k (Sync.start (alg d ε) es0) xs = some r)
    (hstop : r.phase = .stopped) (hne : AlwaysSync (alg d ε) k (fun s => ∀ v, |s.inbox v| ≠ ε) (Sync.start (alg d ε) es0) xs)
    (x : UInt32 → ℚ) (hx : ∀ u i, fromRaw p s u = some i → x u = (r.prop (ρ (pack i))).mass) (y : UInt32 → ℚ) (hy : FileRanks d (arrows c evs) y) :
    ∑ u ∈ named (arrows c evs), |x u - y u| ≤ (named (arrows c evs)).card * (2 * ε) :=
  near_file _ hd0 hd1 x y hy fun u hu => (C93_ranks_partial L hd1 hε k hk hn hi xs r h hstop hne x hx u ((named_iff c evs u).1 hu)).2

/-- **C93**: a synchronous run for ranks ends after a bounded number of steps, by stopping if its queues are large enough. -/
theorem C93_ranks_return_partial (L : Loaded False ops c p tm o file evs stream s S) {d ε : ℚ} (hd0 : 0 ≤ d) (hd1 : d < 1) (hε : 0 < ε)
    (k : Sync.Cfg ℚ) (hk : k.Ok) {f : Nat → E → D} {es0 : Nat → List (Edge D)} (hn : Numbered k.n p s (graphOf f p s S) ρ es0)
    (hi : ∀ v, k.initMail v = some 1) :
    ∃ B, ∀ cap xs r, Sync.run (alg d ε) (sized k cap) (Sync.start (alg d ε) es0) xs = some r →
      xs.length ≤ B ∧ (Ample k cap B → (∀ x, Sync.step (alg d ε) (sized k cap) r x = none) → r.phase = .stopped) :=
  PageRank.C66_sync d ε hd0 hd1 hε k hk hi es0 (hn.within L)

/-! ## Colours -/

section
attribute [local irreducible] pack

theorem ends_triples (L : Loaded False ops c p tm o file evs stream s S) (a : Nat × Nat × Nat) (ha : a ∈ triples p s stream) :
    ∃ u i v j, fromRaw p s u = some i ∧ a.1 = pack i ∧ fromRaw p s v = some j ∧ a.2.1 = pack j := by
  obtain ⟨x, hx, rfl⟩ := List.mem_map.1 ha
  obtain ⟨i, j, h1, h2⟩ := L.complete.ends L.threads L.reads L.emitted x.1 (numbered_lt hx).1
  exact ⟨_, i, _, j, h1, by simp only [h1, Option.getD_some], h2, by simp only [h2, Option.getD_some]⟩

/-- The edges with their positions, with the numbers of a synchronous run. -/
theorem Numbered.perm (L : Loaded False ops c p tm o file evs stream s S) {n : Nat} {es : List (Nat × Nat × Nat)}
    (h : Numbered n p s (graphOf (fun pos _ => pos) p s S) ρ (Colouring.graph es)) :
    es.Perm ((triples p s stream).map fun a => (ρ a.1, ρ a.2.1, a.2.2)) := by
  refine graph_perm (funext fun v => ?_)
  by_cases hv : v < n
  · obtain ⟨u, i, hu, rfl⟩ := (h.onto v).1 hv
    rw [h.edges u i hu, ← L.graph_triples]
    unfold Colouring.graph
    rw [List.map_map, List.filter_map, List.map_map]
    have : (triples p s stream).filter ((fun a : Nat × Nat × Nat => decide (a.1 = ρ (pack i))) ∘ fun a => (ρ a.1, ρ a.2.1, a.2.2)) =
        (triples p s stream).filter fun a => decide (a.1 = pack i) := by
      refine List.filter_congr fun a ha => ?_
      obtain ⟨u', i', -, -, h1, h2, -⟩ := ends_triples L a ha
      simp only [Function.comp]
      exact decide_eq_decide.2 ⟨fun hq => by rw [h2] at hq ⊢; exact h.inj u' u i' i h1 hu hq, fun hq => by rw [hq]⟩
    rw [this]
    rfl
  · rw [h.empty v (Nat.le_of_not_lt hv)]
    unfold Colouring.graph
    symm
    rw [List.map_eq_nil_iff, List.filter_eq_nil_iff]
    intro y hy
    obtain ⟨a, ha, rfl⟩ := List.mem_map.1 hy
    obtain ⟨u', i', -, -, h1, h2, -⟩ := ends_triples L a ha
    simp only [decide_eq_true_eq]
    rintro rfl
    exact hv ((h.onto _).2 ⟨u', i', h1, by rw [h2]⟩)

theorem Numbered.positions (L : Loaded False ops c p tm o file evs stream s S) (hlen : stream.length ≤ 2147483646) {n : Nat} {es : List (Nat × Nat × Nat)}
    (h : Numbered n p s (graphOf (fun pos _ => pos) p s S) ρ (Colouring.graph es)) : Colouring.Positions es := by
  refine positions_perm (h.perm L) ?_
  have hp := L.positions hlen
  constructor
  · rw [List.map_map]
    have hd := hp.distinct
    refine (List.nodup_map_iff_inj_on (List.Nodup.of_map _ hd)).2 fun a ha b hb he => ?_
    simp only [Function.comp, Prod.mk.injEq] at he
    obtain ⟨-, -, v, j, -, -, h1, h2⟩ := ends_triples L a ha
    obtain ⟨-, -, v', j', -, -, h3, h4⟩ := ends_triples L b hb
    refine List.inj_on_of_nodup_map hd ha hb (Prod.ext ?_ he.2)
    have := he.1
    rw [h2, h4] at this ⊢
    exact h.inj v v' j j' h1 h3 this
  · intro a ha
    obtain ⟨b, hb, rfl⟩ := List.mem_map.1 ha
    exact hp.small b hb

theorem mem_of_edge {es : List (Nat × Nat × Nat)} {x y : Nat} (h : ∃ e ∈ Colouring.graph es x, e.dst = y) : ∃ a ∈ es, a.1 = x ∧ a.2.1 = y := by
  obtain ⟨e, he, rfl⟩ := h
  obtain ⟨a, ha, rfl⟩ := List.mem_map.1 he
  obtain ⟨h1, h2⟩ := List.mem_filter.1 ha
  exact ⟨a, h1, of_decide_eq_true h2, rfl⟩

theorem edge_of_mem {es : List (Nat × Nat × Nat)} {a : Nat × Nat × Nat} (h : a ∈ es) : ∃ e ∈ Colouring.graph es a.1, e.dst = a.2.1 :=
  ⟨⟨a.2.1, a.2.2⟩, List.mem_map.2 ⟨a, List.mem_filter.2 ⟨h, decide_eq_true rfl⟩, rfl⟩, rfl⟩

open Verif.Colouring (Mail colouring)

/-- **C93**, synchronous colouring (missing: runs with the races on closing queues, as C81): in undirected mode, when the iterations
have stopped, the ends of every edge of the file have different colours. -/
theorem C93_colours_partial (L : Loaded False ops c p tm o file evs stream s S) (hund : c.undirected = true) (hlen : stream.length ≤ 2147483646)
    (k : Sync.Cfg Mail) (hk : k.Ok) (hi : ∀ v, k.initMail v = some { scratch := [], pos := 0, colour := 0, box := v }) {es : List (Nat × Nat × Nat)}
    (hn : Numbered k.n p s (graphOf (fun pos _ => pos) p s S) ρ (Colouring.graph es)) (xs : List Sync.Act) (r : Sync.St Nat Mail Unit Nat)
    (h : Sync.run colouring k (Sync.start colouring (Colouring.graph es)) xs = some r) (hstop : r.phase = .stopped)
    (e : Ev E) (he : e ∈ evs) (hne : e.src ≠ e.dst) :
    ∃ i j, fromRaw p s e.src = some i ∧ fromRaw p s e.dst = some j ∧ r.prop (ρ (pack i)) ≠ r.prop (ρ (pack j)) := by
  obtain ⟨i, hi'⟩ := L.vertex e.src ⟨e, he, .inl rfl⟩
  obtain ⟨j, hj⟩ := L.vertex e.dst ⟨e, he, .inr rfl⟩
  refine ⟨i, j, hi', hj, ?_⟩
  have hu := hn.undirected L (L.undirected hund fun pos (_ : E) => pos)
  have hadj : ∃ e' ∈ graphOf (fun pos _ => pos) p s S (pack i), e'.dst = pack j :=
    (L.adj (fun pos _ => pos) e.src e.dst i j hi' hj).2 ⟨e, he, rfl, .inl ⟨rfl, rfl⟩⟩
  obtain ⟨a, ha, h1, h2⟩ := mem_of_edge (hn.adj_forth L hadj)
  have := Colouring.C67_sync_proper k hk hi es (hn.positions L hlen) (hn.within L) (fun a ha => mem_of_edge (hu _ _ (edge_of_mem ha))) xs r h hstop a ha
  rw [h1, h2] at this
  exact this fun hq => hne (L.inj hi' hj (hn.inj _ _ i j hi' hj hq))

/-- **C93**: for a file without self-loops, a synchronous colouring ends after a bounded number of steps, by stopping if its queues
are large enough. -/
theorem C93_colours_return_partial (L : Loaded False ops c p tm o file evs stream s S) (hloop : ∀ e ∈ evs, e.src ≠ e.dst)
    (k : Sync.Cfg Mail) (hk : k.Ok) {es : List (Nat × Nat × Nat)} (hn : Numbered k.n p s (graphOf (fun pos _ => pos) p s S) ρ (Colouring.graph es)) :
    ∃ B, ∀ cap xs r, Sync.run colouring (sized k cap) (Sync.start colouring (Colouring.graph es)) xs = some r →
      xs.length ≤ B ∧ (Ample k cap B → (∀ x, Sync.step colouring (sized k cap) r x = none) → r.phase = .stopped) := by
  refine Colouring.C67_sync k hk es (hn.within L) fun v e he hv => ?_
  obtain ⟨u, i, u', j, h1, h2, h3, h4, h5⟩ := hn.adj L ⟨e, he, rfl⟩
  have := L.inj h1 h3 (hn.inj _ _ _ _ h1 h3 (h2.symm.trans (hv.symm.trans h4)))
  subst this
  obtain ⟨y, hy, -, ⟨b1, b2⟩ | ⟨-, b1, b2⟩⟩ := (L.adj _ u u i j h1 h3).1 h5
  · exact hloop y hy (b1.trans b2.symm)
  · exact hloop y hy (b1.trans b2.symm)

end

end Verif.Props.AnswerSync
