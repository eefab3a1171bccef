import Verif.ColouringWaitRun
import Verif.Props.ColouringConv
import Verif.Props.EngineCase

/-!
# Colouring with wait counts is the sequential greedy colouring (C68)

For every graph that is loaded before the run, every number of threads and every schedule.
-/

namespace Verif.Props.ColouringWait

open Verif Verif.Async Verif.ColouringWait Verif.MinLabel
open Verif.Colouring (comparePriority)
open Verif.Props.Colouring (graph Positions noColour)
open Verif.Props.Converge (FiniteGraph NoTopology Rests)

/-- Every edge comes with its reverse, as often (`Undirected`). -/
def Mirrored (es : List (Nat × Nat × Nat)) : Prop := (es.map fun a => (a.1, a.2.1)).Perm (es.map fun a => (a.2.1, a.1))

/-- `u` is a neighbour of `v` that comes before it. -/
def Earlier (es : List (Nat × Nat × Nat)) (u v : Nat) : Prop := (∃ p, (u, v, p) ∈ es) ∧ comparePriority (Colouring.hash u) (Colouring.hash v) u v = true

/-- The colouring that goes through the vertices in order and gives each the least colour that none of its neighbours
before it has. -/
def Sequential (es : List (Nat × Nat × Nat)) (c : Nat → Nat) : Prop := ∀ v, IsLeast {k | ∀ u, Earlier es u v → c u ≠ k} (c v)

/-- No edges are added or deleted. -/
def Static (xs : List (Act Nat)) : Prop := (∀ t v es, Act.add t v es ∉ xs) ∧ ∀ t v keep, Act.del t v keep ∉ xs

/-! ## The sequential colouring -/

theorem earlier_wf (es : List (Nat × Nat × Nat)) : WellFounded (Earlier es) := by
  have h : WellFounded fun u v : Nat => comparePriority (Colouring.hash u) (Colouring.hash v) u v = true := by
    refine Subrelation.wf ?_ (InvImage.wf (fun v : Nat => (Colouring.hash v, v)) (WellFounded.prod_lex (rb := (· < ·)) (ra := (· < ·)) Nat.lt_wfRel.wf Nat.lt_wfRel.wf))
    intro u v h
    unfold comparePriority at h
    simp only [Bool.or_eq_true, Bool.and_eq_true, decide_eq_true_eq] at h
    rcases h with h | ⟨h1, h2⟩
    · exact Prod.Lex.left _ _ h
    · show Prod.Lex _ _ (Colouring.hash u, u) (Colouring.hash v, v)
      rw [h1]
      exact Prod.Lex.right _ h2
  exact Subrelation.wf (fun h => h.2) h

/-- There is only one. -/
theorem sequential_unique {es : List (Nat × Nat × Nat)} {c c' : Nat → Nat} (h : Sequential es c) (h' : Sequential es c') (v : Nat) : c v = c' v := by
  refine (earlier_wf es).induction (C := fun v => c v = c' v) v ?_
  intro v ih
  have e : {k | ∀ u, Earlier es u v → c u ≠ k} = {k | ∀ u, Earlier es u v → c' u ≠ k} := by
    ext k
    constructor
    · intro hk u hu; rw [← ih u hu]; exact hk u hu
    · intro hk u hu; rw [ih u hu]; exact hk u hu
  have h1 := h v
  rw [e] at h1
  exact h1.unique (h' v)

theorem earlier_of_mem {es : List (Nat × Nat × Nat)} {v : Nat} {a : Nat × Nat × Nat} (h : a ∈ es.filter fun a => decide (a.2.1 = v) && comparePriority (Colouring.hash a.1) (Colouring.hash v) a.1 v) : Earlier es a.1 v := by
  obtain ⟨h1, h2⟩ := List.mem_filter.1 h
  rw [Bool.and_eq_true, decide_eq_true_eq] at h2
  exact ⟨⟨a.2.2, by rw [← h2.1]; exact h1⟩, h2.2⟩

/-- There is one. -/
theorem sequential_exists (es : List (Nat × Nat × Nat)) : ∃ c, Sequential es c := by
  let F : (v : Nat) → ((u : Nat) → Earlier es u v → Nat) → Nat := fun v rec =>
    Colouring.firstUnused ((es.filter fun a => decide (a.2.1 = v) && comparePriority (Colouring.hash a.1) (Colouring.hash v) a.1 v).attach.map fun a => rec a.1.1 (earlier_of_mem a.2))
  refine ⟨(earlier_wf es).fix F, fun v => ?_⟩
  have hfix := (earlier_wf es).fix_eq F v
  have hspec := Colouring.firstUnused_spec ((es.filter fun a => decide (a.2.1 = v) && comparePriority (Colouring.hash a.1) (Colouring.hash v) a.1 v).attach.map fun a => (earlier_wf es).fix F a.1.1)
  have hf : (earlier_wf es).fix F v = Colouring.firstUnused ((es.filter fun a => decide (a.2.1 = v) && comparePriority (Colouring.hash a.1) (Colouring.hash v) a.1 v).attach.map fun a => (earlier_wf es).fix F a.1.1) := hfix
  rw [← hf] at hspec
  constructor
  · rintro u ⟨⟨p, hp⟩, hpr⟩ he
    apply hspec.1
    refine List.mem_map.2 ⟨⟨(u, v, p), List.mem_filter.2 ⟨hp, ?_⟩⟩, List.mem_attach _ _, he⟩
    rw [Bool.and_eq_true, decide_eq_true_eq]
    exact ⟨rfl, hpr⟩
  · intro k hk
    by_contra hlt
    obtain ⟨a, -, ha⟩ := List.mem_map.1 (hspec.2 k (by omega))
    exact hk a.1.1 (earlier_of_mem a.2) ha

theorem setup {es : List (Nat × Nat × Nat)} {c : Nat → Nat} (hpos : Positions es) (hrev : Mirrored es) (hc : Sequential es c) : Setup es c := by
  refine ⟨Colouring.keyed hpos, hrev, fun v => ⟨fun u hl hp => (hc v).1 u ⟨hl, hp⟩, fun k hk => ?_⟩⟩
  by_contra hn
  have := (hc v).2 (show k ∈ {k | ∀ u, Earlier es u v → c u ≠ k} from fun u hu he => hn ⟨u, hu.1, hu.2, he⟩)
  omega

theorem plain_of_static {xs : List (Act Nat)} (h : Static xs) : ∀ x ∈ xs, Sync.Plain x := by
  intro x hx
  cases x with
  | add t v es => exact (h.1 t v es hx).elim
  | del t v keep => exact (h.2 t v keep hx).elim
  | _ => trivial

/-! ## The theorems -/

/-- **C68.** At any moment of a run a vertex has no colour, or the one of the sequential colouring. -/
theorem C68_once (T : Nat) (own : Nat → Nat) (es : List (Nat × Nat × Nat)) (hpos : Positions es) (hrev : Mirrored es) (c : Nat → Nat) (hc : Sequential es c) (xs : List (Act Nat)) (hx : Static xs) (s : St Nat Mail Unit Nat)
    (h : run (waiting es) (cfg T own) (start (waiting es) (graph es)) xs = some s) (v : Nat) : s.prop v = noColour ∨ s.prop v = c v := by
  have hi := inv_run (setup hpos hrev hc) xs _ s (plain_of_static hx) (inv_start (setup hpos hrev hc) own) h
  by_cases hp : s.prop v = Colouring.EMPTY
  · exact .inl hp
  · exact .inr (hi.prop v hp).1

theorem coloured {T : Nat} {own : Nat → Nat} {es : List (Nat × Nat × Nat)} {c : Nat → Nat} (hown : ∀ a ∈ es, own a.1 < T) {xs : List (Act Nat)} {s : St Nat Mail Unit Nat} (hi : Inv es c own s)
    (h : run (waiting es) (cfg T own) (start (waiting es) (graph es)) xs = some s) (hq : Quiet (cfg T own) s) (hin : ∀ a ∈ es, s.inited a.1 = true) (v : Nat) : s.inited v = true → s.prop v ≠ Colouring.EMPTY := by
  refine (earlier_wf es).induction (C := fun v => s.inited v = true → s.prop v ≠ Colouring.EMPTY) v ?_
  intro v ih hv
  have hrest : ∀ a ∈ es, Colouring.prior a.1 v = true → a.2.1 = v → rest es c own s a.1 = [] := by
    intro a ha hp hav
    unfold rest
    rw [if_neg (ih a.1 ⟨⟨a.2.2, by rw [← hav]; exact ha⟩, hp⟩ (hin a ha)), show s.task (own a.1) = .idle from hq.1 _ (hown a ha)]
    rfl
  have hrem : rem es (Out es c own s) v = 0 := by
    refine rem_zero.2 fun a ha hav hp ho => ?_
    unfold Out at ho
    rw [hrest a ha hp hav] at ho
    cases ho
  have hdep : Note.dep v ∈ s.log := by
    by_cases hw : waits es v = 0
    · exact hi.zero v hv hw
    · obtain ⟨a, ha, hav, hp, -, -, h6⟩ := hi.mem.over v hrem (Nat.pos_of_ne_zero hw)
      refine hi.max v (h6 fun ho => ?_)
      unfold Out at ho
      rw [hrest a ha hp hav] at ho
      cases ho
  obtain ⟨x, y, hxy⟩ := List.append_of_mem hdep
  have := Verif.Props.Async.C29_seen (waiting es) (cfg T own) xs s h hq v x y hxy
  refine hi.seen v ?_
  rw [hxy]
  exact List.mem_append_right _ (List.mem_cons_of_mem _ this)

theorem greedy_of (T : Nat) (own : Nat → Nat) (es : List (Nat × Nat × Nat)) (hown : ∀ a ∈ es, own a.1 < T) (hpos : Positions es) (hrev : Mirrored es) (c : Nat → Nat) (hc : Sequential es c) (xs : List (Act Nat)) (hx : Static xs) (s : St Nat Mail Unit Nat)
    (h : run (waiting es) (cfg T own) (start (waiting es) (graph es)) xs = some s) (hq : Quiet (cfg T own) s) (hin : ∀ a ∈ es, s.inited a.1 = true) (v : Nat) (hv : s.inited v = true) : s.prop v = c v := by
  have hi := inv_run (setup hpos hrev hc) xs _ s (plain_of_static hx) (inv_start (setup hpos hrev hc) own) h
  exact (hi.prop v (coloured hown hi h hq hin v hv)).1

/-- **C68.** Once nothing is outstanding, every vertex has the colour of the sequential colouring: the same whatever
the number of threads and the schedule. -/
theorem C68_greedy (T : Nat) (own : Nat → Nat) (hown : ∀ v, own v < T) (es : List (Nat × Nat × Nat)) (hpos : Positions es) (hrev : Mirrored es) (c : Nat → Nat) (hc : Sequential es c) (xs : List (Act Nat)) (hx : Static xs) (s : St Nat Mail Unit Nat)
    (h : run (waiting es) (cfg T own) (start (waiting es) (graph es)) xs = some s) (hq : Quiet (cfg T own) s) (hin : ∀ a ∈ es, s.inited a.1 = true) (v : Nat) (hv : s.inited v = true) : s.prop v = c v :=
  greedy_of T own es (fun a _ => hown a.1) hpos hrev c hc xs hx s h hq hin v hv

/-- **C68.** Two runs on the same graph, with different threads and schedules, give the same colours. -/
theorem C68_deterministic (T T' : Nat) (own own' : Nat → Nat) (hown : ∀ v, own v < T) (hown' : ∀ v, own' v < T') (es : List (Nat × Nat × Nat)) (hpos : Positions es) (hrev : Mirrored es) (xs xs' : List (Act Nat)) (hx : Static xs) (hx' : Static xs')
    (s s' : St Nat Mail Unit Nat) (h : run (waiting es) (cfg T own) (start (waiting es) (graph es)) xs = some s) (h' : run (waiting es) (cfg T' own') (start (waiting es) (graph es)) xs' = some s')
    (hq : Quiet (cfg T own) s) (hq' : Quiet (cfg T' own') s') (hin : ∀ a ∈ es, s.inited a.1 = true ∧ s'.inited a.1 = true) (v : Nat) (hv : s.inited v = true ∧ s'.inited v = true) : s.prop v = s'.prop v := by
  obtain ⟨c, hc⟩ := sequential_exists es
  rw [C68_greedy T own hown es hpos hrev c hc xs hx s h hq (fun a ha => (hin a ha).1) v hv.1, C68_greedy T' own' hown' es hpos hrev c hc xs' hx' s' h' hq' (fun a ha => (hin a ha).2) v hv.2]

/-- **C68.** Neighbours have different colours. -/
theorem C68_proper (T : Nat) (own : Nat → Nat) (hown : ∀ v, own v < T) (es : List (Nat × Nat × Nat)) (hpos : Positions es) (hrev : Mirrored es) (xs : List (Act Nat)) (hx : Static xs) (s : St Nat Mail Unit Nat)
    (h : run (waiting es) (cfg T own) (start (waiting es) (graph es)) xs = some s) (hq : Quiet (cfg T own) s) (hin : ∀ a ∈ es, s.inited a.1 = true) : ∀ a ∈ es, a.1 ≠ a.2.1 → s.prop a.1 ≠ s.prop a.2.1 := by
  intro a ha hne
  obtain ⟨c, hc⟩ := sequential_exists es
  have hmem : (a.2.1, a.1) ∈ es.map fun a => (a.1, a.2.1) := hrev.mem_iff.2 (List.mem_map.2 ⟨a, ha, rfl⟩)
  obtain ⟨b, hb, hb'⟩ := List.mem_map.1 hmem
  simp only [Prod.mk.injEq] at hb'
  have h2 : s.inited a.2.1 = true := by rw [← hb'.1]; exact hin b hb
  rw [C68_greedy T own hown es hpos hrev c hc xs hx s h hq hin _ (hin a ha), C68_greedy T own hown es hpos hrev c hc xs hx s h hq hin _ h2]
  rcases Colouring.prior_or hne with hp | hp
  · exact (hc a.2.1).1 a.1 ⟨⟨a.2.2, ha⟩, hp⟩
  · exact ((hc a.1).1 a.2.1 ⟨⟨b.2.2, by rw [← hb'.1, ← hb'.2]; exact hb⟩, hp⟩).symm

/-! ## Runs end -/

theorem below_flatMap {n : Nat} {v col : Nat} {es : List (Edge Nat)} (he : ∀ e ∈ es, e.dst < n) : ∀ x ∈ es.flatMap (calls v col), x.1 < n := by
  intro x hx
  obtain ⟨e, hm, hx⟩ := List.mem_flatMap.1 hx
  have : x.1 = e.dst := by
    unfold calls at hx
    simp only at hx
    split at hx
    · simp only [List.mem_singleton] at hx; rw [hx]
    · split at hx
      · simp only [List.mem_singleton] at hx; rw [hx]
      · simp only [List.mem_cons, List.not_mem_nil, or_false] at hx
        rcases hx with rfl | rfl | rfl | rfl <;> rfl
  rw [this]
  exact he e hm

theorem below_update {n : Nat} (v p : Nat) (es : List (Edge Nat)) (m : Mail) (k : Bool → Prog Mail Unit) (hk : ∀ b, (k b).Below n) (he : ∀ e ∈ es, e.dst < n) : (update v p es m k).2.Below n := by
  unfold update
  simp only
  split
  · exact hk false
  · exact below_postAll hk _ _ (below_flatMap he)

theorem waiting_local (U : List (Nat × Nat × Nat)) (n : Nat) : Local (waiting U) n := by
  refine ⟨fun v p es x i m he => below_update _ _ _ _ _ (fun _ => trivial) he, ?_, ?_⟩
  · intro v p es i m he
    refine below_update _ _ _ _ _ ?_ he
    intro b
    split
    · trivial
    · exact below_postAll (k := fun _ => .done) (fun _ => trivial) _ _ (below_flatMap fun e hm => he e (List.mem_of_mem_drop (List.mem_filter.1 hm).1))
  · intro v p es ds m he hd
    refine below_update _ _ _ _ _ ?_ he
    intro b
    exact below_postAll (k := fun _ => .done) (fun _ => trivial) _ _ (below_flatMap hd)

theorem len_calls (v col : Nat) (e : Edge Nat) : (calls v col e).length ≤ 4 := by
  unfold calls
  simp only
  split
  · simp
  · split <;> simp

theorem len_flatMap (v col : Nat) : ∀ es : List (Edge Nat), (es.flatMap (calls v col)).length ≤ 4 * es.length
  | [] => by simp
  | e :: es => by
    rw [List.flatMap_cons, List.length_append, List.length_cons]
    have := len_calls v col e
    have := len_flatMap v col es
    omega

theorem len_update (v p : Nat) (es : List (Edge Nat)) (m : Mail) : (update v p es m fun _ => .done).2.len ≤ 4 * es.length := by
  unfold update
  simp only
  split
  · exact Nat.zero_le _
  · refine Nat.le_trans ?_ (len_flatMap v (Colouring.firstUnused (Colouring.used m.scratch)) es)
    exact len_postAll (k := fun _ => .done) (b := 0) (fun _ => Nat.le_refl _) _ _

open Finset in
/-- The number of steps from a state of a run is bounded. -/
theorem bound_of {T : Nat} {own : Nat → Nat} {es : List (Nat × Nat × Nat)} {c : Nat → Nat} (hs : Setup es c) (n : Nat) (hn : ∀ a ∈ es, a.1 < n) {s : St Nat Mail Unit Nat} (hi : Inv es c own s) (hsup : Supp n s) :
    ∃ B, ∀ ys s', (∀ y ∈ ys, Sync.Plain y ∧ y.below n = true) → run (waiting es) (cfg T own) s ys = some s' → ys.length ≤ B := by
  refine ⟨_, fun ys s' hy h => plain_bound (B := 4 * es.length) (waiting_local es n) (Inv es c own) (fun s => ∑ u ∈ range n, (rest es c own s u).length) ?_ ?_ hi hsup hy h⟩
  · intro s hi t v h hk p m
    have hok := hi.task t
    rw [hk] at hok
    rw [hok.1, hi.edges]
    refine Nat.le_trans (len_update v p _ m) (Nat.mul_le_mul_left 4 ?_)
    exact Colouring.graph_len es v
  · intro s s' x hi _ hx _ h
    obtain ⟨h1, h2⟩ := inv_step hs hi hx h
    refine ⟨h1, ?_⟩
    rcases h2 with ⟨h2, h3⟩ | ⟨u, y, l, h2, h3⟩
    · rw [h3]
      have : (∑ u ∈ range n, (rest es c own s' u).length) = ∑ u ∈ range n, (rest es c own s u).length := Finset.sum_congr rfl fun u _ => by rw [h2]
      rw [this]
      simp
    · have hu : u < n := by
        have hmem : y ∈ posts es c u := (suffix_rest hi.task u).mem (by rw [h2]; exact List.mem_cons_self)
        obtain ⟨op, a, ha, rfl, -⟩ := mem_posts.1 hmem
        exact hn a ha
      have h4 := sum_upd List.length (rest es c own s) u l n hu
      have : (∑ u ∈ range n, (rest es c own s' u).length) = ∑ j ∈ range n, (upd (rest es c own s) u l j).length := Finset.sum_congr rfl fun u _ => by rw [h3]
      rw [this]
      rw [h2, List.length_cons] at h4
      split <;> omega

/-- **C68.** The number of steps left is bounded at any moment of a run, whatever the schedule. Self loops do no
harm. -/
theorem C68_bound (T : Nat) (own : Nat → Nat) (es : List (Nat × Nat × Nat)) (hpos : Positions es) (hrev : Mirrored es) (xs : List (Act Nat)) (hx : Static xs) (s : St Nat Mail Unit Nat)
    (h : run (waiting es) (cfg T own) (start (waiting es) (graph es)) xs = some s) :
    ∃ B, ∀ ys s', NoTopology ys → run (waiting es) (cfg T own) s ys = some s' → ys.length ≤ B := by
  obtain ⟨c, hc⟩ := sequential_exists es
  have hs := setup hpos hrev hc
  obtain ⟨n0, hn0⟩ := Colouring.graph_finite es
  obtain ⟨n, hle, hxn⟩ := Converge.exists_below n0 xs
  have hsup := supp_loaded (waiting es) n (graph es) (fun v hv => (hn0 v).1 (by omega)) fun v e he => Nat.lt_of_lt_of_le ((hn0 v).2 e he) hle
  have hn : ∀ a ∈ es, a.1 < n := by
    intro a ha
    by_contra hlt
    have hm : (⟨a.2.1, a.2.2⟩ : Edge Nat) ∈ graph es a.1 := List.mem_map.2 ⟨a, List.mem_filter.2 ⟨ha, decide_eq_true rfl⟩, rfl⟩
    rw [(hn0 a.1).1 (by omega)] at hm
    cases hm
  obtain ⟨B, hB⟩ := bound_of (T := T) hs n hn (inv_run hs xs _ s (plain_of_static hx) (inv_start hs own) h) (supp_run (waiting_local es n) hxn hsup h)
  exact ⟨B, fun ys s' hy hr => hB ys s' (Colouring.plain_of_noTopology hy) hr⟩

theorem static_append {xs ys : List (Act Nat)} (hx : Static xs) (hy : Static ys) : Static (xs ++ ys) :=
  ⟨fun t v es h => (List.mem_append.1 h).elim (hx.1 t v es) (hy.1 t v es), fun t v k h => (List.mem_append.1 h).elim (hx.2 t v k) (hy.2 t v k)⟩

theorem static_of_noTopology {ys : List (Act Nat)} (h : NoTopology ys) : Static ys := by
  constructor
  · intro t v es hm
    rcases h _ hm with ⟨_, e⟩ | ⟨_, _, _, e⟩ <;> cases e
  · intro t v k hm
    rcases h _ hm with ⟨_, e⟩ | ⟨_, _, _, e⟩ <;> cases e

/-- **C68.** The number of steps left is bounded, and where no step is left every vertex has the colour of the
sequential colouring. -/
theorem C68_rest (T : Nat) (own : Nat → Nat) (hown : ∀ v, own v < T) (es : List (Nat × Nat × Nat)) (hpos : Positions es) (hrev : Mirrored es) (c : Nat → Nat) (hc : Sequential es c) (xs : List (Act Nat)) (hx : Static xs) (s : St Nat Mail Unit Nat)
    (h : run (waiting es) (cfg T own) (start (waiting es) (graph es)) xs = some s) (hin : ∀ a ∈ es, s.inited a.1 = true) :
    ∃ B, ∀ ys s', NoTopology ys → run (waiting es) (cfg T own) s ys = some s' →
      ys.length ≤ B ∧ (Rests (waiting es) (cfg T own) s' → ∀ v, s.inited v = true → s'.prop v = c v) := by
  obtain ⟨B, hB⟩ := C68_bound T own es hpos hrev xs hx s h
  refine ⟨B, fun ys s' hy hr => ⟨hB ys s' hy hr, fun hrest v hv => ?_⟩⟩
  obtain ⟨-, e2⟩ := Converge.stay_run hy hr
  exact C68_greedy T own hown es hpos hrev c hc (xs ++ ys) (static_append hx (static_of_noTopology hy)) s' (Converge.run_append _ _ xs ys _ _ _ h hr) (Converge.quiet_of_rests hown hrest)
    (by rw [e2]; exact hin) v (by rw [e2]; exact hv)

open Verif.Engine Verif.Props.Engine in
/-- **C68 (missing: executions that read a vote between the two stores, as C64).** Under every fair schedule a run
returns once all vertices have been given their initial mail, with the sequential colouring. -/
theorem C68_returns_partial (T : Nat) (own : Nat → Nat) (hown : ∀ v, own v < T) (max : Nat) (hm : 0 < max) (es : List (Nat × Nat × Nat)) (hpos : Positions es) (hrev : Mirrored es) (c : Nat → Nat) (hc : Sequential es c)
    (xs0 : List (Async.Act Nat)) (hx0 : Static xs0)
    (e : Exec (waiting es) (cfg T own) max) (hs0 : Async.run (waiting es) (cfg T own) (Async.start (waiting es) (graph es)) xs0 = some (e.st 0).alg) (hst : Start (cfg T own) max (e.st 0))
    (hfair : e.Fair) (hfresh : Fresh e) (m : Nat) (hcl : ∀ t, t < T → (e.st m).term.closed t = true) (htopo : ∀ i y, m ≤ i → e.act i ≠ .topo y)
    (hstatic : Static (topos ((List.range m).map e.act))) (hin : ∀ a ∈ es, (e.st m).alg.inited a.1 = true) :
    ∃ k, Finished (cfg T own) (e.st k) ∧ ∀ v, (e.st m).alg.inited v = true → (e.st k).alg.prop v = c v := by
  obtain ⟨-, -, ys, hys, hch⟩ := proj (exec_run _ _ max e m)
  have hsy : Static ys := by
    have hmem : ∀ y ∈ ys, (topoThread y).isSome = true → y ∈ topos ((List.range m).map e.act) := fun y hy h => by rw [← hch]; exact List.mem_filter.2 ⟨hy, h⟩
    exact ⟨fun t v es h => hstatic.1 t v es (hmem _ h rfl), fun t v k h => hstatic.2 t v k (hmem _ h rfl)⟩
  have hrun := Converge.run_append _ _ xs0 ys _ _ _ hs0 hys
  obtain ⟨B, hB⟩ := C68_rest T own hown es hpos hrev c hc _ (static_append hx0 hsy) _ hrun hin
  obtain ⟨k, hk, hd⟩ := C64_partial _ _ max hm e hst hfair hfresh m hcl htopo (C68_bound T own es hpos hrev _ (static_append hx0 hsy) _ hrun)
  obtain ⟨zs, hz, hr, -⟩ := seg_alg e m (fun i hi => by
    cases hx : e.act i with
    | topo y => exact absurd hx (htopo i y hi)
    | _ => rfl) (k - m)
  rw [show m + (k - m) = k by omega] at hr
  obtain ⟨hq, -, -⟩ := C63_final _ _ max hm hown _ _ hst _ (exec_run _ _ max e k) hd
  exact ⟨k, hd, (hB zs _ hz hr).2 (Converge.rests_of_quiet hq)⟩

/-! ## Synchronous runs -/

open Verif.Sync Verif.Props.Sync in
theorem update_unique (U : List (Nat × Nat × Nat)) (v p : Nat) (es : List (Edge Nat)) (n : Unit) (i : Int) (m : Mail) : ((waiting U).onUpdate v p es n i m).2.Unique := by
  have : ∀ (ws : List (Nat × Mail)) (b : Bool), (postAll ws b fun _ => (.done : Prog Mail Unit)).Unique := by
    intro ws
    induction ws with
    | nil => exact fun _ => trivial
    | cons w ws ih => exact fun b => fun b' => ih _
  simp only [waiting, update]
  split
  · trivial
  · exact this _ _

open Verif.Sync Verif.Props.Sync in
/-- **C68** for synchronous runs: the number of steps is bounded whatever the schedule, and unless queues fill up a run
ends by stopping. -/
theorem C68_sync (c : Sync.Cfg Mail) (hc : c.Ok) (hi : ∀ v, c.initMail v = some { op := .self, box := v }) (es : List (Nat × Nat × Nat)) (hes : Sync.Within c.n (graph es)) (hpos : Positions es) (hrev : Mirrored es) :
    ∃ B, ∀ cap xs s, Sync.run (waiting es) (sized c cap) (Sync.start (waiting es) (graph es)) xs = some s →
      xs.length ≤ B ∧ (Ample c cap B → (∀ x, Sync.step (waiting es) (sized c cap) s x = none) → s.phase = .stopped) := by
  obtain ⟨col, hcol⟩ := sequential_exists es
  have hs := setup hpos hrev hcol
  have hcfg : (absCfg c : Async.Cfg Mail Unit) = cfg c.n id := by
    simp only [absCfg, ColouringWait.cfg, Async.Cfg.mk.injEq, true_and, and_true]
    exact funext hi
  have hn : ∀ a ∈ es, a.1 < c.n := by
    intro a ha
    by_contra hlt
    have hm : (⟨a.2.1, a.2.2⟩ : Edge Nat) ∈ graph es a.1 := List.mem_map.2 ⟨a, List.mem_filter.2 ⟨ha, decide_eq_true rfl⟩, rfl⟩
    rw [hes.src a.1 (by omega)] at hm
    cases hm
  obtain ⟨K, hK⟩ := bound_of (T := c.n) hs c.n hn (inv_start hs id) (supp_loaded (waiting es) c.n (graph es) hes.src hes.dst)
  refine sync_of_bound (waiting es) (update_unique es) c hc (waiting_local es c.n) (graph es) hes K ?_
  rw [hcfg]
  exact hK

open Verif.Sync Verif.Props.Sync in
/-- **C68** for synchronous runs: when the run stops, every vertex has the colour of the sequential colouring. -/
theorem C68_sync_greedy (c : Sync.Cfg Mail) (hc : c.Ok) (hi : ∀ v, c.initMail v = some { op := .self, box := v }) (es : List (Nat × Nat × Nat)) (hes : Sync.Within c.n (graph es)) (hpos : Positions es) (hrev : Mirrored es)
    (col : Nat → Nat) (hcol : Sequential es col) (xs : List Sync.Act) (s : Sync.St Nat Mail Unit Nat) (h : Sync.run (waiting es) c (Sync.start (waiting es) (graph es)) xs = some s) (hst : s.phase = .stopped) :
    ∀ v, v < c.n → s.prop v = col v := by
  intro v hv
  have hcfg : (absCfg c : Async.Cfg Mail Unit) = cfg c.n id := by
    simp only [absCfg, ColouringWait.cfg, Async.Cfg.mk.injEq, true_and, and_true]
    exact funext hi
  obtain ⟨-, -, he, ys, r, hr, hq, hadd, hdel, hin, e1, -, e3⟩ := C36_stop (waiting es) (update_unique es) c hc (waiting_local es c.n) (graph es) hes xs s h hst
  rw [hcfg] at hr hq
  have hn : ∀ a ∈ es, a.1 < c.n := by
    intro a ha
    by_contra hlt
    have hm : (⟨a.2.1, a.2.2⟩ : Edge Nat) ∈ graph es a.1 := List.mem_map.2 ⟨a, List.mem_filter.2 ⟨ha, decide_eq_true rfl⟩, rfl⟩
    rw [hes.src a.1 (by omega)] at hm
    cases hm
  rw [← e1]
  exact greedy_of c.n id es hn hpos hrev col hcol ys ⟨hadd, hdel⟩ r hr hq (fun a ha => by rw [hin]; exact decide_eq_true (hn a ha)) v (by rw [hin]; exact decide_eq_true hv)

/-! ## Graphs that are not undirected -/

/-- C68 without requiring that edges come with their reverse. -/
def C68Directed : Prop :=
  ∀ (T : Nat) (own : Nat → Nat), (∀ v, own v < T) → ∀ (es : List (Nat × Nat × Nat)), Positions es → ∀ (xs : List (Act Nat)), Static xs → ∀ (s : St Nat Mail Unit Nat),
    run (waiting es) (cfg T own) (start (waiting es) (graph es)) xs = some s → Quiet (cfg T own) s → (∀ a ∈ es, s.inited a.1 = true) → ∀ v, s.inited v = true → s.prop v ≠ noColour

theorem graph_out {es : List (Nat × Nat × Nat)} {n : Nat} (h : ∀ a ∈ es, a.1 < n ∧ a.2.1 < n) : (∀ v, n ≤ v → graph es v = []) ∧ ∀ v e, e ∈ graph es v → e.dst < n := by
  constructor
  · intro v hv
    unfold graph
    rw [List.map_eq_nil_iff, List.filter_eq_nil_iff]
    intro a ha hd
    have hd : a.1 = v := of_decide_eq_true hd
    have := (h a ha).1
    omega
  · intro v e he
    obtain ⟨a, ha, rfl⟩ := List.mem_map.1 he
    exact (h a (List.mem_filter.1 ha).1).2

/-- **C68 needs the reverse edges**: with the edge from 1 to 0 only, 1 waits for 0, which never tells it. -/
theorem C68_directed_false : ¬ C68Directed := by
  intro h
  have hg := graph_out (es := [(1, 0, 0)]) (n := 2) (by decide)
  obtain ⟨s, h1, h2, -, h4⟩ := exists_quiet_loaded (c := cfg 1 fun _ => 0) (n := 2) (waiting_local [(1, 0, 0)] 2) (graph [(1, 0, 0)]) hg.1 hg.2
    (xs := [.init 0 0, .go 0, .go 0, .init 0 1]) (by decide) (fun s => decide (s.inited 1 = true ∧ s.prop 1 = noColour)) (by decide +kernel)
  obtain ⟨i1, p1⟩ := of_decide_eq_true h4
  exact h 1 _ (fun _ => Nat.one_pos) [(1, 0, 0)] ⟨by decide, by intro a ha; revert a; decide⟩ _ ⟨fun t v es hm => by simp at hm, fun t v es hm => by simp at hm⟩ s h1 h2
    (fun a ha => by rw [List.mem_singleton.1 ha]; exact i1) 1 i1 p1

/-! ## Cases -/

/-- A triangle, with two edges between 0 and 1 and a self loop. -/
def g68 : List (Nat × Nat × Nat) := [(0, 1, 0), (1, 0, 0), (0, 1, 1), (1, 0, 1), (1, 2, 0), (2, 1, 2), (0, 2, 1), (2, 0, 2), (2, 2, 2)]

def own68 (v : Nat) : Nat := v % 2

/-- The first steps: 0 tells 1 its colour twice. -/
def xs68a : List (Act Nat) := [.init 0 0, .init 1 1] ++ List.replicate 11 (.go 0)

/-- 0 and 1 access the mailbox of 2 in turns. -/
def xs68b : List (Act Nat) :=
  [.recv 1 1 0, .go 1, .go 0, .go 1, .go 0, .go 1, .go 0, .go 1, .go 0, .go 1, .go 0, .init 0 2, .go 1, .go 1, .go 1, .go 1, .recv 0 2 0, .go 1, .go 0, .go 0, .go 0, .go 0, .go 0]

theorem g68_positions : Positions g68 := ⟨by decide, by intro a ha; revert a; decide⟩

theorem g68_mirrored : Mirrored g68 := by unfold Mirrored; decide

theorem g68_out : (∀ v, 3 ≤ v → graph g68 v = []) ∧ ∀ v e, e ∈ graph g68 v → e.dst < 3 := graph_out (by decide)

theorem static68 : Static (xs68a ++ xs68b) := by
  have : (xs68a ++ xs68b).all (fun y => match y with | .add _ _ _ => false | .del _ _ _ => false | _ => true) = true := by decide
  exact ⟨fun t v es hm => absurd (List.all_eq_true.1 this _ hm) (by simp), fun t v es hm => absurd (List.all_eq_true.1 this _ hm) (by simp)⟩

/-- The hypotheses of `C68_greedy`, `C68_once`, `C68_deterministic` and `C68_proper` are met. -/
theorem run68 : ∃ s, run (waiting g68) (cfg 2 own68) (start (waiting g68) (graph g68)) (xs68a ++ xs68b) = some s ∧ Quiet (cfg 2 own68) s ∧ Supp 3 s ∧ (∀ a ∈ g68, s.inited a.1 = true) ∧
    s.prop 0 = 0 ∧ s.prop 1 = 1 ∧ s.prop 2 = 2 := by
  obtain ⟨s, h1, h2, h3, h4⟩ := exists_quiet_loaded (c := cfg 2 own68) (n := 3) (waiting_local g68 3) (graph g68) g68_out.1 g68_out.2
    (xs := xs68a ++ xs68b) (by decide) (fun s => g68.all (fun a => s.inited a.1) && decide (s.prop 0 = 0 ∧ s.prop 1 = 1 ∧ s.prop 2 = 2)) (by decide +kernel)
  rw [Bool.and_eq_true] at h4
  exact ⟨s, h1, h2, h3, List.all_eq_true.1 h4.1, of_decide_eq_true h4.2⟩

example : Positions g68 ∧ Mirrored g68 ∧ Static (xs68a ++ xs68b) ∧ (∀ v, own68 v < 2) ∧ ∃ s, run (waiting g68) (cfg 2 own68) (start (waiting g68) (graph g68)) (xs68a ++ xs68b) = some s ∧ Quiet (cfg 2 own68) s ∧
    (∀ a ∈ g68, s.inited a.1 = true) ∧ s.prop 0 = 0 ∧ s.prop 1 = 1 ∧ s.prop 2 = 2 := by
  obtain ⟨s, h1, h2, -, h4⟩ := run68
  exact ⟨g68_positions, g68_mirrored, static68, fun v => Nat.mod_lt _ (by decide), s, h1, h2, h4⟩

/-- So 0, 1, 2 is the sequential colouring of it. -/
example (c : Nat → Nat) (hc : Sequential g68 c) : c 0 = 0 ∧ c 1 = 1 ∧ c 2 = 2 := by
  obtain ⟨s, h1, h2, -, h4, p0, p1, p2⟩ := run68
  have := C68_greedy 2 own68 (fun v => Nat.mod_lt _ (by decide)) g68 g68_positions g68_mirrored c hc _ static68 s h1 h2 h4
  rw [← this 0 (h4 (0, 1, 0) (by decide)), ← this 1 (h4 (1, 0, 0) (by decide)), ← this 2 (h4 (2, 1, 2) (by decide))]
  exact ⟨p0, p1, p2⟩

/-- The prefix after which all vertices have been given their initial mail; 1 has been notified. -/
def xs68c : List (Act Nat) := [.init 0 0, .init 1 1] ++ List.replicate 16 (.go 0) ++ [.init 0 2]

open Verif.Engine Verif.Props.Engine in
/-- The hypotheses of `C68_bound`, `C68_rest` and `C68_returns_partial` are met: the threads take five and six
instructions in turns until both leave. -/
example : ∃ e : Exec (waiting g68) (cfg 2 own68) 1024, Async.run (waiting g68) (cfg 2 own68) (Async.start (waiting g68) (graph g68)) xs68c = some (e.st 0).alg ∧ Static xs68c ∧
    Start (cfg 2 own68) 1024 (e.st 0) ∧ e.Fair ∧ Fresh e ∧ (∀ t, (e.st 0).term.closed t = true) ∧ (∀ i y, e.act i ≠ .topo y) ∧ ∀ a ∈ g68, (e.st 0).alg.inited a.1 = true := by
  have hst : Static xs68c := by
    have : xs68c.all (fun y => match y with | .add _ _ _ => false | .del _ _ _ => false | _ => true) = true := by decide
    exact ⟨fun t v es hm => absurd (List.all_eq_true.1 this _ hm) (by simp), fun t v es hm => absurd (List.all_eq_true.1 this _ hm) (by simp)⟩
  have hd : (Async.run (waiting g68) (cfg 2 own68) (Async.start (waiting g68) (graph g68)) xs68c).map (fun s =>
      (List.range 2).all (fun t => isIdle (s.task t)) && (List.range 3).all (fun v => decide (s.pend v = [(1, ())].filterMap fun x => if x.1 = v then some x.2 else none)) &&
      g68.all (fun a => s.inited a.1) && smooth (waiting g68) (cfg 2 own68) 1024 (begin0 (cfg 2 own68) s [(1, ())]) ((List.range 500).map fun i => [0, 0, 0, 0, 0, 1, 1, 1, 1, 1, 1].getD (i % [0, 0, 0, 0, 0, 1, 1, 1, 1, 1, 1].length) 0)) = some true := by
    decide +kernel
  obtain ⟨s, hs, h⟩ := Option.map_eq_some_iff.1 hd
  simp only [Bool.and_eq_true] at h
  obtain ⟨⟨⟨h1, h2⟩, h3⟩, h4⟩ := h
  have hsup := supp_run (waiting_local g68 3) (xs := xs68c) (by decide) (supp_loaded _ 3 (graph g68) g68_out.1 g68_out.2) hs
  obtain ⟨e, e1, e2, e3, e4, e5, e6⟩ := exists_exec (waiting g68) (cfg 2 own68) 1024 (fun v => Nat.mod_lt _ (by decide)) (by decide) (graph g68) xs68c s hs hsup [(1, ())] [0, 0, 0, 0, 0, 1, 1, 1, 1, 1, 1]
    (fun t ht => by have : t < 2 := ht; have : t = 0 ∨ t = 1 := by omega
                    rcases this with rfl | rfl <;> simp) 500
    (fun t ht => List.all_eq_true.1 h1 t (List.mem_range.2 ht)) (fun v hv => of_decide_eq_true (List.all_eq_true.1 h2 v (List.mem_range.2 hv))) (by decide) h4
  exact ⟨e, by rw [e1]; exact hs, hst, e2, e3, e4, e5, e6, by rw [e1]; exact List.all_eq_true.1 h3⟩

/-- Two threads, synchronous. -/
def cfgS68 : Sync.Cfg Mail :=
  { n := 3, T := 2, own := fun v => v % 2, verts := fun t => if t = 0 then [0, 2] else if t = 1 then [1] else [],
    initMail := fun v => some { op := .self, box := v }, prev := false, cap := 3 }

def sync68 : List Sync.Act :=
  [.init 0 0, .init 1 1] ++ List.replicate 16 (.go 0) ++ [.init 0 2, .barrier, .scan 0, .scan 0, .scan 1] ++ List.replicate 10 (.go 1) ++ [.barrier, .scan 0, .scan 0, .scan 1] ++ List.replicate 5 (.go 0) ++ [.barrier]

/-- The hypotheses of `C68_sync` and `C68_sync_greedy` are met. -/
example : (Sync.run (waiting g68) cfgS68 (Sync.start (waiting g68) (graph g68)) sync68).map (fun s => (s.phase, s.prop 0, s.prop 1, s.prop 2)) = some (.stopped, 0, 1, 2) ∧
    cfgS68.Ok ∧ (∀ v, cfgS68.initMail v = some { op := .self, box := v }) ∧ Sync.Within cfgS68.n (graph g68) := by
  refine ⟨by decide +kernel, ⟨fun t v => ?_, fun v _ => ?_⟩, fun _ => rfl, ⟨g68_out.1, g68_out.2⟩⟩
  · simp only [cfgS68]
    split
    · simp; omega
    · split
      · simp; omega
      · simp; omega
  · simp only [cfgS68]; omega

end Verif.Props.ColouringWait
