import Verif.PageRankFinish
import Verif.Props.PageRank

/-!
# The final PageRank pass (C55)
-/

namespace Verif.Props.PageRankFinish

open Verif Verif.Async Verif.PageRank Verif.Props.PageRank

theorem fdiv_some {a b r : ℚ} (h : fdiv a b = some r) : b ≠ 0 ∧ r = a / b := by
  unfold fdiv at h
  split at h
  · cases h
  · next hb => exact ⟨hb, by cases h; rfl⟩

/-- A sink that takes part. -/
def active (v : FV) : Bool := v.sink && !v.late

def nsMass (ws : List FV) : ℚ := ((ws.filter fun v => !v.sink).map FV.mass).sum
def acMass (ws : List FV) : ℚ := ((ws.filter fun v => active v).map FV.mass).sum
def acCount (ws : List FV) : ℚ := ((ws.filter fun v => active v).length : ℚ)

theorem settle_sum (g : Global) : ∀ (ws : List FV) (rs : List ℚ), ws.mapM (settle g) = some rs → (∀ w ∈ ws, w.sink = true → (w.late = true ↔ w.mass = 0)) →
    g.nV * rs.sum = nsMass ws * (1 + g.normalQuota * (g.geometric * (1 - g.retain)) / g.nonSink) + acMass ws +
      (1 - damping) * g.geometric * (g.sinkQuota * (acCount ws - acMass ws * (damping / (1 - damping)) / g.latent) +
        g.normalQuota * g.retain * ((acMass ws * (damping / (1 - damping)) * (1 / damping) - acCount ws) / (g.latent * (1 / damping) - g.sinks)))
  | [], rs, h, _ => by
    simp at h
    subst h
    simp [nsMass, acMass, acCount]
  | w :: ws, rs, h, hl => by
    rw [List.mapM_cons] at h
    obtain ⟨r, hr, h⟩ := Option.bind_eq_some_iff.1 h
    obtain ⟨rs', hrs, h⟩ := Option.bind_eq_some_iff.1 h
    cases h
    have ih := settle_sum g ws rs' hrs (fun x hx => hl x (by simp [hx]))
    rw [List.sum_cons, mul_add, ih]
    have hw := hl w (by simp)
    unfold settle at hr
    cases hs : w.sink with
    | false =>
      rw [if_pos hs] at hr
      obtain ⟨x, hx, hr⟩ := Option.bind_eq_some_iff.1 hr
      obtain ⟨hx0, rfl⟩ := fdiv_some hx
      obtain ⟨hn0, rfl⟩ := fdiv_some hr
      have e1 : nsMass (w :: ws) = w.mass + nsMass ws := by simp [nsMass, hs]
      have e2 : acMass (w :: ws) = acMass ws := by simp [acMass, active, hs]
      have e3 : acCount (w :: ws) = acCount ws := by simp [acCount, active, hs]
      rw [e1, e2, e3, mul_div_cancel₀ _ hn0]
      ring
    | true =>
      rw [if_neg (by rw [hs]; simp)] at hr
      have e1 : nsMass (w :: ws) = nsMass ws := by simp [nsMass, hs]
      by_cases hm : w.mass = 0
      · rw [if_pos hm] at hr
        cases hr
        have hlate := (hw hs).2 hm
        have e2 : acMass (w :: ws) = acMass ws := by simp [acMass, active, hlate]
        have e3 : acCount (w :: ws) = acCount ws := by simp [acCount, active, hlate]
        rw [e1, e2, e3]; ring
      · rw [if_neg hm] at hr
        have hlate : w.late = false := by
          cases hh : w.late with
          | false => rfl
          | true => exact absurd ((hw hs).1 hh) hm
        obtain ⟨x, hx, hr⟩ := Option.bind_eq_some_iff.1 hr
        obtain ⟨y, hy, hr⟩ := Option.bind_eq_some_iff.1 hr
        obtain ⟨hx0, rfl⟩ := fdiv_some hx
        obtain ⟨hy0, rfl⟩ := fdiv_some hy
        obtain ⟨hn0, rfl⟩ := fdiv_some hr
        have e2 : acMass (w :: ws) = w.mass + acMass ws := by simp [acMass, active, hs, hlate]
        have e3 : acCount (w :: ws) = 1 + acCount ws := by simp [acCount, active, hs, hlate]; ring
        rw [e1, e2, e3, mul_div_cancel₀ _ hn0]
        ring

/-- What every vertex of the final pass holds after absorbing its inflow. -/
def held (v : FV) : ℚ := v.mass + (1 - damping) * v.inflow

theorem count_split : ∀ ws : List FV, ws.length = (ws.filter fun v => !v.sink).length + (ws.filter fun v => v.sink && !v.late).length + (ws.filter fun v => v.sink && v.late).length
  | [] => rfl
  | w :: ws => by
    have ih := count_split ws
    cases h1 : w.sink <;> cases h2 : w.late <;> simp [h1, h2] <;> omega

theorem settled (g : Global) : ∀ (ws : List FV) (rs : List ℚ), ws.mapM (settle g) = some rs → ∀ w ∈ ws, ∃ r, settle g w = some r
  | [], _, _, w, hw => by simp at hw
  | v :: ws, rs, h, w, hw => by
    rw [List.mapM_cons] at h
    obtain ⟨r, hr, h⟩ := Option.bind_eq_some_iff.1 h
    obtain ⟨rs', hrs, h⟩ := Option.bind_eq_some_iff.1 h
    rcases List.mem_cons.1 hw with rfl | hw
    · exact ⟨r, hr⟩
    · exact settled g ws rs' hrs w hw

theorem algebra (d N k A B G ρ sq nq GL : ℚ) (hd : 1 - d ≠ 0) (hN : N - 1 ≠ 0) (hGL : GL = A * (d / (1 - d)))
    (hsq : sq = 1 / (N - 1)) (hnq : nq = (N - k) / (N - 1)) (hD : 1 - d * (sq * (k - 1) + nq * ρ) ≠ 0) (hG : G = GL / (1 - d * (sq * (k - 1) + nq * ρ)))
    (hB : B ≠ 0) (hA : k = 0 ∧ A = 0 ∨ GL ≠ 0 ∧ GL * (1 / d) - k ≠ 0) :
    B * (1 + nq * (G * (1 - ρ)) / B) + A + (1 - d) * G * (sq * (k - A * (d / (1 - d)) / GL) + nq * ρ * ((A * (d / (1 - d)) * (1 / d) - k) / (GL * (1 / d) - k))) = B + A / (1 - d) := by
  have h1 : nq + sq * (k - 1) = 1 := by rw [hnq, hsq]; field_simp; ring
  have h2 : G * (1 - d * (sq * (k - 1) + nq * ρ)) = GL := by rw [hG]; exact div_mul_cancel₀ _ hD
  have h3 : B * (1 + nq * (G * (1 - ρ)) / B) = B + nq * (G * (1 - ρ)) := by field_simp
  have h4 : A / (1 - d) = A + GL := by rw [hGL]; field_simp; ring
  rw [h3, h4]
  rcases hA with ⟨rfl, rfl⟩ | ⟨hA, hA'⟩
  · have hG0 : G = 0 := by rw [hG, hGL]; simp
    rw [hG0, hGL]; ring
  · rw [← hGL, div_self hA, div_self hA']
    have h5 : nq * (G * (1 - ρ)) + (1 - d) * G * (sq * (k - 1) + nq * ρ * 1) = G * (1 - d * (sq * (k - 1) + nq * ρ)) + G * (nq + sq * (k - 1) - 1) := by ring
    rw [h1, h2] at h5
    linarith

/-- **C55 (missing: results that are not numbers, and sinks holding exactly zero).** If the final pass
yields numbers, their sum times the number of vertices is the mass outside sinks plus the undamped mass in
sinks: the redistribution of what the sinks hold back neither creates nor loses rank. -/
theorem C55_redistribution_partial (vs : List FV) (rs : List ℚ) (h : finish vs = some rs) (hz : ∀ v ∈ vs, v.sink = true → v.late = false → held v ≠ 0) :
    ((vs.length : ℚ) - (vs.filter fun v => v.sink && v.late).length) * rs.sum =
      ((vs.filter fun v => !v.sink).map held).sum + ((vs.filter fun v => v.sink && !v.late).map held).sum / (1 - damping) := by
  unfold finish at h
  obtain ⟨g, hg, hm⟩ := Option.bind_eq_some_iff.1 h
  have hd : (1 : ℚ) - damping ≠ 0 := by decide +kernel
  have hd0 : damping ≠ 0 := by decide +kernel
  have hsum := settle_sum g _ _ hm (by
    intro w hw
    obtain ⟨v, hv, rfl⟩ := List.mem_map.1 hw
    intro hs
    have hs' : v.sink = true := hs
    show v.late = true ↔ (if v.sink = true ∧ v.late = true then 0 else _) = 0
    constructor
    · intro hl; rw [if_pos ⟨hs', hl⟩]
    · intro h0
      by_contra hl
      have hl' : v.late = false := by simpa using hl
      rw [if_neg (fun h => hl h.2)] at h0
      exact hz v hv hs' hl' h0)
  have hns : nsMass (vs.map absorb) = ((vs.filter fun v => !v.sink).map held).sum := by
    unfold nsMass
    rw [List.filter_map, List.map_map]
    apply congrArg
    apply List.map_congr_left
    intro v hv
    have : v.sink = false := by simpa [absorb] using (List.mem_filter.1 hv).2
    simp [absorb, held, this]
  have hac : acMass (vs.map absorb) = ((vs.filter fun v => v.sink && !v.late).map held).sum := by
    unfold acMass
    rw [List.filter_map, List.map_map]
    apply congrArg
    apply List.map_congr_left
    intro v hv
    have : v.sink = true ∧ v.late = false := by simpa [absorb, active] using (List.mem_filter.1 hv).2
    simp [absorb, held, this]
  have hlen : (((vs.map absorb).filter fun v => v.sink && v.late).length : ℚ) = ((vs.filter fun v => v.sink && v.late).length : ℚ) := by
    rw [List.filter_map, List.length_map]; rfl
  unfold global at hg
  simp only at hg
  obtain ⟨ρ, h1, hg⟩ := Option.bind_eq_some_iff.1 hg
  obtain ⟨sq, h2, hg⟩ := Option.bind_eq_some_iff.1 hg
  obtain ⟨nq, h3, hg⟩ := Option.bind_eq_some_iff.1 hg
  obtain ⟨G, h4, hg⟩ := Option.bind_eq_some_iff.1 hg
  obtain ⟨b1, rfl⟩ := fdiv_some h1
  obtain ⟨b2, rfl⟩ := fdiv_some h2
  obtain ⟨b3, rfl⟩ := fdiv_some h3
  obtain ⟨b4, e4⟩ := fdiv_some h4
  simp only [Option.some.injEq] at hg
  subst hg
  have hset := settled _ _ _ hm
  have hcs := count_split (vs.map absorb)
  rw [List.length_map] at hcs
  have ht1 : (totals vs).latent = acMass (vs.map absorb) := rfl
  have ht2 : (totals vs).nonSink = nsMass (vs.map absorb) := rfl
  have ht3 : ((totals vs).sinks : ℚ) = acCount (vs.map absorb) := rfl
  have ht4 : ((totals vs).discarded : ℚ) = ((vs.filter fun v => v.sink && v.late).length : ℚ) := hlen
  rw [ht1, ht3] at b4 e4
  rw [ht3] at b1
  simp only [ht1, ht2, ht3, ht4] at hsum hset b1 b2 b3 b4 e4
  rw [hsum, ← hns, ← hac]
  refine algebra damping _ (acCount (vs.map absorb)) (acMass (vs.map absorb)) (nsMass (vs.map absorb)) G _ _ _ _ hd b2 rfl rfl rfl b4 e4 ?_ ?_
  · -- some vertex is not a sink
    have hne : (vs.map absorb).filter (fun v => !v.sink) ≠ [] := by
      intro e
      rw [e] at hcs
      apply b1
      rw [hcs, ← hlen]
      simp only [List.length_nil, acCount, active]
      push_cast
      ring
    obtain ⟨w, hw⟩ := List.exists_mem_of_ne_nil _ hne
    obtain ⟨hw, hs⟩ := List.mem_filter.1 hw
    obtain ⟨r, hr⟩ := hset w hw
    unfold settle at hr
    rw [if_pos (by simpa using hs)] at hr
    obtain ⟨x, hx, -⟩ := Option.bind_eq_some_iff.1 hr
    exact (fdiv_some hx).1
  · by_cases hne : (vs.map absorb).filter (fun v => active v) = []
    · left
      unfold acCount acMass
      rw [hne]; simp
    · right
      obtain ⟨w, hw⟩ := List.exists_mem_of_ne_nil _ hne
      obtain ⟨hw, hs⟩ := List.mem_filter.1 hw
      obtain ⟨r, hr⟩ := hset w hw
      have hs' : w.sink = true ∧ w.late = false := by simpa [active] using hs
      unfold settle at hr
      obtain ⟨v, hv, rfl⟩ := List.mem_map.1 hw
      have hm0 : (absorb v).mass ≠ 0 := by
        have h1 : v.sink = true := hs'.1
        have h2 : v.late = false := hs'.2
        have : (absorb v).mass = held v := by simp [absorb, held, h2]
        rw [this]; exact hz v hv h1 h2
      rw [if_neg (by rw [hs'.1]; simp), if_neg hm0] at hr
      obtain ⟨x, hx, hr⟩ := Option.bind_eq_some_iff.1 hr
      obtain ⟨y, hy, -⟩ := Option.bind_eq_some_iff.1 hr
      exact ⟨(fdiv_some hy).1, (fdiv_some hx).1⟩

/-! ## On a state of the machine -/

/-- What the final pass sees of a state with vertices below `n` (all of which exist by then). -/
def seen {E : Type} (s : St PR ℚ Unit E) (n : Nat) : List FV :=
  (List.range n).map fun v => { inflow := (s.prop v).inflow, mass := (s.prop v).mass, sink := (s.edges v).isEmpty, late := false }

theorem sum_range_list (f : Nat → ℚ) : ∀ n, ((List.range n).map f).sum = ∑ v ∈ Finset.range n, f v
  | 0 => rfl
  | n + 1 => by rw [List.range_succ, List.map_append, List.sum_append, sum_range_list f n, Finset.sum_range_succ]; simp

theorem sum_filter (f : FV → ℚ) (p : FV → Bool) : ∀ l : List FV, ((l.filter p).map f).sum = (l.map fun v => if p v = true then f v else 0).sum
  | [] => rfl
  | v :: l => by
    rw [List.map_cons, List.sum_cons, ← sum_filter f p l]
    by_cases h : p v = true
    · rw [List.filter_cons_of_pos h, if_pos h]; simp
    · rw [List.filter_cons_of_neg h, if_neg h]; simp

theorem sum_passedOn {E : Type} {d : ℚ} (edges : Nat → List (Edge E)) (n : Nat) (x : Nat → ℚ) (u : Nat) (hdst : ∀ e ∈ edges u, e.dst < n) :
    ∑ v ∈ Finset.range n, passedOn d x edges u v = if (edges u).isEmpty = true then 0 else d * x u := by
  unfold passedOn
  simp only [sum_ite_cnt, ← Finset.sum_mul]
  have h2 : ∀ es : List (Edge E), (∀ e ∈ es, e.dst < n) → ∑ v ∈ Finset.range n, (cnt v es : ℚ) = es.length := by
    intro es
    induction es with
    | nil => intro _; simp [cnt]
    | cons e es ih =>
      intro h
      have : ∀ v, (cnt v (e :: es) : ℚ) = cnt v es + if e.dst = v then 1 else 0 := by
        intro v; unfold cnt; rw [List.countP_cons]; push_cast; simp
      simp only [this, Finset.sum_add_distrib, Finset.sum_ite_eq]
      rw [if_pos (Finset.mem_range.2 (h e (by simp))), ih (fun x hx => h x (by simp [hx])), List.length_cons]
      push_cast; ring
  rw [h2 _ hdst]
  cases he : edges u with
  | nil => simp
  | cons e es =>
    have : (((e :: es).length : Nat) : ℚ) ≠ 0 := by rw [List.length_cons]; push_cast; positivity
    simp only [List.isEmpty_cons, Bool.false_eq_true, if_false]
    field_simp

/-- The account of the final ranks. -/
theorem account {E : Type} (T : Nat) (own : Nat → Nat) {es0 : Nat → List (Edge E)} (hfin : ∃ b, ∀ u, b ≤ u → es0 u = []) (xs : List (Act E)) (s : St PR ℚ Unit E)
    (h : run pagerank (cfg T own) (start pagerank es0) xs = some s) (hq : Quiet (cfg T own) s)
    (n : Nat) (hn : ∀ u, n ≤ u → s.edges u = []) (hdst : ∀ u, ∀ e ∈ s.edges u, e.dst < n) (hin : ∀ v, v < n → s.inited v = true)
    (rs : List ℚ) (hrs : finish (seen s n) = some rs) (hz : ∀ v, v < n → s.edges v = [] → (s.prop v).mass + (1 - damping) * (s.prop v).inflow ≠ 0) :
    (n : ℚ) * rs.sum = n - ∑ v ∈ Finset.range n, s.inbox v - damping * ∑ v ∈ Finset.range n, (if (!(s.edges v).isEmpty) = true then (s.prop v).inflow else 0) := by
  have hd : (1 : ℚ) - damping ≠ 0 := by decide +kernel
  have h1 := C55_redistribution_partial _ _ hrs (by
    intro v hv hs _
    obtain ⟨u, hu, rfl⟩ := List.mem_map.1 hv
    exact hz u (List.mem_range.1 hu) (List.isEmpty_iff.1 hs))
  have e0 : ((seen s n).filter fun v => v.sink && v.late) = [] := by
    rw [List.filter_eq_nil_iff]
    intro v hv
    obtain ⟨u, -, rfl⟩ := List.mem_map.1 hv
    simp
  have e1 : ((seen s n).length : ℚ) = n := by simp [seen]
  rw [e0, e1, sum_filter, sum_filter] at h1
  unfold seen at h1
  rw [List.map_map, List.map_map, sum_range_list, sum_range_list] at h1
  simp only [Function.comp, held, List.length_nil, Nat.cast_zero, sub_zero, Bool.not_false, Bool.and_true] at h1
  -- the ledger, summed over all vertices
  have hled : ∑ v ∈ Finset.range n, (s.prop v).mass = (1 - damping) * (n - ∑ v ∈ Finset.range n, s.inbox v - ∑ v ∈ Finset.range n, (s.prop v).inflow) +
      ∑ u ∈ Finset.range n, (if (s.edges u).isEmpty = true then 0 else damping * (s.prop u).mass) := by
    have hv : ∀ v ∈ Finset.range n, (s.prop v).mass = (1 - damping) * (1 - s.inbox v - (s.prop v).inflow) + ∑ u ∈ Finset.range n, passedOn damping (fun u => (s.prop u).mass) s.edges u v := by
      intro v hv
      have := C33_ledger damping epsilon (by decide +kernel) T own hfin xs s h hq.1 n hn v
      rw [if_pos (hin v (Finset.mem_range.1 hv))] at this
      exact this
    rw [Finset.sum_congr rfl hv, Finset.sum_add_distrib, ← Finset.mul_sum, Finset.sum_sub_distrib, Finset.sum_sub_distrib, Finset.sum_comm]
    congr 1
    · simp
    · exact Finset.sum_congr rfl (fun u _ => sum_passedOn s.edges n (fun u => (s.prop u).mass) u (hdst u))
  have hsplit : ∀ f : Nat → ℚ, ∑ v ∈ Finset.range n, f v = ∑ v ∈ Finset.range n, (if (!(s.edges v).isEmpty) = true then f v else 0) + ∑ v ∈ Finset.range n, (if (s.edges v).isEmpty = true then f v else 0) := by
    intro f
    rw [← Finset.sum_add_distrib]
    apply Finset.sum_congr rfl
    intro v _
    cases (s.edges v).isEmpty <;> simp
  have e2 := hsplit fun v => (s.prop v).mass
  have e3 := hsplit fun v => (s.prop v).inflow
  have e4 : ∑ u ∈ Finset.range n, (if (s.edges u).isEmpty = true then 0 else damping * (s.prop u).mass) =
      damping * ∑ u ∈ Finset.range n, (if (!(s.edges u).isEmpty) = true then (s.prop u).mass else 0) := by
    rw [Finset.mul_sum]
    apply Finset.sum_congr rfl
    intro v _
    cases (s.edges v).isEmpty <;> simp
  have e5 : ∀ b : Nat → Bool, ∑ v ∈ Finset.range n, (if b v = true then (s.prop v).mass + (1 - damping) * (s.prop v).inflow else 0) =
      ∑ v ∈ Finset.range n, (if b v = true then (s.prop v).mass else 0) + (1 - damping) * ∑ v ∈ Finset.range n, (if b v = true then (s.prop v).inflow else 0) := by
    intro b
    rw [Finset.mul_sum, ← Finset.sum_add_distrib]
    apply Finset.sum_congr rfl
    intro v _
    cases b v <;> simp
  have q1 := e5 fun v => !(s.edges v).isEmpty
  have q2 := e5 fun v => (s.edges v).isEmpty
  rw [q1, q2] at h1
  rw [e2, e3, e4] at hled
  generalize ∑ v ∈ Finset.range n, (if (!(s.edges v).isEmpty) = true then (s.prop v).mass else 0) = Mn at h1 hled
  generalize ∑ v ∈ Finset.range n, (if (s.edges v).isEmpty = true then (s.prop v).mass else 0) = Ms at h1 hled
  generalize ∑ v ∈ Finset.range n, (if (!(s.edges v).isEmpty) = true then (s.prop v).inflow else 0) = Fn at h1 hled ⊢
  generalize ∑ v ∈ Finset.range n, (if (s.edges v).isEmpty = true then (s.prop v).inflow else 0) = Fs at h1 hled
  rw [h1]
  have : (Ms + (1 - damping) * Fs) = (1 - damping) * (n - ∑ v ∈ Finset.range n, s.inbox v - Fn - Mn) := by linarith
  rw [this, mul_div_cancel_left₀ _ hd]
  ring

theorem finish_ne {E : Type} {s : St PR ℚ Unit E} {n : Nat} {rs : List ℚ} (hrs : finish (seen s n) = some rs) : (n : ℚ) ≠ 0 := by
  unfold finish at hrs
  obtain ⟨g, hg, hm⟩ := Option.bind_eq_some_iff.1 hrs
  intro e
  have e : n = 0 := by exact_mod_cast e
  subst e
  have : global (seen s 0) = none := by
    have : seen s 0 = [] := rfl
    rw [this]; decide +kernel
  rw [this] at hg
  cases hg

/-- **C55 (missing: results that are not numbers, sinks holding exactly zero, mailboxes at exactly the
threshold).** At quiescence, if the final pass yields numbers, the final ranks sum to one, up to twice the
threshold. -/
theorem C55_sum_partial {E : Type} (T : Nat) (own : Nat → Nat) {es0 : Nat → List (Edge E)} (hfin : ∃ b, ∀ u, b ≤ u → es0 u = []) (xs : List (Act E)) (s : St PR ℚ Unit E)
    (hne : Always pagerank (cfg T own) (fun s => ∀ v, |s.inbox v| ≠ epsilon) (start pagerank es0) xs)
    (h : run pagerank (cfg T own) (start pagerank es0) xs = some s) (hq : Quiet (cfg T own) s)
    (n : Nat) (hn : ∀ u, n ≤ u → s.edges u = []) (hdst : ∀ u, ∀ e ∈ s.edges u, e.dst < n) (hin : ∀ v, v < n → s.inited v = true)
    (rs : List ℚ) (hrs : finish (seen s n) = some rs) (hz : ∀ v, v < n → s.edges v = [] → (s.prop v).mass + (1 - damping) * (s.prop v).inflow ≠ 0) :
    |rs.sum - 1| ≤ 2 * epsilon := by
  have hε : (0 : ℚ) < epsilon := by decide +kernel
  have hres := account T own hfin xs s h hq n hn hdst hin rs hrs hz
  have hn0 := finish_ne hrs
  have hI : |∑ v ∈ Finset.range n, s.inbox v| ≤ n * epsilon := by
    refine (Finset.abs_sum_le_sum_abs _ _).trans ?_
    have := Finset.sum_le_card_nsmul (Finset.range n) (fun v => |s.inbox v|) epsilon (fun v _ => C33_residual_partial damping epsilon hε T own xs s hne h hq v)
    simpa using this
  have hF : |∑ v ∈ Finset.range n, (if (!(s.edges v).isEmpty) = true then (s.prop v).inflow else 0)| ≤ n * epsilon := by
    refine (Finset.abs_sum_le_sum_abs _ _).trans ?_
    have := Finset.sum_le_card_nsmul (Finset.range n) (fun v => |if (!(s.edges v).isEmpty) = true then (s.prop v).inflow else 0|) epsilon (by
      intro v _
      cases (s.edges v).isEmpty
      · simpa using C33_withheld damping epsilon hε.le T own xs s h v
      · simpa using hε.le)
    simpa using this
  generalize ∑ v ∈ Finset.range n, s.inbox v = I at hres hI
  generalize ∑ v ∈ Finset.range n, (if (!(s.edges v).isEmpty) = true then (s.prop v).inflow else 0) = F at hres hF
  have hnp : (0 : ℚ) < n := lt_of_le_of_ne (Nat.cast_nonneg n) (Ne.symm hn0)
  have hdp : (0 : ℚ) ≤ damping := by decide +kernel
  have hd1 : damping ≤ 1 := by decide +kernel
  have key : (n : ℚ) * |rs.sum - 1| ≤ n * (2 * epsilon) := by
    have e : (n : ℚ) * (rs.sum - 1) = -(I + damping * F) := by linarith
    have : (n : ℚ) * |rs.sum - 1| = |I + damping * F| := by
      rw [← abs_neg (I + damping * F), ← e, abs_mul, abs_of_pos hnp]
    rw [this]
    have h3 := abs_add_le I (damping * F)
    rw [abs_mul, abs_of_nonneg hdp] at h3
    have h4 : damping * |F| ≤ 1 * |F| := mul_le_mul_of_nonneg_right hd1 (abs_nonneg F)
    linarith
  exact le_of_mul_le_mul_left key hnp

theorem mapM_some {α : Type} {f : α → Option ℚ} (g : α → ℚ) : ∀ l : List α, (∀ x ∈ l, f x = some (g x)) → l.mapM f = some (l.map g)
  | [], _ => rfl
  | x :: l, h => by
    rw [List.mapM_cons, h x (by simp), mapM_some g l (fun y hy => h y (by simp [hy]))]
    rfl

/-- **C55 (graphs without sinks).** Where every vertex has an out-edge, the final pass only divides by the
number of vertices. -/
theorem C55_no_sinks (vs : List FV) (hs : ∀ v ∈ vs, v.sink = false) (hn : 2 ≤ vs.length) (hm : (vs.map held).sum ≠ 0) :
    finish vs = some (vs.map fun v => held v / vs.length) := by
  have e1 : (vs.map absorb).filter (fun v => v.sink && !v.late) = [] := by
    rw [List.filter_eq_nil_iff]
    intro w hw
    obtain ⟨v, hv, rfl⟩ := List.mem_map.1 hw
    have : (absorb v).sink = false := hs v hv
    simp [this]
  have e2 : (vs.map absorb).filter (fun v => v.sink && v.late) = [] := by
    rw [List.filter_eq_nil_iff]
    intro w hw
    obtain ⟨v, hv, rfl⟩ := List.mem_map.1 hw
    have : (absorb v).sink = false := hs v hv
    simp [this]
  have e3 : (vs.map absorb).filter (fun v => !v.sink) = vs.map absorb := by
    rw [List.filter_eq_self]
    intro w hw
    obtain ⟨v, hv, rfl⟩ := List.mem_map.1 hw
    have : (absorb v).sink = false := hs v hv
    simp [this]
  have e4 : ∀ v ∈ vs, (absorb v).mass = held v := by
    intro v hv
    simp [absorb, held, hs v hv]
  have e5 : ((vs.map absorb).map FV.mass).sum = (vs.map held).sum := by
    rw [List.map_map]
    congr 1
    exact List.map_congr_left e4
  have hn0 : (vs.length : ℚ) ≠ 0 := by
    have : vs.length ≠ 0 := by omega
    exact_mod_cast this
  have hn1 : (vs.length : ℚ) - 1 ≠ 0 := by
    intro e
    have : (vs.length : ℚ) = 1 := by linarith
    have : vs.length = 1 := by exact_mod_cast this
    omega
  have hD : (1 : ℚ) - damping * (1 / ((vs.length : ℚ) - 1) * (0 - 1) + ((vs.length : ℚ) - 0) / ((vs.length : ℚ) - 1) * (0 / ((vs.length : ℚ) - 0))) ≠ 0 := by
    have h2 : (2 : ℚ) ≤ vs.length := by exact_mod_cast hn
    have h3 : (0 : ℚ) < 1 / ((vs.length : ℚ) - 1) := by apply one_div_pos.2; linarith
    have h4 : (0 : ℚ) < damping := by decide +kernel
    have h5 := mul_pos h4 h3
    rw [zero_div, mul_zero]
    intro e
    linarith
  unfold finish global totals
  simp only [e1, e2, e3, e5, List.map_nil, List.sum_nil, List.length_nil, Nat.cast_zero, zero_mul, mul_zero, sub_self]
  have g1 : ∀ a b : ℚ, b ≠ 0 → fdiv a b = some (a / b) := fun a b h => if_neg h
  rw [g1 _ _ (by simpa using hn0), Option.bind_some, g1 _ _ (by simpa using hn1), Option.bind_some, g1 _ _ (by simpa using hn1), Option.bind_some]
  rw [g1 _ _ (by simpa using hD)]
  simp only [Option.bind_some]
  rw [List.mapM_map]
  apply mapM_some (fun v => held v / vs.length)
  intro v hv
  simp only [Function.comp]
  unfold settle
  have hsv : (absorb v).sink = false := hs v hv
  rw [if_pos hsv, g1 _ _ hm, Option.bind_some, g1 _ _ (by simpa using hn0), e4 v hv]
  simp

/-! ## Results that are not numbers -/

/-- One edge is inserted and deleted again. -/
def s55 : List (Act Unit) :=
  [.init 0 0] ++ goes 2 ++ [.init 0 1] ++ goes 2 ++ [.add 0 0 [⟨1, ()⟩]] ++ goes 5 ++ [.recv 0 1 0] ++ goes 2 ++ [.del 0 0 [false]] ++ goes 5 ++ [.recv 0 1 0] ++ goes 2

theorem s55_quiet : ∃ s, run pagerank c33 (start pagerank) s55 = some s ∧ Quiet c33 s ∧ (∀ u, s.edges u = []) ∧
    s.inited 0 = true ∧ s.inited 1 = true ∧ s.inbox 0 = 0 ∧ s.inbox 1 = 0 ∧ finish (seen s 2) = none ∧ finish (seen s 1) = none := by
  obtain ⟨s, h1, h2, h3, h4⟩ := exists_quiet (c := c33) (n := 2) (alg_local damping epsilon 2) (xs := s55) (by decide +kernel)
    (fun s => decide (s.edges 0 = [] ∧ s.edges 1 = [] ∧ s.inited 0 = true ∧ s.inited 1 = true ∧ s.inbox 0 = 0 ∧ s.inbox 1 = 0 ∧ finish (seen s 2) = none ∧ finish (seen s 1) = none)) (by decide +kernel)
  obtain ⟨e0, e1, h4⟩ := of_decide_eq_true h4
  refine ⟨s, h1, h2, ?_, h4⟩
  intro u
  match u with
  | 0 => exact e0
  | 1 => exact e1
  | u + 2 => exact h3.edges _ (by omega)

/-- C55: once nothing is outstanding, the final pass gives every vertex a number, and these sum to one up to
twice the threshold. -/
def C55Statement : Prop :=
  ∀ (T : Nat) (own : Nat → Nat) (xs : List (Act Unit)) (s : St PR ℚ Unit Unit), run pagerank (cfg T own) (start pagerank) xs = some s → Quiet (cfg T own) s →
    ∀ n, 0 < n → (∀ u, n ≤ u → s.edges u = []) → (∀ u, ∀ e ∈ s.edges u, e.dst < n) → (∀ v, v < n → s.inited v = true) →
      ∃ rs, finish (seen s n) = some rs ∧ |rs.sum - 1| ≤ 2 * epsilon

/-- **C55 is violated:** after the only edge is deleted both vertices are sinks, and the shares of the
redistribution are 0/0. -/
theorem C55_false : ¬ C55Statement := by
  intro h
  obtain ⟨s, h1, h2, h3, i0, i1, -, -, hf, -⟩ := s55_quiet
  obtain ⟨rs, hr, -⟩ := h 1 (fun _ => 0) s55 s h1 h2 2 (by decide) (fun u _ => h3 u) (fun u e he => by rw [h3 u] at he; cases he) (by
    intro v hv
    match v, hv with
    | 0, _ => exact i0
    | 1, _ => exact i1)
  rw [hf] at hr
  cases hr

/-- Other states without a result: one vertex with a loop; a cycle beside a vertex without edges. -/
example : finish [⟨0, 1, false, false⟩] = none ∧ finish [⟨0, 1, false, false⟩, ⟨0, 1, false, false⟩, ⟨0, 3 / 20, true, false⟩] = none := by decide +kernel

/-- `C55_sum_partial` on a run: 0→1 is replaced by 0→2, vertices 1 and 2 are sinks; the ranks sum to one. -/
example : ∃ s rs, run pagerank c33 (start pagerank) s33b = some s ∧ Quiet c33 s ∧ finish (seen s 3) = some rs ∧ rs.sum = 1 ∧
    (∀ v, v < 3 → s.edges v = [] → (s.prop v).mass + (1 - damping) * (s.prop v).inflow ≠ 0) := by
  obtain ⟨s, h1, h2, h3, h4⟩ := exists_quiet (c := c33) (n := 3) (alg_local damping epsilon 3) (xs := s33b) (by decide +kernel)
    (fun s => decide ((finish (seen s 3)).map List.sum = some 1 ∧ (s.prop 0).mass + (1 - damping) * (s.prop 0).inflow ≠ 0 ∧ (s.prop 1).mass + (1 - damping) * (s.prop 1).inflow ≠ 0 ∧
      (s.prop 2).mass + (1 - damping) * (s.prop 2).inflow ≠ 0)) (by decide +kernel)
  obtain ⟨h5, h6, h7, h8⟩ := of_decide_eq_true h4
  obtain ⟨rs, hr, hs⟩ := Option.map_eq_some_iff.1 h5
  refine ⟨s, rs, h1, h2, hr, hs, ?_⟩
  intro v hv _
  match v, hv with
  | 0, _ => exact h6
  | 1, _ => exact h7
  | 2, _ => exact h8

/-- `C55_no_sinks` and `C55_redistribution_partial` on concrete vertices. -/
example : finish [⟨1 / 200, 1, false, false⟩, ⟨0, 1, false, false⟩] = some [4003 / 8000, 1 / 2] ∧
    (finish [⟨1 / 200, 3 / 20, false, false⟩, ⟨0, 111 / 400, true, false⟩, ⟨0, 1, true, true⟩]).isSome = true := by decide +kernel

end Verif.Props.PageRankFinish
