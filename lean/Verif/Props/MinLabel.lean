import Verif.MinLabelInv
import Verif.AsyncSupport
import Mathlib.Order.Bounds.Basic
import Mathlib.Logic.Relation
import Mathlib.Tactic.ByContra

/-!
# Shortest paths (C31) and connected components (C32) at quiescence

For every graph, every order of edge additions, every number of threads and every schedule.
-/

namespace Verif.Props.MinLabel

open Verif Verif.Async Verif.MinLabel

/-- The run deletes no edge. -/
def NoDeletes {E : Type} (xs : List (Act E)) : Prop := ∀ t v keep, Act.del t v keep ∉ xs

theorem NoDeletes.addOnly {E : Type} {xs : List (Act E)} (h : NoDeletes xs) : ∀ x ∈ xs, AddOnly x := by
  intro x hx
  cases x with
  | del t v keep => exact absurd hx (h t v keep)
  | _ => trivial

/-! ## C31 -/

/-- A walk along current edges, with its weight. -/
inductive Walk (edges : Nat → List (Edge ℚ)) : Nat → Nat → ℚ → Prop where
  | here (v : Nat) : Walk edges v v 0
  | step (u v : Nat) (d : ℚ) (e : Edge ℚ) : Walk edges u v d → e ∈ edges v → Walk edges u e.dst (d + e.data)

theorem walk_of_reach {edges : Nat → List (Edge ℚ)} {src : Nat} {init : Nat → Option Dist} (hinit : ∀ v x, init v = some x → v = src ∧ x = 0) {v : Nat} {x : Dist}
    (h : Reach (fun (w : ℚ) (x : Dist) => x + (w : Dist)) edges init v x) : ∃ d : ℚ, x = (d : Dist) ∧ Walk edges src v d := by
  induction h with
  | init v x hv =>
    obtain ⟨rfl, rfl⟩ := hinit v x hv
    exact ⟨0, rfl, .here _⟩
  | edge u x e _ he ih =>
    obtain ⟨d, rfl, hw⟩ := ih
    exact ⟨d + e.data, (WithTop.coe_add d e.data).symm, .step _ _ _ _ hw he⟩

theorem reach_of_walk {edges : Nat → List (Edge ℚ)} {src : Nat} {init : Nat → Option Dist} (hinit : init src = some 0) {v : Nat} {d : ℚ}
    (h : Walk edges src v d) : Reach (fun (w : ℚ) (x : Dist) => x + (w : Dist)) edges init v (d : Dist) := by
  induction h with
  | here => exact .init _ _ hinit
  | step v d e _ he ih =>
    have := Reach.edge (f := fun (w : ℚ) (x : Dist) => x + (w : Dist)) _ _ _ ih he
    rwa [show ((d : Dist) + (e.data : Dist)) = ((d + e.data : ℚ) : Dist) from (WithTop.coe_add _ _).symm] at this

/-- A value that is `⊤` or reached, and below everything reached, is the least walk weight. -/
theorem least_walk {edges : Nat → List (Edge ℚ)} {src : Nat} {init : Nat → Option Dist} (hin1 : ∀ v x, init v = some x → v = src ∧ x = 0) (hin2 : init src = some 0)
    {v : Nat} {y : Dist} (h1 : y = ⊤ ∨ Reach (fun (w : ℚ) (x : Dist) => x + (w : Dist)) edges init v y)
    (h2 : ∀ x, Reach (fun (w : ℚ) (x : Dist) => x + (w : Dist)) edges init v x → y ≤ x) :
    (y = ⊤ ↔ ¬ ∃ d, Walk edges src v d) ∧ ∀ d : ℚ, y = (d : Dist) ↔ IsLeast {x | Walk edges src v x} d := by
  have hle : ∀ d, Walk edges src v d → y ≤ (d : Dist) := fun d hw => h2 _ (reach_of_walk hin2 hw)
  have hval : y = ⊤ ∨ ∃ d : ℚ, y = (d : Dist) ∧ Walk edges src v d := by
    rcases h1 with h1 | h1
    · exact .inl h1
    · exact .inr (walk_of_reach hin1 h1)
  constructor
  · constructor
    · rintro ht ⟨d, hw⟩
      have := hle d hw
      rw [ht, top_le_iff] at this
      exact WithTop.coe_ne_top this
    · intro hn
      rcases hval with h | ⟨d, -, hw⟩
      · exact h
      · exact absurd ⟨d, hw⟩ hn
  · intro d
    constructor
    · intro hd
      refine ⟨?_, ?_⟩
      · rcases hval with h | ⟨d', h, hw⟩
        · rw [hd] at h; exact absurd h WithTop.coe_ne_top
        · rw [hd] at h
          cases WithTop.coe_injective h
          exact hw
      · intro d' hw
        have := hle d' hw
        rw [hd] at this
        exact WithTop.coe_le_coe.1 this
    · rintro ⟨hw, hmin⟩
      rcases hval with h | ⟨d', h, hw'⟩
      · have := hle d hw
        rw [h, top_le_iff] at this
        exact absurd this WithTop.coe_ne_top
      · rw [h]
        have h3 := hle d hw
        rw [h] at h3
        exact congrArg _ (le_antisymm (WithTop.coe_le_coe.1 h3) (hmin hw'))

/-- **C31.** Once nothing is outstanding, a vertex holds distance `d` exactly if `d` is the least weight
of a walk from the source to it, and `EMPTY_VAL` exactly if there is no walk. -/
theorem C31_exact (c : Cfg Dist Unit) (src : Nat) (hc : ∀ v, c.initMail v = if v = src then some 0 else none)
    {es0 : Nat → List (Edge ℚ)} (hes : ∀ v, es0 v ≠ [] → c.own v < c.T)
    (xs : List (Act ℚ)) (hx : NoDeletes xs) (s : St Dist Dist Unit ℚ) (h : run sssp c (start sssp es0) xs = some s) (hq : Quiet c s) (hsrc : s.inited src = true) (v : Nat) :
    (s.prop v = ⊤ ↔ ¬ ∃ d, Walk s.edges src v d) ∧ ∀ d : ℚ, s.prop v = (d : Dist) ↔ IsLeast {x | Walk s.edges src v x} d := by
  rw [sssp_eq] at h
  obtain ⟨h1, h2⟩ := quiet_least true (fun e a b hab => by exact add_le_add_left hab _) (fun e => by exact WithTop.top_add _) hes hx.addOnly h hq v
  have hin1 : ∀ v x, seeds c s v = some x → v = src ∧ x = 0 := by
    intro v x hv
    unfold seeds at hv
    split at hv
    · rw [hc] at hv
      split at hv
      · next e => exact ⟨e, by cases hv; rfl⟩
      · cases hv
    · cases hv
  have hin2 : seeds c s src = some 0 := by
    unfold seeds
    rw [if_pos hsrc, hc, if_pos rfl]
  exact least_walk hin1 hin2 h1 h2

/-- **C31.** As long as the source is not part of the graph, nothing is reached. -/
theorem C31_no_source (c : Cfg Dist Unit) (src : Nat) (hc : ∀ v, c.initMail v = if v = src then some 0 else none)
    {es0 : Nat → List (Edge ℚ)} (hes : ∀ v, es0 v ≠ [] → c.own v < c.T)
    (xs : List (Act ℚ)) (hx : NoDeletes xs) (s : St Dist Dist Unit ℚ) (h : run sssp c (start sssp es0) xs = some s) (hq : Quiet c s) (hsrc : s.inited src = false) (v : Nat) :
    s.prop v = ⊤ := by
  rw [sssp_eq] at h
  rcases (quiet_least true (fun e a b hab => by exact add_le_add_left hab _) (fun e => by exact WithTop.top_add _) hes hx.addOnly h hq v).1 with h | h
  · exact h
  · exfalso
    generalize s.prop v = x at h
    induction h with
    | init v x hv =>
      unfold seeds at hv
      split at hv
      · next hin =>
        rw [hc] at hv
        split at hv
        · next e => rw [e, hsrc] at hin; cases hin
        · cases hv
      · cases hv
    | edge _ _ _ _ _ ih => exact ih

/-- Offers along a walk, with any arithmetic: `f w x` is what a vertex at distance `x` offers along an
edge of weight `w`. -/
inductive Offer {L E : Type} (f : E → L → L) (edges : Nat → List (Edge E)) (src : Nat) (x0 : L) : Nat → L → Prop where
  | here : Offer f edges src x0 src x0
  | step (v : Nat) (x : L) (e : Edge E) : Offer f edges src x0 v x → e ∈ edges v → Offer f edges src x0 e.dst (f e.data x)

/-- **C31.** The same with rounded arithmetic: `f` may be any monotone addition on any linear order with
greatest element `⊤` (for instance floats without NaN). A vertex then holds the least value computed along
a walk from the source. The result depends only on the final graph: not on order or schedule. -/
theorem C31_rounded {L E : Type} [LinearOrder L] [OrderTop L] (f : E → L → L) (hmono : ∀ e, Monotone (f e)) (htop : ∀ e, f e ⊤ = ⊤)
    (c : Cfg L Unit) (src : Nat) (x0 : L) (hc : ∀ v, c.initMail v = if v = src then some x0 else none)
    {es0 : Nat → List (Edge E)} (hes : ∀ v, es0 v ≠ [] → c.own v < c.T)
    (xs : List (Act E)) (hx : NoDeletes xs) (s : St L L Unit E) (h : run (minAlg f true) c (start (minAlg f true) es0) xs = some s) (hq : Quiet c s) (hsrc : s.inited src = true) (v : Nat) :
    (s.prop v = ⊤ ∨ Offer f s.edges src x0 v (s.prop v)) ∧ ∀ x, Offer f s.edges src x0 v x → s.prop v ≤ x := by
  obtain ⟨h1, h2⟩ := quiet_least true hmono htop hes hx.addOnly h hq v
  constructor
  · rcases h1 with h1 | h1
    · exact .inl h1
    · right
      generalize s.prop v = x at h1
      induction h1 with
      | init v x hv =>
        unfold seeds at hv
        split at hv
        · rw [hc] at hv
          split at hv
          · next e => cases hv; rw [e]; exact .here
          · cases hv
        · cases hv
      | edge u x e _ he ih => exact .step u x e (ih (quiet_least true hmono htop hes hx.addOnly h hq u).2) he
  · intro x hr
    apply h2
    clear h2 h1
    induction hr with
    | here => exact .init _ _ (by unfold seeds; rw [if_pos hsrc, hc, if_pos rfl])
    | step v x e _ he ih => exact .edge v x e ih he

/-! ## C32 -/

/-- An edge leads from `u` to `v`. -/
def Adj {E : Type} (edges : Nat → List (Edge E)) (u v : Nat) : Prop := ∃ e ∈ edges u, e.dst = v

/-- Every edge has a reverse edge. -/
def Undirected {E : Type} (edges : Nat → List (Edge E)) : Prop := ∀ u v, Adj edges u v → Adj edges v u

/-- In the same connected component. -/
def Connected {E : Type} (edges : Nat → List (Edge E)) : Nat → Nat → Prop := Relation.EqvGen (Adj edges)

theorem conn_of_reach {edges : Nat → List (Edge Unit)} {raw : Nat → Label} {init : Nat → Option Label} (hinit : ∀ v x, init v = some x → x = raw v) {v : Nat} {x : Label}
    (h : Reach (fun (_ : Unit) (x : Label) => x) edges init v x) : ∃ u, Connected edges u v ∧ raw u = x := by
  induction h with
  | init v x hv => exact ⟨v, .refl _, (hinit v x hv).symm⟩
  | edge u x e _ he ih =>
    obtain ⟨w, hw, hx⟩ := ih
    exact ⟨w, .trans _ _ _ hw (.rel _ _ ⟨e, he, rfl⟩), hx⟩

theorem reach_of_conn {edges : Nat → List (Edge Unit)} (hu : Undirected edges) {init : Nat → Option Label} {u v : Nat} (h : Connected edges u v) :
    ∀ x, (Reach (fun (_ : Unit) (x : Label) => x) edges init u x ↔ Reach (fun (_ : Unit) (x : Label) => x) edges init v x) := by
  induction h with
  | rel u v h =>
    intro x
    constructor
    · intro hr
      obtain ⟨e, he, rfl⟩ := h
      exact .edge u x e hr he
    · intro hr
      obtain ⟨e, he, hd⟩ := hu u v h
      rw [← hd]
      exact .edge v x e hr he
  | refl u => intro x; exact Iff.rfl
  | symm u v _ ih => intro x; exact (ih x).symm
  | trans u v w _ _ ih1 ih2 => intro x; exact (ih1 x).trans (ih2 x)

/-- **C32.** Once nothing is outstanding on an undirected graph, the label of every vertex is the least
raw id in its component. -/
theorem C32_exact (c : Cfg Label Unit) (raw : Nat → Label) (hc : ∀ v, c.initMail v = some (raw v))
    {es0 : Nat → List (Edge Unit)} (hes : ∀ v, es0 v ≠ [] → c.own v < c.T)
    (xs : List (Act Unit)) (hx : NoDeletes xs) (s : St Label Label Unit Unit) (h : run cc c (start cc es0) xs = some s) (hq : Quiet c s)
    (hin : ∀ u e, e ∈ s.edges u → s.inited u = true ∧ s.inited e.dst = true) (hu : Undirected s.edges) (v : Nat) (hv : s.inited v = true) :
    IsLeast {x | ∃ u, Connected s.edges u v ∧ raw u = x} (s.prop v) := by
  rw [cc_eq] at h
  obtain ⟨h1, h2⟩ := quiet_least false (fun _ a b hab => hab) (fun _ => rfl) hes hx.addOnly h hq v
  have hin1 : ∀ v x, seeds c s v = some x → x = raw v := by
    intro v x hv
    unfold seeds at hv
    split at hv
    · rw [hc] at hv; cases hv; rfl
    · cases hv
  have hini : ∀ u w, Connected s.edges u w → (s.inited u = true ↔ s.inited w = true) := by
    intro u w hw
    induction hw with
    | rel u v h => obtain ⟨e, he, rfl⟩ := h; have := hin u e he; simp [this.1, this.2]
    | refl u => exact Iff.rfl
    | symm u v _ ih => exact ih.symm
    | trans u v w _ _ ih1 ih2 => exact ih1.trans ih2
  have hle : ∀ u, Connected s.edges u v → s.prop v ≤ raw u := by
    intro u hw
    refine h2 _ ((reach_of_conn hu hw _).1 (.init u _ ?_))
    unfold seeds
    rw [if_pos ((hini u v hw).2 hv), hc]
  refine ⟨?_, ?_⟩
  · rcases h1 with h1 | h1
    · refine ⟨v, .refl _, ?_⟩
      have := hle v (.refl _)
      rw [h1, top_le_iff] at this
      rw [this, h1]
    · exact conn_of_reach hin1 h1
  · rintro x ⟨u, hw, rfl⟩
    exact hle u hw

/-- **C32.** Two vertices have the same label exactly if they are connected (raw ids being distinct). -/
theorem C32_same_label (c : Cfg Label Unit) (raw : Nat → Label) (hraw : ∀ u v, raw u = raw v → u = v) (hc : ∀ v, c.initMail v = some (raw v))
    {es0 : Nat → List (Edge Unit)} (hes : ∀ v, es0 v ≠ [] → c.own v < c.T)
    (xs : List (Act Unit)) (hx : NoDeletes xs) (s : St Label Label Unit Unit) (h : run cc c (start cc es0) xs = some s) (hq : Quiet c s)
    (hin : ∀ u e, e ∈ s.edges u → s.inited u = true ∧ s.inited e.dst = true) (hu : Undirected s.edges) (v w : Nat) (hv : s.inited v = true) (hw : s.inited w = true) :
    s.prop v = s.prop w ↔ Connected s.edges v w := by
  have h1 := C32_exact c raw hc hes xs hx s h hq hin hu v hv
  have h2 := C32_exact c raw hc hes xs hx s h hq hin hu w hw
  constructor
  · intro he
    obtain ⟨a, ha, ea⟩ := h1.1
    obtain ⟨b, hb, eb⟩ := h2.1
    have : a = b := hraw a b (by rw [ea, eb, he])
    subst this
    exact .trans _ _ _ (.symm _ _ ha) hb
  · intro hcn
    refine h1.unique ?_
    refine ⟨?_, ?_⟩
    · obtain ⟨b, hb, eb⟩ := h2.1
      exact ⟨b, .trans _ _ _ hb (.symm _ _ hcn), eb⟩
    · rintro x ⟨b, hb, rfl⟩
      exact h2.2 ⟨b, .trans _ _ _ hb hcn, rfl⟩

/-! ## Cases -/

/-- Two threads; source 1. Vertex 0 and 2 belong to thread 0, 1 and 3 to thread 1. -/
def c31 : Cfg Dist Unit := { T := 2, own := fun v => v % 2, initMail := fun v => if v = 1 then some 0 else none, initNote := fun _ => none }

/-- 1→2 with weight 5; then 1→0 (1), 0→2 (1): 2 improves from 5 to 2. -/
def s31 : List (Act ℚ) :=
  [.init 1 1, .go 1, .go 1, .add 1 1 [⟨2, 5⟩], .go 1, .go 1, .go 1, .go 1, .go 1,
   .recv 0 2 0, .go 0, .go 0,
   .add 0 0 [⟨2, 1⟩], .go 0, .go 0,
   .add 1 1 [⟨0, 1⟩], .go 1, .go 1, .go 1, .go 1, .go 1,
   .recv 0 0 0, .go 0, .go 0, .go 0, .go 0, .go 0, .recv 0 2 0, .go 0, .go 0]

example : (run sssp c31 (start sssp) s31).map (fun s => (s.prop 0, s.prop 1, s.prop 2, s.prop 3)) =
    some (((1 : ℚ) : Dist), ((0 : ℚ) : Dist), ((2 : ℚ) : Dist), ⊤) := by decide +kernel

/-- The hypotheses of `C31_exact` are met by this run. -/
example : ∃ s, run sssp c31 (start sssp) s31 = some s ∧ Quiet c31 s ∧ s.inited 1 = true ∧ NoDeletes s31 := by
  obtain ⟨s, h1, h2, -, h3⟩ := exists_quiet (c := c31) (n := 4) (sssp_eq ▸ minAlg_local _ _ 4) (xs := s31) (by decide) (fun s => s.inited 1) (by decide +kernel)
  exact ⟨s, h1, h2, h3, by simp [NoDeletes, s31]⟩

/-- Raw ids 7, 3, 5 of the vertices 0, 1, 2 (and distinct others); edges 0-1 and 1-2, mirrored. -/
def raw32 (v : Nat) : Label := if v = 0 then 7 else if v = 1 then 3 else if v = 2 then 5 else Fin.ofNat _ (v + 10)

def c32 : Cfg Label Unit := { T := 2, own := fun v => v % 2, initMail := fun v => some (raw32 v), initNote := fun _ => none }

def s32 : List (Act Unit) :=
  [.init 0 0, .go 0, .go 0, .init 1 1, .go 1, .go 1, .add 0 0 [⟨1, ()⟩], .go 0, .go 0, .go 0,
   .init 0 2, .go 0, .go 0, .add 0 2 [⟨1, ()⟩], .go 0, .go 0, .go 0,
   .add 1 1 [⟨0, ()⟩, ⟨2, ()⟩], .go 1, .go 1, .go 1, .go 1, .go 1, .go 1, .go 1, .go 1,
   .recv 0 2 0, .go 0, .recv 0 0 0, .go 0]

example : (run cc c32 (start cc) (s32.take 26)).map (fun s => (s.prop 0, s.prop 1, s.prop 2, (s.pend 0).length, (s.pend 2).length)) =
    some (7, 3, 5, 1, 1) := by decide +kernel

def s32' : List (Act Unit) := s32.take 26 ++ [.recv 0 2 0, .go 0, .go 0, .go 0, .recv 0 0 0, .go 0, .go 0, .go 0]

example : (run cc c32 (start cc) s32').map (fun s => (s.prop 0, s.prop 1, s.prop 2)) = some (3, 3, 3) := by decide +kernel

/-- The hypotheses of `C32_exact` are met by this run. -/
example : ∃ s, run cc c32 (start cc) s32' = some s ∧ Quiet c32 s ∧ NoDeletes s32' ∧ Undirected s.edges ∧
    (∀ u e, e ∈ s.edges u → s.inited u = true ∧ s.inited e.dst = true) ∧ s.edges 1 = [⟨0, ()⟩, ⟨2, ()⟩] := by
  obtain ⟨s, h1, h2, h3, h4⟩ := exists_quiet (c := c32) (n := 3) (cc_eq ▸ minAlg_local _ _ 3) (xs := s32') (by decide)
    (fun s => decide (s.edges 0 = [⟨1, ()⟩] ∧ s.edges 1 = [⟨0, ()⟩, ⟨2, ()⟩] ∧ s.edges 2 = [⟨1, ()⟩] ∧ s.inited 0 = true ∧ s.inited 1 = true ∧ s.inited 2 = true)) (by decide +kernel)
  obtain ⟨e0, e1, e2, i0, i1, i2⟩ := of_decide_eq_true h4
  refine ⟨s, h1, h2, by simp [NoDeletes, s32', s32], ?_, ?_, e1⟩
  · rintro u v ⟨e, he, rfl⟩
    match u, he with
    | 0, he => rw [e0] at he; simp at he; subst he; exact ⟨⟨0, ()⟩, by simp [e1], rfl⟩
    | 1, he =>
      rw [e1] at he; simp at he
      rcases he with rfl | rfl
      · exact ⟨⟨1, ()⟩, by simp [e0], rfl⟩
      · exact ⟨⟨1, ()⟩, by simp [e2], rfl⟩
    | 2, he => rw [e2] at he; simp at he; subst he; exact ⟨⟨2, ()⟩, by simp [e1], rfl⟩
    | n + 3, he => rw [h3.edges (n + 3) (by omega)] at he; simp at he
  · intro u e he
    match u, he with
    | 0, he => rw [e0] at he; simp at he; subst he; exact ⟨i0, i1⟩
    | 1, he =>
      rw [e1] at he; simp at he
      rcases he with rfl | rfl
      · exact ⟨i1, i0⟩
      · exact ⟨i1, i2⟩
    | 2, he => rw [e2] at he; simp at he; subst he; exact ⟨i2, i1⟩
    | n + 3, he => rw [h3.edges (n + 3) (by omega)] at he; simp at he

end Verif.Props.MinLabel
