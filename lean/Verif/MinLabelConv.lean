import Verif.MinLabelInv
import Verif.Work
import Mathlib.Data.Set.Finite.Lattice
import Mathlib.Data.Set.Finite.List
import Mathlib.Data.Fintype.Card
import Mathlib.Algebra.Order.BigOperators.Group.Finset

/-!
# Least-label algorithms come to rest

If no edge lowers a label (`x ≤ f e x`), news that reaches a vertex has come along a path that visits no
vertex twice: on a second visit it would not be news. A finite graph has finitely many such paths, so each
mailbox takes finitely many values.
-/

namespace Verif.MinLabel

open Verif.Async Finset

variable {L E : Type} [LinearOrder L] [OrderTop L]

set_option linter.unusedSectionVars false

/-- The vertices and labels of a path without repetition, last first. -/
inductive Trail (f : E → L → L) (edges : Nat → List (Edge E)) (init : Nat → Option L) : List (Nat × L) → Prop where
  | init (v : Nat) (x : L) : init v = some x → Trail f edges init [(v, x)]
  | edge (u : Nat) (x : L) (p : List (Nat × L)) (e : Edge E) : Trail f edges init ((u, x) :: p) → e ∈ edges u →
      e.dst ∉ ((u, x) :: p).map Prod.fst → Trail f edges init ((e.dst, f e.data x) :: (u, x) :: p)

theorem Trail.mono {f : E → L → L} {edges edges' : Nat → List (Edge E)} {init init' : Nat → Option L}
    (he : ∀ u e, e ∈ edges u → e ∈ edges' u) (hin : ∀ v x, init v = some x → init' v = some x) {p : List (Nat × L)} (h : Trail f edges init p) :
    Trail f edges' init' p := by
  induction h with
  | init v x h => exact .init v x (hin v x h)
  | edge u x p e _ h2 h3 ih => exact .edge u x p e ih (he u e h2) h3

/-- Labels grow along a trail. -/
theorem Trail.le_head {f : E → L → L} {edges : Nat → List (Edge E)} {init : Nat → Option L} (hinf : ∀ u e, e ∈ edges u → ∀ x, x ≤ f e.data x)
    {p : List (Nat × L)} (h : Trail f edges init p) : ∀ v x p', p = (v, x) :: p' → ∀ q ∈ p, q.2 ≤ x := by
  induction h with
  | init v x _ => rintro v' x' p' e q hq; cases e; simp at hq; subst hq; exact le_refl _
  | edge u x p e _ h2 _ ih =>
    rintro v' x' p' e' q hq
    cases e'
    rcases List.mem_cons.1 hq with rfl | hq
    · exact le_refl _
    · exact le_trans (ih u x p rfl q hq) (hinf u e h2 x)

theorem Trail.nodup {f : E → L → L} {edges : Nat → List (Edge E)} {init : Nat → Option L} {p : List (Nat × L)} (h : Trail f edges init p) :
    (p.map Prod.fst).Nodup := by
  induction h with
  | init v x _ => simp
  | edge u x p e _ _ h3 ih => rw [List.map_cons]; exact List.nodup_cons.2 ⟨h3, ih⟩

theorem Trail.in_range {f : E → L → L} {edges : Nat → List (Edge E)} {init : Nat → Option L} {n : Nat} (hin : ∀ v x, init v = some x → v < n)
    (hd : ∀ v e, e ∈ edges v → e.dst < n) {p : List (Nat × L)} (h : Trail f edges init p) : ∀ v ∈ p.map Prod.fst, v < n := by
  induction h with
  | init v x h => intro w hw; simp at hw; rw [hw]; exact hin v x h
  | edge u x p e _ h2 _ ih =>
    intro w hw
    rcases List.mem_cons.1 hw with rfl | hw
    · exact hd u e h2
    · exact ih w hw

theorem Trail.length_le {f : E → L → L} {edges : Nat → List (Edge E)} {init : Nat → Option L} {n : Nat} (hin : ∀ v x, init v = some x → v < n)
    (hd : ∀ v e, e ∈ edges v → e.dst < n) {p : List (Nat × L)} (h : Trail f edges init p) : p.length ≤ n := by
  have h1 := h.nodup
  have h2 := h.in_range hin hd
  have h3 : (p.map Prod.fst).toFinset ⊆ range n := by
    intro v hv
    exact mem_range.2 (h2 v (List.mem_toFinset.1 hv))
  have := card_le_card h3
  rw [List.toFinset_card_of_nodup h1, List.length_map, card_range] at this
  exact this

theorem trails_finite (f : E → L → L) (edges : Nat → List (Edge E)) (init : Nat → Option L) {n : Nat} (hin : ∀ v x, init v = some x → v < n) :
    ∀ k, {p | Trail f edges init p ∧ p.length = k + 1}.Finite
  | 0 => by
    refine ((range n).finite_toSet.image fun v => [(v, (init v).getD ⊤)]).subset ?_
    rintro p ⟨h, hl⟩
    cases h with
    | init v x h => exact ⟨v, mem_coe.2 (mem_range.2 (hin v x h)), by simp [h]⟩
    | edge u x p e h _ _ => simp at hl
  | k + 1 => by
    have ih := trails_finite f edges init hin k
    have : (⋃ p ∈ {p | Trail f edges init p ∧ p.length = k + 1}, (fun e : Edge E => (e.dst, f e.data (p.headD (0, ⊤)).2) :: p) '' {e | e ∈ edges (p.headD (0, ⊤)).1}).Finite := by
      refine ih.biUnion fun p _ => ?_
      exact ((List.finite_toSet _).image _)
    refine this.subset ?_
    rintro p ⟨h, hl⟩
    cases h with
    | init v x h => simp at hl
    | edge u x p e h h2 h3 =>
      simp only [Set.mem_iUnion, Set.mem_image, Set.mem_ofPred_eq]
      refine ⟨(u, x) :: p, ⟨h, by simpa using hl⟩, e, h2, rfl⟩

/-- The labels at the ends of trails. -/
def Values (f : E → L → L) (edges : Nat → List (Edge E)) (init : Nat → Option L) : Set L := {x | ∃ v p, Trail f edges init ((v, x) :: p)}

theorem values_finite (f : E → L → L) (edges : Nat → List (Edge E)) (init : Nat → Option L) {n : Nat} (hin : ∀ v x, init v = some x → v < n)
    (hd : ∀ v e, e ∈ edges v → e.dst < n) : (Values f edges init).Finite := by
  have h : (⋃ k ∈ {k | k < n}, {p | Trail f edges init p ∧ p.length = k + 1}).Finite :=
    (Set.finite_lt_nat n).biUnion fun k _ => trails_finite f edges init hin k
  refine (h.image fun p => (p.headD (0, ⊤)).2).subset ?_
  rintro x ⟨v, p, hp⟩
  refine ⟨(v, x) :: p, ?_, rfl⟩
  simp only [Set.mem_iUnion, Set.mem_ofPred_eq]
  have := hp.length_le hin hd
  exact ⟨p.length, by simp only [List.length_cons] at this; omega, hp, by simp⟩

/-! ## The invariant -/

/-- A trail on which every mailbox is at most the label of the trail. -/
def Backed (f : E → L → L) (c : Cfg L Unit) (s : St L L Unit E) (p : List (Nat × L)) : Prop :=
  Trail f s.edges (seeds c s) p ∧ ∀ q ∈ p, s.inbox q.1 ≤ q.2

/-- A label that is `⊤` or has a backed trail. -/
def Has (f : E → L → L) (c : Cfg L Unit) (s : St L L Unit E) (v : Nat) (x : L) : Prop := x = ⊤ ∨ ∃ p, Backed f c s ((v, x) :: p)

/-- Mail that, should it be news, has come along a trail. -/
def Fair (f : E → L → L) (c : Cfg L Unit) (s : St L L Unit E) (w : Nat) (x : L) : Prop :=
  x < s.inbox w → ∃ p, Trail f s.edges (seeds c s) ((w, x) :: p) ∧ ∀ q ∈ p, s.inbox q.1 ≤ q.2

/-- Every callback about to run sends at most twice along each edge. -/
def TaskShort : Task L L Unit E → Prop
  | .load _ h => ∀ p es m, (h p es m).2.len ≤ 2 * es.length
  | _ => True

structure TInv (f : E → L → L) (c : Cfg L Unit) (s : St L L Unit E) : Prop where
  le : ∀ v, s.inbox v ≤ s.prop v
  prop : ∀ v, Has f c s v (s.prop v)
  inbox : ∀ v, Has f c s v (s.inbox v)
  task : ∀ t, t < c.T → TaskSound (Fair f c s) (s.task t)
  short : ∀ t, TaskShort (s.task t)

theorem seeds_mono {c : Cfg L Unit} {s s' : St L L Unit E} (hin : ∀ v, s.inited v = true → s'.inited v = true) :
    ∀ v x, seeds c s v = some x → seeds c s' v = some x := by
  intro v x h
  unfold seeds at *
  split at h
  · next hv => rw [if_pos (hin v hv)]; exact h
  · cases h

/-- The parts of the state that trails depend on have grown, and mailboxes have gone down. -/
structure Later (s s' : St L L Unit E) : Prop where
  edges : ∀ u e, e ∈ s.edges u → e ∈ s'.edges u
  inited : ∀ v, s.inited v = true → s'.inited v = true
  inbox : ∀ v, s'.inbox v ≤ s.inbox v

theorem Later.has {f : E → L → L} {c : Cfg L Unit} {s s' : St L L Unit E} (h : Later s s') {v : Nat} {x : L} (hx : Has f c s v x) : Has f c s' v x := by
  rcases hx with hx | ⟨p, h1, h2⟩
  · exact .inl hx
  · exact .inr ⟨p, h1.mono h.edges (seeds_mono h.inited), fun q hq => le_trans (h.inbox _) (h2 q hq)⟩

theorem Later.fair {f : E → L → L} {c : Cfg L Unit} {s s' : St L L Unit E} (h : Later s s') {w : Nat} {x : L} (hx : Fair f c s w x) : Fair f c s' w x := by
  intro hlt
  obtain ⟨p, h1, h2⟩ := hx (lt_of_lt_of_le hlt (h.inbox w))
  exact ⟨p, h1.mono h.edges (seeds_mono h.inited), fun q hq => le_trans (h.inbox _) (h2 q hq)⟩

/-- What a vertex offers along its edges is fair. -/
theorem fair_edge {f : E → L → L} {c : Cfg L Unit} {s : St L L Unit E} (htop : ∀ e, f e ⊤ = ⊤) (hinf : ∀ u e, e ∈ s.edges u → ∀ x, x ≤ f e.data x)
    {v : Nat} {x : L} (hx : Has f c s v x) {e : Edge E} (he : e ∈ s.edges v) : Fair f c s e.dst (f e.data x) := by
  intro hlt
  rcases hx with rfl | ⟨p, h1, h2⟩
  · rw [htop] at hlt; exact absurd hlt not_top_lt
  · refine ⟨(v, x) :: p, .edge v x p e h1 he ?_, h2⟩
    intro hm
    obtain ⟨q, hq, e1⟩ := List.mem_map.1 hm
    have h3 := h2 q hq
    have h4 := h1.le_head hinf v x p rfl q hq
    rw [e1] at h3
    exact absurd hlt (not_lt.2 (le_trans h3 (le_trans h4 (hinf v e he x))))

theorem has_min {f : E → L → L} {c : Cfg L Unit} {s : St L L Unit E} {v : Nat} {x y : L} (hx : Has f c s v x) (hy : Has f c s v y) : Has f c s v (min x y) := by
  rcases le_total x y with h | h
  · rwa [min_eq_left h]
  · rwa [min_eq_right h]

/-- A mailbox after taking fair mail. -/
theorem has_post {f : E → L → L} {c : Cfg L Unit} {s s' : St L L Unit E} (hl : Later s s') {w : Nat} {m : L} (h : Has f c s w (s.inbox w)) (hm : Fair f c s w m)
    (hw : s'.inbox w = min (s.inbox w) m) : Has f c s' w (s'.inbox w) := by
  rw [hw]
  rcases le_or_gt (s.inbox w) m with h1 | h1
  · rw [min_eq_left h1]; exact hl.has h
  · rw [min_eq_right (le_of_lt h1)]
    obtain ⟨p, h2, h3⟩ := hm h1
    refine .inr ⟨p, h2.mono hl.edges (seeds_mono hl.inited), ?_⟩
    intro q hq
    rcases List.mem_cons.1 hq with rfl | hq
    · show s'.inbox w ≤ m
      rw [hw]; exact min_le_right _ _
    · exact le_trans (hl.inbox _) (h3 q hq)

theorem short_upd {s s' : St L L Unit E} (hi : ∀ t, TaskShort (s.task t)) {t : Nat} {k : Task L L Unit E} (hk : s'.task = upd s.task t k) (hx : TaskShort k) :
    ∀ u, TaskShort (s'.task u) := by
  intro u
  rw [hk]
  by_cases e : u = t
  · rw [e, upd_same]; exact hx
  · rw [upd_ne _ _ e]; exact hi u

theorem tInv_mk {f : E → L → L} {c : Cfg L Unit} {s s' : St L L Unit E} (hi : TInv f c s) (hl : Later s s')
    (hle : ∀ v, s'.inbox v ≤ s'.prop v)
    (hp : ∀ v, s'.prop v = s.prop v ∨ Has f c s' v (s'.prop v)) (hin : ∀ v, s'.inbox v = s.inbox v ∨ Has f c s' v (s'.inbox v))
    (hk : ∀ t, t < c.T → s'.task t = s.task t ∨ TaskSound (Fair f c s') (s'.task t)) (hsh : ∀ t, TaskShort (s'.task t)) : TInv f c s' := by
  refine ⟨hle, ?_, ?_, ?_, hsh⟩
  · intro v
    rcases hp v with h | h
    · rw [h]; exact hl.has (hi.prop v)
    · exact h
  · intro v
    rcases hin v with h | h
    · rw [h]; exact hl.has (hi.inbox v)
    · exact h
  · intro t ht
    rcases hk t ht with h | h
    · rw [h]; exact taskSound_mono (fun _ _ => hl.fair) _ (hi.task t ht)
    · exact h

theorem tInv_start (f : E → L → L) (g : Bool) (c : Cfg L Unit) (es0 : Nat → List (Edge E)) : TInv f c (start (minAlg f g) es0) :=
  ⟨fun _ => le_refl _, fun _ => .inl rfl, fun _ => .inl rfl, fun _ _ => trivial, fun _ => trivial⟩

theorem later_box {s s' : St L L Unit E} {w : Nat} {m : L} (h1 : s'.edges = s.edges) (h2 : s'.inited = s.inited) (h3 : s'.inbox = upd s.inbox w (min (s.inbox w) m)) :
    Later s s' := by
  refine ⟨fun u e h => by rw [h1]; exact h, fun v h => by rw [h2]; exact h, fun v => ?_⟩
  rw [h3]
  by_cases e : v = w
  · rw [e, upd_same]; exact min_le_left _ _
  · rw [upd_ne _ _ e]

theorem upd_self' {α : Type} (g : Nat → α) (v : Nat) : upd g v (g v) = g := by
  funext u
  by_cases e : u = v
  · rw [e, upd_same]
  · rw [upd_ne _ _ e]

theorem len_postAll {M N : Type} {k : Bool → Prog M N} {b : Nat} (hk : ∀ x, (k x).len ≤ b) : ∀ (ws : List (Nat × M)) (sent : Bool), (postAll ws sent k).len ≤ ws.length + b
  | [], sent => by simpa [postAll] using hk sent
  | w :: ws, sent => by
    simp only [postAll, Prog.len, List.length_cons]
    have h1 := len_postAll hk ws (sent || true)
    have h2 := len_postAll hk ws (sent || false)
    omega

theorem len_update (f : E → L → L) (g : Bool) (v : Nat) (p : L) (es : List (Edge E)) (n : Unit) (i : Int) (m : L) :
    ((minAlg f g).onUpdate v p es n i m).2.len ≤ es.length := by
  simp only [minAlg]
  split
  · simp [Prog.len]
  · have := len_postAll (M := L) (N := Unit) (k := fun _ => .done) (b := 0) (fun _ => by simp [Prog.len]) (es.map fun e => (e.dst, f e.data m)) false
    simpa using this

theorem len_add (f : E → L → L) (g : Bool) (v : Nat) (p : L) (es : List (Edge E)) (i : Nat) (m : L) :
    ((minAlg f g).onEdgeAdd v p es i m).2.len ≤ 2 * es.length := by
  have hk : ∀ (q : L) (b : Bool), (if b = true then (.done : Prog L Unit) else if g = true → q < ⊤ then postAll ((es.drop i).map fun e => (e.dst, f e.data q)) false fun _ => .done else .done).len ≤ es.length := by
    intro q b
    by_cases hb : b = true
    · rw [if_pos hb]; simp [Prog.len]
    · rw [if_neg hb]
      by_cases hg : g = true → q < ⊤
      · rw [if_pos hg]
        have := len_postAll (M := L) (N := Unit) (k := fun _ => .done) (b := 0) (fun _ => by simp [Prog.len]) ((es.drop i).map fun e => (e.dst, f e.data q)) false
        simp only [List.length_map, List.length_drop] at this
        omega
      · rw [if_neg hg]; simp [Prog.len]
  simp only [minAlg]
  split
  · have := hk p false
    dsimp only
    omega
  · have := len_postAll (M := L) (N := Unit) (hk (if p ≤ m then p else m)) (es.map fun e => (e.dst, f e.data m)) false
    simp only [List.length_map] at this
    next h => simp only [if_neg h] at this; dsimp only; omega

theorem tInv_go {f : E → L → L} {g : Bool} {c : Cfg L Unit} (htop : ∀ e, f e ⊤ = ⊤) {s s' : St L L Unit E} {t : Nat} (hinf : ∀ u e, e ∈ s.edges u → ∀ x, x ≤ f e.data x)
    (hm : MInv f c s) (hi : TInv f c s) (ht : t < c.T) (h : goStep (minAlg f g) s t (s.task t) = some s') : TInv f c s' := by
  have hok := hm.tasks t ht
  have hsd := hi.task t ht
  cases hk : s.task t with
  | idle => rw [hk] at h; cases h
  | load v hd =>
    rw [hk] at h hok
    obtain ⟨hown, hhd⟩ := hok
    have hr : (minAlg f g).retrieve (s.inbox v) (s.prop v) = (s.inbox v, s.inbox v) := rfl
    simp only [goStep, hr, upd_self', Option.some.injEq] at h
    subst h
    have hg : Has f c s v (min (s.prop v) (s.inbox v)) := has_min (hi.prop v) (hi.inbox v)
    refine tInv_mk hi ⟨fun _ _ h => h, fun _ h => h, fun _ => le_refl _⟩ ?_ ?_ (fun _ => .inl rfl) ?_ (short_upd hi.short rfl trivial)
    · intro u
      show s.inbox u ≤ upd s.prop v _ u
      by_cases e : u = v
      · rw [e, upd_same, hhd.fst]; exact le_min (hi.le v) (le_refl _)
      · rw [upd_ne _ _ e]; exact hi.le u
    · refine upd_or s.prop v _ (Has f c s) ?_
      rw [hhd.fst]; exact hg
    · intro u _
      refine upd_or s.task t _ (fun _ k => TaskSound (Fair f c s) k) ?_ u
      exact hhd.posts _ _ _ (Fair f c s) fun e he => fair_edge htop hinf hg he
  | run v q =>
    rw [hk] at h hsd
    cases q with
    | done =>
      simp only [goStep, Option.some.injEq] at h; subst h
      refine tInv_mk hi ⟨fun _ _ h => h, fun _ h => h, fun _ => le_refl _⟩ hi.le (fun _ => .inl rfl) (fun _ => .inl rfl) (task_or rfl ?_) (short_upd hi.short rfl trivial)
      exact trivial
    | post w m k =>
      have hmg : (minAlg f g).merge m v (s.inbox w) = (min (s.inbox w) m, decide (m < s.inbox w)) := rfl
      simp only [goStep] at h
      rw [hmg] at h
      simp only at h
      have hle : ∀ u, upd s.inbox w (min (s.inbox w) m) u ≤ s.prop u := by
        intro u
        by_cases e : u = w
        · rw [e, upd_same]; exact le_trans (min_le_left _ _) (hi.le w)
        · rw [upd_ne _ _ e]; exact hi.le u
      split at h
      all_goals
        simp only [Option.some.injEq] at h
        have hl : Later s s' := by subst h; exact later_box (w := w) (m := m) rfl rfl rfl
        have hb := has_post hl (hi.inbox w) hsd.1 (by subst h; exact upd_same _ _ _)
        subst h
        refine tInv_mk hi hl hle (fun _ => .inl rfl) ?_ (task_or rfl ?_) (short_upd hi.short rfl trivial)
      · intro u
        by_cases e : u = w
        · right; rw [e]; exact hb
        · left; exact upd_ne _ _ e
      · exact fun b => allPosts_mono (fun _ _ => hl.fair) _ (hsd.2 b)
      · intro u
        by_cases e : u = w
        · right; rw [e]; exact hb
        · left; exact upd_ne _ _ e
      · exact allPosts_mono (fun _ _ => hl.fair) _ (hsd.2 false)
    | send w n k =>
      simp only [goStep, Option.some.injEq] at h; subst h
      refine tInv_mk hi ⟨fun _ _ h => h, fun _ h => h, fun _ => le_refl _⟩ hi.le (fun _ => .inl rfl) (fun _ => .inl rfl) (task_or rfl ?_) (short_upd hi.short rfl trivial)
      exact hsd
  | cas v w k =>
    rw [hk] at h hsd
    simp only [goStep] at h
    split at h
    · simp only [Option.some.injEq] at h; subst h
      refine tInv_mk hi ⟨fun _ _ h => h, fun _ h => h, fun _ => le_refl _⟩ hi.le (fun _ => .inl rfl) (fun _ => .inl rfl) (task_or rfl ?_) (short_upd hi.short rfl trivial)
      exact hsd true
    · simp only [Option.some.injEq] at h; subst h
      refine tInv_mk hi ⟨fun _ _ h => h, fun _ h => h, fun _ => le_refl _⟩ hi.le (fun _ => .inl rfl) (fun _ => .inl rfl) (task_or rfl ?_) (short_upd hi.short rfl trivial)
      exact hsd false
  | put v w n k =>
    rw [hk] at h hsd
    simp only [goStep, Option.some.injEq] at h; subst h
    refine tInv_mk hi ⟨fun _ _ h => h, fun _ h => h, fun _ => le_refl _⟩ hi.le (fun _ => .inl rfl) (fun _ => .inl rfl) (task_or rfl ?_) (short_upd hi.short rfl trivial)
    exact hsd

theorem tInv_step {f : E → L → L} {g : Bool} {c : Cfg L Unit} (htop : ∀ e, f e ⊤ = ⊤) {s s' : St L L Unit E} {x : Act E} (hx : AddOnly x)
    (hinf : ∀ u e, e ∈ s.edges u → ∀ x, x ≤ f e.data x)
    (hm : MInv f c s) (hi : TInv f c s) (h : step (minAlg f g) c s x = some s') : TInv f c s' := by
  cases x with
  | init t v =>
    simp only [step] at h
    split at h
    · have hin : ∀ u, s.inited u = true → upd s.inited v true u = true := by
        intro u hu; by_cases e : u = v
        · rw [e, upd_same]
        · rw [upd_ne _ _ e]; exact hu
      split at h
      · next m hm' =>
        have hmg : ∀ x, (minAlg f g).merge m v x = (min x m, decide (m < x)) := fun _ => rfl
        rw [hmg] at h
        have hdown : ∀ u, upd s.inbox v (min (s.inbox v) m) u ≤ s.inbox u := by
          intro u
          by_cases e : u = v
          · rw [e, upd_same]; exact min_le_left _ _
          · rw [upd_ne _ _ e]
        have hbox : ∀ s'' : St L L Unit E, s''.inited = upd s.inited v true → s''.edges = s.edges → s''.inbox = upd s.inbox v (min (s.inbox v) m) →
            Later s s'' ∧ ∀ u, s''.inbox u = s.inbox u ∨ Has f c s'' u (s''.inbox u) := by
          intro s'' h1 h2 h3
          have hl : Later s s'' := ⟨by rw [h2]; exact fun _ _ h => h, by rw [h1]; exact hin, by rw [h3]; exact hdown⟩
          refine ⟨hl, fun u => ?_⟩
          by_cases e : u = v
          · right
            subst e
            rw [h3, upd_same]
            refine has_min (hl.has (hi.inbox u)) (.inr ⟨[], .init u m ?_, ?_⟩)
            · unfold seeds; rw [h1, upd_same, if_pos rfl, hm']
            · intro q hq
              simp at hq; subst hq
              rw [h3, upd_same]; exact min_le_right _ _
          · left; rw [h3, upd_ne _ _ e]
        have hle : ∀ u, upd s.inbox v (min (s.inbox v) m) u ≤ s.prop u := fun u => le_trans (hdown u) (hi.le u)
        split at h
        · simp only [Option.some.injEq] at h
          obtain ⟨hl, hb⟩ := hbox s' (by subst h; rfl) (by subst h; rfl) (by subst h; rfl)
          subst h
          refine tInv_mk hi hl hle (fun _ => .inl rfl) hb (task_or rfl ?_) (short_upd hi.short rfl ?_)
          · exact trivial
          · exact fun p es m => le_trans (len_update f g v p es _ _ m) (by omega)
        · simp only [Option.some.injEq] at h
          obtain ⟨hl, hb⟩ := hbox s' (by subst h; rfl) (by subst h; rfl) (by subst h; rfl)
          subst h
          exact tInv_mk hi hl hle (fun _ => .inl rfl) hb (fun _ _ => .inl rfl) hi.short
      · simp only [Option.some.injEq] at h; subst h
        refine tInv_mk hi ⟨fun _ _ h => h, hin, fun _ => le_refl _⟩ hi.le (fun _ => .inl rfl) (fun _ => .inl rfl) (task_or rfl ?_) (short_upd hi.short rfl trivial)
        exact trivial
      · simp only [Option.some.injEq] at h; subst h
        exact tInv_mk hi ⟨fun _ _ h => h, hin, fun _ => le_refl _⟩ hi.le (fun _ => .inl rfl) (fun _ => .inl rfl) (fun _ _ => .inl rfl) hi.short
    · cases h
  | recv t v i =>
    simp only [step] at h
    split at h
    · split at h
      · cases h
      · simp only [Option.some.injEq] at h; subst h
        refine tInv_mk hi ⟨fun _ _ h => h, fun _ h => h, fun _ => le_refl _⟩ hi.le (fun _ => .inl rfl) (fun _ => .inl rfl) (task_or rfl ?_) (short_upd hi.short rfl ?_)
        · exact trivial
        · exact fun p es m => le_trans (len_update f g v p es _ _ m) (by omega)
    · cases h
  | add t v es =>
    simp only [step] at h
    split at h
    · simp only [Option.some.injEq] at h; subst h
      refine tInv_mk hi ⟨?_, fun _ h => h, fun _ => le_refl _⟩ hi.le (fun _ => .inl rfl) (fun _ => .inl rfl) (task_or rfl ?_) (short_upd hi.short rfl ?_)
      · intro u e he
        show e ∈ upd s.edges v _ u
        by_cases ev : u = v
        · subst ev; rw [upd_same]; exact List.mem_append_left _ he
        · rw [upd_ne _ _ ev]; exact he
      · exact trivial
      · exact fun p es m => len_add f g v p es _ m
    · cases h
  | del t v keep => exact absurd hx id
  | go t =>
    simp only [step] at h
    split at h
    · next ht => exact tInv_go htop hinf hm hi ht h
    · cases h

/-- Edges are kept. -/
theorem edges_step {a : Alg L L Unit E} {c : Cfg L Unit} {s s' : St L L Unit E} {x : Act E} (hx : AddOnly x) (h : step a c s x = some s') :
    ∀ u e, e ∈ s.edges u → e ∈ s'.edges u := by
  intro u e he
  cases x with
  | init t v =>
    simp only [step] at h
    split at h
    · split at h
      · split at h <;> (simp only [Option.some.injEq] at h; subst h; exact he)
      · simp only [Option.some.injEq] at h; subst h; exact he
      · simp only [Option.some.injEq] at h; subst h; exact he
    · cases h
  | recv t v i => rw [edges_work rfl h]; exact he
  | add t v es =>
    simp only [step] at h
    split at h
    · simp only [Option.some.injEq] at h; subst h
      show e ∈ upd s.edges v _ u
      by_cases ev : u = v
      · subst ev; rw [upd_same]; exact List.mem_append_left _ he
      · rw [upd_ne _ _ ev]; exact he
    · cases h
  | del t v keep => exact absurd hx id
  | go t => rw [edges_work rfl h]; exact he

theorem edges_run {a : Alg L L Unit E} {c : Cfg L Unit} : ∀ {xs : List (Act E)} {s s' : St L L Unit E}, (∀ x ∈ xs, AddOnly x) → run a c s xs = some s' →
    ∀ u e, e ∈ s.edges u → e ∈ s'.edges u
  | [], s, s', _, h => by simp only [run, Option.some.injEq] at h; subst h; exact fun _ _ h => h
  | x :: xs, s, s', hx, h => by
    simp only [run] at h
    obtain ⟨s1, h1, h2⟩ := Option.bind_eq_some_iff.1 h
    intro u e he
    exact edges_run (fun y hy => hx y (by simp [hy])) h2 u e (edges_step (hx x (by simp)) h1 u e he)

theorem tInv_run {f : E → L → L} {g : Bool} {c : Cfg L Unit} (htop : ∀ e, f e ⊤ = ⊤) : ∀ {xs : List (Act E)} {s s' : St L L Unit E}, (∀ x ∈ xs, AddOnly x) →
    MInv f c s → TInv f c s → run (minAlg f g) c s xs = some s' → (∀ u e, e ∈ s'.edges u → ∀ x, x ≤ f e.data x) → MInv f c s' ∧ TInv f c s'
  | [], s, s', _, hm, hi, h, _ => by simp only [run, Option.some.injEq] at h; subst h; exact ⟨hm, hi⟩
  | x :: xs, s, s', hx, hm, hi, h, hinf => by
    have hall := edges_run hx h
    simp only [run] at h
    obtain ⟨s1, h1, h2⟩ := Option.bind_eq_some_iff.1 h
    have hx0 := hx x (by simp)
    exact tInv_run htop (fun y hy => hx y (by simp [hy])) (mInv_step htop hx0 hm h1)
      (tInv_step htop hx0 (fun u e he => hinf u e (hall u e he)) hm hi h1) h2 hinf

/-! ## The bound -/

open Classical in
/-- Values below `x`. -/
noncomputable def rank (F : Finset L) (x : L) : Nat := (F.filter fun y => y < x).card

theorem rank_mono (F : Finset L) {x y : L} (h : x ≤ y) : rank F x ≤ rank F y := by
  classical
  unfold rank
  refine card_le_card fun z hz => ?_
  rw [mem_filter] at *
  exact ⟨hz.1, lt_of_lt_of_le hz.2 h⟩

theorem rank_lt (F : Finset L) {x y : L} (h : x < y) (hx : x ∈ F) : rank F x < rank F y := by
  classical
  unfold rank
  refine card_lt_card ⟨fun z hz => ?_, fun hn => ?_⟩
  · rw [mem_filter] at *
    exact ⟨hz.1, lt_trans hz.2 h⟩
  · have := hn (mem_filter.2 ⟨hx, h⟩)
    rw [mem_filter] at this
    exact lt_irrefl _ this.2

/-- The values the mailboxes can still take. -/
noncomputable def room (F : Finset L) (n : Nat) (s : St L L Unit E) : Nat := ∑ v ∈ range n, rank F (s.inbox v)

theorem inited_work {a : Alg L L Unit E} {c : Cfg L Unit} {s s' : St L L Unit E} {x : Act E} (hx : x.work = true) (h : step a c s x = some s') :
    s'.inited = s.inited := by
  cases x with
  | init _ _ => cases hx
  | add _ _ _ => cases hx
  | del _ _ _ => cases hx
  | recv t v i =>
    simp only [step] at h
    split at h
    · split at h
      · cases h
      · simp only [Option.some.injEq] at h; subst h; rfl
    · cases h
  | go t =>
    simp only [step] at h
    split at h
    · cases hk : s.task t with
      | idle => rw [hk] at h; cases h
      | load v f => rw [hk] at h; simp only [goStep, Option.some.injEq] at h; subst h; rfl
      | run v q =>
        rw [hk] at h
        cases q with
        | done => simp only [goStep, Option.some.injEq] at h; subst h; rfl
        | post w m k => simp only [goStep] at h; split at h <;> (simp only [Option.some.injEq] at h; subst h; rfl)
        | send w y k => simp only [goStep, Option.some.injEq] at h; subst h; rfl
      | cas v w k => rw [hk] at h; simp only [goStep] at h; split at h <;> (simp only [Option.some.injEq] at h; subst h; rfl)
      | put v w y k => rw [hk] at h; simp only [goStep, Option.some.injEq] at h; subst h; rfl
    · cases h

theorem len_bound {n : Nat} {s : St L L Unit E} (hs : Supp n s) (v : Nat) : (s.edges v).length ≤ ∑ u ∈ range n, (s.edges u).length := by
  by_cases hv : v < n
  · exact single_le_sum (f := fun u => (s.edges u).length) (fun _ _ => Nat.zero_le _) (mem_range.2 hv)
  · rw [hs.edges v (Nat.le_of_not_lt hv)]; exact Nat.zero_le _

theorem room_post {F : Finset L} {n w : Nat} {s s' : St L L Unit E} {m : L} (hw : w < n) (hb : s'.inbox = upd s.inbox w (min (s.inbox w) m)) :
    room F n s' + rank F (s.inbox w) = room F n s + rank F (min (s.inbox w) m) := by
  unfold room
  rw [hb]
  exact sum_upd (rank F) s.inbox w _ n hw

theorem minAlg_uniqueAlg (f : E → L → L) (g : Bool) (c : Cfg L Unit) (hn : ∀ v, c.initNote v = none) : UniqueAlg (minAlg f g) c := by
  have hu : ∀ (k : Bool → Prog L Unit), (∀ b, (k b).Unique) → ∀ (ws : List (Nat × L)) (b : Bool), (postAll ws b k).Unique := by
    intro k hk ws
    induction ws with
    | nil => exact hk
    | cons w ws ih => intro b b'; exact ih _
  refine ⟨?_, ?_, fun _ _ _ _ _ => trivial, hn⟩
  · intro v p es n i m
    simp only [minAlg]
    split
    · trivial
    · exact hu (fun _ => .done) (fun _ => trivial) _ _
  · intro v p es i m
    have hk : ∀ (q : L) (b : Bool), (if b = true then (.done : Prog L Unit) else if g = true → q < ⊤ then postAll ((es.drop i).map fun e => (e.dst, f e.data q)) false fun _ => .done else .done).Unique := by
      intro q b
      by_cases hb : b = true
      · rw [if_pos hb]; trivial
      · rw [if_neg hb]
        by_cases hg : g = true → q < ⊤
        · rw [if_pos hg]; exact hu (fun _ => .done) (fun _ => trivial) _ _
        · rw [if_neg hg]; trivial
    simp only [minAlg]
    split
    · exact hk p false
    · exact hu _ (hk _) _ _

/-- Mailboxes: what a step does to the room left. -/
theorem room_step {f : E → L → L} {g : Bool} {c : Cfg L Unit} {n : Nat} {F : Finset L} {s s' : St L L Unit E} {x : Act E}
    (hF : ∀ v y p, Trail f s.edges (seeds c s) ((v, y) :: p) → y ∈ F) (hs : Supp n s) (hi : TInv f c s) (ho : OneEach c s)
    (hx : x.work = true) (h : step (minAlg f g) c s x = some s') :
    room F n s' + (if charged (minAlg f g) s x = true then 1 else 0) ≤ room F n s := by
  have same : s'.inbox = s.inbox → charged (minAlg f g) s x = false → room F n s' + (if charged (minAlg f g) s x = true then 1 else 0) ≤ room F n s := by
    intro h1 h2
    rw [h2]
    simp only [room, h1]
    simp
  cases x with
  | init _ _ => cases hx
  | add _ _ _ => cases hx
  | del _ _ _ => cases hx
  | recv t v i =>
    refine same ?_ rfl
    simp only [step] at h
    split at h
    · split at h
      · cases h
      · simp only [Option.some.injEq] at h; subst h; rfl
    · cases h
  | go t =>
    simp only [step] at h
    split at h
    · next ht =>
      have hb := hs.task t
      have hsd := hi.task t ht
      have hun := ho.task t ht
      cases hk : s.task t with
      | idle => rw [hk] at h; cases h
      | load v hd =>
        rw [hk] at h
        have hr : (minAlg f g).retrieve (s.inbox v) (s.prop v) = (s.inbox v, s.inbox v) := rfl
        simp only [goStep, hr, upd_self', Option.some.injEq] at h
        refine same (by subst h; rfl) (by simp [charged, hk])
      | run v q =>
        rw [hk] at h hsd hun hb
        cases q with
        | done =>
          simp only [goStep, Option.some.injEq] at h
          refine same (by subst h; rfl) (by simp [charged, hk])
        | send w y k => exact hun.elim
        | post w m k =>
          have hmg : (minAlg f g).merge m v (s.inbox w) = (min (s.inbox w) m, decide (m < s.inbox w)) := rfl
          simp only [goStep] at h
          rw [hmg] at h
          simp only at h
          split at h
          · next hn =>
            simp only [Option.some.injEq] at h
            have hlt : m < s.inbox w := of_decide_eq_true hn
            have hp := room_post (F := F) (s := s) (s' := s') (m := m) hb.1 (by subst h; rfl)
            obtain ⟨p, h1, _⟩ := hsd.1 hlt
            have := rank_lt F hlt (hF _ _ _ h1)
            rw [min_eq_right (le_of_lt hlt)] at hp
            simp only [charged, hk, hmg, hn, if_true]
            omega
          · next hn =>
            simp only [Option.some.injEq] at h
            have hle : s.inbox w ≤ m := not_lt.1 fun hl => hn (decide_eq_true hl)
            refine same ?_ (by simp only [charged, hk, hmg]; simpa using hn)
            subst h
            show upd s.inbox w _ = s.inbox
            rw [min_eq_left hle, upd_self']
      | cas v w k =>
        rw [hk] at h
        simp only [goStep] at h
        split at h <;> (simp only [Option.some.injEq] at h; exact same (by subst h; rfl) (by simp [charged, hk]))
      | put v w y k =>
        rw [hk] at h
        simp only [goStep, Option.some.injEq] at h
        exact same (by subst h; rfl) (by simp [charged, hk])
    · cases h

/-- **The bound.** After any history without deletes, on a graph where no edge lowers a label, the number
of steps that can follow without topology changes is bounded. -/
theorem converge (f : E → L → L) (g : Bool) (htop : ∀ e, f e ⊤ = ⊤) (c : Cfg L Unit) (hn : ∀ v, c.initNote v = none) (n : Nat)
    {es0 : Nat → List (Edge E)} (hown : ∀ v, es0 v ≠ [] → c.own v < c.T) (h1 : ∀ v, n ≤ v → es0 v = []) (h2 : ∀ v e, e ∈ es0 v → e.dst < n)
    {xs : List (Act E)} (hx : ∀ x ∈ xs, AddOnly x) (hxn : xs.all (Act.below n) = true) {s : St L L Unit E}
    (h : run (minAlg f g) c (start (minAlg f g) es0) xs = some s) (hinf : ∀ u e, e ∈ s.edges u → ∀ x, x ≤ f e.data x) :
    ∃ B, ∀ ys s', (∀ y ∈ ys, Act.work y = true) → run (minAlg f g) c s ys = some s' → ys.length ≤ B := by
  have hloc := minAlg_local f g n
  obtain ⟨hm, hi⟩ := tInv_run htop hx (mInv_start f htop g c es0 hown) (tInv_start f g c es0) h hinf
  have hs := supp_run hloc hxn (supp_loaded _ n es0 h1 h2) h
  have ho := run_inv (fun _ _ _ => oneEach_step (minAlg_uniqueAlg f g c hn)) (oneEach_start (minAlg f g) c es0) h
  have hfin : (Values f s.edges (seeds c s)).Finite := by
    refine values_finite f s.edges (seeds c s) (n := n) ?_ hs.dst
    intro v x hv
    by_contra hnv
    unfold seeds at hv
    rw [hs.inited v (Nat.le_of_not_lt hnv)] at hv
    cases hv
  let F := hfin.toFinset
  let I : St L L Unit E → Prop := fun r => MInv f c r ∧ TInv f c r ∧ OneEach c r ∧ r.edges = s.edges ∧ r.inited = s.inited
  let B := 2 * ∑ u ∈ range n, (s.edges u).length
  have hlen := len_bound hs
  refine ⟨work B n c s + (B + 5) * room F n s, fun ys s' hy hr => ?_⟩
  have := work_bound (c := c) (B := B) hloc I (room F n) ?_ ?_ (s := s) ⟨hm, hi, ho, rfl, rfl⟩ hs ?_ hy hr
  · omega
  · rintro r ⟨-, -, -, he, -⟩ v p y i m
    rw [he]
    have := len_update f g v p (s.edges v) y i m
    have := hlen v
    omega
  · rintro r r' x ⟨hmr, hir, hor, her, hnr⟩ hsr hxw hstep
    have hadd : AddOnly x := by cases x <;> trivial
    refine ⟨⟨mInv_step htop hadd hmr hstep, tInv_step htop hadd (by rw [her]; exact hinf) hmr hir hstep,
      oneEach_step (minAlg_uniqueAlg f g c hn) hor hstep, (edges_work hxw hstep).trans her, (inited_work hxw hstep).trans hnr⟩, ?_⟩
    refine room_step ?_ hsr hir hor hxw hstep
    intro v y p hp
    have hsd : seeds c r = seeds c s := by funext u; unfold seeds; rw [hnr]
    rw [her, hsd] at hp
    exact hfin.mem_toFinset.2 ⟨v, p, hp⟩
  · intro t v k hk p m
    have := hi.short t
    rw [hk] at this
    have h3 := this p (s.edges v) m
    have := hlen v
    omega

end Verif.MinLabel
