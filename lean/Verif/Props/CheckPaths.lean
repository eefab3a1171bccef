import Verif.Check
import Verif.Props.TempPaths
import Verif.PQLemmas

/-!
# The check of results (C78): temporal paths

If every edge that has ended lasted for some time, the result of a completed run passes. Windows of vertices that can be reached
may be missing without the check noticing.
-/

namespace Verif.Props.Check

open Verif Verif.Async Verif.MinLabel Verif.TempPaths Verif.Check Verif.Props.TempPaths

/-! ## Windows are not empty -/

/-- A window that lasts. -/
def Lasts (w : Path) : Prop := w.start < w.stop ∧ w.start < INF

/-- An entry of a mailbox: no path, or one that lasts. -/
def Solid (w : Path) : Prop := w.start = INF ∨ Lasts w

/-- Edges start in time and last until after their start. -/
def Lasting (es : List (Edge Link)) : Prop := ∀ e ∈ es, e.data.ts < INF ∧ (e.data.te ≠ 0 → e.data.ts < e.data.te)

/-- The windows of a vertex last. -/
def VPok (p : VP) : Prop := (∀ w ∈ p.windows, Lasts w) ∧ ∀ w ∈ p.next, Lasts w

/-- What a program posts. -/
def Posts : Prog Mail Unit → Prop
  | .done => True
  | .post _ m k => Solid m.newPath ∧ ∀ b, Posts (k b)
  | .send _ _ k => Posts k

/-- A callback keeps this. -/
def Keeps (h : VP → List (Edge Link) → Mail → VP × Prog Mail Unit) : Prop :=
  ∀ p es m, VPok p → Lasting es → (∀ x ∈ m.scratch, Solid x) → VPok (h p es m).1 ∧ Posts (h p es m).2

def TaskSolid : Task VP Mail Unit Link → Prop
  | .idle => True
  | .load _ h => Keeps h
  | .run _ q => Posts q
  | .cas _ _ k => ∀ b, Posts (k b)
  | .put _ _ _ k => Posts k

structure AllSolid (s : S) : Prop where
  box : ∀ v, ∀ x ∈ (s.inbox v).scratch, Solid x
  vp : ∀ v, VPok (s.prop v)
  task : ∀ t, TaskSolid (s.task t)

theorem solid_noPath : Solid noPath := .inl rfl

theorem merge_solid (m : Mail) (u : Nat) (x : Mail) (hm : m.pos = SELF ∨ Solid m.newPath) (hx : ∀ y ∈ x.scratch, Solid y) : ∀ y ∈ (merge m u x).1.scratch, Solid y := by
  unfold merge
  split
  · exact hx
  · next hne =>
    have hm := hm.resolve_left hne
    split
    · intro y hy
      rcases List.mem_or_eq_of_mem_set hy with hy | hy
      · rcases List.mem_append.1 hy with hy | hy
        · exact hx y hy
        · rw [(List.mem_replicate.1 hy).2]; exact solid_noPath
      · rw [hy]; exact hm
    · dsimp only
      split
      · intro y hy
        rcases List.mem_or_eq_of_mem_set hy with hy | hy
        · exact hx y hy
        · rw [hy]; exact hm
      · exact hx

theorem absorb_solid {x : Path} (hx : Lasts x) : ∀ {l l' : List Path}, absorb x l = some l' → (∀ w ∈ l, Lasts w) → ∀ w ∈ l', Lasts w
  | [], _, h, _ => by cases h
  | w :: ws, l', h, hl => by
    have hw := hl w (by simp)
    have hws : ∀ v ∈ ws, Lasts v := fun v hv => hl v (by simp [hv])
    have hc : ∀ w' : Path, Lasts w' → ∀ v ∈ w' :: ws, Lasts v := by
      intro w' h' v hv
      rcases List.mem_cons.1 hv with rfl | hv
      · exact h'
      · exact hws v hv
    unfold absorb at h
    split at h
    · injection h with h; subst h; exact hc _ hw
    · split at h
      · injection h with h; subst h; exact hc _ hx
      · split at h
        · injection h with h; subst h; exact hc _ hw
        · split at h
          · next h4 => injection h with h; subst h; exact hc _ ⟨by show w.start < x.stop; have := hw.1; have := hx.1; omega, hw.2⟩
          · rw [Option.map_eq_some_iff] at h
            obtain ⟨r, hr, rfl⟩ := h
            have := absorb_solid hx hr hws
            intro v hv
            rcases List.mem_cons.1 hv with rfl | hv
            · exact hw
            · exact this v hv

theorem collect_solid {l : List Path} {x : Path} (hl : ∀ w ∈ l, Lasts w) (hx : Solid x) : ∀ w ∈ collect l x, Lasts w := by
  unfold collect
  split
  · exact hl
  · next h =>
    have hx := hx.resolve_left h
    split
    · simpa using hx
    · split
      · next l' h' => exact absorb_solid hx h' hl
      · intro w hw
        have hp := Array.perm_iff_toList_perm.1 (PQ.push_perm (less := less) l.toArray x)
        have := hp.mem_iff.1 hw
        simp only [List.push_toArray, List.mem_append, List.mem_singleton] at this
        rcases this with h | rfl
        · exact hl w h
        · exact hx

theorem first_solid : ∀ (l acc : List Path), (∀ x ∈ l, Solid x) → (∀ w ∈ acc, Lasts w) → ∀ w ∈ l.foldl collect acc, Lasts w
  | [], _, _, h => h
  | x :: l, acc, hl, h => first_solid l (collect acc x) (fun y hy => hl y (by simp [hy])) (collect_solid h (hl x (by simp)))

theorem build_solid (old : List Path) : ∀ (l done : List Path) (prev : Path) (ch : Bool) (r : List Path × Bool), build old l done prev ch = some r → (∀ w ∈ l, Lasts w) →
    (∀ w ∈ done, Lasts w) → Lasts prev → ∀ w ∈ r.1, Lasts w
  | [], done, prev, ch, r, h, _, hd, hp => by
    unfold build at h
    injection h with h
    subst h
    intro w hw
    rcases List.mem_append.1 hw with hw | hw
    · exact hd w hw
    · simp only [List.mem_singleton] at hw; rw [hw]; exact hp
  | n :: l, done, prev, ch, r, h, hl, hd, hp => by
    have hn := hl n (by simp)
    have hl' : ∀ w ∈ l, Lasts w := fun w hw => hl w (by simp [hw])
    unfold build at h
    split at h
    · cases h
    · split at h
      · exact build_solid old l done _ ch r h hl' hd hp
      · split at h
        · next h3 => exact build_solid old l done _ ch r h hl' hd ⟨by show prev.start < n.stop; have := hp.1; have := hn.1; omega, hp.2⟩
        · split at h
          · exact build_solid old l done _ ch r h hl' hd hp
          · split at h
            · next h5 => exact build_solid old l done _ ch r h hl' hd ⟨by show prev.start < n.stop; have := hp.1; have := hn.1; omega, hp.2⟩
            · refine build_solid old l _ n _ r h hl' ?_ hn
              intro w hw
              rcases List.mem_append.1 hw with hw | hw
              · exact hd w hw
              · simp only [List.mem_singleton] at hw; rw [hw]; exact hp

theorem windowsOf_solid {old l : List Path} {r : List Path × Bool} (h : windowsOf old l = some r) (hl : ∀ x ∈ l, Solid x) : ∀ w ∈ r.1, Lasts w := by
  have h1 := first_solid l [] hl (by simp)
  unfold windowsOf at h
  split at h
  · injection h with h; subst h; simp
  · next w pq he =>
    rw [he] at h1
    exact build_solid old pq [] w false r h (fun v hv => h1 v (by simp [hv])) (by simp) (h1 w (by simp))

theorem retrieve_solid {m : Mail} {p p' : VP} (h : retrieve m p = some p') (hm : ∀ x ∈ m.scratch, Solid x) (hp : VPok p) : VPok p' := by
  unfold retrieve at h
  split at h
  · next hs =>
    injection h with h
    subst h
    refine ⟨hp.1, ?_⟩
    dsimp only
    split
    · intro w hw
      simp only [List.mem_singleton] at hw
      have := of_decide_eq_true hs
      rw [hw]; unfold Lasts; rw [this.1, this.2]; decide
    · exact hp.2
  · rw [Option.map_eq_some_iff] at h
    obtain ⟨r, hr, rfl⟩ := h
    exact ⟨hp.1, windowsOf_solid hr hm⟩

theorem offerLoop_solid {e : Link} (he : e.ts < e.upto) (hts : e.ts < INF) : ∀ (ws : List Path) (i : Nat) (o : Path) (f : Nat) (r : Path × Nat), offerLoop e i ws o f = some r → Solid o → Solid r.1
  | [], i, o, f, r, h, ho => by unfold offerLoop at h; injection h with h; subst h; exact ho
  | w :: ws, i, o, f, r, h, ho => by
    unfold offerLoop at h
    split at h
    · exact offerLoop_solid he hts ws _ o f r h ho
    · split at h
      · injection h with h; subst h; exact ho
      · split at h
        · exact offerLoop_solid he hts ws _ _ _ r h (.inr ⟨he, hts⟩)
        · split at h
          · exact offerLoop_solid he hts ws _ _ _ r h ho
          · cases h

theorem upto_gt {e : Edge Link} {es : List (Edge Link)} (h : Lasting es) (he : e ∈ es) : e.data.ts < e.data.upto := by
  unfold Link.upto
  split
  · next hne => exact (h e he).2 hne
  · exact (h e he).1

theorem offers_solid {ws : List Path} : ∀ (es : List (Edge Link)) (k : Nat) (l : List (Nat × Mail)), Lasting es → offers ws k es = some l → ∀ x ∈ l, Solid x.2.newPath
  | [], k, l, _, h => by unfold offers at h; injection h with h; subst h; simp
  | e :: es, k, l, hes, h => by
    unfold offers at h
    obtain ⟨r, hr, h⟩ := Option.bind_eq_some_iff.1 h
    rw [Option.map_eq_some_iff] at h
    obtain ⟨l', hl', rfl⟩ := h
    intro x hx
    rcases List.mem_cons.1 hx with rfl | hx
    · exact offerLoop_solid (upto_gt hes (by simp)) (hes _ (by simp)).1 _ _ _ _ r hr solid_noPath
    · exact offers_solid es _ l' (fun y hy => hes y (by simp [hy])) hl' x hx

theorem offersEnded_solid {ws : List Path} : ∀ (es : List (Edge Link)) (l : List (Nat × Mail)), Lasting es → offersEnded ws es = some l → ∀ x ∈ l, Solid x.2.newPath
  | [], l, _, h => by unfold offersEnded at h; injection h with h; subst h; simp
  | e :: es, l, hes, h => by
    unfold offersEnded at h
    obtain ⟨r, hr, h⟩ := Option.bind_eq_some_iff.1 h
    rw [Option.map_eq_some_iff] at h
    obtain ⟨l', hl', rfl⟩ := h
    intro x hx
    rcases List.mem_cons.1 hx with rfl | hx
    · exact offerLoop_solid (upto_gt hes (by simp)) (hes _ (by simp)).1 _ _ _ _ r hr solid_noPath
    · exact offersEnded_solid es l' (fun y hy => hes y (by simp [hy])) hl' x hx

theorem posts_postAll (k : Bool → Prog Mail Unit) (hk : ∀ b, Posts (k b)) : ∀ (l : List (Nat × Mail)) (sent : Bool), (∀ x ∈ l, Solid x.2.newPath) → Posts (postAll l sent k)
  | [], sent, _ => hk sent
  | (w, m) :: l, sent, h => ⟨h (w, m) (by simp), fun b => posts_postAll k hk l _ fun x hx => h x (by simp [hx])⟩

theorem visit_solid {p : VP} {es : List (Edge Link)} {m : Mail} {more : List Path → Option (List (Nat × Mail))} (hp : VPok p) (hes : Lasting es) (hm : ∀ x ∈ m.scratch, Solid x)
    (hmore : ∀ ws l, more ws = some l → ∀ x ∈ l, Solid x.2.newPath) : VPok (visit p es m more).1 ∧ Posts (visit p es m more).2 := by
  unfold visit
  split
  · exact ⟨hp, trivial⟩
  · split
    · exact ⟨hp, trivial⟩
    · next p' hr =>
      have hp' := retrieve_solid hr hm hp
      unfold update
      split
      · dsimp only
        split
        · next l l' h1 h2 =>
          refine ⟨⟨hp'.2, hp'.1⟩, ?_⟩
          apply posts_postAll
          · intro b
            split
            · trivial
            · exact posts_postAll (fun _ => .done) (fun _ => trivial) _ _ (hmore _ _ h2)
          · exact offers_solid es 0 l hes h1
        · exact ⟨⟨hp'.2, hp'.1⟩, trivial⟩
      · split
        · next l' h2 => exact ⟨hp', posts_postAll (fun _ => .done) (fun _ => trivial) _ _ (hmore _ _ h2)⟩
        · exact ⟨hp', trivial⟩

theorem keeps_update (v : Nat) (n : Unit) (i : Int) : Keeps fun p es m => tp.onUpdate v p es n i m := by
  intro p es m hp hes hm
  exact visit_solid hp hes hm (by intro ws l h; injection h with h; subst h; simp)

theorem keeps_add (v i : Nat) : Keeps fun p es m => tp.onEdgeAdd v p es i m := by
  intro p es m hp hes hm
  exact visit_solid hp hes hm (fun ws l h => offers_solid _ 0 l (fun e he => hes e (List.mem_of_mem_drop he)) h)

theorem keeps_end (v : Nat) (ds : List (Edge Link)) (hds : Lasting ds) : Keeps fun p es m => tp.onEdgeDel v p es ds m := by
  intro p es m hp hes hm
  exact visit_solid hp hes hm (fun ws l h => offersEnded_solid ds l hds h)

theorem task_upd {s : S} (hs : ∀ t, TaskSolid (s.task t)) (t : Nat) (x : Task VP Mail Unit Link) (hx : TaskSolid x) : ∀ i, TaskSolid (upd s.task t x i) := by
  intro i
  by_cases e : i = t
  · rw [e, upd_same]; exact hx
  · rw [upd_ne _ _ e]; exact hs i

theorem box_upd {s : S} (hs : ∀ v, ∀ x ∈ (s.inbox v).scratch, Solid x) (v : Nat) (m : Mail) (hm : ∀ x ∈ m.scratch, Solid x) : ∀ w, ∀ x ∈ (upd s.inbox v m w).scratch, Solid x := by
  intro w
  by_cases e : w = v
  · rw [e, upd_same]; exact hm
  · rw [upd_ne _ _ e]; exact hs w

theorem solid_go {s s' : S} {t : Nat} (hs : AllSolid s) (he : ∀ v, Lasting (s.edges v)) (h : goStep tp s t (s.task t) = some s') : AllSolid s' := by
  have ht := hs.task t
  cases hk : s.task t with
  | idle => rw [hk] at h; cases h
  | load v f =>
    rw [hk] at h ht
    simp only [goStep, Option.some.injEq] at h
    subst h
    obtain ⟨h1, h2⟩ := ht (s.prop v) (s.edges v) (s.inbox v) (hs.vp v) (he v) (hs.box v)
    refine ⟨box_upd hs.box v _ (hs.box v), ?_, task_upd hs.task t _ h2⟩
    intro w
    by_cases e : w = v
    · subst e; dsimp only; rw [upd_same]; exact h1
    · dsimp only; rw [upd_ne _ _ e]; exact hs.vp w
  | run v q =>
    rw [hk] at h ht
    cases q with
    | done => simp only [goStep, Option.some.injEq] at h; subst h; exact ⟨hs.box, hs.vp, task_upd hs.task t _ trivial⟩
    | post w m k =>
      have hm := merge_solid m v (s.inbox w) (.inr ht.1) (hs.box w)
      simp only [goStep] at h
      split at h
      · simp only [Option.some.injEq] at h; subst h
        exact ⟨box_upd hs.box w _ hm, hs.vp, task_upd hs.task t _ ht.2⟩
      · simp only [Option.some.injEq] at h; subst h
        exact ⟨box_upd hs.box w _ hm, hs.vp, task_upd hs.task t _ (ht.2 false)⟩
    | send w m k => simp only [goStep, Option.some.injEq] at h; subst h; exact ⟨hs.box, hs.vp, task_upd hs.task t _ ht⟩
  | cas v w k =>
    rw [hk] at h ht
    simp only [goStep] at h
    split at h
    · simp only [Option.some.injEq] at h; subst h; exact ⟨hs.box, hs.vp, task_upd hs.task t _ (ht true)⟩
    · simp only [Option.some.injEq] at h; subst h; exact ⟨hs.box, hs.vp, task_upd hs.task t _ (ht false)⟩
  | put v w m k =>
    rw [hk] at h ht
    simp only [goStep, Option.some.injEq] at h; subst h; exact ⟨hs.box, hs.vp, task_upd hs.task t _ ht⟩

/-- Edges that last in the end lasted before. -/
theorem lasting_back {T : Nat} {own : Nat → Nat} {src : Nat} {s s' : S} {x : TAct} (h : tstep (cfg T own src) s x = some s') (he : ∀ v, Lasting (s'.edges v)) : ∀ v, Lasting (s.edges v) := by
  cases x with
  | init t v =>
    have : s'.edges = s.edges := by
      simp only [tstep, step] at h
      split at h
      · split at h
        · split at h <;> (simp only [Option.some.injEq] at h; subst h; rfl)
        · simp only [Option.some.injEq] at h; subst h; rfl
        · simp only [Option.some.injEq] at h; subst h; rfl
      · cases h
    rwa [this] at he
  | recv t v i =>
    have : s'.edges = s.edges := by
      simp only [tstep, step] at h
      split at h
      · split at h
        · cases h
        · simp only [Option.some.injEq] at h; subst h; rfl
      · cases h
    rwa [this] at he
  | add t v es =>
    simp only [tstep, step] at h
    split at h
    · simp only [Option.some.injEq] at h
      subst h
      intro w e hw
      apply he w e
      by_cases e' : w = v
      · subst e'; simp only [upd_same]; exact List.mem_append_left _ hw
      · simp only [upd_ne _ _ e']; exact hw
    · cases h
  | go t =>
    have : s'.edges = s.edges := by
      simp only [tstep, step] at h
      split at h
      · cases hk : s.task t with
        | idle => rw [hk] at h; cases h
        | load v f => rw [hk] at h; simp only [goStep, Option.some.injEq] at h; subst h; rfl
        | run v q =>
          rw [hk] at h
          cases q with
          | done => simp only [goStep, Option.some.injEq] at h; subst h; rfl
          | post w m k => simp only [goStep] at h; split at h <;> (simp only [Option.some.injEq] at h; subst h; rfl)
          | send w m k => simp only [goStep, Option.some.injEq] at h; subst h; rfl
        | cas v w k => rw [hk] at h; simp only [goStep] at h; split at h <;> (simp only [Option.some.injEq] at h; subst h; rfl)
        | put v w m k => rw [hk] at h; simp only [goStep, Option.some.injEq] at h; subst h; rfl
      · cases h
    rwa [this] at he
  | stop t v ds =>
    simp only [tstep] at h
    split at h
    · rw [Option.map_eq_some_iff] at h
      obtain ⟨r, hr, rfl⟩ := h
      obtain ⟨a1, a2, -, -⟩ := endAll_ok hr
      intro w e hw
      by_cases e' : w = v
      · subst e'
        have hv := he w
        simp only [upd_same] at hv
        constructor
        · have : (e.dst, e.data.pos, e.data.ts) ∈ r.1.map fun e => (e.dst, e.data.pos, e.data.ts) := a1 ▸ List.mem_map_of_mem hw
          obtain ⟨e2, he2, heq⟩ := List.mem_map.1 this
          simp only [Prod.mk.injEq] at heq
          rw [← heq.2.2]
          exact (hv e2 he2).1
        · intro hne
          exact (hv e (a2 e hw hne)).2 hne
      · have hv := he w
        simp only [upd_ne _ _ e'] at hv
        exact hv e hw
    · cases h

theorem solid_step {T : Nat} {own : Nat → Nat} {src : Nat} {s s' : S} {x : TAct} (hs : AllSolid s) (h : tstep (cfg T own src) s x = some s') (he : ∀ v, Lasting (s'.edges v)) : AllSolid s' := by
  have hb := lasting_back h he
  cases x with
  | init t v =>
    simp only [tstep, step] at h
    split at h
    · simp only [cfg] at h
      by_cases hv : v = src
      · rw [if_pos hv] at h
        have hm : ∀ y ∈ (tp.merge { newPath := noPath, scratch := [], pos := SELF } v (s.inbox v)).1.scratch, Solid y := merge_solid _ v _ (.inl rfl) (hs.box v)
        dsimp only at h
        split at h
        · simp only [Option.some.injEq] at h; subst h
          exact ⟨box_upd hs.box v _ hm, hs.vp, task_upd hs.task t _ (keeps_update v () 0)⟩
        · simp only [Option.some.injEq] at h; subst h
          exact ⟨box_upd hs.box v _ hm, hs.vp, hs.task⟩
      · rw [if_neg hv] at h
        simp only [Option.some.injEq] at h
        subst h
        exact ⟨hs.box, hs.vp, hs.task⟩
    · cases h
  | recv t v i =>
    simp only [tstep, step] at h
    split at h
    · split at h
      · cases h
      · simp only [Option.some.injEq] at h; subst h
        exact ⟨hs.box, hs.vp, task_upd hs.task t _ (keeps_update v _ _)⟩
    · cases h
  | add t v es =>
    simp only [tstep, step] at h
    split at h
    · simp only [Option.some.injEq] at h; subst h
      exact ⟨hs.box, hs.vp, task_upd hs.task t _ (keeps_add v _)⟩
    · cases h
  | go t =>
    simp only [tstep, step] at h
    split at h
    · exact solid_go hs hb h
    · cases h
  | stop t v ds =>
    simp only [tstep] at h
    split at h
    · rw [Option.map_eq_some_iff] at h
      obtain ⟨r, hr, rfl⟩ := h
      obtain ⟨-, -, a3, -⟩ := endAll_ok hr
      refine ⟨hs.box, hs.vp, task_upd hs.task t _ (keeps_end v r.2 ?_)⟩
      intro e h'
      have hv := he v
      simp only [upd_same] at hv
      exact hv e (a3 e h')
    · cases h

theorem solid_run {T : Nat} {own : Nat → Nat} {src : Nat} : ∀ (xs : List TAct) (s s' : S), AllSolid s → trun (cfg T own src) s xs = some s' → (∀ v, Lasting (s'.edges v)) → AllSolid s' ∧ ∀ v, Lasting (s.edges v)
  | [], s, s', hs, h, he => by simp only [trun, Option.some.injEq] at h; subst h; exact ⟨hs, he⟩
  | x :: xs, s, s', hs, h, he => by
    simp only [trun] at h
    obtain ⟨s1, h1, h2⟩ := Option.bind_eq_some_iff.1 h
    have hback : ∀ (xs : List TAct) (s s' : S), trun (cfg T own src) s xs = some s' → (∀ v, Lasting (s'.edges v)) → ∀ v, Lasting (s.edges v) := by
      intro xs
      induction xs with
      | nil => intro s s' h he; simp only [trun, Option.some.injEq] at h; subst h; exact he
      | cons x xs ih =>
        intro s s' h he
        simp only [trun] at h
        obtain ⟨s1, h1, h2⟩ := Option.bind_eq_some_iff.1 h
        exact lasting_back h1 (ih s1 s' h2 he)
    have he1 := hback xs s1 s' h2 he
    exact ⟨(solid_run xs s1 s' (solid_step hs h1 he1) h2 he).1, lasting_back h1 he1⟩

theorem solid_begin (L : List (Nat × Edge Link)) (slots : Nat → Nat) : AllSolid (begin L slots) := by
  refine ⟨?_, ?_, ?_⟩
  · intro v x hx
    rw [(List.mem_replicate.1 hx).2]; exact solid_noPath
  · intro v
    exact ⟨fun w hw => (by cases hw), fun w hw => by cases hw⟩
  · intro t; trivial

/-! ## The check -/

theorem pathCheck_iff (n : Nat) (edges : Nat → List (Edge Link)) (windows : Nat → List Path) : pathCheck n edges windows = true ↔ ∀ v, v < n →
    (∀ w ∈ windows v, ∀ e ∈ edges v, ∀ tw ∈ windows e.dst, pathEdge w e.data tw = true) ∧
    ∀ (i j : Nat) (a b : Path), i ≠ j → (windows v)[i]? = some a → (windows v)[j]? = some b → pathPair a b = true := by
  unfold pathCheck
  rw [List.all_eq_true]
  constructor
  · intro h v hv
    have := h v (List.mem_range.2 hv)
    unfold pathVertex at this
    rw [Bool.and_eq_true] at this
    refine ⟨?_, ?_⟩
    · intro w hw e he tw htw
      have h1 := this.1
      simp only [List.all_eq_true] at h1
      exact h1 w hw e he tw htw
    · intro i j a b hij ha hb
      have h2 := this.2
      simp only [List.all_eq_true, List.mem_range] at h2
      have := h2 i (List.getElem?_eq_some_iff.1 ha).1 j (List.getElem?_eq_some_iff.1 hb).1
      rw [Bool.or_eq_true, decide_eq_true_eq, List.getD_eq_getElem?_getD, List.getD_eq_getElem?_getD, ha, hb] at this
      exact this.resolve_left hij
  · intro h v hv
    obtain ⟨h1, h2⟩ := h v (List.mem_range.1 hv)
    unfold pathVertex
    rw [Bool.and_eq_true]
    constructor
    · simp only [List.all_eq_true]; exact h1
    · simp only [List.all_eq_true, List.mem_range]
      intro i hi j hj
      rw [Bool.or_eq_true, decide_eq_true_eq]
      by_cases e : i = j
      · exact .inl e
      · right
        rw [List.getD_eq_getElem?_getD, List.getD_eq_getElem?_getD, List.getElem?_eq_getElem hi, List.getElem?_eq_getElem hj]
        exact h2 i j _ _ e (List.getElem?_eq_getElem hi) (List.getElem?_eq_getElem hj)

/-- Earlier windows end before later ones start. -/
theorem apart_far (l : List Path) (ho : l.Pairwise fun a b => a.start ≤ b.start) (ha : ∀ (i : Nat) (a b : Path), l[i]? = some a → l[i + 1]? = some b → a.stop ≤ b.start) (i j : Nat) (a b : Path) (hij : i < j)
    (h1 : l[i]? = some a) (h2 : l[j]? = some b) : a.stop ≤ b.start := by
  obtain ⟨hj, hb⟩ := List.getElem?_eq_some_iff.1 h2
  have hlt : i + 1 < l.length := by omega
  have h3 := ha i a _ h1 (List.getElem?_eq_getElem hlt)
  rcases Nat.lt_or_ge (i + 1) j with h | h
  · have := List.pairwise_iff_getElem.1 ho (i + 1) j hlt hj h
    rw [hb] at this
    exact h3.trans this
  · have e : i + 1 = j := by omega
    subst e
    rwa [hb] at h3

/-- **C78.** Windows that last, in order, one ending before the next starts, and that hold exactly the times at which vertices
can be reached, pass. -/
theorem C78_paths_right (n : Nat) (edges : Nat → List (Edge Link)) (src : Nat) (windows : Nat → List Path) (hlast : ∀ v, ∀ w ∈ windows v, w.start < w.stop ∧ w.start < 2 ^ 64 - 1)
    (hord : ∀ v, (windows v).Pairwise fun a b => a.start ≤ b.start) (hapart : ∀ v (i : Nat) (a b : Path), (windows v)[i]? = some a → (windows v)[i + 1]? = some b → a.stop ≤ b.start)
    (hts : ∀ v, ∀ e ∈ edges v, e.data.ts < 2 ^ 64 - 1)
    (hreach : ∀ v t, t < 2 ^ 64 - 1 → ((∃ w ∈ windows v, w.start < t ∧ t < w.stop) ↔ Reach edges src v t)) : pathCheck n edges windows = true := by
  rw [pathCheck_iff]
  intro v _
  refine ⟨?_, ?_⟩
  · intro w hw e he tw htw
    unfold pathEdge
    split
    · rfl
    · next h1 =>
      split
      · rfl
      · next h2 =>
        dsimp only
        have hpe : (if w.stop > e.data.upto then e.data.upto else w.stop) ≤ e.data.upto ∧ (if w.stop > e.data.upto then e.data.upto else w.stop) ≤ w.stop := by split <;> omega
        generalize (if w.stop > e.data.upto then e.data.upto else w.stop) = pe at hpe ⊢
        split
        · rfl
        · next h3 =>
          split
          · rfl
          · next h4 =>
            split
            · rfl
            · next h5 =>
              rw [Bool.not_eq_true', Bool.and_eq_false_iff, decide_eq_false_iff_not, decide_eq_false_iff_not]
              by_contra hc
              rw [not_or, not_not, not_not] at hc
              obtain ⟨c1, c2⟩ := hc
              have hl := (hlast _ tw htw).1
              have hr : Reach edges src v e.data.ts := (hreach v e.data.ts (hts v e he)).1 ⟨w, hw, by omega, by omega⟩
              have hlt := (hlast _ tw htw).2
              have hr2 : Reach edges src e.dst tw.start := by
                refine .along hr he c1 ?_ ?_
                · intro hne
                  have : e.data.upto = e.data.te := by unfold Link.upto; rw [if_pos hne]
                  omega
                · intro _; exact hlt
              obtain ⟨tw', htw', b1, b2⟩ := (hreach e.dst tw.start hlt).2 hr2
              obtain ⟨i, hi, ei⟩ := List.mem_iff_getElem.1 htw
              obtain ⟨j, hj, ej⟩ := List.mem_iff_getElem.1 htw'
              rcases Nat.lt_trichotomy i j with h | h | h
              · have := List.pairwise_iff_getElem.1 (hord e.dst) i j hi hj h
                rw [ei, ej] at this
                omega
              · subst h
                rw [ei] at ej
                rw [ej] at b1
                omega
              · have := apart_far _ (hord e.dst) (hapart e.dst) j i tw' tw h (by rw [List.getElem?_eq_getElem hj, ej]) (by rw [List.getElem?_eq_getElem hi, ei])
                omega
  · intro i j a b hij ha hb
    have la := (hlast v a (List.mem_of_getElem? ha)).1
    have lb := (hlast v b (List.mem_of_getElem? hb)).1
    unfold pathPair
    rw [Bool.and_eq_true, Bool.not_eq_true', Bool.not_eq_true', Bool.and_eq_false_iff, Bool.and_eq_false_iff, decide_eq_false_iff_not, decide_eq_false_iff_not, decide_eq_false_iff_not]
    rcases Nat.lt_or_ge i j with h | h
    · have := apart_far _ (hord v) (hapart v) i j a b h ha hb
      omega
    · have := apart_far _ (hord v) (hapart v) j i b a (by omega) hb ha
      omega

/-- **C78.** Windows that pass do not overlap, and none lies within another. -/
theorem C78_paths_passed (n : Nat) (edges : Nat → List (Edge Link)) (windows : Nat → List Path) (h : pathCheck n edges windows = true) (v : Nat) (hv : v < n) (i j : Nat) (a b : Path) (hij : i ≠ j)
    (ha : (windows v)[i]? = some a) (hb : (windows v)[j]? = some b) : ¬ (∃ t, a.start ≤ t ∧ t < a.stop ∧ b.start ≤ t ∧ t < b.stop) ∧ ¬ (b.start ≤ a.start ∧ a.stop ≤ b.stop) := by
  have h1 := ((pathCheck_iff n edges windows).1 h v hv).2 i j a b hij ha hb
  have h2 := ((pathCheck_iff n edges windows).1 h v hv).2 j i b a (Ne.symm hij) hb ha
  unfold pathPair at h1 h2
  simp only [Bool.and_eq_true, Bool.not_eq_true', Bool.and_eq_false_iff, decide_eq_false_iff_not] at h1 h2
  refine ⟨?_, by omega⟩
  rintro ⟨t, h3, h4, h5, h6⟩
  omega

variable {T : Nat} {own : Nat → Nat} {src : Nat} {slots : Nat → Nat} {L : List (Nat × Edge Link)} {xs : List TAct} {s : S}

/-- **C78.** A completed run in order of time passes if in the end every edge that has ended lasted for some time. -/
theorem C78_paths_run (hp : TimeOrdered (L ++ added xs)) (h : trun (cfg T own src) (begin L slots) xs = some s) (hq : Quiet (cfg T own src) s) (hsrc : s.inited src = true)
    (hl : ∀ v, ∀ e ∈ s.edges v, e.data.te ≠ 0 → e.data.ts < e.data.te) (n : Nat) :
    pathCheck n s.edges (fun v => (s.prop v).windows) = true := by
  have hi := inv_of hp h
  have hts : ∀ v, ∀ e ∈ s.edges v, e.data.ts < INF := fun v e he => (keyed_of hp).ts (v, e.dst, e.data.pos, e.data.ts) (by rw [List.map_append, adds_eq]; exact hi.lies v e he)
  have hs := (solid_run xs _ s (solid_begin L slots) h (fun v e he => ⟨hts v e he, hl v e he⟩)).1
  have hn := C61_no_panic hp h
  exact C78_paths_right n s.edges src _ (fun v => (hs.vp v).1) (fun v => (hn v).2.1) (fun v i a b => (hn v).2.2 i a b) hts (C61_windows hp h hq hsrc)

/-- On a run in which an edge ends: it exists, its edges last, and its result has several windows. -/
example : (trun twoThreads (begin [] fun _ => 0) retract).map (fun s => ((s.edges 0).map fun e => (e.data.ts, e.data.te), (s.prop 1).windows, pathCheck 3 s.edges fun v => (s.prop v).windows)) =
    some ([(2, 3), (7, 0)], [⟨2, 3, 1⟩, ⟨7, 18446744073709551615, 1⟩], true) := by decide +kernel

/-- C78 for temporal paths: if the check passes, the windows hold exactly the times at which a vertex can be reached. -/
def C78PathsStatement : Prop :=
  ∀ (n : Nat) (edges : Nat → List (Edge Link)) (src : Nat) (windows : Nat → List Path), src < n → (∀ v, v < n → ∀ e ∈ edges v, e.dst < n) → pathCheck n edges windows = true →
    ∀ v t, v < n → t < 2 ^ 64 - 1 → ((∃ w ∈ windows v, w.start < t ∧ t < w.stop) ↔ Reach edges src v t)

/-- **C78 is violated** for temporal paths: an edge 0 → 1 from time 2, and vertex 1 has no window. -/
theorem C78_paths_false : ¬ C78PathsStatement := by
  intro h
  have h1 := h 2 (fun v => if v = 0 then [edge 1 0 2] else []) 0 (fun v => if v = 0 then [always] else []) (by decide) (by
    intro v hv e he
    split at he
    · simp only [List.mem_singleton] at he; rw [he]; decide
    · cases he) (by decide +kernel) 1 3 (by decide) (by decide)
  have hr : Reach (fun v => if v = 0 then [edge 1 0 2] else []) 0 1 3 :=
    .along (u := 0) (e := edge 1 0 2) (.source (by decide) (by decide)) (by simp) (by decide) (fun h => absurd rfl h) (fun _ => by decide)
  obtain ⟨w, hw, -⟩ := h1.2 hr
  simp at hw

/-- Edges 0 → 1 from times 1 and 5; the first ends at 4, the second at 3, before it started. -/
def backwards : List TAct :=
  [.init 0 0] ++ gos 0 2 ++ [.add 0 0 [edge 1 0 1, edge 1 1 5]] ++ gos 0 7 ++ [.stop 0 0 [(0, 4), (1, 3)]] ++ gos 0 8 ++ [.recv 1 1 0] ++ gos 1 2

/-- That edges end after they start is needed: this run is complete, and the check panics. -/
theorem C78_paths_needs : (trun twoThreads (begin [] fun _ => 0) backwards).map (fun s => (isIdle (s.task 0) && isIdle (s.task 1), s.pend 0, s.pend 1, (s.prop 1).windows, pathCheck 2 s.edges fun v => (s.prop v).windows)) =
    some (true, [], [], [⟨1, 4, 1⟩, ⟨5, 3, 1⟩], false) := by decide +kernel

end Verif.Props.Check
