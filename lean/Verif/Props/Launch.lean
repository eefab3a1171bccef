import Verif.Launch
import Verif.Props.Engine
import Verif.Props.ResultFile

/-!
# C85: how a run begins
-/

namespace Verif.Props.Launch

open Verif Verif.Launch
open Verif.Loader (Ev)
open Verif.Pipeline (Params run start fromRaw rawId)
open Verif.Props.GraphStats (ids mem_ids)

variable {M N P E : Type}

/-- What the comments promise (`graph.go:52-53`): `InitMails` takes priority over `InitAllMail`; `InitNotes` over
`InitAllNote`, but not over either kind of mail. -/
def promised (g : Given M N) (u : UInt32) (id : Nat × Nat) : Option (Item M N) :=
  match g.mails, g.allMail, g.notes, g.allNote with
  | some m, _, _, _ => (m u).map .mail
  | none, some f, _, _ => some (.mail (f u id))
  | none, none, some n, _ => (n u).map .note
  | none, none, none, some f => some (.note (f u id))
  | none, none, none, none => none

/-- The keys of the map that is looped over. -/
def IsKeys (g : Given M N) (keys : List UInt32) : Prop :=
  keys.Nodup ∧ (∀ m, g.mails = some m → ∀ u, u ∈ keys ↔ m u ≠ none) ∧
    (g.mails = none → ∀ n, g.notes = some n → ∀ u, u ∈ keys ↔ n u ≠ none)

/-- What the vertex `id` was given, in order. -/
def itemsOf (l : List ((Nat × Nat) × Item M N)) (id : Nat × Nat) : List (Item M N) :=
  (l.filter fun x => decide (x.1 = id)).map (·.2)

theorem itemsOf_ids (ids : List (Nat × Nat)) (h : ids.Nodup) (f : Nat × Nat → Item M N) (i : Nat × Nat) :
    itemsOf (ids.map fun id => (id, f id)) i = if i ∈ ids then [f i] else [] := by
  unfold itemsOf
  rw [List.filter_map, List.map_map]
  split
  · next hi =>
    rw [ResultFile.filter_one _ i ids h hi (fun x _ => by simp)]
    rfl
  · next hi =>
    rw [List.filter_eq_nil_iff.2]
    · rfl
    · intro x hx hc
      simp only [Function.comp, decide_eq_true_eq] at hc
      exact hi (hc ▸ hx)

theorem itemsOf_keys {α : Type} (fr : UInt32 → Option (Nat × Nat)) (hinj : ∀ u u' i, fr u = some i → fr u' = some i → u = u') (n : UInt32 → Option α)
    (c : α → Item M N) (u0 : UInt32) (i : Nat × Nat) (hi : fr u0 = some i) : ∀ (keys : List UInt32), keys.Nodup →
    itemsOf (keys.filterMap fun u => (fr u).bind fun id => (n u).map fun x => (id, c x)) i =
      if u0 ∈ keys then ((n u0).map c).toList else [] := by
  intro keys
  induction keys with
  | nil => intro _; rfl
  | cons k ks ih =>
    intro hn
    obtain ⟨h1, h2⟩ := List.nodup_cons.1 hn
    have ih := ih h2
    unfold itemsOf at ih ⊢
    by_cases hk : k = u0
    · subst hk
      rw [if_neg h1] at ih
      rw [if_pos List.mem_cons_self, List.filterMap_cons, hi, Option.bind_some]
      cases hx : n k with
      | none => simp only [Option.map_none]; exact ih
      | some x =>
        simp only [Option.map_some]
        rw [List.filter_cons_of_pos (by simp), List.map_cons, ih]
        rfl
    · have e : (u0 ∈ k :: ks) ↔ u0 ∈ ks := by
        rw [List.mem_cons]
        exact ⟨fun h => h.resolve_left fun e => hk e.symm, .inr⟩
      simp only [e]
      rw [List.filterMap_cons]
      cases hf : fr k with
      | none => exact ih
      | some j =>
        rw [Option.bind_some]
        cases hx : n k with
        | none => exact ih
        | some x =>
          simp only [Option.map_some]
          rw [List.filter_cons_of_neg]
          · exact ih
          · simp only [decide_eq_true_eq]
            rintro rfl
            exact hk (hinj _ _ _ hf hi)

/-- **C85** (static): in a static run each vertex is given what is promised, once. -/
theorem C85_static (p : Params E) (hT : 0 < p.T) (stream : List (Ev E)) (as : List Pipeline.Act) (s : Pipeline.St E) (h : run p stream (start p) as = some s)
    (g : Given M N) (keys : List UInt32) (hk : IsKeys g keys) (u : UInt32) (i : Nat × Nat) (hi : fromRaw p s u = some i) :
    itemsOf (sendInitial g keys (fromRaw p s) (ids p s) fun id => (rawId s id).getD 0) i = (promised g u i).toList := by
  have hone := Props.Pipeline.C45_one_id p stream as s h
  have hinj : ∀ u u' i, fromRaw p s u = some i → fromRaw p s u' = some i → u = u' := by
    intro u u' i h1 h2
    have a1 := ((hone u i).1 h1).1
    rw [((hone u' i).1 h2).1] at a1
    injection a1 with a1; exact a1.symm
  obtain ⟨h1, h2⟩ := (hone u i).1 hi
  have hm : i ∈ ids p s := by
    refine mem_ids.2 ⟨by rw [h2]; exact Nat.mod_lt _ hT, ?_⟩
    unfold rawId at h1
    obtain ⟨v, h3, -⟩ := Option.map_eq_some_iff.1 h1
    exact (List.getElem?_eq_some_iff.1 h3).1
  have key : ∀ {α : Type} (n : UInt32 → Option α) (c : α → Item M N), (∀ u, u ∈ keys ↔ n u ≠ none) →
      (if u ∈ keys then ((n u).map c).toList else []) = ((n u).map c).toList := by
    intro α n c hn
    split
    · rfl
    · next hc =>
      have : n u = none := by
        by_contra h
        exact hc ((hn u).2 h)
      rw [this]; rfl
  unfold sendInitial promised
  cases hm1 : g.mails with
  | some m => exact (itemsOf_keys _ hinj m .mail u i hi keys hk.1).trans (key m _ (hk.2.1 m hm1))
  | none =>
    cases hm2 : g.allMail with
    | some f =>
      dsimp only
      rw [itemsOf_ids _ (ResultFile.ids_nodup p s), if_pos hm, h1]; rfl
    | none =>
      cases hm3 : g.notes with
      | some n => exact (itemsOf_keys _ hinj n .note u i hi keys hk.1).trans (key n _ (hk.2.2 hm1 n hm3))
      | none =>
        cases hm4 : g.allNote with
        | some f =>
          dsimp only
          rw [itemsOf_ids _ (ResultFile.ids_nodup p s), if_pos hm, h1]; rfl
        | none => rfl

/-- **C85** (dynamic), full statement: a dynamic run gives a vertex what is promised. -/
def C85Statement : Prop := ∀ (M N : Type) (zM : M) (zN : N) (mails : List (UInt32 × M)) (notes : List (UInt32 × N)) (allMail : Option (UInt32 → Nat × Nat → M))
    (allNote : Option (UInt32 → Nat × Nat → N)) (u : UInt32) (id : Nat × Nat),
    newVertexItem zM zN (launch mails notes allMail allNote) u id = promised (launch mails notes allMail allNote) u id

/-- One kind of initial data: maps of the kind that the algorithm has, or all vertices. -/
def Clear (g : Given M N) : Prop :=
  (g.mails.isSome ∧ g.notes = none ∧ g.allNote = none) ∨ (g.mails = none ∧ g.notes.isSome ∧ g.allMail = none) ∨
    (g.mails = none ∧ g.notes = none ∧ (g.allMail.isSome ∧ g.allNote = none ∨ g.allMail = none ∧ g.allNote.isSome))

/-- **C85** (dynamic), for one kind of initial data. -/
theorem C85_dynamic_partial (zM : M) (zN : N) (g : Given M N) (h : Clear g) (u : UInt32) (id : Nat × Nat) :
    newVertexItem zM zN g u id = promised g u id := by
  obtain ⟨m1, m2, m3, m4⟩ := g
  unfold Clear at h
  unfold newVertexItem promised noteInit sourceInit
  cases m1 <;> cases m2 <;> cases m3 <;> cases m4 <;> simp at h ⊢

/-- **C85** (dynamic), maps of both kinds: mails come first, whatever the notes and the mail for all vertices. -/
theorem C85_mails_first (zM : M) (zN : N) (mails : List (UInt32 × M)) (hne : mails ≠ []) (notes : List (UInt32 × N)) (allMail : Option (UInt32 → Nat × Nat → M))
    (u : UInt32) (id : Nat × Nat) : newVertexItem zM zN (launch mails notes allMail none) u id = (mails.lookup u).map .mail := by
  have : 0 < mails.length := List.length_pos_of_ne_nil hne
  simp [newVertexItem, launch, noteInit, sourceInit, this]

example : newVertexItem 0 0 (launch [(5, 7)] [(5, 8)] none none) 5 (0, 0) = some (.mail 7) := C85_mails_first 0 0 [(5, 7)] (by simp) [(5, 8)] none 5 (0, 0)

/-- With nothing given every vertex of a dynamic run gets the zero mail. -/
theorem C85_nothing (zM : M) (zN : N) (u : UInt32) (id : Nat × Nat) :
    newVertexItem zM zN (launch [] [] none none) u id = some (.mail zM) ∧ promised (launch ([] : List (UInt32 × M)) ([] : List (UInt32 × N)) none none) u id = none :=
  ⟨rfl, rfl⟩

theorem C85_dynamic_false : ¬ C85Statement := by
  intro h
  have := h Nat Nat 0 0 [] [] none none 5 (0, 0)
  rw [(C85_nothing 0 0 5 (0, 0)).1, (C85_nothing (N := Nat) 0 0 5 (0, 0)).2] at this
  cases this

/-- Mails for an algorithm that also has `InitAllNote` are dropped in a dynamic run. -/
theorem C85_mails_dropped (zM : M) (zN : N) (mails : List (UInt32 × M)) (hne : mails ≠ []) (f : UInt32 → Nat × Nat → N) (allMail : Option (UInt32 → Nat × Nat → M))
    (u : UInt32) (id : Nat × Nat) : newVertexItem zM zN (launch mails [] allMail (some f)) u id = none ∧
      promised (launch mails ([] : List (UInt32 × N)) allMail (some f)) u id = (mails.lookup u).map .mail := by
  have : 0 < mails.length := List.length_pos_of_ne_nil hne
  simp [newVertexItem, promised, launch, noteInit, sourceInit, this]

/-! ## Loading -/

/-- What holds while `blankAlg` runs. -/
structure Untouched (a : Async.Alg P M N E) (s : Async.St P M N E) : Prop where
  prop : ∀ v, s.prop v = a.newP
  inbox : ∀ v, s.inbox v = a.newM
  task : ∀ t, match s.task t with
    | .idle => True
    | .load _ h => ∀ p es m, h p es m = (p, .done)
    | .run _ q => q = .done
    | .cas .. => False
    | .put _ _ _ k => k = .done

theorem untouched_task {a : Async.Alg P M N E} {s : Async.St P M N E} (h : Untouched a s) (t : Nat) (x : Async.Task P M N E)
    (hx : match x with
      | .idle => True
      | .load _ h => ∀ p es m, h p es m = (p, .done)
      | .run _ q => q = .done
      | .cas .. => False
      | .put _ _ _ k => k = .done) : ∀ t', match upd s.task t x t' with
    | .idle => True
    | .load _ h => ∀ p es m, h p es m = (p, .done)
    | .run _ q => q = .done
    | .cas .. => False
    | .put _ _ _ k => k = .done := by
  intro t'
  by_cases ht : t' = t
  · subst ht; rw [upd_same]; exact hx
  · rw [upd_ne _ _ ht]; exact h.task t'

theorem upd_self {α β : Type} [DecidableEq α] (f : α → β) (a : α) (b : β) (c : β) (h : ∀ x, f x = c) (hb : b = c) : ∀ x, upd f a b x = c := by
  intro x
  by_cases hx : x = a
  · subst hx; rw [upd_same]; exact hb
  · rw [upd_ne _ _ hx]; exact h x

theorem untouched_step {a : Async.Alg P M N E} {z : M} {c : Async.Cfg M N} {s s' : Async.St P M N E} (hi : Untouched a s) (x : Async.Act E)
    (h : Async.step (blank a z) c s x = some s') : Untouched a s' := by
  have h0 := hi
  obtain ⟨i1, i2, i3⟩ := hi
  cases x with
  | init t v =>
    simp only [Async.step, blank] at h
    split at h
    · split at h
      · simp only [Bool.false_eq_true, if_false] at h
        injection h with h; subst h
        exact ⟨i1, upd_self _ _ _ _ i2 (i2 v), i3⟩
      · injection h with h; subst h
        exact ⟨i1, i2, untouched_task h0 _ _ rfl⟩
      · injection h with h; subst h
        exact ⟨i1, i2, i3⟩
    · cases h
  | recv t v i =>
    simp only [Async.step, blank] at h
    split at h
    · split at h
      · cases h
      · injection h with h; subst h
        exact ⟨i1, i2, untouched_task h0 _ _ fun _ _ _ => rfl⟩
    · cases h
  | add t v es =>
    simp only [Async.step, blank] at h
    split at h
    · injection h with h; subst h
      exact ⟨i1, i2, untouched_task h0 _ _ fun _ _ _ => rfl⟩
    · cases h
  | del t v keep =>
    simp only [Async.step, blank] at h
    split at h
    · injection h with h; subst h
      exact ⟨i1, i2, untouched_task h0 _ _ fun _ _ _ => rfl⟩
    · cases h
  | go t =>
    simp only [Async.step] at h
    split at h
    · have ht := i3 t
      cases hx : s.task t with
      | idle => rw [hx] at h; cases h
      | load v f =>
        rw [hx] at h ht
        simp only [Async.goStep, blank] at h
        injection h with h; subst h
        dsimp only at ht
        refine ⟨upd_self _ _ _ _ i1 (by rw [ht]; exact i1 v), upd_self _ _ _ _ i2 (i2 v), untouched_task h0 _ _ ?_⟩
        dsimp only
        rw [ht]
      | run v q =>
        rw [hx] at h ht
        dsimp only at ht
        subst ht
        simp only [Async.goStep] at h
        injection h with h; subst h
        exact ⟨i1, i2, untouched_task h0 _ _ trivial⟩
      | cas v w k => rw [hx] at ht; exact ht.elim
      | put v w n k =>
        rw [hx] at h ht
        dsimp only at ht
        subst ht
        simp only [Async.goStep] at h
        injection h with h; subst h
        exact ⟨i1, i2, untouched_task h0 _ _ rfl⟩
    · cases h

theorem untouched_run {a : Async.Alg P M N E} {z : M} {c : Async.Cfg M N} : ∀ (xs : List (Async.Act E)) (s s' : Async.St P M N E), Untouched a s →
    Async.run (blank a z) c s xs = some s' → Untouched a s' := by
  intro xs
  induction xs with
  | nil => intro s s' hi h; injection h with h; subst h; exact hi
  | cons x xs ih =>
    intro s s' hi h
    obtain ⟨s1, h1, h2⟩ := Option.bind_eq_some_iff.1 h
    exact ih s1 s' (untouched_step hi x h1) h2

open Verif.Props.Engine (Finished Start) in
/-- **C85** (loading): when a graph has been loaded for a static run, by the threads of the engine running `blankAlg`, with any
initial data, no vertex has been touched: but for its edges, the algorithm finds the state that it would find at the start
of the program, and as many notifications were received as sent. -/
theorem C85_loaded [DecidableEq N] (a : Async.Alg P M N E) (z : M) (c : Async.Cfg M N) (max : Nat) (hm : 0 < max) (hown : ∀ v, c.own v < c.T) (s0 s : Engine.St P M N E)
    (ha : s0.alg = Async.start (blank a z)) (h0 : Start c max s0) (xs : List (Engine.Act E)) (h : Engine.run (blank a z) c max s0 xs = some s) (hd : Finished c s) :
    ({ s.alg with inited := fun _ => false, log := [] } : Async.St P M N E) = Async.start a s.alg.edges ∧
    ((Finset.range c.T).sum fun t => s.term.msgSend t) = ((Finset.range c.T).sum fun t => s.term.msgRecv t) := by
  obtain ⟨hq, hs, ys, hys, -⟩ := Props.Engine.C63_final (blank a z) c max hm hown s0 s h0 xs h hd
  refine ⟨?_, hs⟩
  rw [ha] at hys
  have hu := untouched_run ys _ _ ⟨fun _ => rfl, fun _ => rfl, fun _ => trivial⟩ hys
  have hact : ∀ v, s.alg.act v = 0 := by
    intro v
    rw [Props.Async.C30_counter (blank a z) c ys s.alg hys v]
    unfold Props.Async.outstanding
    rw [hq.2 v, List.filter_eq_nil_iff.2]
    · rfl
    · intro t ht
      rw [hq.1 t (List.mem_range.1 ht)]
      simp
  have htask : ∀ t, s.alg.task t = .idle := by
    intro t
    by_cases ht : t < c.T
    · exact hq.1 t ht
    · exact Async.idle_outside hys t (by omega)
  unfold Async.start
  dsimp only
  congr 1
  · funext v; exact hu.prop v
  · funext v; exact hu.inbox v
  · funext v; exact hact v
  · funext v; exact hq.2 v
  · funext t; exact htask t

/-! ## The algorithms of the repository -/

/-- **C85** for one source: with the map `{src: m}` and no other data, in both kinds of runs the source gets `m` and no
other vertex anything. -/
theorem C85_source (p : Params E) (hT : 0 < p.T) (stream : List (Ev E)) (as : List Pipeline.Act) (s : Pipeline.St E) (h : run p stream (start p) as = some s)
    (src : UInt32) (m zM : M) (zN : N) (u : UInt32) (i : Nat × Nat) (hi : fromRaw p s u = some i) :
    newVertexItem zM zN (launch [(src, m)] [] none none) u i = (if u = src then some (.mail m) else none) ∧
    itemsOf (sendInitial (launch [(src, m)] ([] : List (UInt32 × N)) none none) [src] (fromRaw p s) (ids p s) fun id => (rawId s id).getD 0) i =
      if u = src then [.mail m] else [] := by
  have hp : promised (launch [(src, m)] ([] : List (UInt32 × N)) none none) u i = if u = src then some (.mail m) else none := by
    simp only [promised, launch, List.length_singleton, Nat.zero_lt_one, if_true, List.lookup_cons, List.lookup_nil]
    by_cases hu : u = src
    · subst hu; simp
    · rw [if_neg hu, beq_false_of_ne hu]; rfl
  constructor
  · rw [C85_dynamic_partial zM zN _ (.inl ⟨rfl, rfl, rfl⟩) u i, hp]
  · rw [C85_static p hT stream as s h _ [src] ⟨by simp, fun f hf u' => ?_, fun hc => by cases hc⟩ u i hi, hp]
    · split <;> rfl
    · simp only [launch, List.length_singleton, Nat.zero_lt_one, if_true, Option.some.injEq] at hf
      subst hf
      dsimp only
      rw [List.mem_singleton, List.lookup_cons, List.lookup_nil]
      by_cases hu : u' = src
      · subst hu; simp
      · rw [beq_false_of_ne hu]; simp [hu]

/-- SSSP and temporal paths: mails for the sources. -/
example : Clear (launch [(5, (0 : Nat))] ([] : List (UInt32 × Nat)) none none) := .inl ⟨rfl, rfl, rfl⟩
/-- SSSP with messages: notes for the sources. -/
example : Clear (launch ([] : List (UInt32 × Nat)) [(5, (0 : Nat))] none none) := .inr (.inl ⟨rfl, rfl, rfl⟩)
/-- CC, PageRank, colouring: `InitAllMail`. -/
example : Clear (launch ([] : List (UInt32 × Nat)) ([] : List (UInt32 × Nat)) (some fun u _ => u.toNat) none) := .inr (.inr ⟨rfl, rfl, .inl ⟨rfl, rfl⟩⟩)
/-- Triangle counting, colouring with messages: `InitAllNote`. -/
example : Clear (launch ([] : List (UInt32 × Nat)) ([] : List (UInt32 × Nat)) none (some fun u _ => u.toNat)) := .inr (.inr ⟨rfl, rfl, .inr ⟨rfl, rfl⟩⟩)

/-- The hypotheses of `C85_static` and `C85_source` are met: the graph of C45 with vertices 5, 6 and 7, two sources, one of
which is not in the graph. -/
example : (run Props.Pipeline.twoThreads Props.Pipeline.three (start Props.Pipeline.twoThreads) Props.Pipeline.exAs).map
    (fun s => (((fromRaw Props.Pipeline.twoThreads s 5).isSome && (fromRaw Props.Pipeline.twoThreads s 6).isSome && (fromRaw Props.Pipeline.twoThreads s 9).isNone : Bool),
      (sendInitial (launch [(9, 3), (5, 0)] ([] : List (UInt32 × Unit)) none none) [5, 9] (fromRaw Props.Pipeline.twoThreads s) (ids Props.Pipeline.twoThreads s)
        fun id => (rawId s id).getD 0).map (fun x => (rawId s x.1, x.2)))) = some (true, [(some (5 : UInt32), .mail (0 : Nat))]) := by
  decide +kernel

/-- With the notes of an algorithm that has `InitAllMail`, the two kinds of runs differ. -/
theorem C85_modes_differ (zM : M) (zN : N) (notes : List (UInt32 × N)) (hne : notes ≠ []) (f : UInt32 → Nat × Nat → M) (u : UInt32) (id : Nat × Nat) :
    newVertexItem zM zN (launch [] notes (some f) none) u id = (notes.lookup u).map .note ∧
    promised (launch [] notes (some f) none) u id = some (.mail (f u id)) := by
  have : 0 < notes.length := List.length_pos_of_ne_nil hne
  simp [newVertexItem, promised, launch, noteInit, sourceInit, this]

/-! ## Distances without a source -/

open Verif.MinLabel (Dist sssp)

/-- A dynamic run of SSSP with an empty map of sources. -/
def cNone : Async.Cfg Dist Unit :=
  { T := 1, own := fun _ => 0
    initMail := fun v => match newVertexItem (0 : Dist) () (launch [] [] none none) (UInt32.ofNat v) (0, v) with
      | some (.mail m) => some m
      | _ => none
    initNote := fun _ => none }

/-- Both vertices of an edge of length 5 end with distance 0, though there is no source. -/
theorem C85_no_source : ∃ xs s, Async.run sssp cNone (Async.start sssp) xs = some s ∧ Async.Quiet cNone s ∧ s.prop 1 = 0 ∧ s.prop 2 = 0 := by
  have h : (Async.run sssp cNone (Async.start sssp) [.init 0 1, .go 0, .go 0, .init 0 2, .go 0, .go 0, .add 0 1 [⟨2, 5⟩], .go 0, .go 0, .go 0]).any
      (fun s => Engine.isIdle (s.task 0) && (List.range 3).all (fun v => (s.pend v).isEmpty) && decide (s.prop 1 = 0) && decide (s.prop 2 = 0)) = true := by
    decide +kernel
  obtain ⟨s, hs, h⟩ := Option.any_eq_true _ _ |>.1 h
  simp only [Bool.and_eq_true, decide_eq_true_eq, List.all_eq_true] at h
  obtain ⟨⟨⟨h1, h2⟩, h3⟩, h4⟩ := h
  have hsup := Async.supp_run (n := 3) (Verif.MinLabel.sssp_eq ▸ Verif.MinLabel.minAlg_local _ _ 3) (by decide)
    (Async.supp_loaded sssp 3 (fun _ => []) (fun _ _ => rfl) (fun _ _ he => by cases he)) hs
  refine ⟨_, s, hs, ⟨fun t ht => ?_, fun v => ?_⟩, h3, h4⟩
  · obtain rfl : t = 0 := by simp only [cNone] at ht; omega
    revert h1; cases s.task 0 <;> simp [Engine.isIdle]
  · by_cases hv : v < 3
    · exact List.isEmpty_iff.1 (h2 v (List.mem_range.2 hv))
    · exact hsup.pend v (by omega)

/-! ## A load -/

/-- Two threads; vertex 1 is a source with a note. -/
def c85 : Async.Cfg Dist Unit := ⟨2, fun v => v % 2, fun _ => none, fun v => if v = 1 then some () else none⟩

def s85 : Engine.St Dist Dist Unit ℚ where
  term := { Term.ex0 with queue := fun _ => [], msgSend := fun _ => 0, closed := fun _ => false }
  alg := Async.start (blank sssp 0)
  queue := fun _ => []
  buff := fun _ => []
  hand := fun _ => []

/-- Thread 1 makes vertex 1, which sends itself its note, and gives it an edge to 2; both streams end. -/
def load85 : List (Engine.Act ℚ) :=
  [.loop (.go 1), .loop (.go 1), .loop (.go 1), .loop (.go 1), .loop (.events 1 1), .topo (.init 1 1), .claim 1, .fill 1, .work 1,
    .topo (.add 1 1 [⟨2, 5⟩]), .work 1, .work 1, .loop (.go 1), .loop (.close 0), .loop (.close 1)]

def mid85 : Engine.St Dist Dist Unit ℚ := (Engine.run (blank sssp 0) c85 1024 s85 load85).getD s85

theorem mid85_run : Engine.run (blank sssp 0) c85 1024 s85 load85 = some mid85 := by
  have h : (Engine.run (blank sssp 0) c85 1024 s85 load85).isSome = true := by decide +kernel
  obtain ⟨s, hs⟩ := Option.isSome_iff_exists.1 h
  rw [mid85, hs]; rfl

theorem s85_start : Props.Engine.Start c85 1024 s85 :=
  ⟨⟨fun _ => rfl, fun _ => rfl, fun _ _ h => absurd h List.not_mem_nil, fun _ => rfl, fun _ => rfl, fun _ => rfl, fun _ _ => rfl, fun _ _ => rfl, fun _ _ => rfl,
    fun _ => rfl, fun _ => rfl, rfl⟩, fun _ => rfl, fun _ => rfl, fun _ => rfl, fun _ => rfl, fun _ _ h => absurd h List.not_mem_nil, fun _ => List.Perm.refl _⟩

theorem run85 [DecidableEq N] (a : Async.Alg P M N E) (c : Async.Cfg M N) (max : Nat) : ∀ (xs ys : List (Engine.Act E)) (s s1 s2 : Engine.St P M N E),
    Engine.run a c max s xs = some s1 → Engine.run a c max s1 ys = some s2 → Engine.run a c max s (xs ++ ys) = some s2
  | [], ys, s, s1, s2, h1, h2 => by simp only [Engine.run, Option.some.injEq] at h1; subst h1; exact h2
  | x :: xs, ys, s, s1, s2, h1, h2 => by
    simp only [Engine.run] at h1
    obtain ⟨s3, h3, h4⟩ := Option.bind_eq_some_iff.1 h1
    simp only [List.cons_append, Engine.run, h3, Option.bind_some]
    exact run85 a c max xs ys s3 s1 s2 h4 h2

/-- The hypotheses of `C85_loaded` are met: the note is received by `blankAlg`, the edge remains. -/
example : ∃ xs s, Engine.run (blank sssp 0) c85 1024 s85 xs = some s ∧ Props.Engine.Finished c85 s ∧ s.alg.edges 1 = [⟨2, 5⟩] ∧
    s.term.msgRecv 1 = 1 ∧ s.alg.prop 1 = ⊤ := by
  refine ⟨load85 ++ _, _, run85 _ _ _ _ _ _ _ _ mid85_run (Props.Engine.drive_run (blank sssp 0) c85 1024 mid85 Props.Engine.turns63), ?_, by decide +kernel, by decide +kernel,
    by decide +kernel⟩
  intro t ht
  have : ∀ t, t < 2 → (Props.Engine.drive (blank sssp 0) c85 1024 mid85 Props.Engine.turns63).2.term.pc t = .done := by decide +kernel
  exact this t ht

end Verif.Props.Launch
