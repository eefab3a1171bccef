import Verif.ColouringInv
import Verif.AsyncSupport
import Verif.Props.Async

/-!
# Graph colouring (C34) at quiescence

For every graph, every order of edge additions and deletions, every number of threads and every schedule.
-/

namespace Verif.Props.Colouring

open Verif Verif.Async Verif.Colouring Verif.MinLabel

/-- The edges added in a run: source, destination, position (`Pos`) at the destination. -/
def added (xs : List (Act Nat)) : List (Nat × Nat × Nat) :=
  xs.flatMap fun x => match x with
    | .add _ v es => es.map fun e => (v, e.dst, e.data)
    | _ => []

/-- What `checkToRemit` guarantees (`stream-enact-events.go:86-118`, `InEventPos`): edges into a vertex
have different positions. Positions are small enough to be numbers of colours. -/
structure Positions (es : List (Nat × Nat × Nat)) : Prop where
  distinct : (es.map fun a => (a.2.1, a.2.2)).Nodup
  small : ∀ a ∈ es, a.2.2 < 2147483646

/-- The graph made of a list of edges. -/
def graph (es : List (Nat × Nat × Nat)) (u : Nat) : List (Edge Nat) := (es.filter fun a => decide (a.1 = u)).map fun a => ⟨a.2.1, a.2.2⟩

/-- `v` is among the out-neighbours of `u`. -/
def Adj (s : St Nat Mail Unit Nat) (u v : Nat) : Prop := ∃ e ∈ s.edges u, e.dst = v

/-- Every current edge has a reverse edge. -/
def Undirected (s : St Nat Mail Unit Nat) : Prop := ∀ u v, Adj s u v → Adj s v u

/-- A vertex without colour. -/
def noColour : Nat := 2147483647

theorem added_eq (xs : List (Act Nat)) : added xs = adds xs := by
  unfold added adds
  congr 1

theorem keyed {es : List (Nat × Nat × Nat)} (h : Positions es) : Keyed es := by
  refine ⟨h.distinct, ?_⟩
  · intro a ha
    have := h.small a ha
    show a.2.2 + 1 < 2147483647
    omega

theorem inv_of {T : Nat} {own : Nat → Nat} {es : List (Nat × Nat × Nat)} {xs : List (Act Nat)} {s : St Nat Mail Unit Nat} (hp : Positions (es ++ added xs))
    (h : run colouring (cfg T own) (start colouring (graph es)) xs = some s) : Inv (es ++ added xs) (cfg T own) s := by
  have hk := keyed hp
  rw [added_eq] at hk ⊢
  exact inv_run xs es _ s hk (inv_start hk.left _) h

theorem not_unseen {T : Nat} {own : Nat → Nat} {es : List (Nat × Nat × Nat)} {xs : List (Act Nat)} {s : St Nat Mail Unit Nat} (h : run colouring (cfg T own) (start colouring (graph es)) xs = some s) (hq : Quiet (cfg T own) s) (v : Nat) :
    ¬ Unseen v s.log := by
  rintro ⟨x, y, hl, hn⟩
  exact hn (Verif.Props.Async.C29_seen colouring (cfg T own) xs s h hq v x y hl)

/-- What holds of a state of a run: initialised vertices were told so, and vertices that looked have a colour. -/
structure Looked (s : St Nat Mail Unit Nat) : Prop where
  told : ∀ v, s.inited v = true → Note.dep v ∈ s.log
  has : ∀ v, Note.obs v ∈ s.log → s.prop v ≠ EMPTY

theorem looked_load {U : Added} {c : Cfg Mail Unit} {s : St Nat Mail Unit Nat} (hi : Inv U c s) (hl : Looked s) {t v : Nat} {f : Nat → List (Edge Nat) → Mail → Nat × Prog Mail Unit}
    (hk : s.task t = .load v f) {s' : St Nat Mail Unit Nat} (h : goStep colouring s t (s.task t) = some s') : Looked s' := by
  have hok : LoadOk U v (s.prop v) (s.edges v) (slot s) f := by have := hi.task t; rw [hk] at this; exact this
  rw [hk] at h
  simp only [goStep, Option.some.injEq] at h
  subst h
  refine ⟨fun w hw => List.mem_append_left _ (hl.told w hw), ?_⟩
  intro w hw
  by_cases e : w = v
  · subst e
    show upd s.prop w (f (s.prop w) (s.edges w) (s.inbox w)).1 w ≠ EMPTY
    rw [upd_same, hok.new]
    have := best_le (s.inbox w).scratch
    have := hi.len w
    omega
  · show upd s.prop v (f (s.prop v) (s.edges v) (s.inbox v)).1 w ≠ EMPTY
    rw [upd_ne _ _ e]
    apply hl.has
    rcases List.mem_append.1 hw with h | h
    · exact h
    · simp only [List.mem_singleton, Note.obs.injEq] at h; exact absurd h e

theorem looked_step {U : Added} {T : Nat} {own : Nat → Nat} {s s' : St Nat Mail Unit Nat} {x : Act Nat} (hi : Inv U (cfg T own) s) (hl : Looked s) (h : step colouring (cfg T own) s x = some s') :
    Looked s' := by
  have hdep : ∀ w v, Note.obs v ∈ s.log ++ [Note.dep w] → Note.obs v ∈ s.log := by
    intro w v hv
    rcases List.mem_append.1 hv with h | h
    · exact h
    · simp at h
  cases x with
  | init t v =>
    simp only [step, cfg] at h
    split at h
    · split at h
      · simp only [Option.some.injEq] at h; subst h
        refine ⟨?_, fun w hw => hl.has w (hdep _ _ hw)⟩
        intro w hw
        by_cases e : w = v
        · subst e; exact List.mem_append_right _ (by simp)
        · have hw' : upd s.inited v true w = true := hw
          rw [upd_ne _ _ e] at hw'
          exact List.mem_append_left _ (hl.told w hw')
      · next hn => exact absurd (congrArg Prod.snd (merge_self { scratch := [], pos := 0, colour := 0, box := v } v (s.inbox v) rfl)) hn
    · cases h
  | recv t v i =>
    simp only [step] at h
    split at h
    · cases hp : (s.pend v)[i]? with
      | none => rw [hp] at h; cases h
      | some m => rw [hp] at h; simp only [Option.some.injEq] at h; subst h; exact ⟨hl.told, hl.has⟩
    · cases h
  | add t v es =>
    simp only [step] at h
    split at h
    · simp only [Option.some.injEq] at h; subst h; exact ⟨hl.told, hl.has⟩
    · cases h
  | del t v keep =>
    simp only [step] at h
    split at h
    · simp only [Option.some.injEq] at h; subst h; exact ⟨hl.told, hl.has⟩
    · cases h
  | go t =>
    simp only [step] at h
    split at h
    · cases hk : s.task t with
      | idle => rw [hk] at h; cases h
      | load v f => exact looked_load hi hl hk h
      | run v q =>
        rw [hk] at h
        cases q with
        | done => simp only [goStep, Option.some.injEq] at h; subst h; exact ⟨hl.told, hl.has⟩
        | post w m k =>
          simp only [goStep] at h
          split at h
          · simp only [Option.some.injEq] at h; subst h
            exact ⟨fun w hw => List.mem_append_left _ (hl.told w hw), fun w hw => hl.has w (hdep _ _ hw)⟩
          · simp only [Option.some.injEq] at h; subst h; exact ⟨hl.told, hl.has⟩
        | send w m k => simp only [goStep, Option.some.injEq] at h; subst h; exact ⟨hl.told, hl.has⟩
      | cas v w k =>
        rw [hk] at h
        simp only [goStep] at h
        split at h
        · simp only [Option.some.injEq] at h; subst h; exact ⟨hl.told, hl.has⟩
        · simp only [Option.some.injEq] at h; subst h; exact ⟨hl.told, hl.has⟩
      | put v w m k => rw [hk] at h; simp only [goStep, Option.some.injEq] at h; subst h; exact ⟨hl.told, hl.has⟩
    · cases h

theorem looked_run {T : Nat} {own : Nat → Nat} : ∀ (xs : List (Act Nat)) (U : Added) (s s' : St Nat Mail Unit Nat), Keyed (U ++ adds xs) → Inv U (cfg T own) s → Looked s →
    run colouring (cfg T own) s xs = some s' → Looked s'
  | [], U, s, s', _, _, hl, h => by simp only [run, Option.some.injEq] at h; exact h ▸ hl
  | x :: xs, U, s, s', hU, hi, hl, h => by
    simp only [run] at h
    obtain ⟨s1, h1, h2⟩ := Option.bind_eq_some_iff.1 h
    have e : U ++ adds (x :: xs) = (U ++ addsOf x) ++ adds xs := by simp [adds]
    rw [e] at hU
    exact looked_run xs _ s1 s' hU (inv_step hU.left hi h1) (looked_step hi hl h1) h2

/-- **C34.** Once nothing is outstanding, every vertex of the graph has a colour, and its number is at
most the number of edges ever added to the vertex. -/
theorem C34_colour (T : Nat) (own : Nat → Nat) (es : List (Nat × Nat × Nat)) (xs : List (Act Nat)) (hpos : Positions (es ++ added xs)) (s : St Nat Mail Unit Nat)
    (h : run colouring (cfg T own) (start colouring (graph es)) xs = some s) (hq : Quiet (cfg T own) s) (v : Nat) (hv : s.inited v = true) :
    s.prop v ≠ noColour ∧ s.prop v ≤ (es ++ added xs).countP fun a => decide (a.2.1 = v) := by
  have hi := inv_of hpos h
  have hk := keyed hpos
  rw [added_eq] at hk
  have hl := looked_run xs es _ s hk (inv_start hk.left _) ⟨fun w hw => by simp [start] at hw, fun w hw => by simp [start] at hw⟩ h
  have hne : s.prop v ≠ EMPTY := by
    apply hl.has
    obtain ⟨x, y, hxy⟩ := List.append_of_mem (hl.told v hv)
    have := Verif.Props.Async.C29_seen colouring (cfg T own) xs s h hq v x y hxy
    rw [hxy]
    exact List.mem_append_right _ (List.mem_cons_of_mem _ this)
  refine ⟨hne, ?_⟩
  rcases hi.deg v with h | h
  · exact absurd h hne
  · rwa [List.countP_eq_length_filter]

theorem priority_of (T : Nat) (own : Nat → Nat) (es : List (Nat × Nat × Nat)) (xs : List (Act Nat)) (hpos : Positions (es ++ added xs)) (s : St Nat Mail Unit Nat)
    (h : run colouring (cfg T own) (start colouring (graph es)) xs = some s) (hq : Quiet (cfg T own) s) (u v : Nat) (hown : own u < T) (hin : s.inited u = true) (ha : Adj s u v)
    (hp : comparePriority (hash u) (hash v) u v = true) : s.prop u ≠ s.prop v := by
  have hi := inv_of hpos h
  obtain ⟨e, he, rfl⟩ := ha
  intro heq
  have h1 := hi.rest u (C34_colour T own es xs hpos s h hq u hin).1 (by show about (s.task (own u)) ≠ _; rw [hq.1 (own u) hown]; simp [about]) e he hp
  refine not_unseen h hq e.dst (hi.seen _ _ _ h1 (enc_msb _) ?_)
  rw [enc_mask (colour_lt (hi.col u)), heq]

theorem proper_of (T : Nat) (own : Nat → Nat) (es : List (Nat × Nat × Nat)) (xs : List (Act Nat)) (hpos : Positions (es ++ added xs)) (s : St Nat Mail Unit Nat)
    (h : run colouring (cfg T own) (start colouring (graph es)) xs = some s) (hq : Quiet (cfg T own) s) (hu : Undirected s) (u v : Nat) (hown : own u < T ∧ own v < T) (hin : s.inited u = true ∧ s.inited v = true) (ha : Adj s u v) (hne : u ≠ v) :
    s.prop u ≠ s.prop v := by
  rcases prior_or hne with hp | hp
  · exact priority_of T own es xs hpos s h hq u v hown.1 hin.1 ha hp
  · exact (priority_of T own es xs hpos s h hq v u hown.2 hin.2 (hu u v ha) hp).symm

/-- **C34.** Once nothing is outstanding, an edge from a vertex to one with lower priority never joins
equal colours. -/
theorem C34_priority (T : Nat) (own : Nat → Nat) (hown : ∀ v, own v < T) (es : List (Nat × Nat × Nat)) (xs : List (Act Nat)) (hpos : Positions (es ++ added xs)) (s : St Nat Mail Unit Nat)
    (h : run colouring (cfg T own) (start colouring (graph es)) xs = some s) (hq : Quiet (cfg T own) s) (u v : Nat) (hin : s.inited u = true) (ha : Adj s u v)
    (hp : comparePriority (hash u) (hash v) u v = true) : s.prop u ≠ s.prop v :=
  priority_of T own es xs hpos s h hq u v (hown u) hin ha hp

/-- **C34.** Once nothing is outstanding on an undirected graph, neighbours have different colours:
after any history of additions and deletions. -/
theorem C34_proper (T : Nat) (own : Nat → Nat) (hown : ∀ v, own v < T) (es : List (Nat × Nat × Nat)) (xs : List (Act Nat)) (hpos : Positions (es ++ added xs)) (s : St Nat Mail Unit Nat)
    (h : run colouring (cfg T own) (start colouring (graph es)) xs = some s) (hq : Quiet (cfg T own) s) (hu : Undirected s) (u v : Nat) (hin : s.inited u = true ∧ s.inited v = true) (ha : Adj s u v) (hne : u ≠ v) :
    s.prop u ≠ s.prop v :=
  proper_of T own es xs hpos s h hq hu u v ⟨hown u, hown v⟩ hin ha hne

/-- The edges into `v` all together have as many entries as edges were added. -/
theorem out_count {T : Nat} {own : Nat → Nat} (v : Nat) : ∀ (xs : List (Act Nat)) (s s' : St Nat Mail Unit Nat), (∀ t w keep, Act.del t w keep ∉ xs) → run colouring (cfg T own) s xs = some s' →
    (s'.edges v).length = (s.edges v).length + (added xs).countP fun a => decide (a.1 = v)
  | [], s, s', _, h => by simp only [run, Option.some.injEq] at h; simp [h, added]
  | x :: xs, s, s', hd, h => by
    simp only [run] at h
    obtain ⟨s1, h1, h2⟩ := Option.bind_eq_some_iff.1 h
    have ih := out_count v xs s1 s' (fun t w keep hm => hd t w keep (List.mem_cons_of_mem _ hm)) h2
    have e : added (x :: xs) = addsOf x ++ added xs := by rw [added_eq, added_eq]; simp [adds]
    rw [ih, e, List.countP_append]
    suffices hs : (s1.edges v).length = (s.edges v).length + (addsOf x).countP fun a => decide (a.1 = v) by omega
    cases x with
    | init t w =>
      simp only [step, cfg] at h1
      split at h1
      · split at h1 <;> (simp only [Option.some.injEq] at h1; subst h1; simp [addsOf])
      · cases h1
    | recv t w i =>
      simp only [step] at h1
      split at h1
      · cases hp : (s.pend w)[i]? with
        | none => rw [hp] at h1; cases h1
        | some m => rw [hp] at h1; simp only [Option.some.injEq] at h1; subst h1; simp [addsOf]
      · cases h1
    | add t w es =>
      simp only [step] at h1
      split at h1
      · simp only [Option.some.injEq] at h1; subst h1
        show (upd s.edges w (s.edges w ++ es) v).length = _
        by_cases e : v = w
        · subst e
          rw [upd_same, List.length_append]
          have : (addsOf (.add t v es)).countP (fun a => decide (a.1 = v)) = es.length := by
            unfold addsOf
            rw [List.countP_map, List.countP_eq_length.2 (by simp)]
          omega
        · rw [upd_ne _ _ e]
          have : (addsOf (.add t w es)).countP (fun a => decide (a.1 = v)) = 0 := by
            unfold addsOf
            rw [List.countP_map, List.countP_eq_zero]
            intro a _
            simp [Ne.symm e]
          omega
      · cases h1
    | del t w keep => exact absurd (by simp) (hd t w keep)
    | go t =>
      have : s1.edges = s.edges := by
        simp only [step] at h1
        split at h1
        · cases hk : s.task t with
          | idle => rw [hk] at h1; cases h1
          | load u f => rw [hk] at h1; simp only [goStep, Option.some.injEq] at h1; subst h1; rfl
          | run u q =>
            rw [hk] at h1
            cases q with
            | done => simp only [goStep, Option.some.injEq] at h1; subst h1; rfl
            | post w m k =>
              simp only [goStep] at h1
              split at h1 <;> (simp only [Option.some.injEq] at h1; subst h1; rfl)
            | send w m k => simp only [goStep, Option.some.injEq] at h1; subst h1; rfl
          | cas u w k =>
            rw [hk] at h1
            simp only [goStep] at h1
            split at h1 <;> (simp only [Option.some.injEq] at h1; subst h1; rfl)
          | put u w m k => rw [hk] at h1; simp only [goStep, Option.some.injEq] at h1; subst h1; rfl
        · cases h1
      rw [this]; simp [addsOf]

/-- **C34.** If edges were only added, each together with its reverse, the colour of a vertex is at most
its degree. -/
theorem C34_degree (T : Nat) (own : Nat → Nat) (es : List (Nat × Nat × Nat)) (xs : List (Act Nat)) (hpos : Positions (es ++ added xs)) (hd : ∀ t w keep, Act.del t w keep ∉ xs)
    (hrev : ((es ++ added xs).map fun a => (a.1, a.2.1)).Perm ((es ++ added xs).map fun a => (a.2.1, a.1))) (s : St Nat Mail Unit Nat)
    (h : run colouring (cfg T own) (start colouring (graph es)) xs = some s) (hq : Quiet (cfg T own) s) (v : Nat) (hv : s.inited v = true) : s.prop v ≤ (s.edges v).length := by
  have h1 := (C34_colour T own es xs hpos s h hq v hv).2
  have h2 := out_count v xs _ s hd h
  have h3 := hrev.countP_eq (fun a => decide (a.1 = v))
  rw [List.countP_map, List.countP_map] at h3
  have h6 : ((start colouring (graph es)).edges v).length = es.countP fun a => decide (a.1 = v) := by
    show (graph es v).length = _
    unfold graph
    rw [List.length_map, List.countP_eq_length_filter]
  have h4 : List.countP ((fun a => decide (a.1 = v)) ∘ fun a : Nat × Nat × Nat => (a.1, a.2.1)) (es ++ added xs) = (es ++ added xs).countP fun a => decide (a.1 = v) := rfl
  have h5 : List.countP ((fun a => decide (a.1 = v)) ∘ fun a : Nat × Nat × Nat => (a.2.1, a.1)) (es ++ added xs) = (es ++ added xs).countP fun a => decide (a.2.1 = v) := rfl
  rw [h4, h5, List.countP_append] at h3
  omega

/-! ## Cases -/

theorem below_update {n : Nat} (p : Nat) (es : List (Edge Nat)) (m : Mail) (k : Bool → Prog Mail Unit) (hk : ∀ b, (k b).Below n) (he : ∀ e ∈ es, e.dst < n) : (update p es m k).2.Below n := by
  unfold update
  simp only
  split
  · exact hk false
  · refine below_postAll hk _ _ ?_
    intro x hx
    obtain ⟨e, hm, rfl⟩ := List.mem_map.1 hx
    exact he e hm

theorem colouring_local (n : Nat) : Local colouring n := by
  refine ⟨fun v p es x i m he => below_update _ _ _ _ (fun _ => trivial) he, ?_, ?_⟩
  · intro v p es i m he
    refine below_update _ _ _ _ ?_ he
    intro b
    split
    · trivial
    · refine below_postAll (k := fun _ => .done) (fun _ => trivial) _ _ ?_
      intro x hx
      obtain ⟨e, hm, rfl⟩ := List.mem_map.1 hx
      exact he e (List.mem_of_mem_drop (List.mem_filter.1 hm).1)
  · intro v p es ds m he hd
    refine below_update _ _ _ _ ?_ he
    intro b
    refine below_postAll (k := fun _ => .done) (fun _ => trivial) _ _ ?_
    intro x hx
    obtain ⟨e, hm, rfl⟩ := List.mem_map.1 hx
    exact hd e hm

def gos (t : Nat) : Nat → List (Act Nat)
  | 0 => []
  | n + 1 => .go t :: gos t n

/-- Two threads: 0 and 2 belong to thread 0, 1 to thread 1. -/
def own34 (v : Nat) : Nat := v % 2

/-- A triangle, edge by edge, in both directions. -/
def s34 : List (Act Nat) :=
  .init 0 0 :: gos 0 2 ++ .init 1 1 :: gos 1 2 ++ .init 0 2 :: gos 0 2 ++ .add 0 0 [⟨1, 0⟩] :: gos 0 5 ++ .add 1 1 [⟨0, 0⟩] :: gos 1 3 ++ .add 0 0 [⟨2, 0⟩] :: gos 0 5 ++
  .add 0 2 [⟨0, 1⟩] :: gos 0 3 ++ .add 1 1 [⟨2, 1⟩] :: gos 1 4 ++ .add 0 2 [⟨1, 1⟩] :: gos 0 4 ++ .recv 1 1 0 :: gos 1 2 ++ .recv 0 2 0 :: gos 0 2

theorem s34_positions : Positions ([] ++ added s34) :=
  ⟨by decide, by intro a ha; revert a; decide⟩

/-- The hypotheses of all theorems above are met by this run; the three vertices get three colours. -/
example : ∃ s, run colouring (cfg 2 own34) (start colouring (graph [])) s34 = some s ∧ Quiet (cfg 2 own34) s ∧ Positions ([] ++ added s34) ∧ Undirected s ∧ (∀ t w keep, Act.del t w keep ∉ s34) ∧
    ((([] : List (Nat × Nat × Nat)) ++ added s34).map fun a => (a.1, a.2.1)).Perm ((([] : List (Nat × Nat × Nat)) ++ added s34).map fun a => (a.2.1, a.1)) ∧ s.inited 2 = true ∧ (s.prop 0, s.prop 1, s.prop 2) = (0, 1, 2) ∧ (s.edges 2).length = 2 := by
  obtain ⟨s, h1, h2, h3, h4⟩ := exists_quiet (c := cfg 2 own34) (n := 3) (colouring_local 3) (xs := s34) (by decide)
    (fun s => decide (s.edges 0 = [⟨1, 0⟩, ⟨2, 0⟩] ∧ s.edges 1 = [⟨0, 0⟩, ⟨2, 1⟩] ∧ s.edges 2 = [⟨0, 1⟩, ⟨1, 1⟩] ∧ s.inited 2 = true ∧ (s.prop 0, s.prop 1, s.prop 2) = (0, 1, 2))) (by decide +kernel)
  obtain ⟨e0, e1, e2, i2, hp⟩ := of_decide_eq_true h4
  refine ⟨s, h1, h2, s34_positions, ?_, by simp [s34, gos], by decide, i2, hp, by rw [e2]; rfl⟩
  rintro u v ⟨e, he, rfl⟩
  match u, he with
  | 0, he =>
    rw [e0] at he; simp at he
    rcases he with rfl | rfl
    · exact ⟨⟨0, 0⟩, by simp [e1], rfl⟩
    · exact ⟨⟨0, 1⟩, by simp [e2], rfl⟩
  | 1, he =>
    rw [e1] at he; simp at he
    rcases he with rfl | rfl
    · exact ⟨⟨1, 0⟩, by simp [e0], rfl⟩
    · exact ⟨⟨1, 1⟩, by simp [e2], rfl⟩
  | 2, he =>
    rw [e2] at he; simp at he
    rcases he with rfl | rfl
    · exact ⟨⟨2, 0⟩, by simp [e0], rfl⟩
    · exact ⟨⟨2, 1⟩, by simp [e1], rfl⟩
  | n + 3, he => rw [h3.edges (n + 3) (by omega)] at he; simp at he

/-- The triangle loaded before the algorithm starts. -/
def g34 : List (Nat × Nat × Nat) := [(0, 1, 0), (1, 0, 0), (0, 2, 0), (2, 0, 1), (1, 2, 1), (2, 1, 1)]

def s34s : List (Act Nat) :=
  .init 0 0 :: gos 0 8 ++ .init 1 1 :: gos 1 5 ++ .init 0 2 :: gos 0 4 ++ .recv 1 1 0 :: gos 1 2 ++ .recv 0 2 0 :: gos 0 2

example : (run colouring (cfg 2 own34) (start colouring (graph g34)) s34s).map (fun s => ([s.prop 0, s.prop 1, s.prop 2], (s.task 0).isIdle, (s.task 1).isIdle, [s.pend 0, s.pend 1, s.pend 2])) =
    some ([0, 1, 2], true, true, [[], [], []]) := by decide +kernel

/-- The hypotheses are met in a static run, too. -/
example : ∃ s, run colouring (cfg 2 own34) (start colouring (graph g34)) s34s = some s ∧ Quiet (cfg 2 own34) s ∧ Positions (g34 ++ added s34s) ∧
    ((g34 ++ added s34s).map fun a => (a.1, a.2.1)).Perm ((g34 ++ added s34s).map fun a => (a.2.1, a.1)) ∧ s.inited 2 = true ∧ (s.prop 0, s.prop 1, s.prop 2) = (0, 1, 2) := by
  obtain ⟨s, h1, h2, -, h4⟩ := exists_quiet_loaded (c := cfg 2 own34) (n := 3) (colouring_local 3) (graph g34)
    (by
      intro v hv
      unfold graph
      rw [List.map_eq_nil_iff, List.filter_eq_nil_iff]
      intro a ha hd
      have hd : a.1 = v := of_decide_eq_true hd
      have : ∀ a ∈ g34, a.1 < 3 := by decide
      have := this a ha
      omega)
    (by
      intro v e he
      obtain ⟨a, ha, rfl⟩ := List.mem_map.1 he
      have : ∀ a ∈ g34, a.2.1 < 3 := by decide
      exact this a (List.mem_filter.1 ha).1)
    (xs := s34s) (by decide)
    (fun s => decide (s.inited 2 = true ∧ (s.prop 0, s.prop 1, s.prop 2) = (0, 1, 2))) (by decide +kernel)
  obtain ⟨i2, hp⟩ := of_decide_eq_true h4
  exact ⟨s, h1, h2, ⟨by decide, by intro a ha; revert a; decide⟩, by decide, i2, hp⟩

/-- 0–1 is added, deleted on the side of 0, added again and deleted on both sides. -/
def s34d : List (Act Nat) :=
  .init 0 0 :: gos 0 2 ++ .init 1 1 :: gos 1 2 ++ .add 0 0 [⟨1, 0⟩] :: gos 0 5 ++ .add 1 1 [⟨0, 0⟩] :: gos 1 3 ++ .recv 1 1 0 :: gos 1 2 ++ .del 0 0 [false] :: gos 0 5 ++ .recv 1 1 0 :: gos 1 3 ++
  .add 0 0 [⟨1, 1⟩] :: gos 0 5 ++ .recv 1 1 0 :: gos 1 2 ++ .del 0 0 [false] :: gos 0 5 ++ .recv 1 1 0 :: gos 1 2 ++ .del 1 1 [false] :: gos 1 3

/-- The bound by the current degree does need that nothing is deleted: a vertex is not told when a
neighbour of lower priority goes away. Here both vertices end isolated, one with colour 1. -/
theorem C34_degree_deletions_false : ¬ ∀ (T : Nat) (own : Nat → Nat) (es : List (Nat × Nat × Nat)) (xs : List (Act Nat)) (_ : Positions (es ++ added xs)) (s : St Nat Mail Unit Nat)
    (_ : run colouring (cfg T own) (start colouring (graph es)) xs = some s) (_ : Quiet (cfg T own) s) (_ : Undirected s) (v : Nat) (_ : s.inited v = true), s.prop v ≤ (s.edges v).length := by
  intro hall
  obtain ⟨s, h1, h2, h3, h4⟩ := exists_quiet (c := cfg 2 own34) (n := 2) (colouring_local 2) (xs := s34d) (by decide)
    (fun s => decide (s.edges 0 = [] ∧ s.edges 1 = [] ∧ s.inited 0 = true ∧ s.prop 0 = 1)) (by decide +kernel)
  obtain ⟨e0, e1, i0, hp⟩ := of_decide_eq_true h4
  have := hall 2 own34 [] s34d ⟨by decide, by intro a ha; revert a; decide⟩ s h1 h2 (by
    rintro u v ⟨e, he, -⟩
    match u, he with
    | 0, he => rw [e0] at he; simp at he
    | 1, he => rw [e1] at he; simp at he
    | n + 2, he => rw [h3.edges (n + 2) (by omega)] at he; simp at he) 0 i0
  rw [hp, e0] at this
  simp at this

end Verif.Props.Colouring
