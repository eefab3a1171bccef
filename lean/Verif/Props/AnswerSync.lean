import Verif.Props.Answer
import Verif.Props.SyncLive
import Verif.Props.MsgPathConv

/-!
# C93: the answer for a file, synchronously and by messages

C81 for the other ways to run an algorithm: the two synchronous variants, and shortest paths by messages. The vertices of a
synchronous run are numbered `0, …, n-1` (`Verif/Sync.lean`), in any way.
-/

namespace Verif.Props.AnswerSync

open Verif Verif.Built
open Verif.Async (Alg Edge)
open Verif.Loader (Ops Ev)
open Verif.Pipeline (Params fromRaw)
open Verif.Props.MinLabel Verif.Props.Answer Verif.Props.Sync
open Verif.MinLabel (Dist Label sssp cc)

variable {E D : Type}

/-- `ρ` numbers the vertices of the graph from 0 to `n - 1`, and `es0` is the graph with these numbers. -/
structure Numbered (n : Nat) (p : Params E) (s : Pipeline.St E) (g : Nat → List (Edge D)) (ρ : Nat → Nat) (es0 : Nat → List (Edge D)) : Prop where
  onto : ∀ v, v < n ↔ ∃ u i, fromRaw p s u = some i ∧ v = ρ (pack i)
  inj : ∀ u v i j, fromRaw p s u = some i → fromRaw p s v = some j → ρ (pack i) = ρ (pack j) → pack i = pack j
  edges : ∀ u i, fromRaw p s u = some i → es0 (ρ (pack i)) = (g (pack i)).map fun e => ⟨ρ e.dst, e.data⟩
  empty : ∀ v, n ≤ v → es0 v = []

/-- **C93** for synchronous shortest paths, with or without the races on closing queues: when the iterations have stopped, every vertex
named in the file is in the graph, and the value at it is the length of a shortest walk in the file, infinity if there is none. -/
def SyncPathsRight (races : Prop) : Prop :=
  ∀ (E : Type) (ops : Ops E) (c : Loader.Cfg) (p : Params E) (tm : E → UInt64 × UInt64) (o : Enact.Opts) (file : List (List UInt8))
    (evs stream : List (Ev E)) (s : Pipeline.St E) (S : Nat → Enact.Th E), Loaded races ops c p tm o file evs stream s S →
  ∀ (w : E → ℚ), Blind ops w → ∀ (src : UInt32) (i0 : Nat × Nat), fromRaw p s src = some i0 →
  ∀ (k : Sync.Cfg Dist), k.Ok → ∀ (ρ : Nat → Nat) (es0 : Nat → List (Edge ℚ)), Numbered k.n p s (graphOf (fun _ => w) p s S) ρ es0 →
    (∀ v, k.initMail v = if v = ρ (pack i0) then some 0 else none) →
  ∀ (xs : List Sync.Act) (r : Sync.St Dist Dist Unit ℚ), Sync.run sssp k (Sync.start sssp es0) xs = some r → r.phase = .stopped →
  ∀ u, InFile evs u → ∃ i, fromRaw p s u = some i ∧ (r.prop (ρ (pack i)) = ⊤ ↔ ¬ ∃ d, FileWalk c w evs src u d) ∧
    ∀ d : ℚ, r.prop (ρ (pack i)) = (d : Dist) ↔ IsLeast {x | FileWalk c w evs src u x} d

/-- **C93**, full statement. -/
def C93Statement : Prop := SyncPathsRight True

section
variable {ops : Ops E} {c : Loader.Cfg} {p : Params E} {tm : E → UInt64 × UInt64} {o : Enact.Opts} {file : List (List UInt8)}
  {evs stream : List (Ev E)} {s : Pipeline.St E} {S : Nat → Enact.Th E} {n : Nat} {ρ : Nat → Nat}
  {f : Nat → E → D} {es0 : Nat → List (Edge D)}

/-- An edge of the graph of numbers is one of the graph. -/
theorem Numbered.back (L : Loaded False ops c p tm o file evs stream s S) (h : Numbered n p s (graphOf f p s S) ρ es0) {u : UInt32} {i : Nat × Nat}
    (hu : fromRaw p s u = some i) {e : Edge D} (he : e ∈ es0 (ρ (pack i))) :
    ∃ v j, fromRaw p s v = some j ∧ e.dst = ρ (pack j) ∧ (⟨pack j, e.data⟩ : Edge D) ∈ graphOf f p s S (pack i) := by
  rw [h.edges u i hu] at he
  obtain ⟨e', h1, rfl⟩ := List.mem_map.1 he
  obtain ⟨-, -, v, j, -, -, h4, h5⟩ := L.target f _ e' h1
  exact ⟨v, j, h4, by rw [h5], by rw [← h5]; exact h1⟩

theorem Numbered.forth (h : Numbered n p s (graphOf f p s S) ρ es0) {u : UInt32} {i : Nat × Nat} (hu : fromRaw p s u = some i) {e : Edge D}
    (he : e ∈ graphOf f p s S (pack i)) : (⟨ρ e.dst, e.data⟩ : Edge D) ∈ es0 (ρ (pack i)) := by
  rw [h.edges u i hu]
  exact List.mem_map.2 ⟨e, he, rfl⟩

theorem Numbered.source (h : Numbered n p s (graphOf f p s S) ρ es0) {v : Nat} {e : Edge D} (he : e ∈ es0 v) : ∃ u i, fromRaw p s u = some i ∧ v = ρ (pack i) := by
  refine (h.onto v).1 ?_
  by_contra hn
  rw [h.empty v (Nat.le_of_not_lt hn)] at he
  cases he

theorem Numbered.within (L : Loaded False ops c p tm o file evs stream s S) (h : Numbered n p s (graphOf f p s S) ρ es0) : Within n es0 := by
  refine ⟨h.empty, fun v e he => ?_⟩
  obtain ⟨u, i, hu, rfl⟩ := h.source he
  obtain ⟨v, j, h1, h2, -⟩ := h.back L hu he
  exact (h.onto _).2 ⟨v, j, h1, h2⟩

theorem Numbered.adj (L : Loaded False ops c p tm o file evs stream s S) (h : Numbered n p s (graphOf f p s S) ρ es0) {x y : Nat} (ha : MinLabel.Adj es0 x y) :
    ∃ u i v j, fromRaw p s u = some i ∧ x = ρ (pack i) ∧ fromRaw p s v = some j ∧ y = ρ (pack j) ∧ MinLabel.Adj (graphOf f p s S) (pack i) (pack j) := by
  obtain ⟨e, he, rfl⟩ := ha
  obtain ⟨u, i, hu, rfl⟩ := h.source he
  obtain ⟨v, j, h1, h2, h3⟩ := h.back L hu he
  exact ⟨u, i, v, j, hu, rfl, h1, h2, ⟨_, h3, rfl⟩⟩

theorem Numbered.adj_forth (L : Loaded False ops c p tm o file evs stream s S) (h : Numbered n p s (graphOf f p s S) ρ es0) {x y : Nat}
    (ha : MinLabel.Adj (graphOf f p s S) x y) : MinLabel.Adj es0 (ρ x) (ρ y) := by
  obtain ⟨e, he, rfl⟩ := ha
  obtain ⟨u, i, -, -, hu, rfl, -, -⟩ := L.target f x e he
  exact ⟨_, h.forth hu he, rfl⟩

theorem Numbered.undirected (L : Loaded False ops c p tm o file evs stream s S) (h : Numbered n p s (graphOf f p s S) ρ es0)
    (hu : MinLabel.Undirected (graphOf f p s S)) : MinLabel.Undirected es0 := by
  intro x y ha
  obtain ⟨u, i, v, j, -, rfl, -, rfl, h5⟩ := h.adj L ha
  exact h.adj_forth L (hu _ _ h5)

theorem Numbered.connected_forth (L : Loaded False ops c p tm o file evs stream s S) (h : Numbered n p s (graphOf f p s S) ρ es0) {x y : Nat}
    (hc : MinLabel.Connected (graphOf f p s S) x y) : MinLabel.Connected es0 (ρ x) (ρ y) := by
  induction hc with
  | rel _ _ ha => exact .rel _ _ (h.adj_forth L ha)
  | refl => exact .refl _
  | symm _ _ _ ih => exact .symm _ _ ih
  | trans _ _ _ _ _ h1 h2 => exact .trans _ _ _ h1 h2

theorem Numbered.connected (L : Loaded False ops c p tm o file evs stream s S) (h : Numbered n p s (graphOf f p s S) ρ es0) {x y : Nat}
    (hc : MinLabel.Connected es0 x y) : x = y ∨ ∃ u i v j, fromRaw p s u = some i ∧ x = ρ (pack i) ∧ fromRaw p s v = some j ∧ y = ρ (pack j) ∧
      MinLabel.Connected (graphOf f p s S) (pack i) (pack j) := by
  induction hc with
  | rel x y ha =>
    obtain ⟨u, i, v, j, h1, h2, h3, h4, h5⟩ := h.adj L ha
    exact .inr ⟨u, i, v, j, h1, h2, h3, h4, .rel _ _ h5⟩
  | refl => exact .inl rfl
  | symm x y _ ih =>
    rcases ih with rfl | ⟨u, i, v, j, h1, h2, h3, h4, h5⟩
    · exact .inl rfl
    · exact .inr ⟨v, j, u, i, h3, h4, h1, h2, .symm _ _ h5⟩
  | trans x y z _ _ ih1 ih2 =>
    rcases ih1 with rfl | ⟨u, i, v, j, h1, h2, h3, h4, h5⟩
    · exact ih2
    · rcases ih2 with rfl | ⟨u', i', v', j', k1, k2, k3, k4, k5⟩
      · exact .inr ⟨u, i, v, j, h1, h2, h3, h4, h5⟩
      · have := h.inj v u' j i' h3 k1 (h4.symm.trans k2)
        rw [← this] at k5
        exact .inr ⟨u, i, v', j', h1, h2, k3, k4, .trans _ _ _ h5 k5⟩

theorem Numbered.walk (L : Loaded False ops c p tm o file evs stream s S) {f : Nat → E → ℚ} {es0 : Nat → List (Edge ℚ)}
    (h : Numbered n p s (graphOf f p s S) ρ es0) {src u : UInt32} {i0 i : Nat × Nat} (h0 : fromRaw p s src = some i0)
    (hu : fromRaw p s u = some i) (d : ℚ) : Walk es0 (ρ (pack i0)) (ρ (pack i)) d ↔ Walk (graphOf f p s S) (pack i0) (pack i) d := by
  constructor
  · have : ∀ x y d, Walk es0 x y d → x = ρ (pack i0) → ∃ u i, fromRaw p s u = some i ∧ y = ρ (pack i) ∧ Walk (graphOf f p s S) (pack i0) (pack i) d := by
      intro x y d hw
      induction hw with
      | here => rintro rfl; exact ⟨src, i0, h0, rfl, .here _⟩
      | step y d e _ he ih =>
        intro hx
        obtain ⟨u, i, h1, rfl, h3⟩ := ih hx
        obtain ⟨v, j, h4, h5, h6⟩ := h.back L h1 he
        exact ⟨v, j, h4, h5, Walk.step _ _ d ⟨pack j, e.data⟩ h3 h6⟩
    intro hw
    obtain ⟨u', i', h1, h2, h3⟩ := this _ _ d hw rfl
    rw [h.inj u u' i i' hu h1 h2]
    exact h3
  · have : ∀ x y d, Walk (graphOf f p s S) x y d → Walk es0 (ρ x) (ρ y) d := by
      intro x y d hw
      induction hw with
      | here => exact .here _
      | step y d e _ he ih =>
        obtain ⟨u, i, -, -, h1, rfl, -, -⟩ := L.target f _ e he
        exact Walk.step _ _ d ⟨ρ e.dst, e.data⟩ ih (h.forth h1 he)
    exact this _ _ d

theorem Numbered.least (L : Loaded False ops c p tm o file evs stream s S) (h : Numbered n p s (graphOf f p s S) ρ es0) (raw : Nat → Label)
    {u : UInt32} {i : Nat × Nat} (hu : fromRaw p s u = some i) {l : Label}
    (hl : IsLeast {x | ∃ v, MinLabel.Connected es0 v (ρ (pack i)) ∧ raw v = x} l) :
    IsLeast {x | ∃ v, MinLabel.Connected (graphOf f p s S) v (pack i) ∧ raw (ρ v) = x} l := by
  obtain ⟨⟨v, h1, h2⟩, h3⟩ := hl
  refine ⟨?_, ?_⟩
  · rcases h.connected L h1 with rfl | ⟨u', i', v', j', k1, rfl, k3, k4, k5⟩
    · exact ⟨pack i, .refl _, h2⟩
    · rw [h.inj u v' i j' hu k3 k4]
      exact ⟨_, k5, h2⟩
  · rintro x ⟨v, k1, rfl⟩
    exact h3 ⟨ρ v, h.connected_forth L k1, rfl⟩

end

section
variable {ops : Ops E} {c : Loader.Cfg} {p : Params E} {tm : E → UInt64 × UInt64} {o : Enact.Opts} {file : List (List UInt8)}
  {evs stream : List (Ev E)} {s : Pipeline.St E} {S : Nat → Enact.Th E} {ρ : Nat → Nat}

/-- **C93**, synchronous shortest paths, in runs without the races on closing queues. -/
theorem C93_paths_partial : SyncPathsRight False := by
  intro E ops c p tm o file evs stream s S L w hw src i0 h0 k hk ρ es0 hn hi xs r h hstop u hu
  obtain ⟨i, hi'⟩ := L.vertex u hu
  refine ⟨i, hi', ?_⟩
  have := C36_sssp k hk (ρ (pack i0)) ((hn.onto _).2 ⟨src, i0, h0, rfl⟩) hi es0 (hn.within L) xs r h hstop (ρ (pack i))
  simpa only [hn.walk L h0 hi', L.walk hw h0 hi'] using this

/-- **C93**, synchronous components. -/
theorem C93_components_partial (L : Loaded False ops c p tm o file evs stream s S) (hund : c.undirected = true)
    (k : Sync.Cfg Label) (hk : k.Ok) {es0 : Nat → List (Edge Unit)} (hn : Numbered k.n p s (graphOf (fun _ _ => ()) p s S) ρ es0)
    (raw : Nat → Label) (hraw : ∀ u i, fromRaw p s u = some i → (raw (ρ (pack i))).val = u.toNat)
    (hi : ∀ v, k.initMail v = some (raw v)) (xs : List Sync.Act) (r : Sync.St Label Label Unit Unit)
    (h : Sync.run cc k (Sync.start cc es0) xs = some r) (hstop : r.phase = .stopped) (u : UInt32) (hu : InFile evs u) :
    ∃ i, fromRaw p s u = some i ∧ IsLeast {x : Nat | ∃ u', FileConnected evs u' u ∧ u'.toNat = x} (r.prop (ρ (pack i))).val := by
  obtain ⟨i, hi'⟩ := L.vertex u hu
  refine ⟨i, hi', ?_⟩
  have := C36_cc k hk raw hi es0 (hn.within L) (hn.undirected L (L.undirected hund _)) xs r h hstop (ρ (pack i)) ((hn.onto _).2 ⟨u, i, hi', rfl⟩)
  exact L.least (fun v => raw (ρ v)) hraw hu hi' (hn.least L raw hi' this)

/-- **C93**: with weights that are not negative and queues that are large enough, a synchronous run for shortest paths ends after a
bounded number of steps, and then has the answer. -/
theorem C93_paths_return_partial (L : Loaded False ops c p tm o file evs stream s S) (w : E → ℚ) (hw : Blind ops w) (hpos : ∀ e ∈ evs, 0 ≤ w e.prop)
    (src : UInt32) (i0 : Nat × Nat) (h0 : fromRaw p s src = some i0) (k : Sync.Cfg Dist) (hk : k.Ok) {es0 : Nat → List (Edge ℚ)}
    (hn : Numbered k.n p s (graphOf (fun _ => w) p s S) ρ es0) (hi : ∀ v, k.initMail v = if v = ρ (pack i0) then some 0 else none) :
    ∃ B, ∀ cap xs r, Sync.run sssp (sized k cap) (Sync.start sssp es0) xs = some r → xs.length ≤ B ∧
      (Ample k cap B → (∀ x, Sync.step sssp (sized k cap) r x = none) → r.phase = .stopped ∧ ∀ u, InFile evs u →
        ∃ i, fromRaw p s u = some i ∧ (r.prop (ρ (pack i)) = ⊤ ↔ ¬ ∃ d, FileWalk c w evs src u d) ∧
          ∀ d : ℚ, r.prop (ρ (pack i)) = (d : Dist) ↔ IsLeast {x | FileWalk c w evs src u x} d) := by
  obtain ⟨B, hB⟩ := C65_sssp k hk (ρ (pack i0)) ((hn.onto _).2 ⟨src, i0, h0, rfl⟩) hi es0 (hn.within L) (by
    intro v e he
    obtain ⟨u, i, hu, rfl⟩ := hn.source he
    obtain ⟨v, j, h1, -, h3⟩ := hn.back L hu he
    obtain ⟨y, hy, b1, -⟩ := (L.edge hw u v i j hu h1 e.data).1 h3
    rw [← b1]; exact hpos y hy)
  refine ⟨B, fun cap xs r h => ⟨(hB cap xs r h).1, fun ha hs => ?_⟩⟩
  obtain ⟨h1, -⟩ := (hB cap xs r h).2 ha hs
  exact ⟨h1, C93_paths_partial E ops c p tm o file evs stream s S L w hw src i0 h0 (sized k cap) (sized_ok hk cap) ρ es0 hn hi xs r h h1⟩

/-- **C93**: the same for components. -/
theorem C93_components_return_partial (L : Loaded False ops c p tm o file evs stream s S) (hund : c.undirected = true)
    (k : Sync.Cfg Label) (hk : k.Ok) {es0 : Nat → List (Edge Unit)} (hn : Numbered k.n p s (graphOf (fun _ _ => ()) p s S) ρ es0)
    (raw : Nat → Label) (hraw : ∀ u i, fromRaw p s u = some i → (raw (ρ (pack i))).val = u.toNat) (hi : ∀ v, k.initMail v = some (raw v)) :
    ∃ B, ∀ cap xs r, Sync.run cc (sized k cap) (Sync.start cc es0) xs = some r → xs.length ≤ B ∧
      (Ample k cap B → (∀ x, Sync.step cc (sized k cap) r x = none) → r.phase = .stopped ∧ ∀ u, InFile evs u →
        ∃ i, fromRaw p s u = some i ∧ IsLeast {x : Nat | ∃ u', FileConnected evs u' u ∧ u'.toNat = x} (r.prop (ρ (pack i))).val) := by
  obtain ⟨B, hB⟩ := C65_cc k hk raw hi es0 (hn.within L)
  refine ⟨B, fun cap xs r h => ⟨(hB cap xs r h).1, fun ha hs => ?_⟩⟩
  obtain ⟨h1, -⟩ := (hB cap xs r h).2 ha hs
  exact ⟨h1, C93_components_partial L hund (sized k cap) (sized_ok hk cap) hn raw hraw hi xs r h h1⟩

/-- **C93**, shortest paths by messages (`-msg`, `sssp-msg.go`), static and dynamic. -/
theorem C93_messages_partial (L : Loaded False ops c p tm o file evs stream s S) (w : E → ℚ) (hw : Blind ops w) (src : UInt32) (i0 : Nat × Nat)
    (h0 : fromRaw p s src = some i0) (k : Async.Cfg Unit Dist) (hk : ∀ v, k.initNote v = if v = pack i0 then some 0 else none)
    (hm : ∀ v, k.initMail v = none) {max : Nat} {es0 : Nat → List (Edge ℚ)} {xs0 : List (Async.Act ℚ)}
    {r0 r : Engine.St (MsgPath.VP Dist) Unit Dist ℚ} {xs : List (Engine.Act ℚ)}
    (R : Ran MsgPath.ssspm k max p s (graphOf (fun _ => w) p s S) es0 xs0 r0 r xs) (hd : Engine.Finished k r) (u : UInt32) (hu : InFile evs u) :
    ∃ i, fromRaw p s u = some i ∧ ((r.alg.prop (pack i)).value = ⊤ ↔ ¬ ∃ d, FileWalk c w evs src u d) ∧
      ∀ d : ℚ, (r.alg.prop (pack i)).value = (d : Dist) ↔ IsLeast {x | FileWalk c w evs src u x} d := by
  obtain ⟨i, hi⟩ := L.vertex u hu
  refine ⟨i, hi, ?_⟩
  obtain ⟨hq, -, ys, hys, hch⟩ := Engine.C63_final _ _ max R.batch R.own r0 r R.start xs R.run hd
  have := MsgPath.C43_exact k (pack i0) hk hm (fun v _ => R.own v) (xs0 ++ ys) (by
    intro t u b hmem
    rcases List.mem_append.1 hmem with hmem | hmem
    · exact R.keeps0 t u b hmem
    · exact R.keeps t u b (Engine.mem_topos (hch ▸ List.mem_filter.2 ⟨hmem, rfl⟩))) r.alg
    (Converge.run_append _ _ xs0 ys _ _ _ R.first hys) hq (R.inited src i0 h0) (pack i)
  rw [R.edges] at this
  simpa only [L.walk hw h0 hi] using this

/-- **C93**, shortest paths by messages, with termination: on a file without negative lengths the threads leave their loops
(restricted as C64), and the lengths are those of the file. -/
theorem C93_messages_return_partial (L : Loaded False ops c p tm o file evs stream s S) (w : E → ℚ) (hw : Blind ops w) (hpos : ∀ e ∈ evs, 0 ≤ w e.prop)
    (src : UInt32) (i0 : Nat × Nat) (h0 : fromRaw p s src = some i0) (k : Async.Cfg Unit Dist) (hk : ∀ v, k.initNote v = if v = pack i0 then some 0 else none)
    (hm : ∀ v, k.initMail v = none) {max : Nat} {es0 : Nat → List (Edge ℚ)} {xs0 : List (Async.Act ℚ)} {e : Engine.Exec MsgPath.ssspm k max} {m : Nat}
    (R : Runs p s (graphOf (fun _ => w) p s S) es0 xs0 e m) :
    ∃ n, Engine.Finished k (e.st n) ∧ ∀ u, InFile evs u → ∃ i, fromRaw p s u = some i ∧
      (((e.st n).alg.prop (pack i)).value = ⊤ ↔ ¬ ∃ d, FileWalk c w evs src u d) ∧
      ∀ d : ℚ, ((e.st n).alg.prop (pack i)).value = (d : Dist) ↔ IsLeast {x | FileWalk c w evs src u x} d := by
  have hE := R.ran.edges
  obtain ⟨n, h1, -, h3⟩ := MsgPath.C64_messages_partial k hm max R.batch R.own (pack i0) hk es0 (finite_of_append (L.finite _) fun v => ⟨_, R.graph v⟩) xs0 R.keeps0 e
    R.first R.start R.fair R.fresh m R.closed R.noTopo R.keeps (by
      rw [hE]
      intro v x hx
      obtain ⟨u, i, u', j, a1, rfl, a3, a4⟩ := L.target _ v x hx
      obtain ⟨y, hy, b1, -⟩ := (L.edge hw u u' i j a1 a3 x.data).1 (by rw [← a4]; exact hx)
      rw [← b1]; exact hpos y hy) (R.inited src i0 h0)
  refine ⟨n, h1, fun u hu => ?_⟩
  obtain ⟨i, hi⟩ := L.vertex u hu
  refine ⟨i, hi, ?_⟩
  have := h3 (pack i)
  rw [hE] at this
  simpa only [L.walk hw h0 hi] using this

end

end Verif.Props.AnswerSync
