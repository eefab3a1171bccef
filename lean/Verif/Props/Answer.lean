import Verif.Built
import Verif.Props.EngineLive
import Verif.Props.ColouringConv

/-!
# C81: the answer for a file

From the lines of a file to the values at the vertices when the threads have left their loops: loading, numbering of
vertices, appending of edges and the algorithm, put together. Both for static runs, where the graph is there when the
algorithm starts, and for dynamic runs, where the events come while it is running.
-/

namespace Verif.Props.Answer

open Verif Verif.Engine Verif.Built
open Verif.Async (Alg Edge)
open Verif.Loader (Ops Ev)
open Verif.Pipeline (Params fromRaw)
open Verif.Props.Loader (Reads IsStream)
open Verif.Props.Engine Verif.Props.MinLabel Verif.Props.Converge
open Verif.MinLabel (Dist Label sssp cc)

variable {E D : Type}

/-- A file was loaded: `evs` are its edges, `stream` what is to be emitted for them (C21). `races` says whether the
races on closing queues may have happened. -/
structure Loaded (races : Prop) (ops : Ops E) (c : Loader.Cfg) (p : Params E) (tm : E → UInt64 × UInt64) (o : Enact.Opts)
    (file : List (List UInt8)) (evs stream : List (Ev E)) (s : Pipeline.St E) (S : Nat → Enact.Th E) : Prop where
  threads : 0 < p.T
  reads : Reads ops c 0 file evs
  emitted : IsStream ops c evs stream
  window : o.window = 0
  length : stream.length ≤ 2 ^ 32
  verts : ∀ t, t < p.T → (s.th t).verts.length ≤ 2 ^ 27
  complete : Complete races ops c p tm o file s S

/-- The vertices named in the file. -/
def InFile (evs : List (Ev E)) (u : UInt32) : Prop := ∃ e ∈ evs, e.src = u ∨ e.dst = u

/-- Walks along the edges of the file and their lengths. -/
inductive FileWalk (c : Loader.Cfg) (w : E → ℚ) (evs : List (Ev E)) : UInt32 → UInt32 → ℚ → Prop where
  | here (u : UInt32) : FileWalk c w evs u u 0
  | step (u v v' : UInt32) (d x : ℚ) : FileWalk c w evs u v d → FileEdge c w evs v v' x → FileWalk c w evs u v' (d + x)

/-- Edges in the file between two vertices, in one direction or the other, lead from one to the other. -/
def FileConnected (evs : List (Ev E)) : UInt32 → UInt32 → Prop := Relation.EqvGen fun u v => ∃ e ∈ evs, e.src = u ∧ e.dst = v

/-- The edges given to the callbacks of vertex `v`, in order (`OnEdgeAdd`). -/
def appended (ys : List (Async.Act D)) (v : Nat) : List (Edge D) := ys.flatMap fun y => match y with
  | .add _ u es => if u = v then es else []
  | _ => []

/-- A run of an algorithm on the loaded graph: `es0` is the graph at the start, `xs0` are the steps of
`SendInitialMail`, `xs` those of the threads. The graph at the start and the edges the threads append are together
what the threads' events make of the file; in a static run `es0` is that already, in a dynamic run it is empty. Every
vertex got its initial mail. -/
structure Ran {P M N : Type} [DecidableEq N] (a : Alg P M N D) (k : Async.Cfg M N) (max : Nat) (p : Params E) (s : Pipeline.St E)
    (g : Nat → List (Edge D)) (es0 : Nat → List (Edge D)) (xs0 : List (Async.Act D)) (r0 r : Engine.St P M N D) (xs : List (Act D)) : Prop where
  batch : 0 < max
  own : ∀ v, k.own v < k.T
  first : Async.run a k (Async.start a es0) xs0 = some r0.alg
  start : Start k max r0
  run : Engine.run a k max r0 xs = some r
  keeps0 : NoDeletes xs0
  keeps : ∀ t v b, Act.topo (.del t v b) ∉ xs
  graph : ∀ v, es0 v ++ appended (xs0 ++ topos xs) v = g v
  inited : ∀ u i, fromRaw p s u = some i → r.alg.inited (pack i) = true

/-- **C81** for shortest paths, with or without the races on closing queues: every vertex named in the file is in the
graph, and the value at it is the length of a shortest walk in the file from the source, infinity if there is none. -/
def PathsRight (races : Prop) : Prop :=
  ∀ (E : Type) (ops : Ops E) (c : Loader.Cfg) (p : Params E) (tm : E → UInt64 × UInt64) (o : Enact.Opts) (file : List (List UInt8))
    (evs stream : List (Ev E)) (s : Pipeline.St E) (S : Nat → Enact.Th E), Loaded races ops c p tm o file evs stream s S →
  ∀ (w : E → ℚ), Blind ops w → ∀ (src : UInt32) (i0 : Nat × Nat), fromRaw p s src = some i0 →
  ∀ (k : Async.Cfg Dist Unit), (∀ v, k.initMail v = if v = pack i0 then some 0 else none) →
  ∀ max es0 xs0 r0 r xs, Ran sssp k max p s (graphOf (fun _ => w) p s S) es0 xs0 r0 r xs → Finished k r →
  ∀ u, InFile evs u → ∃ i, fromRaw p s u = some i ∧ (r.alg.prop (pack i) = ⊤ ↔ ¬ ∃ d, FileWalk c w evs src u d) ∧
    ∀ d : ℚ, r.alg.prop (pack i) = (d : Dist) ↔ IsLeast {x | FileWalk c w evs src u x} d

/-- **C81**, full statement. -/
def C81Statement : Prop := PathsRight True

/-! ## Edges of a run -/

theorem appended_cons (y : Async.Act D) (ys : List (Async.Act D)) (v : Nat) : appended (y :: ys) v = appended [y] v ++ appended ys v := by
  simp [appended]

theorem appended_append (xs ys : List (Async.Act D)) (v : Nat) : appended (xs ++ ys) v = appended xs v ++ appended ys v := by
  simp [appended]

theorem appended_changes (ys : List (Async.Act D)) (v : Nat) : appended (changes ys) v = appended ys v := by
  induction ys with
  | nil => rfl
  | cons y ys ih =>
    rw [changes_cons, appended_append, ih, appended_cons]
    congr 1
    cases y <;> simp [changes, topoThread, appended]

theorem edges_go {P M N : Type} {a : Alg P M N D} {k : Async.Cfg M N} : ∀ (ys : List (Async.Act D)) (r r' : Async.St P M N D), NoDeletes ys →
    Async.run a k r ys = some r' → ∀ v, r'.edges v = r.edges v ++ appended ys v := by
  intro ys
  induction ys with
  | nil => intro r r' _ h v; simp only [Async.run, Option.some.injEq] at h; subst h; simp [appended]
  | cons y ys ih =>
    intro r r' hn h v
    simp only [Async.run] at h
    obtain ⟨r1, h1, h2⟩ := Option.bind_eq_some_iff.1 h
    rw [ih r1 r' (fun t u b hm => hn t u b (List.mem_cons_of_mem _ hm)) h2 v, appended_cons, ← List.append_assoc]
    congr 1
    cases y with
    | init t u =>
      simp only [Async.step] at h1
      have : appended [(Async.Act.init t u : Async.Act D)] v = [] := rfl
      rw [this, List.append_nil]
      split at h1
      · split at h1
        · split at h1 <;> (cases h1; rfl)
        · cases h1; rfl
        · cases h1; rfl
      · cases h1
    | recv t u i =>
      have : appended [(Async.Act.recv t u i : Async.Act D)] v = [] := rfl
      rw [this, List.append_nil, Async.edges_work rfl h1]
    | go t =>
      have : appended [(Async.Act.go t : Async.Act D)] v = [] := rfl
      rw [this, List.append_nil, Async.edges_work rfl h1]
    | del t u b => exact absurd List.mem_cons_self (hn t u b)
    | add t u es =>
      simp only [Async.step] at h1
      split at h1
      · cases h1
        by_cases e : u = v
        · subst e; simp [appended, upd_same]
        · simp [appended, e, upd_ne _ _ (Ne.symm e)]
      · cases h1

section
variable {P M N : Type} [DecidableEq N] {a : Alg P M N D} {k : Async.Cfg M N} {max : Nat} {p : Params E} {s : Pipeline.St E}
  {g es0 : Nat → List (Edge D)} {xs0 : List (Async.Act D)} {r0 r : Engine.St P M N D} {xs : List (Act D)}

theorem Ran.edges (h : Ran a k max p s g es0 xs0 r0 r xs) : r.alg.edges = g := by
  funext v
  obtain ⟨-, -, ys, h1, h2⟩ := proj h.run
  have hn : NoDeletes ys := by
    intro t u b hm
    exact h.keeps t u b (mem_topos (h2 ▸ List.mem_filter.2 ⟨hm, rfl⟩))
  rw [edges_go ys _ _ hn h1 v, edges_go xs0 _ _ h.keeps0 h.first v, ← appended_changes ys, h2, List.append_assoc, ← appended_append]
  exact h.graph v

end

/-! ## The file and the graph -/

section
variable {ops : Ops E} {c : Loader.Cfg} {p : Params E} {tm : E → UInt64 × UInt64} {o : Enact.Opts} {file : List (List UInt8)}
  {evs stream : List (Ev E)} {s : Pipeline.St E} {S : Nat → Enact.Th E}

/-- The vertices of the file have ids. -/
theorem Loaded.vertex (L : Loaded False ops c p tm o file evs stream s S) (u : UInt32) (hu : InFile evs u) : ∃ i, fromRaw p s u = some i := by
  obtain ⟨e, he, hc⟩ := hu
  obtain ⟨x, hx, h1, h2, -⟩ := (fileEdge_iff (ops := ops) (w := fun _ => ()) L.emitted (fun _ => ⟨fun _ => rfl, fun _ => rfl⟩) e.src e.dst ()).2
    ⟨e, he, rfl, .inl ⟨rfl, rfl⟩⟩
  obtain ⟨i, j, h3, h4⟩ := L.complete.ends L.threads L.reads L.emitted x hx
  rw [h1] at h3
  rw [h2] at h4
  rcases hc with rfl | rfl
  · exact ⟨i, h3⟩
  · exact ⟨j, h4⟩

theorem fileEdge_in {w : E → D} {u v : UInt32} {x : D} (h : FileEdge c w evs u v x) : InFile evs u ∧ InFile evs v := by
  obtain ⟨e, he, -, ⟨h1, h2⟩ | ⟨-, h1, h2⟩⟩ := h
  · exact ⟨⟨e, he, .inl h1⟩, ⟨e, he, .inr h2⟩⟩
  · exact ⟨⟨e, he, .inr h2⟩, ⟨e, he, .inl h1⟩⟩

theorem Loaded.edge (L : Loaded False ops c p tm o file evs stream s S) {w : E → D} (hw : Blind ops w) (u v : UInt32) (i j : Nat × Nat)
    (hu : fromRaw p s u = some i) (hv : fromRaw p s v = some j) (x : D) :
    (⟨pack j, x⟩ : Edge D) ∈ graphOf (fun _ => w) p s S (pack i) ↔ FileEdge c w evs u v x :=
  L.complete.graph L.threads L.reads L.emitted L.window L.length L.verts hw u v i j hu hv x

theorem Loaded.inj (L : Loaded False ops c p tm o file evs stream s S) {u v : UInt32} {i j : Nat × Nat}
    (hu : fromRaw p s u = some i) (hv : fromRaw p s v = some j) (e : pack i = pack j) : u = v :=
  L.complete.inj L.threads L.reads L.emitted L.verts u v i j hu hv e

theorem Loaded.target (L : Loaded False ops c p tm o file evs stream s S) (f : Nat → E → D) (v : Nat) (e : Edge D) (he : e ∈ graphOf f p s S v) :
    ∃ u i u' i', fromRaw p s u = some i ∧ v = pack i ∧ fromRaw p s u' = some i' ∧ e.dst = pack i' :=
  L.complete.target L.threads L.reads L.emitted L.window L.length L.verts f v e he

theorem Loaded.walk (L : Loaded False ops c p tm o file evs stream s S) {w : E → ℚ} (hw : Blind ops w) {src : UInt32} {i0 : Nat × Nat}
    (h0 : fromRaw p s src = some i0) {u : UInt32} {i : Nat × Nat} (hu : fromRaw p s u = some i) (d : ℚ) :
    Walk (graphOf (fun _ => w) p s S) (pack i0) (pack i) d ↔ FileWalk c w evs src u d := by
  constructor
  · have : ∀ x y d, Walk (graphOf (fun _ => w) p s S) x y d → x = pack i0 → ∃ u i, fromRaw p s u = some i ∧ y = pack i ∧ FileWalk c w evs src u d := by
      intro x y d h
      induction h with
      | here => rintro rfl; exact ⟨src, i0, h0, rfl, .here _⟩
      | step y d e _ he ih =>
        intro hx
        obtain ⟨u, i, h1, rfl, h3⟩ := ih hx
        obtain ⟨-, -, v, j, -, -, h6, h7⟩ := L.target _ _ e he
        refine ⟨v, j, h6, h7, .step _ u v d e.data h3 ?_⟩
        exact (L.edge hw u v i j h1 h6 _).1 (by rw [← h7]; exact he)
    intro h
    obtain ⟨u', i', h1, h2, h3⟩ := this _ _ d h rfl
    obtain rfl := L.inj hu h1 h2
    exact h3
  · intro h
    induction h generalizing i with
    | here =>
      rw [h0] at hu
      cases hu
      exact .here _
    | step v v' d x _ he ih =>
      obtain ⟨j, hj⟩ := L.vertex _ (fileEdge_in he).1
      exact Walk.step _ _ d ⟨pack i, x⟩ (ih hj) ((L.edge hw _ _ _ _ hj hu x).2 he)

end

/-- **C81** for shortest paths, in runs without the races on closing queues. -/
theorem C81_paths_partial : PathsRight False := by
  intro E ops c p tm o file evs stream s S L w hw src i0 h0 k hk max es0 xs0 r0 r xs R hd u hu
  obtain ⟨i, hi⟩ := L.vertex u hu
  refine ⟨i, hi, ?_⟩
  have := C63_sssp k max R.batch R.own (pack i0) hk es0 xs0 R.keeps0 r0 r R.first R.start xs R.keeps R.run hd (R.inited src i0 h0) (pack i)
  rw [R.edges] at this
  simpa only [L.walk hw h0 hi] using this

/-! ## Components -/

section
variable {ops : Ops E} {c : Loader.Cfg} {p : Params E} {tm : E → UInt64 × UInt64} {o : Enact.Opts} {file : List (List UInt8)}
  {evs stream : List (Ev E)} {s : Pipeline.St E} {S : Nat → Enact.Th E}

theorem mem_dst (f : Nat → E → D) {D' : Type} (f'' : Nat → E → D') (v w : Nat) : MinLabel.Adj (graphOf f p s S) v w ↔ MinLabel.Adj (graphOf f'' p s S) v w := by
  unfold MinLabel.Adj graphOf
  by_cases h : v / 2 ^ 27 < p.T ∧ v % 2 ^ 27 < (s.th (v / 2 ^ 27)).verts.length
  · rw [if_pos h, if_pos h]
    simp
  · rw [if_neg h, if_neg h]
    simp

/-- Two vertices are neighbours in the graph if an edge of the file leads from one to the other. -/
theorem Loaded.adj (L : Loaded False ops c p tm o file evs stream s S) (f : Nat → E → D) (u v : UInt32) (i j : Nat × Nat)
    (hu : fromRaw p s u = some i) (hv : fromRaw p s v = some j) :
    MinLabel.Adj (graphOf f p s S) (pack i) (pack j) ↔ FileEdge c (fun _ => ()) evs u v () := by
  rw [mem_dst f (fun _ _ => ()), ← L.edge (w := fun _ => ()) (fun _ => ⟨fun _ => rfl, fun _ => rfl⟩) u v i j hu hv]
  constructor
  · rintro ⟨e, he, h⟩
    rw [← h]; exact he
  · intro h
    exact ⟨_, h, rfl⟩

theorem Loaded.undirected (L : Loaded False ops c p tm o file evs stream s S) (hu : c.undirected = true) (f : Nat → E → D) :
    MinLabel.Undirected (graphOf f p s S) := by
  rintro x y ⟨e, he, rfl⟩
  obtain ⟨u, i, v, j, h1, rfl, h3, h4⟩ := L.target f x e he
  rw [h4]
  have h5 := (L.adj f u v i j h1 h3).1 ⟨e, he, h4⟩
  refine (L.adj f v u j i h3 h1).2 ?_
  obtain ⟨e, he, -, ⟨a1, a2⟩ | ⟨a0, a1, a2⟩⟩ := h5
  · exact ⟨e, he, rfl, .inr ⟨hu, a1, a2⟩⟩
  · exact ⟨e, he, rfl, .inl ⟨a1, a2⟩⟩

theorem connected_in {u v : UInt32} (h : FileConnected evs u v) : InFile evs u ↔ InFile evs v := by
  induction h with
  | rel u v h =>
    obtain ⟨e, he, h1, h2⟩ := h
    exact ⟨fun _ => ⟨e, he, .inr h2⟩, fun _ => ⟨e, he, .inl h1⟩⟩
  | refl => rfl
  | symm _ _ _ ih => exact ih.symm
  | trans _ _ _ _ _ h1 h2 => exact h1.trans h2

theorem Loaded.reached (L : Loaded False ops c p tm o file evs stream s S) (f : Nat → E → D) : ∀ x y, MinLabel.Connected (graphOf f p s S) x y →
    x = y ∨ ∃ u i v j, fromRaw p s u = some i ∧ x = pack i ∧ fromRaw p s v = some j ∧ y = pack j ∧ FileConnected evs u v := by
  intro x y h
  induction h with
  | rel x y h =>
    right
    obtain ⟨e, he, rfl⟩ := h
    obtain ⟨u, i, v, j, h1, rfl, h3, h4⟩ := L.target f x e he
    refine ⟨u, i, v, j, h1, rfl, h3, h4, ?_⟩
    obtain ⟨e, he, -, ⟨a1, a2⟩ | ⟨a0, a1, a2⟩⟩ := (L.adj f u v i j h1 h3).1 ⟨e, he, h4⟩
    · exact .rel _ _ ⟨e, he, a1, a2⟩
    · exact .symm _ _ (.rel _ _ ⟨e, he, a1, a2⟩)
  | refl => exact .inl rfl
  | symm x y _ ih =>
    rcases ih with rfl | ⟨u, i, v, j, h1, h2, h3, h4, h5⟩
    · exact .inl rfl
    · exact .inr ⟨v, j, u, i, h3, h4, h1, h2, .symm _ _ h5⟩
  | trans x y z _ _ ih1 ih2 =>
    rcases ih1 with rfl | ⟨u, i, v, j, h1, h2, h3, h4, h5⟩
    · exact ih2
    · rcases ih2 with rfl | ⟨u', i', v', j', k1, k2, k3, k4, k5⟩
      · exact .inr ⟨u, i, v, j, h1, h2, h3, h4, h5⟩
      · obtain rfl := L.inj h3 k1 (h4.symm.trans k2)
        exact .inr ⟨u, i, v', j', h1, h2, k3, k4, .trans _ _ _ h5 k5⟩

theorem Loaded.connected (L : Loaded False ops c p tm o file evs stream s S) (f : Nat → E → D) {u v : UInt32} {i j : Nat × Nat}
    (hu : fromRaw p s u = some i) (hv : fromRaw p s v = some j) (hin : InFile evs u) :
    MinLabel.Connected (graphOf f p s S) (pack i) (pack j) ↔ FileConnected evs u v := by
  constructor
  · intro h
    rcases L.reached f _ _ h with h | ⟨u', i', v', j', h1, h2, h3, h4, h5⟩
    · obtain rfl := L.inj hu hv h
      exact .refl _
    · obtain rfl := L.inj hu h1 h2
      obtain rfl := L.inj hv h3 h4
      exact h5
  · intro h
    induction h generalizing i j with
    | rel u v h =>
      obtain ⟨e, he, h1, h2⟩ := h
      exact .rel _ _ ((L.adj f u v i j hu hv).2 ⟨e, he, rfl, .inl ⟨h1, h2⟩⟩)
    | refl u =>
      rw [hu] at hv; cases hv
      exact .refl _
    | symm u v h ih => exact .symm _ _ (ih hv hu ((connected_in h).2 hin))
    | trans u x v h1 h2 ih1 ih2 =>
      have hx := (connected_in h1).1 hin
      obtain ⟨y, hy⟩ := L.vertex x hx
      exact .trans _ _ _ (ih1 hu hy hin) (ih2 hy hv hx)

/-- The smallest label among the connected vertices of the graph is the smallest number in the file. -/
theorem Loaded.least (L : Loaded False ops c p tm o file evs stream s S) (raw : Nat → Label) (hraw : ∀ u i, fromRaw p s u = some i → (raw (pack i)).val = u.toNat)
    {f : Nat → E → D} {u : UInt32} (hu : InFile evs u) {i : Nat × Nat} (hi : fromRaw p s u = some i) {l : Label}
    (h : IsLeast {x | ∃ v, MinLabel.Connected (graphOf f p s S) v (pack i) ∧ raw v = x} l) :
    IsLeast {x : Nat | ∃ u', FileConnected evs u' u ∧ u'.toNat = x} l.val := by
  obtain ⟨⟨v, h1, h2⟩, h3⟩ := h
  have hv : ∃ u' j, fromRaw p s u' = some j ∧ v = pack j ∧ FileConnected evs u' u := by
    rcases L.reached _ _ _ h1 with rfl | ⟨u', j, v', i', a1, a2, a3, a4, a5⟩
    · exact ⟨u, i, hi, rfl, .refl _⟩
    · obtain rfl := L.inj hi a3 a4
      exact ⟨u', j, a1, a2, a5⟩
  obtain ⟨u', j, a1, rfl, a3⟩ := hv
  refine ⟨⟨u', a3, ?_⟩, ?_⟩
  · rw [← hraw u' j a1, h2]
  · rintro x ⟨v, b1, rfl⟩
    obtain ⟨l, hl⟩ := L.vertex v ((connected_in b1).2 hu)
    rw [← hraw v l hl]
    exact h3 ⟨pack l, (L.connected _ hl hi ((connected_in b1).2 hu)).2 b1, rfl⟩

end

/-- **C81** for components, in runs without the races on closing queues: in undirected mode the label of every vertex
named in the file is the smallest number of a vertex connected with it in the file. -/
theorem C81_components_partial {ops : Ops E} {c : Loader.Cfg} {p : Params E} {tm : E → UInt64 × UInt64} {o : Enact.Opts} {file : List (List UInt8)}
    {evs stream : List (Ev E)} {s : Pipeline.St E} {S : Nat → Enact.Th E} (L : Loaded False ops c p tm o file evs stream s S) (hund : c.undirected = true)
    (raw : Nat → Label) (hraw : ∀ u i, fromRaw p s u = some i → (raw (pack i)).val = u.toNat)
    (k : Async.Cfg Label Unit) (hk : ∀ v, k.initMail v = some (raw v)) {max : Nat} {es0 : Nat → List (Edge Unit)} {xs0 : List (Async.Act Unit)}
    {r0 r : Engine.St Label Label Unit Unit} {xs : List (Act Unit)} (R : Ran cc k max p s (graphOf (fun _ _ => ()) p s S) es0 xs0 r0 r xs) (hd : Finished k r)
    (u : UInt32) (hu : InFile evs u) :
    ∃ i, fromRaw p s u = some i ∧ IsLeast {x : Nat | ∃ u', FileConnected evs u' u ∧ u'.toNat = x} (r.alg.prop (pack i)).val := by
  obtain ⟨i, hi⟩ := L.vertex u hu
  refine ⟨i, hi, ?_⟩
  have he := R.edges
  have := C63_cc k max R.batch R.own raw hk es0 xs0 R.keeps0 r0 r R.first R.start xs R.keeps R.run hd (by rw [he]; exact L.undirected hund _)
    (by
      rw [he]
      intro v e hm
      obtain ⟨u, i, v, j, h1, rfl, h3, h4⟩ := L.target _ v e hm
      rw [h4]
      exact ⟨R.inited u i h1, R.inited v j h3⟩) (pack i) (R.inited u i hi)
  rw [he] at this
  exact L.least raw hraw hu hi this

/-! ## Colours -/

section
variable {ops : Ops E} {c : Loader.Cfg} {p : Params E} {tm : E → UInt64 × UInt64} {o : Enact.Opts} {file : List (List UInt8)}
  {evs stream : List (Ev E)} {s : Pipeline.St E} {S : Nat → Enact.Th E}

attribute [local irreducible] pack

/-- The edges of the stream between numbers of vertices, with the positions of the destinations. -/
def triples (p : Params E) (s : Pipeline.St E) (stream : List (Ev E)) : List (Nat × Nat × Nat) :=
  (Props.EndToEnd.numbered stream).map fun x => (pack ((fromRaw p s x.1.src).getD (0, 0)), pack ((fromRaw p s x.1.dst).getD (0, 0)), x.2)

theorem numbered_lt {x : Ev E} {n : Nat} (h : (x, n) ∈ Props.EndToEnd.numbered stream) : x ∈ stream ∧ n < stream.length := by
  unfold Props.EndToEnd.numbered at h
  obtain ⟨k, hk⟩ := List.mem_iff_getElem?.1 h
  rw [List.getElem?_mapIdx] at hk
  obtain ⟨y, h1, h2⟩ := Option.map_eq_some_iff.1 hk
  injection h2 with h2 h3
  subst h2
  have h4 := (List.getElem?_eq_some_iff.1 h1).1
  refine ⟨List.mem_of_getElem? h1, ?_⟩
  have := List.length_filter_le (fun x => decide (x.typ = Loader.Typ.add) && decide (x.dst = y.dst)) (stream.take k)
  rw [List.length_take] at this
  omega

theorem filter_triples {α β γ : Type} {l : List α} {f : α → β} {g : α → γ} {n : β} [DecidableEq β] {P : α → Prop} [DecidablePred P] (h : ∀ x ∈ l, f x = n ↔ P x) :
    (l.map fun x => (f x, g x)).filter (fun a => decide (a.1 = n)) = (l.filter fun x => decide (P x)).map fun x => (f x, g x) := by
  rw [List.filter_map]
  congr 1
  refine List.filter_congr fun x hx => ?_
  exact decide_eq_decide.2 (h x hx)

theorem Loaded.graph_triples (L : Loaded False ops c p tm o file evs stream s S) : Colouring.graph (triples p s stream) = graphOf (fun pos _ => pos) p s S := by
  funext v
  by_cases hv : ∃ u i, fromRaw p s u = some i ∧ v = pack i
  · obtain ⟨u, i, hu, rfl⟩ := hv
    rw [L.complete.edges L.threads L.reads L.emitted L.window L.length L.verts _ u i hu]
    unfold Colouring.graph triples
    rw [filter_triples (P := fun x : Ev E × Nat => x.1.src = u), List.map_map]
    · rfl
    · intro x hx
      obtain ⟨j, -, h1, -⟩ := L.complete.ends L.threads L.reads L.emitted x.1 (numbered_lt hx).1
      rw [h1, Option.getD_some]
      refine ⟨fun h => L.inj h1 hu h, fun h => ?_⟩
      rw [h, hu] at h1
      cases h1
      rfl
  · have h1 : graphOf (fun pos (_ : E) => pos) p s S v = [] := by
      by_contra hne
      exact hv (L.complete.vertex L.reads L.emitted _ v hne)
    rw [h1]
    unfold Colouring.graph triples
    rw [List.map_eq_nil_iff, List.filter_eq_nil_iff]
    intro y hy
    obtain ⟨x, hx, rfl⟩ := List.mem_map.1 hy
    obtain ⟨j, -, h2, -⟩ := L.complete.ends L.threads L.reads L.emitted x.1 (numbered_lt hx).1
    simp only [h2, Option.getD_some, decide_eq_true_eq]
    exact fun h => hv ⟨_, j, h2, h.symm⟩

theorem Loaded.positions (L : Loaded False ops c p tm o file evs stream s S) (hlen : stream.length ≤ 2147483646) : Colouring.Positions (triples p s stream) := by
  constructor
  · unfold triples Props.EndToEnd.numbered
    rw [List.map_map, List.Nodup, List.pairwise_map, List.pairwise_iff_getElem]
    intro i j hi hj hij
    simp only [List.getElem_mapIdx, Function.comp]
    rw [List.length_mapIdx] at hi hj
    intro he
    injection he with h1 h2
    obtain ⟨-, a, -, ha⟩ := L.complete.ends L.threads L.reads L.emitted stream[i] (List.getElem_mem _)
    obtain ⟨-, b, -, hb⟩ := L.complete.ends L.threads L.reads L.emitted stream[j] (List.getElem_mem _)
    rw [ha, hb, Option.getD_some, Option.getD_some] at h1
    have hd := L.inj ha hb h1
    rw [← hd] at h2
    have hadd := stream_add L.reads L.emitted stream[i] (List.getElem_mem _)
    have h3 : stream.take (i + 1) <+: stream.take j := List.take_prefix_take_left (by omega)
    have h4 := (h3.filter (fun x => decide (x.typ = Loader.Typ.add) && decide (x.dst = stream[i].dst))).length_le
    rw [← List.take_concat_get' _ _ hi, List.filter_append] at h4
    simp [hadd] at h4
    omega
  · intro a ha
    obtain ⟨x, hx, rfl⟩ := List.mem_map.1 ha
    have := (numbered_lt hx).2
    dsimp only
    omega

theorem graph_count (l : List (Nat × Nat × Nat)) (a : Nat × Nat × Nat) : l.countP (fun x => decide (x = a)) = (Colouring.graph l a.1).countP fun e => decide (e.dst = a.2.1) && decide (e.data = a.2.2) := by
  unfold Colouring.graph
  rw [List.countP_map, List.countP_filter]
  refine List.countP_congr fun x _ => ?_
  obtain ⟨x1, x2, x3⟩ := x
  obtain ⟨a1, a2, a3⟩ := a
  simp [and_comm]

theorem graph_perm {l l' : List (Nat × Nat × Nat)} (h : Colouring.graph l = Colouring.graph l') : l.Perm l' := by
  rw [List.perm_iff_count]
  intro a
  have h1 := graph_count l a
  have h2 := graph_count l' a
  rw [h] at h1
  rw [List.count_eq_countP, List.count_eq_countP]
  have e : (fun x => x == a) = fun x => decide (x = a) := by funext x; by_cases h : x = a <;> simp [h]
  rw [e, h1, h2]

theorem positions_perm {l l' : List (Nat × Nat × Nat)} (h : l.Perm l') (hp : Colouring.Positions l') : Colouring.Positions l :=
  ⟨(h.map _).nodup_iff.2 hp.distinct, fun a ha => hp.small a (h.mem_iff.1 ha)⟩

end

theorem graph_append (l l' : List (Nat × Nat × Nat)) (v : Nat) : Colouring.graph (l ++ l') v = Colouring.graph l v ++ Colouring.graph l' v := by
  simp [Colouring.graph]

theorem graph_added (ys : List (Async.Act Nat)) (v : Nat) : Colouring.graph (Colouring.added ys) v = appended ys v := by
  induction ys with
  | nil => rfl
  | cons y ys ih =>
    have : Colouring.added (y :: ys) = Colouring.added [y] ++ Colouring.added ys := by simp [Colouring.added]
    rw [this, graph_append, ih, appended_cons]
    congr 1
    cases y with
    | add t u es =>
      by_cases e : u = v
      · subst e
        simp [Colouring.graph, Colouring.added, appended, List.filter_map, Function.comp_def]
      · simp [Colouring.graph, Colouring.added, appended, e, List.filter_map, Function.comp_def]
    | _ => rfl

open Verif.Colouring (Mail colouring) in
/-- **C81** for colouring, in runs without the races on closing queues: in undirected mode, the ends of every edge of the
file have different colours. -/
theorem C81_colours_partial {ops : Ops E} {c : Loader.Cfg} {p : Params E} {tm : E → UInt64 × UInt64} {o : Enact.Opts} {file : List (List UInt8)}
    {evs stream : List (Ev E)} {s : Pipeline.St E} {S : Nat → Enact.Th E} (L : Loaded False ops c p tm o file evs stream s S) (hund : c.undirected = true)
    (hlen : stream.length ≤ 2147483646) (T : Nat) (own : Nat → Nat) {max : Nat} {es : List (Nat × Nat × Nat)} {xs0 : List (Async.Act Nat)}
    {r0 r : Engine.St Nat Mail Unit Nat} {xs : List (Act Nat)}
    (R : Ran colouring (Colouring.cfg T own) max p s (graphOf (fun pos _ => pos) p s S) (Colouring.graph es) xs0 r0 r xs) (hd : Finished (Colouring.cfg T own) r)
    (e : Ev E) (he : e ∈ evs) (hne : e.src ≠ e.dst) :
    ∃ i j, fromRaw p s e.src = some i ∧ fromRaw p s e.dst = some j ∧ r.alg.prop (pack i) ≠ r.alg.prop (pack j) := by
  obtain ⟨i, hi⟩ := L.vertex e.src ⟨e, he, .inl rfl⟩
  obtain ⟨j, hj⟩ := L.vertex e.dst ⟨e, he, .inr rfl⟩
  have hE := R.edges
  have hpos : Colouring.Positions (es ++ Colouring.added (xs0 ++ topos xs)) := by
    refine positions_perm (graph_perm ?_) (L.positions hlen)
    funext v
    rw [graph_append, graph_added, R.graph, L.graph_triples]
  have hu := L.undirected hund fun pos (_ : E) => pos
  refine ⟨i, j, hi, hj, C63_colouring T own max R.batch R.own es xs0 r0 r R.first R.start xs hpos R.run hd ?_ (pack i) (pack j)
    ⟨R.inited _ i hi, R.inited _ j hj⟩ ?_ fun h => hne (L.inj hi hj h)⟩
  · intro x y h
    unfold Colouring.Adj at h ⊢
    rw [hE] at h ⊢
    exact hu x y h
  · unfold Colouring.Adj
    rw [hE]
    exact (L.adj _ _ _ i j hi hj).2 ⟨e, he, rfl, .inl ⟨rfl, rfl⟩⟩

/-! ## The runs return -/

/-- An execution on the loaded graph, as `Ran`: fair, votes not read between the two stores (C64), from `m` on all
streams are closed and no topology event is left. -/
structure Runs {P M N : Type} [DecidableEq N] {a : Alg P M N D} {k : Async.Cfg M N} {max : Nat} (p : Params E) (s : Pipeline.St E)
    (g : Nat → List (Edge D)) (es0 : Nat → List (Edge D)) (xs0 : List (Async.Act D)) (e : Exec a k max) (m : Nat) : Prop where
  batch : 0 < max
  own : ∀ v, k.own v < k.T
  first : Async.run a k (Async.start a es0) xs0 = some (e.st 0).alg
  start : Start k max (e.st 0)
  fair : e.Fair
  fresh : Fresh e
  closed : ∀ t, t < k.T → (e.st m).term.closed t = true
  noTopo : ∀ i y, m ≤ i → e.act i ≠ .topo y
  keeps0 : NoDeletes xs0
  keeps : ∀ i t v b, e.act i ≠ .topo (.del t v b)
  graph : ∀ v, es0 v ++ appended (xs0 ++ topos ((List.range m).map e.act)) v = g v
  inited : ∀ u i, fromRaw p s u = some i → (e.st m).alg.inited (pack i) = true

section
variable {P M N : Type} [DecidableEq N] {a : Alg P M N D} {k : Async.Cfg M N} {max : Nat} {p : Params E} {s : Pipeline.St E}
  {g es0 : Nat → List (Edge D)} {xs0 : List (Async.Act D)} {e : Exec a k max} {m : Nat}

theorem Runs.ran (h : Runs p s g es0 xs0 e m) : Ran a k max p s g es0 xs0 (e.st 0) (e.st m) ((List.range m).map e.act) :=
  ⟨h.batch, h.own, h.first, h.start, exec_run a k max e m, h.keeps0, fun t v b hm => by
    obtain ⟨i, -, hi⟩ := List.mem_map.1 hm
    exact h.keeps i t v b hi, h.graph, h.inited⟩

end

section
variable {ops : Ops E} {c : Loader.Cfg} {p : Params E} {tm : E → UInt64 × UInt64} {o : Enact.Opts} {file : List (List UInt8)}
  {evs stream : List (Ev E)} {s : Pipeline.St E} {S : Nat → Enact.Th E}

/-- The graph of a file is finite. -/
theorem Loaded.finite (L : Loaded False ops c p tm o file evs stream s S) (f : Nat → E → D) : FiniteGraph (graphOf f p s S) := by
  refine ⟨p.T * 2 ^ 27, fun v => ⟨fun hv => ?_, fun e he => ?_⟩⟩
  · unfold graphOf
    rw [if_neg]
    rintro ⟨h, -⟩
    omega
  · obtain ⟨-, -, u, i, -, -, h1, h2⟩ := L.target f v e he
    obtain ⟨bs, -, hr⟩ := L.complete.pipeline L.reads L.emitted
    obtain ⟨h3, h4⟩ := (Props.Pipeline.C45_one_id p stream bs s hr u i).1 h1
    have ht : i.1 < p.T := by rw [h4]; exact Nat.mod_lt _ L.threads
    obtain ⟨x, h5, -⟩ := Option.map_eq_some_iff.1 h3
    have := (List.getElem?_eq_some_iff.1 h5).1
    have := L.verts i.1 ht
    rw [h2]
    unfold pack
    have : (i.1 + 1) * 2 ^ 27 ≤ p.T * 2 ^ 27 := Nat.mul_le_mul_right _ ht
    omega

theorem finite_of_append {g es0 : Nat → List (Edge D)} (hg : FiniteGraph g) (h : ∀ v, ∃ l, es0 v ++ l = g v) : FiniteGraph es0 := by
  obtain ⟨n, hn⟩ := hg
  refine ⟨n, fun v => ?_⟩
  obtain ⟨l, hl⟩ := h v
  obtain ⟨h1, h2⟩ := hn v
  rw [← hl] at h1 h2
  exact ⟨fun hv => (List.append_eq_nil_iff.1 (h1 hv)).1, fun e he => h2 e (List.mem_append_left _ he)⟩

/-- **C81** for shortest paths, with termination: on a file without negative lengths the threads leave their loops, and
the lengths are those of the file. -/
theorem C81_paths_return_partial (L : Loaded False ops c p tm o file evs stream s S) (w : E → ℚ) (hw : Blind ops w) (hpos : ∀ e ∈ evs, 0 ≤ w e.prop)
    (src : UInt32) (i0 : Nat × Nat) (h0 : fromRaw p s src = some i0) (k : Async.Cfg Dist Unit) (hn : ∀ v, k.initNote v = none)
    (hk : ∀ v, k.initMail v = if v = pack i0 then some 0 else none) {max : Nat} {es0 : Nat → List (Edge ℚ)} {xs0 : List (Async.Act ℚ)} {e : Exec sssp k max} {m : Nat}
    (R : Runs p s (graphOf (fun _ => w) p s S) es0 xs0 e m) :
    ∃ n, Finished k (e.st n) ∧ ∀ u, InFile evs u → ∃ i, fromRaw p s u = some i ∧ ((e.st n).alg.prop (pack i) = ⊤ ↔ ¬ ∃ d, FileWalk c w evs src u d) ∧
      ∀ d : ℚ, (e.st n).alg.prop (pack i) = (d : Dist) ↔ IsLeast {x | FileWalk c w evs src u x} d := by
  have hE := R.ran.edges
  obtain ⟨n, h1, -, h3⟩ := C64_sssp_partial k hn max R.batch R.own (pack i0) hk es0 (finite_of_append (L.finite _) fun v => ⟨_, R.graph v⟩) xs0 R.keeps0 e
    R.first R.start R.fair R.fresh m R.closed R.noTopo R.keeps (by
      rw [hE]
      intro v x hx
      obtain ⟨u, i, u', j, a1, rfl, a3, a4⟩ := L.target _ v x hx
      obtain ⟨y, hy, b1, -⟩ := (L.edge hw u u' i j a1 a3 x.data).1 (by rw [← a4]; exact hx)
      rw [← b1]; exact hpos y hy) (R.inited src i0 h0)
  refine ⟨n, h1, fun u hu => ?_⟩
  obtain ⟨i, hi⟩ := L.vertex u hu
  refine ⟨i, hi, ?_⟩
  have := h3 (pack i)
  rw [hE] at this
  simpa only [L.walk hw h0 hi] using this

/-- **C81** for components, with termination. -/
theorem C81_components_return_partial (L : Loaded False ops c p tm o file evs stream s S) (hund : c.undirected = true)
    (raw : Nat → Label) (hraw : ∀ u i, fromRaw p s u = some i → (raw (pack i)).val = u.toNat)
    (k : Async.Cfg Label Unit) (hn : ∀ v, k.initNote v = none) (hk : ∀ v, k.initMail v = some (raw v)) {max : Nat} {es0 : Nat → List (Edge Unit)} {xs0 : List (Async.Act Unit)}
    {e : Exec cc k max} {m : Nat} (R : Runs p s (graphOf (fun _ _ => ()) p s S) es0 xs0 e m) :
    ∃ n, Finished k (e.st n) ∧ ∀ u, InFile evs u →
      ∃ i, fromRaw p s u = some i ∧ IsLeast {x : Nat | ∃ u', FileConnected evs u' u ∧ u'.toNat = x} ((e.st n).alg.prop (pack i)).val := by
  have hE := R.ran.edges
  obtain ⟨n, h1, -, h3⟩ := C64_cc_partial k hn max R.batch R.own raw hk es0 (finite_of_append (L.finite _) fun v => ⟨_, R.graph v⟩) xs0 R.keeps0 e
    R.first R.start R.fair R.fresh m R.closed R.noTopo R.keeps (by rw [hE]; exact L.undirected hund _) (by
      rw [hE]
      intro v e hm
      obtain ⟨u, i, v, j, h1, rfl, h3, h4⟩ := L.target _ v e hm
      rw [h4]
      exact ⟨R.inited u i h1, R.inited v j h3⟩)
  refine ⟨n, h1, fun u hu => ?_⟩
  obtain ⟨i, hi⟩ := L.vertex u hu
  refine ⟨i, hi, ?_⟩
  have := h3 (pack i) (R.inited u i hi)
  rw [hE] at this
  exact L.least raw hraw hu hi this

open Verif.Colouring (Mail colouring) in
/-- **C81** for colouring, with termination: on a file without edges from a vertex to itself. -/
theorem C81_colours_return_partial (L : Loaded False ops c p tm o file evs stream s S) (hund : c.undirected = true)
    (hlen : stream.length ≤ 2147483646) (hloop : ∀ e ∈ evs, e.src ≠ e.dst) (T : Nat) (own : Nat → Nat) {max : Nat} {es : List (Nat × Nat × Nat)} {xs0 : List (Async.Act Nat)}
    {e : Exec colouring (Colouring.cfg T own) max} {m : Nat} (R : Runs p s (graphOf (fun pos _ => pos) p s S) (Colouring.graph es) xs0 e m) :
    ∃ n, Finished (Colouring.cfg T own) (e.st n) ∧ ∀ x ∈ evs,
      ∃ i j, fromRaw p s x.src = some i ∧ fromRaw p s x.dst = some j ∧ (e.st n).alg.prop (pack i) ≠ (e.st n).alg.prop (pack j) := by
  have hE := R.ran.edges
  have hpos : Colouring.Positions (es ++ Colouring.added (xs0 ++ topos ((List.range m).map e.act))) := by
    refine positions_perm (graph_perm ?_) (L.positions hlen)
    funext v
    rw [graph_append, graph_added, R.graph, L.graph_triples]
  have hu := L.undirected hund fun pos (_ : E) => pos
  obtain ⟨n, h1, -, h3⟩ := Colouring.C67_returns_partial T own R.own max R.batch es xs0 e R.first R.start R.fair R.fresh m R.closed R.noTopo hpos
    (by
      rw [hE]
      intro v x hx he
      obtain ⟨u, i, u', j, a1, rfl, a3, a4⟩ := L.target _ v x hx
      have := L.inj a1 a3 (he.symm.trans a4)
      subst this
      obtain ⟨y, hy, -, ⟨b1, b2⟩ | ⟨-, b1, b2⟩⟩ := (L.adj _ u u i j a1 a3).1 ⟨x, hx, a4⟩
      · exact hloop y hy (b1.trans b2.symm)
      · exact hloop y hy (b1.trans b2.symm))
    (by
      intro x y h
      unfold Colouring.Adj at h ⊢
      rw [hE] at h ⊢
      exact hu x y h)
  refine ⟨n, h1, fun x hx => ?_⟩
  obtain ⟨i, hi⟩ := L.vertex x.src ⟨x, hx, .inl rfl⟩
  obtain ⟨j, hj⟩ := L.vertex x.dst ⟨x, hx, .inr rfl⟩
  refine ⟨i, j, hi, hj, h3 (pack i) (pack j) (R.inited _ i hi) (R.inited _ j hj) ?_⟩
  unfold Colouring.Adj
  rw [hE]
  exact (L.adj _ _ _ i j hi hj).2 ⟨x, hx, rfl, .inl ⟨rfl, rfl⟩⟩

end

end Verif.Props.Answer
