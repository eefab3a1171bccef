import Verif.AsyncInv
import Verif.MinLabel

/-!
# Runs on finitely many vertices

Used for the concrete cases: vertices that no action and no edge mentions stay untouched.
-/

namespace Verif.Async

variable {P M N E : Type}

/-- The program sends to vertices below `n` only. -/
def Prog.Below (n : Nat) : Prog M N → Prop
  | .done => True
  | .post w _ k => w < n ∧ ∀ b, (k b).Below n
  | .send w _ k => w < n ∧ k.Below n

/-- The handlers of the algorithm send along out-edges (and deleted edges) only. -/
structure Local (a : Alg P M N E) (n : Nat) : Prop where
  upd : ∀ v p es x i m, (∀ e ∈ es, e.dst < n) → (a.onUpdate v p es x i m).2.Below n
  add : ∀ v p es i m, (∀ e ∈ es, e.dst < n) → (a.onEdgeAdd v p es i m).2.Below n
  del : ∀ v p es ds m, (∀ e ∈ es, e.dst < n) → (∀ e ∈ ds, e.dst < n) → (a.onEdgeDel v p es ds m).2.Below n

def Act.below (n : Nat) : Act E → Bool
  | .init _ v => decide (v < n)
  | .recv _ _ _ => true
  | .add _ v es => decide (v < n) && es.all fun e => decide (e.dst < n)
  | .del _ v _ => decide (v < n)
  | .go _ => true

def Task.Below (n : Nat) : Task P M N E → Prop
  | .idle => True
  | .load _ h => ∀ p es m, (∀ e ∈ es, e.dst < n) → (h p es m).2.Below n
  | .run _ q => q.Below n
  | .cas _ w k => w < n ∧ ∀ b, (k b).Below n
  | .put _ w _ k => w < n ∧ k.Below n

structure Supp (n : Nat) (s : St P M N E) : Prop where
  pend : ∀ v, n ≤ v → s.pend v = []
  edges : ∀ v, n ≤ v → s.edges v = []
  inited : ∀ v, n ≤ v → s.inited v = false
  dst : ∀ v, ∀ e ∈ s.edges v, e.dst < n
  task : ∀ t, (s.task t).Below n

theorem supp_start (a : Alg P M N E) (n : Nat) : Supp n (start a) :=
  ⟨fun _ _ => rfl, fun _ _ => rfl, fun _ _ => rfl, fun _ _ h => by simp [start] at h, fun _ => trivial⟩

theorem supp_loaded (a : Alg P M N E) (n : Nat) (es0 : Nat → List (Edge E)) (h1 : ∀ v, n ≤ v → es0 v = []) (h2 : ∀ v e, e ∈ es0 v → e.dst < n) : Supp n (start a es0) :=
  ⟨fun _ _ => rfl, h1, fun _ _ => rfl, h2, fun _ => trivial⟩

theorem task_below {n : Nat} {s : St P M N E} (h : Supp n s) (t : Nat) (x : Task P M N E) (hx : x.Below n) : ∀ u, (upd s.task t x u).Below n := by
  intro u
  by_cases e : u = t
  · rw [e, upd_same]; exact hx
  · rw [upd_ne _ _ e]; exact h.task u

theorem upd_above {α : Type} {n : Nat} {g : Nat → α} {y : α} (h : ∀ v, n ≤ v → g v = y) {w : Nat} {x : α} (hw : w < n) : ∀ v, n ≤ v → upd g w x v = y := by
  intro v hv
  rw [upd_ne _ _ (by omega)]; exact h v hv

theorem mem_select {α : Type} (x : α) : ∀ (ks : List Bool) (l : List α), (x ∈ (select ks l).1 ∨ x ∈ (select ks l).2) → x ∈ l
  | [], l, h => by simpa [select] using h
  | _ :: _, [], h => by simp [select] at h
  | k :: ks, e :: es, h => by
    have ih := mem_select x ks es
    simp only [select] at h
    cases k
    · simp only [Bool.false_eq_true, if_false, List.mem_cons] at h
      rcases h with h | h | h
      · exact List.mem_cons_of_mem _ (ih (.inl h))
      · simp [h]
      · exact List.mem_cons_of_mem _ (ih (.inr h))
    · simp only [if_true, List.mem_cons] at h
      rcases h with (h | h) | h
      · simp [h]
      · exact List.mem_cons_of_mem _ (ih (.inl h))
      · exact List.mem_cons_of_mem _ (ih (.inr h))

theorem supp_go {a : Alg P M N E} {n : Nat} {s s' : St P M N E} {t : Nat} (hi : Supp n s) (h : goStep a s t (s.task t) = some s') : Supp n s' := by
  have hk := hi.task t
  cases hq : s.task t with
  | idle => rw [hq] at h; cases h
  | load v f =>
    rw [hq] at h hk
    simp only [goStep, Option.some.injEq] at h; subst h
    exact ⟨hi.pend, hi.edges, hi.inited, hi.dst, task_below hi t _ (hk _ _ _ (hi.dst v))⟩
  | run v q =>
    rw [hq] at h hk
    cases q with
    | done =>
      simp only [goStep, Option.some.injEq] at h; subst h
      exact ⟨hi.pend, hi.edges, hi.inited, hi.dst, task_below hi t _ trivial⟩
    | post w m k =>
      simp only [goStep] at h
      split at h
      · simp only [Option.some.injEq] at h; subst h
        exact ⟨hi.pend, hi.edges, hi.inited, hi.dst, task_below hi t _ hk⟩
      · simp only [Option.some.injEq] at h; subst h
        exact ⟨hi.pend, hi.edges, hi.inited, hi.dst, task_below hi t _ (hk.2 false)⟩
    | send w x k =>
      simp only [goStep, Option.some.injEq] at h; subst h
      exact ⟨hi.pend, hi.edges, hi.inited, hi.dst, task_below hi t _ hk⟩
  | cas v w k =>
    rw [hq] at h hk
    simp only [goStep] at h
    split at h
    · simp only [Option.some.injEq] at h; subst h
      exact ⟨hi.pend, hi.edges, hi.inited, hi.dst, task_below hi t _ ⟨hk.1, hk.2 true⟩⟩
    · simp only [Option.some.injEq] at h; subst h
      exact ⟨hi.pend, hi.edges, hi.inited, hi.dst, task_below hi t _ (hk.2 false)⟩
  | put v w x k =>
    rw [hq] at h hk
    simp only [goStep, Option.some.injEq] at h; subst h
    exact ⟨upd_above hi.pend hk.1, hi.edges, hi.inited, hi.dst, task_below hi t _ hk.2⟩

theorem supp_step {a : Alg P M N E} {c : Cfg M N} {n : Nat} (ha : Local a n) {s s' : St P M N E} {x : Act E} (hx : x.below n = true) (hi : Supp n s) (h : step a c s x = some s') : Supp n s' := by
  cases x with
  | init t v =>
    have hv : v < n := of_decide_eq_true hx
    simp only [step] at h
    split at h
    · split at h
      · split at h
        · simp only [Option.some.injEq] at h; subst h
          exact ⟨hi.pend, hi.edges, upd_above hi.inited hv, hi.dst, task_below hi t _ (fun p es m he => ha.upd _ _ _ _ _ _ he)⟩
        · simp only [Option.some.injEq] at h; subst h
          exact ⟨hi.pend, hi.edges, upd_above hi.inited hv, hi.dst, hi.task⟩
      · simp only [Option.some.injEq] at h; subst h
        exact ⟨hi.pend, hi.edges, upd_above hi.inited hv, hi.dst, task_below hi t _ ⟨hv, trivial⟩⟩
      · simp only [Option.some.injEq] at h; subst h
        exact ⟨hi.pend, hi.edges, upd_above hi.inited hv, hi.dst, hi.task⟩
    · cases h
  | recv t v i =>
    simp only [step] at h
    split at h
    · cases hp : (s.pend v)[i]? with
      | none => rw [hp] at h; cases h
      | some y =>
        rw [hp] at h
        simp only [Option.some.injEq] at h; subst h
        refine ⟨?_, hi.edges, hi.inited, hi.dst, task_below hi t _ (fun p es m he => ha.upd _ _ _ _ _ _ he)⟩
        intro u hu
        by_cases e : u = v
        · subst e; rw [hi.pend u hu] at hp; simp at hp
        · show upd s.pend v _ u = []
          rw [upd_ne _ _ e]; exact hi.pend u hu
    · cases h
  | add t v es =>
    simp only [Act.below, Bool.and_eq_true, decide_eq_true_eq, List.all_eq_true] at hx
    simp only [step] at h
    split at h
    · simp only [Option.some.injEq] at h; subst h
      refine ⟨hi.pend, upd_above hi.edges hx.1, hi.inited, ?_, task_below hi t _ (fun p es m he => ha.add _ _ _ _ _ he)⟩
      intro u e he
      have he' : e ∈ upd s.edges v (s.edges v ++ es) u := he
      by_cases eu : u = v
      · subst eu
        rw [upd_same] at he'
        rcases List.mem_append.1 he' with h | h
        · exact hi.dst u e h
        · exact hx.2 e h
      · rw [upd_ne _ _ eu] at he'; exact hi.dst u e he'
    · cases h
  | del t v keep =>
    have hv : v < n := of_decide_eq_true hx
    simp only [step] at h
    split at h
    · simp only [Option.some.injEq] at h; subst h
      refine ⟨hi.pend, upd_above hi.edges hv, hi.inited, ?_, task_below hi t _ (fun p es m he => ha.del _ _ _ _ _ he ?_)⟩
      · intro u e he
        have he' : e ∈ upd s.edges v (select keep (s.edges v)).1 u := he
        by_cases eu : u = v
        · subst eu
          rw [upd_same] at he'
          exact hi.dst u e (mem_select e _ _ (.inl he'))
        · rw [upd_ne _ _ eu] at he'; exact hi.dst u e he'
      · intro e he
        exact hi.dst v e (mem_select e _ _ (.inr he))
    · cases h
  | go t =>
    simp only [step] at h
    split at h
    · exact supp_go hi h
    · cases h

theorem supp_run {a : Alg P M N E} {c : Cfg M N} {n : Nat} (ha : Local a n) : ∀ {xs : List (Act E)} {s s' : St P M N E},
    xs.all (Act.below n) = true → Supp n s → run a c s xs = some s' → Supp n s'
  | [], s, s', _, hi, h => by simp only [run, Option.some.injEq] at h; exact h ▸ hi
  | x :: xs, s, s', hx, hi, h => by
    simp only [run] at h
    obtain ⟨s1, h1, h2⟩ := Option.bind_eq_some_iff.1 h
    simp only [List.all_cons, Bool.and_eq_true] at hx
    exact supp_run ha hx.2 (supp_step ha hx.1 hi h1) h2

/-- The thread is idle. -/
def Task.isIdle : Task P M N E → Bool
  | .idle => true
  | _ => false

/-- `Quiet`, looking at finitely many vertices. -/
def quietBelow (c : Cfg M N) (n : Nat) (s : St P M N E) : Bool :=
  (List.range c.T).all (fun t => (s.task t).isIdle) && (List.range n).all fun v => (s.pend v).isEmpty

theorem quiet_of_below {c : Cfg M N} {n : Nat} {s : St P M N E} (hs : Supp n s) (h : quietBelow c n s = true) : Quiet c s := by
  unfold quietBelow at h
  simp only [Bool.and_eq_true, List.all_eq_true, List.mem_range] at h
  refine ⟨?_, ?_⟩
  · intro t ht
    have := h.1 t ht
    cases hk : s.task t with
    | idle => rfl
    | load _ _ => rw [hk] at this; cases this
    | run _ _ => rw [hk] at this; cases this
    | cas _ _ _ => rw [hk] at this; cases this
    | put _ _ _ _ => rw [hk] at this; cases this
  · intro v
    by_cases hv : v < n
    · exact List.isEmpty_iff.1 (h.2 v hv)
    · exact hs.pend v (by omega)

/-- The same with a graph loaded before. -/
theorem exists_quiet_loaded {a : Alg P M N E} {c : Cfg M N} {n : Nat} (ha : Local a n) (es0 : Nat → List (Edge E)) (h1 : ∀ v, n ≤ v → es0 v = []) (h2 : ∀ v e, e ∈ es0 v → e.dst < n)
    {xs : List (Act E)} (hx : xs.all (Act.below n) = true) (f : St P M N E → Bool) (h : (run a c (start a es0) xs).map (fun s => quietBelow c n s && f s) = some true) :
    ∃ s, run a c (start a es0) xs = some s ∧ Quiet c s ∧ Supp n s ∧ f s = true := by
  obtain ⟨s, hs, h⟩ := Option.map_eq_some_iff.1 h
  rw [Bool.and_eq_true] at h
  have hsup := supp_run ha hx (supp_loaded a n es0 h1 h2) hs
  exact ⟨s, hs, quiet_of_below hsup h.1, hsup, h.2⟩

/-- A concrete run that ends quietly, from what can be computed. -/
theorem exists_quiet {a : Alg P M N E} {c : Cfg M N} {n : Nat} (ha : Local a n) {xs : List (Act E)} (hx : xs.all (Act.below n) = true) (f : St P M N E → Bool)
    (h : (run a c (start a) xs).map (fun s => quietBelow c n s && f s) = some true) :
    ∃ s, run a c (start a) xs = some s ∧ Quiet c s ∧ Supp n s ∧ f s = true := by
  obtain ⟨s, hs, h⟩ := Option.map_eq_some_iff.1 h
  rw [Bool.and_eq_true] at h
  have hsup := supp_run ha hx (supp_start a n) hs
  exact ⟨s, hs, quiet_of_below hsup h.1, hsup, h.2⟩

/-- Mailboxes of untouched vertices stay empty. -/
theorem inbox_above_step {a : Alg P M N E} {c : Cfg M N} {n : Nat} (hr : ∀ p, (a.retrieve a.newM p).1 = a.newM) {s s' : St P M N E} {x : Act E} (hx : x.below n = true)
    (hs : Supp n s) (hi : ∀ v, n ≤ v → s.inbox v = a.newM) (h : step a c s x = some s') : ∀ v, n ≤ v → s'.inbox v = a.newM := by
  cases x with
  | init t v =>
    have hv : v < n := of_decide_eq_true hx
    simp only [step] at h
    split at h
    · split at h
      · split at h <;> (simp only [Option.some.injEq] at h; subst h; exact upd_above hi hv)
      · simp only [Option.some.injEq] at h; subst h; exact hi
      · simp only [Option.some.injEq] at h; subst h; exact hi
    · cases h
  | recv t v i =>
    simp only [step] at h
    split at h
    · split at h
      · cases h
      · simp only [Option.some.injEq] at h; subst h; exact hi
    · cases h
  | add t v es =>
    simp only [step] at h
    split at h
    · simp only [Option.some.injEq] at h; subst h; exact hi
    · cases h
  | del t v keep =>
    simp only [step] at h
    split at h
    · simp only [Option.some.injEq] at h; subst h; exact hi
    · cases h
  | go t =>
    simp only [step] at h
    split at h
    · have hb := hs.task t
      cases hk : s.task t with
      | idle => rw [hk] at h; cases h
      | load v f =>
        rw [hk] at h; simp only [goStep, Option.some.injEq] at h; subst h
        intro u hu
        show upd s.inbox v _ u = _
        by_cases e : u = v
        · rw [e, upd_same, hi v (e ▸ hu)]; exact hr _
        · rw [upd_ne _ _ e]; exact hi u hu
      | run v q =>
        rw [hk] at h hb
        cases q with
        | done => simp only [goStep, Option.some.injEq] at h; subst h; exact hi
        | post w m k => simp only [goStep] at h; split at h <;> (simp only [Option.some.injEq] at h; subst h; exact upd_above hi hb.1)
        | send w y k => simp only [goStep, Option.some.injEq] at h; subst h; exact hi
      | cas v w k => rw [hk] at h; simp only [goStep] at h; split at h <;> (simp only [Option.some.injEq] at h; subst h; exact hi)
      | put v w y k => rw [hk] at h; simp only [goStep, Option.some.injEq] at h; subst h; exact hi
    · cases h

/-- A test in every state of a run. -/
def okRun (a : Alg P M N E) (c : Cfg M N) (f : St P M N E → Bool) : St P M N E → List (Act E) → Bool
  | s, [] => f s
  | s, x :: xs => f s && match step a c s x with
    | none => true
    | some s' => okRun a c f s' xs

theorem okRun_inbox {a : Alg P M N E} {c : Cfg M N} {n : Nat} (ha : Local a n) (hr : ∀ p, (a.retrieve a.newM p).1 = a.newM) (q : M → Bool) (hq : q a.newM = true) :
    ∀ {xs : List (Act E)} {s : St P M N E}, xs.all (Act.below n) = true → Supp n s → (∀ v, n ≤ v → s.inbox v = a.newM) →
    okRun a c (fun s => (List.range n).all fun v => q (s.inbox v)) s xs = true → ∀ ys zs s', xs = ys ++ zs → run a c s ys = some s' → ∀ v, q (s'.inbox v) = true := by
  intro xs s hx hs hi hok ys
  induction ys generalizing xs s with
  | nil =>
    intro zs s' he h v
    simp only [run, Option.some.injEq] at h
    subst h
    by_cases hv : v < n
    · have : ((List.range n).all fun v => q (s.inbox v)) = true := by
        cases xs with
        | nil => exact hok
        | cons x xs => simp only [okRun, Bool.and_eq_true] at hok; exact hok.1
      exact List.all_eq_true.1 this v (List.mem_range.2 hv)
    · rw [hi v (by omega)]; exact hq
  | cons y ys ih =>
    intro zs s' he h
    subst he
    simp only [run] at h
    obtain ⟨s1, h1, h2⟩ := Option.bind_eq_some_iff.1 h
    simp only [List.cons_append, okRun, Bool.and_eq_true] at hok
    simp only [List.cons_append, List.all_cons, Bool.and_eq_true] at hx
    have hok2 := hok.2
    rw [h1] at hok2
    exact ih hx.2 (supp_step ha hx.1 hs h1) (inbox_above_step hr hx.1 hs hi h1) hok2 zs s' rfl h2

theorem below_postAll {n : Nat} {k : Bool → Prog M N} (hk : ∀ b, (k b).Below n) : ∀ (ws : List (Nat × M)) (b : Bool), (∀ w ∈ ws, w.1 < n) → (MinLabel.postAll ws b k).Below n
  | [], b, _ => hk b
  | w :: ws, b, h => ⟨h w (by simp), fun b' => below_postAll hk ws _ fun x hx => h x (by simp [hx])⟩

end Verif.Async

namespace Verif.MinLabel

open Verif.Async

theorem minAlg_local {L E : Type} [LinearOrder L] [OrderTop L] (f : E → L → L) (g : Bool) (n : Nat) : Local (minAlg f g) n := by
  have hmap : ∀ (es : List (Edge E)) (x : L), (∀ e ∈ es, e.dst < n) → ∀ w ∈ es.map (fun e => (e.dst, f e.data x)), w.1 < n := by
    intro es x h w hw
    obtain ⟨e, he, rfl⟩ := List.mem_map.1 hw
    exact h e he
  have hdone : ∀ b : Bool, ((fun _ : Bool => (.done : Prog L Unit)) b).Below n := fun _ => trivial
  refine ⟨?_, ?_, ?_⟩
  · intro v p es x i m he
    simp only [minAlg]
    split
    · trivial
    · exact below_postAll hdone _ _ (hmap es m he)
  · intro v p es i m he
    have hk : ∀ (q : L) (b : Bool), (if b = true then (.done : Prog L Unit) else if g = true → q < ⊤ then postAll ((es.drop i).map fun e => (e.dst, f e.data q)) false fun _ => .done else .done).Below n := by
      intro q b
      by_cases hb : b = true
      · rw [if_pos hb]; trivial
      · rw [if_neg hb]
        by_cases hg : g = true → q < ⊤
        · rw [if_pos hg]
          exact below_postAll hdone _ _ (hmap _ _ fun e h => he e (List.mem_of_mem_drop h))
        · rw [if_neg hg]; trivial
    simp only [minAlg]
    split
    · exact hk p false
    · exact below_postAll (hk _) _ _ (hmap es m he)
  · intro v p es ds m _ _; trivial

end Verif.MinLabel
