import Verif.Props.Query

/-!
# A query can always be answered (C60)

From every reachable state the run can be continued so that the query under way is answered: no thread, nor
`LogTimeSeries`, nor `QueryFinishConcurrent` waits for something that cannot happen any more.
-/

namespace Verif.Query

/-- A step that is not up to the stream. -/
def Act.inner : Act → Bool
  | .emit | .grow _ | .query | .close => false
  | _ => true

/-- `s'` can be reached from `s` without help from the stream. -/
def Reach (c : Cfg) (s s' : St) : Prop := ∃ ys, run c s ys = some s' ∧ ∀ y ∈ ys, y.inner = true

theorem run_append {c : Cfg} (xs ys : List Act) : ∀ {s s' s''}, run c s xs = some s' → run c s' ys = some s'' → run c s (xs ++ ys) = some s'' := by
  induction xs with
  | nil => intro s s' s'' h1 h2; simp only [run, Option.some.injEq] at h1; subst h1; exact h2
  | cons x xs ih =>
    intro s s' s'' h1 h2
    simp only [List.cons_append, run] at h1 ⊢
    cases hs : step c s x with
    | none => rw [hs] at h1; cases h1
    | some s1 => rw [hs] at h1; exact ih h1 h2

theorem Reach.refl (c : Cfg) (s : St) : Reach c s s := ⟨[], rfl, by simp⟩
theorem Reach.trans {c : Cfg} {s s' s'' : St} (h1 : Reach c s s') (h2 : Reach c s' s'') : Reach c s s'' := by
  obtain ⟨xs, h1, g1⟩ := h1; obtain ⟨ys, h2, g2⟩ := h2
  refine ⟨xs ++ ys, run_append xs ys h1 h2, fun y hy => ?_⟩
  rcases List.mem_append.1 hy with h | h
  · exact g1 y h
  · exact g2 y h
theorem Reach.one {c : Cfg} {s s' : St} (x : Act) (h : step c s x = some s') (hx : x.inner = true := by rfl) : Reach c s s' :=
  ⟨[x], by simp [run, h], by simpa using hx⟩
theorem Reach.inv {c : Cfg} {s s' : St} (h : Reach c s s') (hi : Inv c s) : Inv c s' := by
  obtain ⟨xs, h, _⟩ := h; exact inv_run xs s hi s' h

/-! ## `LogTimeSeries` after the acknowledgements -/

theorem reach_resume {c : Cfg} (n : Nat) : ∀ {s : St} {i : Nat}, Inv c s → s.ctl = .resume i → c.T - i ≤ n → ∃ s', Reach c s s' ∧ s'.ctl = .idle := by
  induction n with
  | zero =>
    intro s i hi hk hn
    exact ⟨{ s with ctl := .idle, waiting := false }, .one .ctl (by simp only [step, ctlStep, hk, if_neg (show ¬ i < c.T by omega)]), rfl⟩
  | succ n ih =>
    intro s i hi hk hn
    by_cases ht : i < c.T
    · have hr := hi.role i ht
      simp only [Role, hk] at hr
      have hs : step c s .ctl = some { s with cmd := upd s.cmd i (some .resume), ctl := .resume (i + 1) } := by
        simp only [step, ctlStep, hk, if_pos ht, if_pos (hr.2 (Nat.le_refl _)).2.1]
      obtain ⟨s', h1, h2⟩ := ih (inv_step hi hs) rfl (by omega)
      exact ⟨s', .trans (.one _ hs) h1, h2⟩
    · exact ⟨{ s with ctl := .idle, waiting := false }, .one .ctl (by simp only [step, ctlStep, hk, if_neg ht]), rfl⟩

theorem reach_reset {c : Cfg} {s : St} (hi : Inv c s) (hk : s.ctl = .reset) : ∃ s', Reach c s s' ∧ s'.ctl = .idle := by
  have hs : step c s .ctl = some { s with ready := fun _ => false, quiet := false, ctl := .resume 0 } := by
    simp only [step, ctlStep, hk]
  obtain ⟨s', h1, h2⟩ := reach_resume _ (inv_step hi hs) rfl (Nat.le_refl _)
  exact ⟨s', .trans (.one _ hs) h1, h2⟩

theorem reach_finish {c : Cfg} (n : Nat) : ∀ {s : St} {i : Nat} {b : Bool} {q : Nat}, s.fin = some (i, b, q) → c.T - i ≤ n →
    ∃ s', Reach c s s' ∧ s'.fin = none ∧ s'.ctl = s.ctl := by
  induction n with
  | zero =>
    intro s i b q hk hn
    have hs : ∃ l, step c s .finish = some { s with log := l, fin := none } :=
      ⟨_, by simp only [step, finishStep, hk, if_neg (show ¬ i < c.T by omega)]; rfl⟩
    obtain ⟨l, hs⟩ := hs
    exact ⟨_, .one .finish hs, rfl, rfl⟩
  | succ n ih =>
    intro s i b q hk hn
    by_cases ht : i < c.T
    · have hs : step c s .finish = some { s with fpart := upd s.fpart i (s.applied i, s.prop i), fin := some (i + 1, b, q) } := by
        simp only [step, finishStep, hk, if_pos ht]
      obtain ⟨s', h1, h2, h3⟩ := ih (s := { s with fpart := upd s.fpart i (s.applied i, s.prop i), fin := some (i + 1, b, q) }) rfl (by omega)
      exact ⟨s', .trans (.one _ hs) h1, h2, h3⟩
    · have hs : ∃ l, step c s .finish = some { s with log := l, fin := none } := ⟨_, by simp only [step, finishStep, hk, if_neg ht]; rfl⟩
      obtain ⟨l, hs⟩ := hs
      exact ⟨_, .one .finish hs, rfl, rfl⟩

theorem reach_hand {c : Cfg} {s : St} (hi : Inv c s) (hk : s.ctl = .hand) : ∃ s', Reach c s s' ∧ s'.ctl = .idle := by
  have : ∃ s1, Reach c s s1 ∧ s1.fin = none ∧ s1.ctl = .hand := by
    cases hf : s.fin with
    | none => exact ⟨s, .refl _ _, hf, hk⟩
    | some f =>
      obtain ⟨i, b, q⟩ := f
      obtain ⟨s', h1, h2, h3⟩ := reach_finish _ hf (Nat.le_refl _)
      exact ⟨s', h1, h2, h3.trans hk⟩
  obtain ⟨s1, h1, h2, h3⟩ := this
  have hs : step c s1 .ctl = some { s1 with fin := some (0, s1.cur, s1.emitted), cur := !s1.cur, ctl := .reset } := by
    simp only [step, ctlStep, h3, h2, if_true]
  obtain ⟨s', h4, h5⟩ := reach_reset (inv_step (h1.inv hi) hs) rfl
  exact ⟨s', .trans h1 (.trans (.one _ hs) h4), h5⟩

theorem reach_view {c : Cfg} (n : Nat) : ∀ {s : St} {i : Nat}, Inv c s → s.ctl = .view i → c.T - i ≤ n → ∃ s', Reach c s s' ∧ s'.ctl = .idle := by
  have hend : ∀ {s : St} {i : Nat}, Inv c s → s.ctl = .view i → ¬ i < c.T → ∃ s', Reach c s s' ∧ s'.ctl = .idle := by
    intro s i hi hk hn
    cases hf : c.mustFinish with
    | true =>
      have hs : step c s .ctl = some { s with ctl := .hand } := by simp only [step, ctlStep, hk, if_neg hn, hf, if_true]
      obtain ⟨s', h1, h2⟩ := reach_hand (inv_step hi hs) rfl
      exact ⟨s', .trans (.one _ hs) h1, h2⟩
    | false =>
      have hs : ∃ l, step c s .ctl = some { s with log := l, ctl := .reset } := ⟨_, by simp only [step, ctlStep, hk, if_neg hn, hf]; rfl⟩
      obtain ⟨l, hs⟩ := hs
      obtain ⟨s', h1, h2⟩ := reach_reset (inv_step hi hs) rfl
      exact ⟨s', .trans (.one _ hs) h1, h2⟩
  induction n with
  | zero => intro s i hi hk hn; exact hend hi hk (by omega)
  | succ n ih =>
    intro s i hi hk hn
    by_cases ht : i < c.T
    · have hs : ∃ p b, step c s .ctl = some { s with part := p, buf := b, ctl := .view (i + 1) } := ⟨_, _, by simp only [step, ctlStep, hk, if_pos ht]; rfl⟩
      obtain ⟨p, b, hs⟩ := hs
      obtain ⟨s', h1, h2⟩ := ih (inv_step hi hs) rfl (by omega)
      exact ⟨s', .trans (.one _ hs) h1, h2⟩
    · exact hend hi hk ht

/-! ## Threads -/

/-- Only thread `u` has done something, without sending notifications. -/
structure Frame (u : Nat) (s s' : St) : Prop where
  ctl : s'.ctl = s.ctl
  quiet : s'.quiet = s.quiet
  pc : ∀ v, v ≠ u → s'.pc v = s.pc v
  cmd : ∀ v, v ≠ u → s'.cmd v = s.cmd v
  resp : ∀ v, v ≠ u → s'.resp v = s.resp v
  notes : ∀ v, v ≠ u → s'.notes v = s.notes v
  ready : ∀ v, v ≠ u → s'.ready v = s.ready v

theorem Frame.refl (u : Nat) (s : St) : Frame u s s := ⟨rfl, rfl, fun _ _ => rfl, fun _ _ => rfl, fun _ _ => rfl, fun _ _ => rfl, fun _ _ => rfl⟩
theorem Frame.trans {u : Nat} {s s' s'' : St} (h1 : Frame u s s') (h2 : Frame u s' s'') : Frame u s s'' :=
  ⟨h2.ctl.trans h1.ctl, h2.quiet.trans h1.quiet, fun v hv => (h2.pc v hv).trans (h1.pc v hv), fun v hv => (h2.cmd v hv).trans (h1.cmd v hv),
   fun v hv => (h2.resp v hv).trans (h1.resp v hv), fun v hv => (h2.notes v hv).trans (h1.notes v hv), fun v hv => (h2.ready v hv).trans (h1.ready v hv)⟩

theorem frame_step {c : Cfg} {s s' : St} {x : Act} {u : Nat} (hx : x.thread = some u)
    (ho : ∀ t k out, (x = .topology t k out ∨ x = .alg t k out) → out = []) (hn : ∀ t, x ≠ .complete t) (h : step c s x = some s') : Frame u s s' := by
  cases x <;> simp only [Act.thread, Option.some.injEq, reduceCtorEq] at hx <;> subst hx
  case complete => exact absurd rfl (hn _)
  case topology t k out =>
    have := ho t k out (.inl rfl)
    subst this
    query_cases h <;> constructor <;> intros <;> simp [upd, deliver, *]
  case alg t k out =>
    have := ho t k out (.inr rfl)
    subst this
    query_cases h <;> constructor <;> intros <;> simp [upd, deliver, *] <;> split <;> simp [upd, *]
  all_goals query_cases h
  all_goals constructor
  all_goals intros
  all_goals simp [upd, *]

/-- Reached by steps of thread `u` that send nothing. -/
def ReachBy (c : Cfg) (u : Nat) (s s' : St) : Prop := Reach c s s' ∧ Frame u s s'

theorem ReachBy.refl (c : Cfg) (u : Nat) (s : St) : ReachBy c u s s := ⟨.refl _ _, .refl _ _⟩
theorem ReachBy.trans {c : Cfg} {u : Nat} {s s' s'' : St} (h1 : ReachBy c u s s') (h2 : ReachBy c u s' s'') : ReachBy c u s s'' :=
  ⟨h1.1.trans h2.1, h1.2.trans h2.2⟩
theorem ReachBy.one {c : Cfg} {u : Nat} {s s' : St} (x : Act) (hx : x.thread = some u)
    (ho : ∀ t k out, (x = .topology t k out ∨ x = .alg t k out) → out = []) (hn : ∀ t, x ≠ .complete t) (h : step c s x = some s') :
    ReachBy c u s s' :=
  ⟨.one x h (by cases x <;> simp [Act.thread] at hx <;> rfl), frame_step hx ho hn h⟩

/-- The thread's own part of the state that commands act on. -/
def SameCmd (u : Nat) (s s' : St) : Prop :=
  s'.cmd u = s.cmd u ∧ s'.resp u = s.resp u ∧ s'.epoch u = s.epoch u ∧ s'.blockTop u = s.blockTop u

theorem SameCmd.trans {u : Nat} {s s' s'' : St} (h1 : SameCmd u s s') (h2 : SameCmd u s' s'') : SameCmd u s s'' :=
  ⟨h2.1.trans h1.1, h2.2.1.trans h1.2.1, h2.2.2.1.trans h1.2.2.1, h2.2.2.2.trans h1.2.2.2⟩

/-- From `alg` to the top of the loop. -/
theorem alg_top {c : Cfg} {s : St} {u : Nat} (hu : u < c.T) (hp : s.pc u = .alg) :
    ∃ s', ReachBy c u s s' ∧ s'.pc u = .top ∧ SameCmd u s s' ∧ s'.queue u = s.queue u ∧ s'.notes u = 0 ∧
      (s.notes u = 0 → votes s u = true → s'.ready u = true) := by
  by_cases hn : s.notes u = 0
  · have hs : step c s (.alg u 0 []) = some { s with ready := if votes s u then upd s.ready u true else s.ready, pc := upd s.pc u .top } := by
      simp [step, hu, hp]
    refine ⟨_, .one (.alg u 0 []) rfl (by simp) (by simp) hs, by simp, ⟨rfl, rfl, rfl, rfl⟩, rfl, hn, fun _ ht => ?_⟩
    simp [ht]
  · have hs : step c s (.alg u (s.notes u) []) = some { s with
        notes := deliver (upd s.notes u (s.notes u - s.notes u)) [], prop := upd s.prop u (s.prop u + s.notes u), pc := upd s.pc u .top } := by
      simp [step, hu, hp, hn]
    refine ⟨_, .one (.alg u (s.notes u) []) rfl (by simp) (by simp) hs, by simp, ⟨rfl, rfl, rfl, rfl⟩, rfl, by simp [deliver], fun h => absurd h hn⟩

/-- From `tops` on. -/
theorem tops_on {c : Cfg} {s : St} {u : Nat} (hu : u < c.T) (hp : s.pc u = .tops) :
    ∃ s', ReachBy c u s s' ∧ SameCmd u s s' ∧ s'.notes u = s.notes u ∧
      ((s'.pc u = .top ∧ s'.queue u = []) ∨ (s'.pc u = .alg ∧ s'.queue u = s.queue u ∧
        (s.strucClosed u = false → s.blockTop u = false → s'.queue u = [] ∧ s'.topZero u = true))) := by
  by_cases hg : s.strucClosed u = false ∧ s.blockTop u = false
  · by_cases hq : s.queue u = []
    · have hs : step c s (.topology u 0 []) = some { s with topZero := upd s.topZero u true, strucClosed := upd s.strucClosed u s.closed, pc := upd s.pc u .alg } := by
        simp [step, hu, hp, hg, hq]
      exact ⟨_, .one (.topology u 0 []) rfl (by simp) (by simp) hs, ⟨rfl, rfl, rfl, rfl⟩, rfl, .inr ⟨by simp, rfl, fun _ _ => ⟨hq, by simp⟩⟩⟩
    · have hl : (s.queue u).length ≠ 0 := by simpa using hq
      have hs : step c s (.topology u (s.queue u).length []) = some { s with
          applied := upd s.applied u (s.applied u ++ (s.queue u).take (s.queue u).length), queue := upd s.queue u ((s.queue u).drop (s.queue u).length),
          prop := upd s.prop u (s.prop u + (s.queue u).length), notes := deliver s.notes [], topZero := upd s.topZero u false,
          pc := upd s.pc u .top } := by
        simp only [step, hu, hp, hg, hl, and_self, if_true, if_false, Nat.le_refl]
      exact ⟨_, .one (.topology u _ []) rfl (by simp) (by simp) hs, ⟨rfl, rfl, rfl, rfl⟩, by simp [deliver], .inl ⟨by simp, by simp⟩⟩
  · have hs : step c s (.topology u 0 []) = some { s with pc := upd s.pc u .alg } := by
      simp only [step, hu, hp, hg, and_self, if_true, if_false]
    refine ⟨_, .one (.topology u 0 []) rfl (by simp) (by simp) hs, ⟨rfl, rfl, rfl, rfl⟩, rfl, .inr ⟨by simp, rfl, fun h1 h2 => absurd ⟨h1, h2⟩ hg⟩⟩

/-- From `body` on. -/
theorem body_on {c : Cfg} {s : St} {u : Nat} (hu : u < c.T) (hp : s.pc u = .body) :
    ∃ s', ReachBy c u s s' ∧ SameCmd u s s' ∧ s'.notes u = s.notes u ∧ s'.pc u = .tops ∧ s'.queue u = s.queue u ∧
      s'.strucClosed u = s.strucClosed u := by
  by_cases hg : s.epoch u = false ∧ s.remitClosed u = false ∧ s.blockTop u = false
  · have hs : step c s (.remit u 0 false) = some { s with remits := upd s.remits u (s.remits u + 0), remitClosed := upd s.remitClosed u false, pc := upd s.pc u .tops } := by
      simp only [step, hu, hp, hg, and_self, if_true]
    exact ⟨_, .one (.remit u 0 false) rfl (by simp) (by simp) hs, ⟨rfl, rfl, rfl, rfl⟩, rfl, by simp, rfl, rfl⟩
  · have hs : step c s (.remit u 0 false) = some { s with pc := upd s.pc u .tops } := by
      simp only [step, hu, hp, hg, and_self, if_true, if_false]
    exact ⟨_, .one (.remit u 0 false) rfl (by simp) (by simp) hs, ⟨rfl, rfl, rfl, rfl⟩, rfl, by simp, rfl, rfl⟩

/-- A thread in its loop can get to the top of it. -/
theorem to_top {c : Cfg} {s : St} {u : Nat} (hu : u < c.T) (hp : normal (s.pc u) = true) :
    ∃ s', ReachBy c u s s' ∧ SameCmd u s s' ∧ s'.pc u = .top ∧ (s.notes u = 0 → s'.notes u = 0) := by
  have htops : ∀ s, s.pc u = .tops → ∃ s', ReachBy c u s s' ∧ SameCmd u s s' ∧ s'.pc u = .top ∧ (s.notes u = 0 → s'.notes u = 0) := by
    intro s hp
    obtain ⟨s1, h1, h2, hn, h3⟩ := tops_on hu hp
    rcases h3 with h3 | h3
    · exact ⟨s1, h1, h2, h3.1, fun h => hn.trans h⟩
    · obtain ⟨s2, g1, g2, g3, _, g4, _⟩ := alg_top hu h3.1
      exact ⟨s2, h1.trans g1, h2.trans g3, g2, fun _ => g4⟩
  cases hk : s.pc u <;> simp only [hk, normal, reduceCtorEq] at hp
  · exact ⟨s, .refl _ _ _, ⟨rfl, rfl, rfl, rfl⟩, hk, id⟩
  · obtain ⟨s1, h1, h2, hn, h3, _⟩ := body_on hu hk
    obtain ⟨s2, g1, g2, g3, g4⟩ := htops s1 h3
    exact ⟨s2, h1.trans g1, h2.trans g2, g3, fun h => g4 (hn.trans h)⟩
  · exact htops s hk
  · obtain ⟨s2, g1, g2, g3, _, g4, _⟩ := alg_top hu hk
    exact ⟨s2, g1, g3, g2, fun _ => g4⟩

/-! ## Taking the commands -/

/-- A thread that has been sent `RESUME` can take it. -/
theorem take_resume {c : Cfg} {s : St} {u : Nat} (hu : u < c.T) (hc : s.cmd u = some .resume) (hs : Stuck c s u) :
    ∃ s', ReachBy c u s s' ∧ s'.cmd u = none := by
  simp only [Stuck] at hs
  cases hm : c.mode <;> simp only [hm] at hs
  · have h : step c s (.wake u) = some { s with cmd := upd s.cmd u none, epoch := upd s.epoch u false, pc := upd s.pc u .top } := by
      simp [step, hu, hc, hs]
    exact ⟨_, .one (.wake u) rfl (by simp) (by simp) h, by simp⟩
  · have h : step c s (.wake u) = some { s with cmd := upd s.cmd u none, pc := upd s.pc u .body } := by
      simp [step, hu, hc, hs]
    exact ⟨_, .one (.wake u) rfl (by simp) (by simp) h, by simp⟩
  · obtain ⟨s1, h1, h2, h3, _⟩ := to_top hu hs.1
    have h : step c s1 (.poll u) = some { s1 with cmd := upd s1.cmd u none, blockTop := upd s1.blockTop u false, pc := upd s1.pc u .body } := by
      simp [step, pollStep, hu, h2.1.trans hc, h3]
    exact ⟨_, h1.trans (.one (.poll u) rfl (by simp) (by simp) h), by simp⟩

theorem reach_send {c : Cfg} (n : Nat) : ∀ {s : St} {i : Nat}, Inv c s → s.ctl = .send i → c.T - i ≤ n → ∃ s', Reach c s s' ∧ s'.ctl = .await 0 := by
  induction n with
  | zero =>
    intro s i hi hk hn
    exact ⟨{ s with ctl := .await 0 }, .one .ctl (by simp only [step, ctlStep, hk, if_neg (show ¬ i < c.T by omega)]), rfl⟩
  | succ n ih =>
    intro s i hi hk hn
    by_cases ht : i < c.T
    · have : ∃ s1, Reach c s s1 ∧ s1.cmd i = none ∧ s1.ctl = .send i := by
        have hr := hi.role i ht
        simp only [Role, hk] at hr
        rcases (hr.2 (Nat.le_refl _)).2 with hf | hf
        · exact ⟨s, .refl _ _, hf.1, hk⟩
        · obtain ⟨s1, h1, h2⟩ := take_resume ht hf.1 hf.2
          exact ⟨s1, h1.1, h2, h1.2.ctl.trans hk⟩
      obtain ⟨s1, h1, h2, h3⟩ := this
      have hs : step c s1 .ctl = some { s1 with cmd := upd s1.cmd i (some .ask), ctl := .send (i + 1) } := by
        simp only [step, ctlStep, h3, if_pos ht, if_pos h2]
      obtain ⟨s', h4, h5⟩ := ih (inv_step (h1.inv hi) hs) rfl (by omega)
      exact ⟨s', h1.trans (.trans (.one _ hs) h4), h5⟩
    · exact ⟨{ s with ctl := .await 0 }, .one .ctl (by simp only [step, ctlStep, hk, if_neg ht]), rfl⟩

/-! ## The acknowledgements -/

theorem ReachBy.inv {c : Cfg} {u : Nat} {s s' : St} (h : ReachBy c u s s') (hi : Inv c s) : Inv c s' := h.1.inv hi

/-- A thread whose acknowledgement is awaited. -/
theorem awaited {c : Cfg} {s : St} {i u : Nat} (hi : Inv c s) (hk : s.ctl = .await i) (hm : c.mode = .epoch) (hu : u < c.T) :
    s.closed = false ∧ s.strucClosed u = false ∧ s.blockTop u = false := by
  have h1 : s.closed = false := (before_wait hi.base (by rw [hk]; rfl)).2
  refine ⟨h1, ?_, ?_⟩
  · cases h : s.strucClosed u with
    | false => rfl
    | true => have := (hi.base.struc u h).1; rw [h1] at this; cases this
  · have hr := hi.role u hu
    simp only [Role, hk, Told, Held, Stuck, Pending, hm] at hr
    rcases Nat.lt_or_ge u i with h | h
    · exact (hr.1 h).2.2.2.2
    · rcases hr.2 h with h | h | h
      · exact h.2.2.2.2
      · exact h.2.2.2.2
      · exact h.2.2.2.2

/-- A thread in an epoch, from the top of the loop. -/
theorem poll_epoch {c : Cfg} {s : St} {u : Nat} (hu : u < c.T) (hp : s.pc u = .top) (hc : s.cmd u = none) :
    ∃ s', ReachBy c u s s' ∧ SameCmd u s s' ∧ s'.pc u = .body ∧ s'.notes u = s.notes u ∧ s'.queue u = s.queue u := by
  have h : step c s (.poll u) = some { s with pc := upd s.pc u .body } := by simp [step, pollStep, hu, hp, hc]
  exact ⟨_, .one (.poll u) rfl (by simp) (by simp) h, ⟨rfl, rfl, rfl, rfl⟩, by simp, rfl, rfl⟩

/-- A thread in an epoch can get to its check with nothing left in its topology queue. -/
theorem lap {c : Cfg} {s : St} {i u : Nat} (hm : c.mode = .epoch) (hi : Inv c s) (hk : s.ctl = .await i) (hu : u < c.T)
    (hp : s.pc u = .body) (hc : s.cmd u = none) :
    ∃ s', ReachBy c u s s' ∧ SameCmd u s s' ∧ s'.pc u = .alg ∧ s'.notes u = s.notes u ∧ s'.topZero u = true ∧ s'.queue u = [] := by
  have hdirect : ∀ s, Inv c s → s.ctl = .await i → s.pc u = .body → s.queue u = [] →
      ∃ s', ReachBy c u s s' ∧ SameCmd u s s' ∧ s'.pc u = .alg ∧ s'.notes u = s.notes u ∧ s'.topZero u = true ∧ s'.queue u = [] := by
    intro s hi hk hp hq
    obtain ⟨s1, h1, h2, h3, h4, h5, _⟩ := body_on hu hp
    obtain ⟨_, a2, a3⟩ := awaited (h1.inv hi) (h1.2.ctl.trans hk) hm hu
    have hs : step c s1 (.topology u 0 []) = some { s1 with topZero := upd s1.topZero u true, strucClosed := upd s1.strucClosed u s1.closed, pc := upd s1.pc u .alg } := by
      simp [step, hu, h4, a2, a3, h5.trans hq]
    exact ⟨_, h1.trans (.one (.topology u 0 []) rfl (by simp) (by simp) hs), h2.trans ⟨rfl, rfl, rfl, rfl⟩, by simp, h3, by simp, h5.trans hq⟩
  obtain ⟨s1, h1, h2, h3, h4, h5, _⟩ := body_on hu hp
  obtain ⟨s2, g1, g2, g3, g4⟩ := tops_on hu h4
  obtain ⟨_, a2, a3⟩ := awaited (h1.inv hi) (h1.2.ctl.trans hk) hm hu
  rcases g4 with g4 | g4
  · obtain ⟨s3, e1, e2, e3, e4, e5⟩ := poll_epoch hu g4.1 (g2.1.trans (h2.1.trans hc))
    have hr := h1.trans (g1.trans e1)
    obtain ⟨s4, d1, d2, d3, d4, d5⟩ := hdirect s3 (hr.inv hi) (hr.2.ctl.trans hk) e3 (e5.trans g4.2)
    exact ⟨s4, hr.trans d1, h2.trans (g2.trans (e2.trans d2)), d3, d4.trans (e4.trans (g3.trans h3)), d5⟩
  · exact ⟨s2, h1.trans g1, h2.trans g2, g4.1, g3.trans h3, (g4.2.2 a2 a3).2, (g4.2.2 a2 a3).1⟩

/-- A thread that was told to end the epoch can use up its events and notifications and make its check. -/
theorem settle {c : Cfg} {s : St} {u : Nat} (hm : c.mode = .epoch) (hi : Inv c s) (hk : s.ctl = .await 0) (hq : s.quiet = false) (hu : u < c.T) :
    ∃ s', ReachBy c u s s' ∧ s'.ready u = true ∧ s'.notes u = 0 := by
  have hr := hi.role u hu
  have hf := hi.conv.found u hu (by rw [hk]; rfl)
  simp only [Role, hk, Told, Stuck, Pending, hm] at hr
  have hr := hr.2 (Nat.zero_le _)
  -- into the loop, with the command taken
  have h0 : ∃ s1, ReachBy c u s s1 ∧ s1.pc u = .body ∧ s1.cmd u = none ∧ s1.epoch u = true := by
    rcases hr with h | h | h
    · obtain ⟨s1, h1, h2, h3, _⟩ := to_top hu h.2.2.1
      have hs : step c s1 (.poll u) = some { s1 with cmd := upd s1.cmd u none, epoch := upd s1.epoch u true, pc := upd s1.pc u .body } := by
        simp [step, pollStep, hu, h3, h2.1.trans h.2.1, hm]
      exact ⟨_, h1.trans (.one (.poll u) rfl (by simp) (by simp) hs), by simp, by simp, by simp⟩
    · obtain ⟨_, hc, hp, he, _⟩ := h
      rcases hp with hp | hp
      · obtain ⟨s1, h1, h2, h3, _⟩ := to_top hu hp
        obtain ⟨s2, g1, g2, g3, _⟩ := poll_epoch hu h3 (h2.1.trans hc)
        exact ⟨s2, h1.trans g1, g3, g2.1.trans (h2.1.trans hc), g2.2.2.1.trans (h2.2.2.1.trans he)⟩
      · rw [hf hc (.inl hp)] at hq; cases hq
    · rw [hf h.2.1 (.inr h.2.2.1)] at hq; cases hq
  obtain ⟨s1, h1, h2, h3, h4⟩ := h0
  -- once round
  obtain ⟨s2, g1, g2, g3, _, _⟩ := lap hm (h1.inv hi) (h1.2.ctl.trans hk) hu h2 h3
  obtain ⟨s3, e1, e2, e3, _, e5, _⟩ := alg_top hu g3
  obtain ⟨s4, d1, d2, d3, d4, _⟩ := poll_epoch hu e2 (e3.1.trans (g2.1.trans h3))
  have hr4 := h1.trans (g1.trans (e1.trans d1))
  -- and once more
  obtain ⟨s5, b1, b2, b3, b4, b5, b6⟩ := lap hm (hr4.inv hi) (hr4.2.ctl.trans hk) hu d3 (d2.1.trans (e3.1.trans (g2.1.trans h3)))
  obtain ⟨s6, a1, _, _, _, a5, a6⟩ := alg_top hu b3
  refine ⟨s6, hr4.trans (b1.trans a1), a6 (b4.trans (d4.trans e5)) ?_, a5⟩
  have he : s5.epoch u = true := b2.2.2.1.trans (d2.2.2.1.trans (e3.2.2.1.trans (g2.2.2.1.trans h4)))
  simp [votes, checkTerm, he, b5, b6]

theorem settle_all {c : Cfg} {s : St} (hm : c.mode = .epoch) (hi : Inv c s) (hk : s.ctl = .await 0) (hq : s.quiet = false) :
    ∀ n, n ≤ c.T → ∃ s', Reach c s s' ∧ s'.ctl = .await 0 ∧ s'.quiet = false ∧ ∀ u, u < n → s'.ready u = true ∧ s'.notes u = 0 := by
  intro n
  induction n with
  | zero => intro _; exact ⟨s, .refl _ _, hk, hq, fun u h => absurd h (Nat.not_lt_zero _)⟩
  | succ n ih =>
    intro hn
    obtain ⟨s1, h1, h2, h3, h4⟩ := ih (by omega)
    obtain ⟨s2, g1, g2, g3⟩ := settle (u := n) hm (h1.inv hi) h2 h3 hn
    refine ⟨s2, h1.trans g1.1, g1.2.ctl.trans h2, g1.2.quiet.trans h3, fun u hu => ?_⟩
    by_cases he : u = n
    · subst he; exact ⟨g2, g3⟩
    · have := h4 u (by omega)
      exact ⟨(g1.2.ready u he).trans this.1, (g1.2.notes u he).trans this.2⟩

/-- When every thread has made its check, the awaited one can acknowledge. -/
theorem ack_epoch {c : Cfg} {s : St} {i : Nat} (hm : c.mode = .epoch) (hi : Inv c s) (hk : s.ctl = .await i) (hT : i < c.T)
    (hr : s.resp i = false) (ha : ∀ u, u < c.T → s.ready u = true ∧ s.notes u = 0) :
    ∃ s', Reach c s s' ∧ s'.ctl = .await i ∧ s'.resp i = true := by
  have hback : ∀ s, s.ctl = .await i → s.resp i = false → s.pc i = .ackEpoch → ∃ s', Reach c s s' ∧ s'.ctl = .await i ∧ s'.resp i = true := by
    intro s hk hr hp
    have hs : step c s (.ack i) = some { s with resp := upd s.resp i true, pc := upd s.pc i .parkEpoch } := by simp [step, hT, hr, hp]
    exact ⟨_, .one _ hs, hk, by simp⟩
  obtain ⟨hcl, _, _⟩ := awaited hi hk hm hT
  have hc : s.cmd i = none ∧ s.epoch i = true := by
    rcases (hi.conv.ready i hT (ha i hT).1).2 with h | h
    · rw [hcl] at h; cases h
    · exact ⟨h.2.2, h.2.1⟩
  have ht := hi.role i hT
  simp only [Role, hk, Told, Stuck, Pending, hm] at ht
  rcases ht.2 (Nat.le_refl _) with h | h | h
  · rw [hc.1] at h; cases h.2.1
  · rcases h.2.2.1 with hp | hp
    · obtain ⟨s1, h1, h2, h3, h4⟩ := to_top hT hp
      obtain ⟨s2, g1, g2, g3, g4, _⟩ := poll_epoch hT h3 (h2.1.trans hc.1)
      have hr2 := h1.trans g1
      obtain ⟨s3, e1, e2, e3, e4, e5, e6⟩ := lap hm (hr2.inv hi) (hr2.2.ctl.trans hk) hT g3 (g2.1.trans (h2.1.trans hc.1))
      have hr3 := hr2.trans e1
      have hsame := h2.trans (g2.trans e2)
      have he : s3.epoch i = true := hsame.2.2.1.trans hc.2
      have hs : step c s3 (.complete i) = some { s3 with ready := upd s3.ready i true, quiet := true, pc := upd s3.pc i .ackEpoch } := by
        have hall : ∀ u < c.T, (s3.ready u = true ∨ u = i) ∧ s3.notes u = 0 := by
          intro u hu
          by_cases hui : u = i
          · subst hui
            exact ⟨.inr rfl, e4.trans (g4.trans (h4 (ha u hu).2))⟩
          · exact ⟨.inl ((hr3.2.ready u hui).trans (ha u hu).1), (hr3.2.notes u hui).trans (ha u hu).2⟩
        have hct : votes s3 i = true := by simp [votes, checkTerm, he, e5, e6]
        simp only [step]
        rw [if_pos ⟨hT, e3, hct, hall⟩]
        simp [he]
      obtain ⟨s', d1, d2⟩ := hback { s3 with ready := upd s3.ready i true, quiet := true, pc := upd s3.pc i .ackEpoch }
        (hr3.2.ctl.trans hk) (hsame.2.1.trans hr) (by simp)
      exact ⟨s', hr3.1.trans (.trans (.one _ hs) d1), d2⟩
    · exact hback s hk hr hp
  · rw [hr] at h; cases h.1

theorem ack_one {c : Cfg} {s : St} {i : Nat} (hi : Inv c s) (hk : s.ctl = .await i) (hT : i < c.T) :
    ∃ s', Reach c s s' ∧ s'.ctl = .await i ∧ s'.resp i = true := by
  cases hr : s.resp i with
  | true => exact ⟨s, .refl _ _, hk, hr⟩
  | false =>
    cases hm : c.mode with
    | epoch =>
      cases hq : s.quiet with
      | true => exact ack_epoch hm hi hk hT hr (hi.conv.quiet hq)
      | false =>
        have h0 : i = 0 := by
          by_contra hne
          have hr := hi.role 0 (by omega)
          simp only [Role, hk, Held, Stuck, hm] at hr
          have := hr.1 (by omega)
          rw [hi.conv.found 0 (by omega) (by rw [hk]; rfl) this.2.1 (.inr this.2.2.1)] at hq
          cases hq
        subst h0
        obtain ⟨s1, h1, h2, h3, h4⟩ := settle_all hm hi hk hq c.T (Nat.le_refl _)
        cases hr1 : s1.resp 0 with
        | true => exact ⟨s1, h1, h2, hr1⟩
        | false =>
          obtain ⟨s', g1, g2⟩ := ack_epoch hm (h1.inv hi) h2 hT hr1 h4
          exact ⟨s', h1.trans g1, g2⟩
    | blockAll =>
      have ht := hi.role i hT
      simp only [Role, hk, Told, Stuck, Pending, hm] at ht
      have hback : ∀ s, s.ctl = .await i → s.resp i = false → s.pc i = .ackAll → ∃ s', Reach c s s' ∧ s'.ctl = .await i ∧ s'.resp i = true := by
        intro s hk hr hp
        have hs : step c s (.ack i) = some { s with resp := upd s.resp i true, pc := upd s.pc i .parkAll } := by simp [step, hT, hr, hp]
        exact ⟨_, .one _ hs, hk, by simp⟩
      rcases ht.2 (Nat.le_refl _) with h | h | h
      · obtain ⟨s1, h1, h2, h3, _⟩ := to_top hT h.2.2.1
        have hs : step c s1 (.poll i) = some { s1 with cmd := upd s1.cmd i none, pc := upd s1.pc i .ackAll } := by
          simp [step, pollStep, hT, h3, h2.1.trans h.2.1, hm]
        obtain ⟨s', d1, d2⟩ := hback { s1 with cmd := upd s1.cmd i none, pc := upd s1.pc i .ackAll } (h1.2.ctl.trans hk) (h2.2.1.trans hr) (by simp)
        exact ⟨s', h1.1.trans (.trans (.one _ hs) d1), d2⟩
      · exact hback s hk hr h.2.2.1
      · rw [hr] at h; cases h.1
    | blockTop =>
      have ht := hi.role i hT
      simp only [Role, hk, Told, Stuck, Pending, hm] at ht
      have hback : ∀ s, s.ctl = .await i → s.resp i = false → s.pc i = .ackTop → ∃ s', Reach c s s' ∧ s'.ctl = .await i ∧ s'.resp i = true := by
        intro s hk hr hp
        have hs : step c s (.ack i) = some { s with resp := upd s.resp i true, pc := upd s.pc i .body } := by simp [step, hT, hr, hp]
        exact ⟨_, .one _ hs, hk, by simp⟩
      rcases ht.2 (Nat.le_refl _) with h | h | h
      · obtain ⟨s1, h1, h2, h3, _⟩ := to_top hT h.2.2.1
        have hs : step c s1 (.poll i) = some { s1 with cmd := upd s1.cmd i none, blockTop := upd s1.blockTop i true, pc := upd s1.pc i .ackTop } := by
          simp [step, pollStep, hT, h3, h2.1.trans h.2.1, hm]
        obtain ⟨s', d1, d2⟩ := hback { s1 with cmd := upd s1.cmd i none, blockTop := upd s1.blockTop i true, pc := upd s1.pc i .ackTop } (h1.2.ctl.trans hk) (h2.2.1.trans hr) (by simp)
        exact ⟨s', h1.1.trans (.trans (.one _ hs) d1), d2⟩
      · exact hback s hk hr h.2.2.1
      · rw [hr] at h; cases h.1

theorem reach_await {c : Cfg} (n : Nat) : ∀ {s : St} {i : Nat}, Inv c s → s.ctl = .await i → c.T - i ≤ n → ∃ s', Reach c s s' ∧ s'.ctl = .view 0 := by
  induction n with
  | zero =>
    intro s i hi hk hn
    exact ⟨{ s with ctl := .view 0 }, .one .ctl (by simp only [step, ctlStep, hk, if_neg (show ¬ i < c.T by omega)]), rfl⟩
  | succ n ih =>
    intro s i hi hk hn
    by_cases ht : i < c.T
    · obtain ⟨s1, h1, h2, h3⟩ := ack_one hi hk ht
      have hs : step c s1 .ctl = some { s1 with resp := upd s1.resp i false, ctl := .await (i + 1) } := by
        simp only [step, ctlStep, h2, if_pos ht, if_pos h3]
      obtain ⟨s', h4, h5⟩ := ih (inv_step (h1.inv hi) hs) rfl (by omega)
      exact ⟨s', h1.trans (.trans (.one _ hs) h4), h5⟩
    · exact ⟨{ s with ctl := .view 0 }, .one .ctl (by simp only [step, ctlStep, hk, if_neg ht]), rfl⟩

/-! ## C60 -/

/-- Queries not yet reported. -/
def owed (s : St) : Nat :=
  (match s.ctl with | .send _ | .await _ | .view _ | .hand => 1 | _ => 0) + (if s.fin.isSome then 1 else 0)

theorem owed_step {c : Cfg} {s s' : St} {x : Act} (h : step c s x = some s') :
    s'.log.length + owed s' = s.log.length + owed s + (if x = .query then 1 else 0) := by
  cases x
  all_goals query_cases h
  all_goals grind [owed]

theorem owed_run {c : Cfg} (xs : List Act) : ∀ {s s' : St}, run c s xs = some s' → s'.log.length + owed s' = s.log.length + owed s + xs.count .query := by
  induction xs with
  | nil => intro s s' h; simp only [run, Option.some.injEq] at h; subst h; simp
  | cons x xs ih =>
    intro s s' h
    simp only [run] at h
    cases hs : step c s x with
    | none => rw [hs] at h; cases h
    | some s1 =>
      rw [hs] at h
      have h1 := ih h
      have h2 := owed_step hs
      simp only [List.count_cons, beq_iff_eq]
      omega

/-- C60: whatever has happened so far, and whatever the command, without help from the stream the run can be
continued so that every query asked is reported and the remitter goes on. -/
theorem C60 (c : Cfg) (xs : List Act) (s : St) (h : run c start xs = some s) :
    ∃ ys s', run c s ys = some s' ∧ (∀ y ∈ ys, y.inner = true) ∧ s'.waiting = false ∧ s'.log.length = xs.count .query := by
  have hi := inv_run xs start (inv_start c) s h
  have hidle : ∀ s', Reach c s s' → s'.ctl = .idle →
      ∃ ys s', run c s ys = some s' ∧ (∀ y ∈ ys, y.inner = true) ∧ s'.waiting = false ∧ s'.log.length = xs.count .query := by
    intro s1 hr hk
    have hfin : ∃ s2, Reach c s1 s2 ∧ s2.fin = none ∧ s2.ctl = .idle := by
      cases hf : s1.fin with
      | none => exact ⟨s1, .refl _ _, hf, hk⟩
      | some f =>
        obtain ⟨i, b, q⟩ := f
        obtain ⟨s', h1, h2, h3⟩ := reach_finish _ hf (Nat.le_refl _)
        exact ⟨s', h1, h2, h3.trans hk⟩
    obtain ⟨s2, h1, h2, h3⟩ := hfin
    obtain ⟨ys, hy, hin⟩ := hr.trans h1
    refine ⟨ys, s2, hy, hin, ?_, ?_⟩
    · rw [((hr.trans h1).inv hi).base.wait, h3]
      simp
    · have := owed_run _ (run_append xs ys h hy)
      have h0 : ys.count .query = 0 := by
        rw [List.count_eq_zero]
        intro hm
        exact absurd (hin _ hm) (by simp [Act.inner])
      simp only [List.count_append, h0, owed, h2, h3, start] at this
      simpa using this
  have hview : ∀ s1, Reach c s s1 → s1.ctl = .view 0 →
      ∃ ys s', run c s ys = some s' ∧ (∀ y ∈ ys, y.inner = true) ∧ s'.waiting = false ∧ s'.log.length = xs.count .query := by
    intro s1 hr hk
    obtain ⟨s2, h1, h2⟩ := reach_view _ (hr.inv hi) hk (Nat.le_refl _)
    exact hidle s2 (hr.trans h1) h2
  have hawait : ∀ s1 i, Reach c s s1 → s1.ctl = .await i →
      ∃ ys s', run c s ys = some s' ∧ (∀ y ∈ ys, y.inner = true) ∧ s'.waiting = false ∧ s'.log.length = xs.count .query := by
    intro s1 i hr hk
    obtain ⟨s2, h1, h2⟩ := reach_await _ (hr.inv hi) hk (Nat.le_refl _)
    exact hview s2 (hr.trans h1) h2
  cases hk : s.ctl with
  | idle => exact hidle s (.refl _ _) hk
  | send i =>
    obtain ⟨s2, h1, h2⟩ := reach_send _ hi hk (Nat.le_refl _)
    exact hawait s2 0 h1 h2
  | await i => exact hawait s i (.refl _ _) hk
  | view i => obtain ⟨s2, h1, h2⟩ := reach_view _ hi hk (Nat.le_refl _); exact hidle s2 h1 h2
  | hand => obtain ⟨s2, h1, h2⟩ := reach_hand hi hk; exact hidle s2 h1 h2
  | reset => obtain ⟨s2, h1, h2⟩ := reach_reset hi hk; exact hidle s2 h1 h2
  | resume i => obtain ⟨s2, h1, h2⟩ := reach_resume _ hi hk (Nat.le_refl _); exact hidle s2 h1 h2

/-- A run to apply it to: two threads, the query asked while events and a notification are under way. -/
example : (run ⟨2, 3, fun i => i % 2, .epoch, true⟩ start
    [.emit, .emit, .poll 0, .remit 0 0 false, .topology 0 1 [1], .query, .ctl, .poll 0, .ctl]).map
      (fun s => (s.waiting, s.log.length, s.notes 1, s.queue 1)) = some (true, 0, 1, [1]) := by decide +kernel

/-! ## Misses -/

theorem grown_step {c : Cfg} {s s' : St} {x : Act} (h : step c s x = some s') (t : Nat) :
    (if x = .miss t then 1 else 0) + (s'.grown t).toNat ≤ (s.grown t).toNat + if x = .grow t then 1 else 0 := by
  have same : s'.grown = s.grown → x ≠ .miss t → (if x = .miss t then 1 else 0) + (s'.grown t).toNat ≤ (s.grown t).toNat + if x = .grow t then 1 else 0 := by
    intro h1 h2
    rw [h1, if_neg h2]
    omega
  cases x with
  | grow u =>
    simp only [step] at h
    split at h
    · simp only [Option.some.injEq] at h
      subst h
      by_cases hu : t = u
      · subst hu
        rw [if_neg (by simp), if_pos rfl]
        simp [upd]
      · simp [upd, hu]
    · cases h
  | miss u =>
    simp only [step] at h
    split at h
    · next hg =>
      simp only [Option.some.injEq] at h
      subst h
      by_cases hu : t = u
      · subst hu
        rw [if_pos rfl]
        simp [upd, hg.2.2.2.2.2]
      · simp [upd, hu, Ne.symm hu]
    · cases h
  | ctl =>
    refine same ?_ (by simp)
    simp only [step] at h
    unfold ctlStep at h
    grind
  | finish =>
    refine same ?_ (by simp)
    simp only [step] at h
    unfold finishStep at h
    grind
  | poll u =>
    refine same ?_ (by simp)
    simp only [step] at h
    unfold pollStep at h
    grind
  | complete u =>
    refine same ?_ (by simp)
    simp only [step] at h
    split at h
    · split at h
      · cases h; rfl
      · split at h <;> · cases h; rfl
    · cases h
  | emit | query | close | ack u | wake u | remit u k d | topology u k out | alg u k out =>
    refine same ?_ (by simp)
    simp only [step] at h
    grind

/-- **C60** A thread looks in vain at a queue with events at most once for every time the queue has grown. -/
theorem C60_misses (c : Cfg) (xs : List Act) (s : St) (h : run c start xs = some s) (t : Nat) : xs.count (.miss t) ≤ xs.count (.grow t) := by
  have : ∀ (xs : List Act) (s s' : St), run c s xs = some s' → xs.count (.miss t) + (s'.grown t).toNat ≤ (s.grown t).toNat + xs.count (.grow t) := by
    intro xs
    induction xs with
    | nil => intro s s' h; simp only [run, Option.some.injEq] at h; subst h; simp
    | cons x xs ih =>
      intro s s' h
      simp only [run] at h
      cases hs : step c s x with
      | none => rw [hs] at h; cases h
      | some m =>
        rw [hs] at h
        have h1 := ih m s' h
        have h2 := grown_step hs t
        rw [List.count_cons, List.count_cons]
        simp only [beq_iff_eq]
        omega
  have := this xs start s h
  simp only [start, Bool.toNat_false] at this
  omega

/-- Such a run; a second look in vain is not possible. -/
example : (run (one false) start [.emit, .grow 0, .poll 0, .remit 0 0 false, .miss 0, .alg 0 0 [], .poll 0, .remit 0 0 false]).map
    (fun s => ((step (one false) s (.miss 0)).isSome, (step (one false) s (.topology 0 1 [])).isSome)) = some (false, true) := by decide +kernel

end Verif.Query
