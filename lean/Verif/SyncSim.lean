import Verif.SyncInv

/-! # A synchronous run is an asynchronous run: the steps -/

namespace Verif.Sync

open Verif.Async (Edge Prog Alg Task UniqueAlg)

variable {P M N E : Type}

section
variable {a : Alg P M N E} {c : Cfg M} {s s' : St P M N E}

theorem front_of_about (h : Inv c s) {t v : Nat} (hv : about v (s.task t) = true) : s.front v = false := by
  cases hf : s.front v with
  | false => rfl
  | true =>
    have h1 := h.apart v hf
    rw [(h.owner t v hv).2, hv] at h1
    cases h1

theorem about_one {v : Nat} {k : Task P M N E} (h : about v k = true) : ∀ u, u ≠ v → about u k = false := by
  intro u hu
  cases k <;> simp_all [about] <;> (intro e; exact hu e.symm)

theorem absTask_about (h : Inv c s) {t v : Nat} (hv : about v (s.task t) = true) :
    absTask a c s v = finish (s.task t) := by
  simp [absTask, (h.owner t v hv).2, hv]

theorem absTask_free (h : Inv c s) {t v : Nat} (ht : s.task t = .idle) (hv : c.own v = t) (hf : s.front v = false) :
    absTask a c s v = .idle := by
  simp [absTask, hv, ht, about, hf]

/-- A step of a callback for `v`. -/
theorem sim_task (h : Inv c s) {t v : Nat} {k k' : Task P M N E} (hk : s.task t = k) (hv : about v k = true)
    (hk' : k' = .idle ∨ about v k' = true) (htask : s'.task = upd s.task t k') (hfront : s'.front = s.front)
    (hedges : s'.edges = s.edges) (hlast : s'.last = s.last)
    (hprop : ∀ u, u ≠ v → s'.prop u = s.prop u) :
    absTask a c s' = upd (absTask a c s) v (finish k') ∧
    (fun u => if s'.front u = true then (due a s' u).1 else s'.prop u) =
      upd (fun u => if s.front u = true then (due a s u).1 else s.prop u) v (s'.prop v) := by
  have ho := h.owner t v (hk ▸ hv)
  have hfv := front_of_about h (hk ▸ hv : about v (s.task t) = true)
  have hdue : ∀ u, u ≠ v → due a s' u = due a s u := by
    intro u hu; simp only [due, hprop u hu, hedges, hlast]
  constructor
  · refine absTask_upd hk ho.2 (about_one hv) ?_ htask (fun u _ => by rw [hfront]) (fun u hu _ => hdue u hu) ?_
    · rcases hk' with e | e
      · intro u _; rw [e]; rfl
      · exact about_one e
    · unfold absTask
      rw [ho.2, htask, upd_same, hfront, hfv]
      rcases hk' with e | e
      · rw [e]; rfl
      · rw [if_pos e]
  · funext u
    by_cases hu : u = v
    · subst hu; rw [upd_same, hfront, hfv]; rfl
    · rw [upd_ne _ _ hu, hfront, hprop u hu, hdue u hu]

/-- The state after a callback step, from what it does to the vertex. -/
theorem sim_abs (h : Inv c s) {t v : Nat} {k k' : Task P M N E} (hk : s.task t = k) (hv : about v k = true)
    (hk' : k' = .idle ∨ about v k' = true) (htask : s'.task = upd s.task t k') (hfront : s'.front = s.front)
    (hedges : s'.edges = s.edges) (hlast : s'.last = s.last)
    (hprop : ∀ u, u ≠ v → s'.prop u = s.prop u) (log : List Async.Note) :
    abs a c s' log =
      { prop := upd (fun u => if s.front u = true then (due a s u).1 else s.prop u) v (s'.prop v),
        edges := s.edges, inbox := s'.inbox, act := s'.act, pend := fun v => if s'.act v = 1 then [a.noNote] else [],
        inited := s'.inited, task := upd (absTask a c s) v (finish k'), log := log } := by
  obtain ⟨e1, e2⟩ := sim_task (a := a) h hk hv hk' htask hfront hedges hlast hprop
  simp only [abs, e1, e2, hedges]

theorem keep_prop {v : Nat} (hfv : s.front v = false) :
    upd (fun u => if s.front u = true then (due a s u).1 else s.prop u) v (s.prop v) =
      fun u => if s.front u = true then (due a s u).1 else s.prop u := by
  funext u
  by_cases hu : u = v
  · subst hu; simp [hfv]
  · rw [upd_ne _ _ hu]

theorem upd_upd {α : Type} (f : Nat → α) (v : Nat) (x y : α) : upd (upd f v x) v y = upd f v y := by
  funext u; simp only [upd]; split <;> rfl

theorem upd_self {α : Type} (f : Nat → α) (v : Nat) (x : α) (h : f v = x) : upd f v x = f := by
  funext u; simp only [upd]; split <;> simp_all

theorem sim_go (h : Inv c s) {t : Nat} (hs : step a c s (.go t) = some s') (log : List Async.Note) :
    SimsN a c s s' log (goes s t) := by
  simp only [step] at hs
  split at hs
  swap
  · cases hs
  cases hk : s.task t with
  | idle => rw [hk] at hs; cases hs
  | load v g =>
    rw [hk] at hs
    have hab : about v (s.task t) = true := by rw [hk]; simp [about]
    have ho := h.owner t v hab
    have hfv := front_of_about h hab
    have hat := absTask_about (a := a) h hab
    rw [hk] at hat
    simp only [goStep, Option.some.injEq] at hs
    have e := sim_abs (a := a) (s' := s') (v := v) h hk (by simp [about])
      (k' := .run v (g (s.prop v) (s.edges v) (a.retrieve (s.inbox v) (s.prop v)).2).2)
      (Or.inr (by simp [about])) (by rw [← hs]) (by rw [← hs]) (by rw [← hs]) (by rw [← hs])
      (fun u hu => by rw [← hs]; exact upd_ne _ _ hu)
    refine simsN_one (x := .go v) (log' := log ++ [.obs v]) ⟨trivial, rfl⟩ ?_
    rw [e]
    simp only [Async.step, absCfg, ho.1, if_true]
    simp only [abs, hat, finish, Async.goStep, hfv, Bool.false_eq_true, if_false]
    rw [← hs]
    simp
  | run v q =>
    rw [hk] at hs
    have hab : about v (s.task t) = true := by rw [hk]; simp [about]
    have ho := h.owner t v hab
    have hfv := front_of_about h hab
    have hat := absTask_about (a := a) h hab
    rw [hk] at hat
    cases q with
    | done =>
      simp only [goStep, Option.some.injEq] at hs
      have e := sim_abs (a := a) (s' := s') (v := v) h hk (by simp [about])
        (k' := .idle) (Or.inl rfl) (by rw [← hs]) (by rw [← hs]) (by rw [← hs]) (by rw [← hs])
        (fun u hu => by rw [← hs])
      refine simsN_one (x := .go v) (log' := log) ⟨trivial, rfl⟩ ?_
      rw [e]
      simp only [Async.step, absCfg, ho.1, if_true]
      simp only [abs, hat, finish, Async.goStep]
      rw [← hs]
      simp only [keep_prop hfv]
    | post w m k =>
      simp only [goStep] at hs
      split at hs
      · rename_i hnew
        simp only [Option.some.injEq] at hs
        have e := sim_abs (a := a) (s' := s') (v := v) h hk (by simp [about])
          (k' := .cas v w k) (Or.inr (by simp [about])) (by rw [← hs]) (by rw [← hs]) (by rw [← hs]) (by rw [← hs])
          (fun u hu => by rw [← hs])
        refine simsN_one (x := .go v) (log' := log ++ [.dep w]) ⟨trivial, rfl⟩ ?_
        rw [e]
        simp only [Async.step, absCfg, ho.1, if_true]
        simp only [abs, hat, finish, Async.goStep, hnew, if_true]
        rw [← hs]
        simp only [keep_prop hfv]
      · rename_i hnew
        simp only [Option.some.injEq] at hs
        have e := sim_abs (a := a) (s' := s') (v := v) h hk (by simp [about])
          (k' := .run v (k false)) (Or.inr (by simp [about])) (by rw [← hs]) (by rw [← hs]) (by rw [← hs]) (by rw [← hs])
          (fun u hu => by rw [← hs])
        refine simsN_one (x := .go v) (log' := log) ⟨trivial, rfl⟩ ?_
        rw [e]
        simp only [Async.step, absCfg, ho.1, if_true]
        simp only [abs, hat, finish, Async.goStep, hnew]
        rw [← hs]
        simp [keep_prop hfv]
    | send w n k => exact absurd (h.uniq t) (by rw [hk]; exact id)
  | cas v w k =>
    rw [hk] at hs
    have hab : about v (s.task t) = true := by rw [hk]; simp [about]
    have ho := h.owner t v hab
    have hfv := front_of_about h hab
    have hat := absTask_about (a := a) h hab
    rw [hk] at hat
    simp only [goStep] at hs
    split at hs
    · rename_i hz
      simp only [Option.some.injEq] at hs
      have e := sim_abs (a := a) (s' := s') (v := v) h hk (by simp [about])
        (k' := .put v w a.noNote (k true)) (Or.inr (by simp [about])) (by rw [← hs]) (by rw [← hs]) (by rw [← hs])
        (by rw [← hs]) (fun u hu => by rw [← hs])
      refine simsN_two (x := .go v) (y := .go v) (log' := log) ⟨trivial, rfl⟩ ⟨trivial, rfl⟩
        (s1 := { abs a c s log with act := upd s.act w 1, task := upd (absTask a c s) v (.put v w a.noNote (k true)) }) ?_ ?_
      · simp only [Async.step, absCfg, ho.1, if_true]
        simp only [abs, hat, finish, Async.goStep, hz, if_true]
      · rw [e]
        simp only [Async.step, absCfg, ho.1, if_true]
        simp only [abs, finish, Async.goStep, upd_same, upd_upd]
        rw [← hs]
        simp only [keep_prop hfv, Option.some.injEq, Async.St.mk.injEq, and_true, true_and]
        funext u
        by_cases hu : u = w
        · subst hu; simp [hz]
        · simp [upd, hu]
    · rename_i hz
      simp only [Option.some.injEq] at hs
      have e := sim_abs (a := a) (s' := s') (v := v) h hk (by simp [about])
        (k' := .run v (k false)) (Or.inr (by simp [about])) (by rw [← hs]) (by rw [← hs]) (by rw [← hs]) (by rw [← hs])
        (fun u hu => by rw [← hs])
      refine simsN_one (x := .go v) (log' := log) ⟨trivial, rfl⟩ ?_
      rw [e]
      simp only [Async.step, absCfg, ho.1, if_true]
      simp only [abs, hat, finish, Async.goStep, hz]
      rw [← hs]
      simp [keep_prop hfv]
  | put v w n k =>
    rw [hk] at hs
    have hab : about v (s.task t) = true := by rw [hk]; simp [about]
    have hfv := front_of_about h hab
    have hat := absTask_about (a := a) h hab
    rw [hk] at hat
    simp only [goStep] at hs
    split at hs
    swap
    · cases hs
    simp only [Option.some.injEq] at hs
    have e := sim_abs (a := a) (s' := s') (v := v) h hk (by simp [about])
      (k' := .run v k) (Or.inr (by simp [about])) (by rw [← hs]) (by rw [← hs]) (by rw [← hs]) (by rw [← hs])
      (fun u hu => by rw [← hs])
    refine simsN_none (by rw [hk]; rfl) ?_
    rw [e]
    rw [← hs]
    simp only [abs, keep_prop hfv, finish, Async.St.mk.injEq, and_true, true_and]
    exact (upd_self _ _ _ hat).symm

theorem idle_of {k : Task P M N E} (h : k.isIdle = true) : k = .idle := by
  cases k <;> simp_all [Task.isIdle]

theorem free_abs {t v : Nat} (hv : v < c.n) (hf : s.front v = false) (ho : c.own v = t) (ht : s.task t = .idle)
    (log : List Async.Note) : Async.free (absCfg c) (abs a c s log) v v = true := by
  simp [Async.free, absCfg, hv, abs, absTask, ho, ht, about, hf]

theorem sim_init (h : Inv c s) {t v : Nat} (hs : step a c s (.init t v) = some s') (log : List Async.Note) :
    Sims a c s s' log := by
  simp only [step] at hs
  split at hs
  swap
  · cases hs
  rename_i hg
  obtain ⟨hph, -, hv, ho, hti, hin⟩ := hg
  have hk := idle_of hti
  have hf := h.fresh hph v
  have hfree := free_abs (a := a) hv hf ho hk log
  have hxt : ∀ w : Nat, (Plain (.init v v : Async.Act E) ∧ (Async.Act.init v v : Async.Act E).below c.n = true) := by
    intro _; exact ⟨trivial, by simp [Async.Act.below, hv]⟩
  cases hm : c.initMail v with
  | none =>
    rw [hm] at hs
    simp only [Option.some.injEq] at hs
    refine sims_one (x := .init v v) (log' := log) (hxt 0) ?_
    simp only [Async.step, hfree, true_and]
    rw [if_pos (by exact hin)]
    simp only [absCfg, hm, ← hs]
    rfl
  | some m =>
    rw [hm] at hs
    simp only at hs
    split at hs
    · rename_i hnew
      simp only [Option.some.injEq] at hs
      refine sims_one (x := .init v v) (log' := log ++ [.dep v]) (hxt 0) ?_
      simp only [Async.step, hfree, true_and]
      rw [if_pos (by exact hin)]
      simp only [absCfg, hm]
      rw [if_pos (by exact hnew)]
      have e1 : absTask a c s' = upd (absTask a c s) v (.load v fun p es m => a.onUpdate v p es a.noNote 0 m) := by
        refine absTask_upd hk ho (fun _ _ => rfl) (k' := .load v fun p es m => a.onUpdate v p es a.noNote 0 m)
          (fun u hu => by simp [about]; exact fun e => hu e.symm) (by rw [← hs]) (fun u _ => by rw [← hs])
          (fun u _ _ => by rw [← hs]; rfl) ?_
        rw [← hs]
        simp [absTask, ho, about, finish]
      simp only [abs, e1]
      rw [← hs]
      rfl
    · rename_i hnew
      simp only [Option.some.injEq] at hs
      refine sims_one (x := .init v v) (log' := log) (hxt 0) ?_
      simp only [Async.step, hfree, true_and]
      rw [if_pos (by exact hin)]
      simp only [absCfg, hm]
      rw [if_neg (by exact hnew), ← hs]
      rfl

theorem own_of_get (hc : c.Ok) {t v i : Nat} (hi : (c.verts t)[i]? = some v) : v < c.n ∧ c.own v = t :=
  (hc.mem t v).1 (List.mem_of_getElem? hi)

theorem recv_ok {v : Nat} (hv : v < c.n) : Plain (.recv v v 0 : Async.Act E) ∧ (Async.Act.recv v v 0 : Async.Act E).below c.n = true :=
  ⟨trivial, by simp [Async.Act.below, hv]⟩

theorem sim_scan (hc : c.Ok) (h : Inv c s) {t : Nat} (hs : step a c s (.scan t) = some s') (log : List Async.Note) :
    Sims a c s s' log := by
  simp only [step] at hs
  split at hs
  swap
  · cases hs
  rename_i hg
  have hk := idle_of hg.2
  split at hs
  · cases hs
  rename_i v hi
  obtain ⟨hv, ho⟩ := own_of_get hc hi
  split at hs
  · rename_i hph
    split at hs
    · rename_i ha
      have hf : s.front v = false := by
        cases hf : s.front v with
        | false => rfl
        | true => have := h.off hph v hf; omega
      have hfree := free_abs (a := a) hv hf ho hk log
      simp only [Option.some.injEq] at hs
      have hdue : ∀ u, u ≠ v → due a s' u = due a s u := by
        intro u hu; rw [← hs]; simp only [due, upd_ne _ _ hu]
      have hdv : due a s' v = a.onUpdate v (s.prop v) (s.edges v) a.noNote 0 (a.retrieve (s.inbox v) (s.prop v)).2 := by
        rw [← hs]; simp only [due, upd_same]
      have e1 : absTask a c s' = upd (absTask a c s) v (.run v (due a s' v).2) := by
        refine absTask_upd (k' := .idle) hk ho (fun _ _ => rfl) (fun _ _ => rfl) ?_ (fun u hu => by rw [← hs]; simp only [upd_ne _ _ hu])
          (fun u hu _ => hdue u hu) ?_
        · rw [← hs]; exact (upd_self _ _ _ hk).symm
        · rw [← hs]; simp [absTask, ho, hk, about]
      have e2 : (fun u => if s'.front u = true then (due a s' u).1 else s'.prop u) =
          upd (fun u => if s.front u = true then (due a s u).1 else s.prop u) v (due a s' v).1 := by
        funext u
        by_cases hu : u = v
        · subst hu; rw [upd_same, if_pos (by rw [← hs]; simp)]
        · rw [upd_ne _ _ hu, hdue u hu, ← hs]; simp only [upd_ne _ _ hu]
      refine sims_two (x := .recv v v 0) (y := .go v) (log' := log ++ [.obs v]) (recv_ok hv) ⟨trivial, rfl⟩
        (s1 := { abs a c s log with
          act := upd s.act v 0
          pend := upd (fun v => if s.act v = 1 then [a.noNote] else []) v []
          task := upd (absTask a c s) v (.load v fun p es m => a.onUpdate v p es a.noNote 0 m) }) ?_ ?_
      · simp only [Async.step, hfree, if_true]
        simp [abs, ha]
      · simp only [Async.step, absCfg, hv, if_true]
        simp only [abs, upd_same, Async.goStep, e1, e2, hdv, upd_upd, hf, Bool.false_eq_true, if_false]
        rw [← hs]
        simp only [Option.some.injEq, Async.St.mk.injEq, and_true, true_and]
        funext u
        by_cases hu : u = v
        · subst hu; simp
        · simp [upd, hu]
    · rename_i ha
      have h0 : s.act v = 0 := (h.act v).resolve_right ha
      simp only [Option.some.injEq] at hs
      have e : upd s.act v 0 = s.act := upd_self _ _ _ h0
      rw [e] at hs
      exact sims_none (by rw [← hs]; rfl)
  · rename_i hph
    split at hs
    · split at hs
      · rename_i hf
        simp only [Option.some.injEq] at hs
        have hdue : ∀ u, u ≠ v → due a s' u = due a s u := by
          intro u hu; rw [← hs]; simp only [due, upd_ne _ _ hu]
        have hab := h.apart v hf
        have e1 : absTask a c s' = upd (absTask a c s) v (.run v (due a s v).2) := by
          refine absTask_upd (k' := .run v (due a s v).2) hk ho (fun _ _ => rfl)
            (fun u hu => by simp [about]; exact fun e => hu e.symm) (by rw [← hs]; rfl)
            (fun u hu => by rw [← hs]; simp only [upd_ne _ _ hu]) (fun u hu _ => hdue u hu) ?_
          rw [← hs]; simp [absTask, ho, about, finish, due]
        have e0 : absTask a c s v = .run v (due a s v).2 := by
          simp [absTask, ho, hk, about, hf]
        refine sims_none ?_
        simp only [abs, e1, upd_self _ _ _ e0, Async.St.mk.injEq, and_true, true_and]
        rw [← hs]
        simp only [and_true]
        funext u
        by_cases hu : u = v
        · subst hu; simp [hf, due]
        · simp [upd_ne _ _ hu, due]
      · simp only [Option.some.injEq] at hs
        exact sims_none (by rw [← hs]; rfl)
    · rename_i hp
      have hf : s.front v = false := h.seq (by simpa using hp) v
      split at hs
      · rename_i ha
        have hfree := free_abs (a := a) hv hf ho hk log
        simp only [Option.some.injEq] at hs
        have e1 : absTask a c s' = upd (absTask a c s) v (.load v fun p es m => a.onUpdate v p es a.noNote 0 m) := by
          refine absTask_upd hk ho (fun _ _ => rfl) (k' := .load v fun p es m => a.onUpdate v p es a.noNote 0 m)
            (fun u hu => by simp [about]; exact fun e => hu e.symm) (by rw [← hs]) (fun u _ => by rw [← hs])
            (fun u _ _ => by rw [← hs]; rfl) ?_
          rw [← hs]
          simp [absTask, ho, about, finish]
        refine sims_one (x := .recv v v 0) (log' := log) (recv_ok hv) ?_
        simp only [Async.step, hfree, if_true]
        simp only [abs, ha, e1]
        rw [← hs]
        simp only [if_true, List.getElem?_cons_zero, Option.some.injEq, Async.St.mk.injEq, and_true, true_and]
        rw [Int.sub_self]
        refine ⟨rfl, rfl, ?_, rfl⟩
        funext u
        by_cases hu : u = v
        · subst hu; simp
        · simp [upd, hu]
      · rename_i ha
        have h0 : s.act v = 0 := (h.act v).resolve_right ha
        simp only [Option.some.injEq] at hs
        have e : upd s.act v 0 = s.act := upd_self _ _ _ h0
        rw [e] at hs
        exact sims_none (by rw [← hs]; rfl)
  · cases hs

theorem sim_step (hc : c.Ok) (h : Inv c s) {x : Act} (hs : step a c s x = some s') (log : List Async.Note) :
    Sims a c s s' log := by
  cases x with
  | init t v => exact sim_init h hs log
  | scan t => exact sim_scan hc h hs log
  | go t => exact (sim_go h hs log).sims
  | barrier => exact sim_barrier h hs log

theorem run_append : ∀ (xs ys : List (Async.Act E)) (c : Async.Cfg M N) (s : Async.St P M N E),
    Async.run a c s (xs ++ ys) = (Async.run a c s xs).bind fun s' => Async.run a c s' ys
  | [], _, _, _ => rfl
  | x :: xs, ys, c, s => by
    simp only [List.cons_append, Async.run]
    cases Async.step a c s x with
    | none => rfl
    | some s1 => exact run_append xs ys c s1

theorem sim_run (hu : ∀ v p es n i m, (a.onUpdate v p es n i m).2.Unique) (hc : c.Ok) : ∀ (xs : List Act) (s : St P M N E), Inv c s → run a c s xs = some s' →
    ∀ log, Inv c s' ∧ Sims a c s s' log
  | [], s, h, hr, log => by
    simp only [run, Option.some.injEq] at hr
    subst hr
    exact ⟨h, sims_none rfl⟩
  | x :: xs, s, h, hr, log => by
    simp only [run] at hr
    cases hs : step a c s x with
    | none => rw [hs] at hr; cases hr
    | some s1 =>
      rw [hs] at hr
      obtain ⟨ys, log1, hy, e1⟩ := sim_step hc h hs log
      obtain ⟨h2, zs, log2, hz, e2⟩ := sim_run hu hc xs s1 (inv_step hu hc h hs) hr log1
      refine ⟨h2, ys ++ zs, log2, ?_, ?_⟩
      · intro x hx
        rcases List.mem_append.1 hx with hx | hx
        · exact hy x hx
        · exact hz x hx
      · rw [run_append, e1]; exact e2

theorem abs_start (es0 : Nat → List (Edge E)) : abs a c (start a es0) [] = Async.start a es0 := by
  simp only [abs, start, Async.start, Async.St.mk.injEq, and_true]
  refine ⟨by simp, trivial, trivial, trivial, by simp, trivial, ?_⟩
  funext v
  simp [absTask, about]

/-! ## What stays -/

theorem edges_step {x : Act} (hs : step a c s x = some s') : s'.edges = s.edges := by
  sync_cases hs
  all_goals rfl

theorem edges_run : ∀ (xs : List Act) (s : St P M N E), run a c s xs = some s' → s'.edges = s.edges
  | [], s, hr => by simp only [run, Option.some.injEq] at hr; rw [hr]
  | x :: xs, s, hr => by
    simp only [run] at hr
    obtain ⟨s1, h1, h2⟩ := Option.bind_eq_some_iff.1 hr
    rw [edges_run xs s1 h2, edges_step h1]

theorem inited_step {x : Act} (h : s.phase ≠ .init → ∀ v, v < c.n → s.inited v = true) (hs : step a c s x = some s') :
    s'.phase ≠ .init → ∀ v, v < c.n → s'.inited v = true := by
  sync_cases hs
  all_goals grind [upd, loop, loaded]

theorem inited_run : ∀ (xs : List Act) (s : St P M N E), (s.phase ≠ .init → ∀ v, v < c.n → s.inited v = true) →
    run a c s xs = some s' → s'.phase ≠ .init → ∀ v, v < c.n → s'.inited v = true
  | [], s, h, hr => by simp only [run, Option.some.injEq] at hr; rw [← hr]; exact h
  | x :: xs, s, h, hr => by
    simp only [run] at hr
    obtain ⟨s1, h1, h2⟩ := Option.bind_eq_some_iff.1 hr
    exact inited_run xs s1 (inited_step h h1) h2

end

end Verif.Sync
