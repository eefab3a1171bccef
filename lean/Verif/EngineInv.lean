import Verif.Engine
import Verif.TerminateAll
import Mathlib.Data.Multiset.AddSub
import Mathlib.Data.Multiset.Filter
import Mathlib.Tactic.Abel

/-! Invariants of the asynchronous engine. -/

namespace Verif.Engine

open Verif.Async (Alg Edge Prog Task)

variable {P M N E : Type}

/-- The notes for vertex `v` in a list of notifications. -/
def notes (v : Nat) (l : List (Nat × N)) : Multiset N := ↑(l.filterMap fun m => if m.1 = v then some m.2 else none)

/-- The notifications in filled positions. -/
def filled (l : List (Term.Slot × Nat × N)) : List (Nat × N) := (l.filter fun x => x.1.full).map Prod.snd

theorem notes_append (v : Nat) (l l' : List (Nat × N)) : notes v (l ++ l') = notes v l + notes v l' := by
  simp [notes, List.filterMap_append]

theorem notes_nil (v : Nat) : notes v ([] : List (Nat × N)) = 0 := rfl

theorem notes_cons (v : Nat) (m : Nat × N) (l : List (Nat × N)) : notes v (m :: l) = (if m.1 = v then {m.2} else 0) + notes v l := by
  have : m :: l = [m] ++ l := rfl
  rw [this, notes_append]
  congr 1
  simp only [notes, List.filterMap_cons, List.filterMap_nil]
  split <;> simp_all

theorem filled_append (l l' : List (Term.Slot × Nat × N)) : filled (l ++ l') = filled l ++ filled l' := by
  simp [filled]

theorem filled_cons (x : Term.Slot × Nat × N) (l : List (Term.Slot × Nat × N)) : filled (x :: l) = if x.1.full then x.2 :: filled l else filled l := by
  simp only [filled, List.filter_cons]
  split <;> simp

theorem upd_self {β : Type} (f : Nat → β) (i : Nat) : upd f i (f i) = f := by
  funext j
  by_cases h : j = i
  · rw [h, upd_same]
  · rw [upd_ne _ _ h]

/-- In a batch. -/
def working : Term.PC → Bool
  | .work .. | .put .. => true
  | _ => false

/-- Notifications of the batch not yet begun may be fewer than the batch had. -/
def begun : Term.PC → Bool
  | .work .msgs _ _ _ | .put .msgs _ _ _ _ => true
  | _ => false

structure Inv (c : Async.Cfg M N) (s : St P M N E) : Prop where
  que : ∀ t, s.term.queue t = (s.queue t).map Prod.fst
  buf : ∀ t, (s.buff t).length = (s.term.buff t).length
  han : ∀ t, begun (s.term.pc t) = false → (s.hand t).length = Term.hand (s.term.pc t)
  idle : ∀ t, s.alg.task t ≠ .idle → working (s.term.pc t) = true
  /-- A claimed position is the only unfilled one of its thread and waits for the notification being sent. -/
  put : ∀ t w k e n q, s.term.pc t = .put w k e n q → ∃ v u m p l r sl, s.alg.task t = .put v u m p ∧ c.own u = q ∧
    s.queue q = l ++ (sl, u, m) :: r ∧ sl.src = t ∧ sl.full = false ∧ ∀ x ∈ l ++ r, x.1.src = t → x.1.full = true
  cont : ∀ v, (s.alg.pend v : Multiset N) = notes v (s.hand (c.own v)) + notes v (s.buff (c.own v)) + notes v (filled (s.queue (c.own v)))
  /-- Only threads at `put` have unfilled positions. -/
  opn : ∀ q, ∀ x ∈ s.queue q, x.1.full = false → ∃ w k e n, s.term.pc x.1.src = .put w k e n q
  ownQ : ∀ q, ∀ x ∈ s.queue q, c.own x.2.1 = q
  ownB : ∀ q, ∀ x ∈ s.buff q, c.own x.1 = q
  ownH : ∀ q, ∀ x ∈ s.hand q, c.own x.1 = q

section
variable {a : Alg P M N E} {c : Async.Cfg M N} {max : Nat} {s s' : St P M N E}

/-! ### Steps of the algorithm -/

theorem topo_alg {α α' : Async.St P M N E} {x : Async.Act E} {t : Nat} (ht : topoThread x = some t) (h : Async.step a c α x = some α') :
    α'.pend = α.pend ∧ ∀ u, u ≠ t → α'.task u = α.task u := by
  cases x <;> simp only [topoThread, Option.some.injEq, reduceCtorEq] at ht <;> subst ht
  all_goals simp only [Async.step] at h
  all_goals repeat' split at h
  all_goals cases h
  all_goals exact ⟨rfl, fun u hu => by first | rfl | exact upd_ne _ _ hu⟩

theorem work_alg {α α' : Async.St P M N E} {t : Nat} (hp : ∀ v w n k, α.task t ≠ .put v w n k) (h : Async.step a c α (.go t) = some α') :
    α'.pend = α.pend ∧ ∀ u, u ≠ t → α'.task u = α.task u := by
  simp only [Async.step] at h
  split at h
  · unfold Async.goStep at h
    repeat' (first | split at h | (dsimp only at h; split at h))
    all_goals cases h
    all_goals first
      | exact ⟨rfl, fun u hu => by first | rfl | exact upd_ne _ _ hu⟩
      | exact absurd (by assumption) (hp _ _ _ _)
  · cases h

theorem put_alg {α α' : Async.St P M N E} {t v w : Nat} {n : N} {k : Prog M N} (hp : α.task t = .put v w n k) (h : Async.step a c α (.go t) = some α') :
    α'.pend = upd α.pend w (α.pend w ++ [n]) ∧ ∀ u, u ≠ t → α'.task u = α.task u := by
  simp only [Async.step, hp, Async.goStep] at h
  split at h
  · cases h
    exact ⟨rfl, fun u hu => upd_ne _ _ hu⟩
  · cases h

theorem recv_alg {α α' : Async.St P M N E} {t v i : Nat} (h : Async.step a c α (.recv t v i) = some α') :
    c.own v = t ∧ α'.pend = upd α.pend v ((α.pend v).eraseIdx i) ∧ ∀ u, u ≠ t → α'.task u = α.task u := by
  simp only [Async.step] at h
  split at h
  · rename_i hf
    simp only [Async.free, Bool.and_eq_true, decide_eq_true_eq] at hf
    split at h
    · cases h
    · cases h
      exact ⟨hf.1.2, rfl, fun u hu => upd_ne _ _ hu⟩
  · cases h

/-! ### Steps of the loops -/

def isPut : Term.PC → Bool
  | .put .. => true
  | _ => false

/-- A step of a loop that moves no notification. -/
theorem plain (h : Inv c s) {τ : Term.St} {t : Nat} {p : Term.PC} (hq : τ.queue = s.term.queue) (hb : τ.buff = s.term.buff) (hp : τ.pc = upd s.term.pc t p)
    (h1 : isPut (s.term.pc t) = false) (h2 : isPut p = false) (h3 : begun p = false → (s.hand t).length = Term.hand p)
    (h4 : s.alg.task t ≠ .idle → working p = true) : Inv c { s with term := τ } := by
  obtain ⟨que, buf, han, idle, put, cont, opn, ownQ, ownB, ownH⟩ := h
  refine ⟨fun u => ?_, fun u => ?_, fun u hu => ?_, fun u hu => ?_, fun u w k e n q hu => ?_, cont, fun q x hx hf => ?_, ownQ, ownB, ownH⟩
  · dsimp only; rw [hq]; exact que u
  · dsimp only; rw [hb]; exact buf u
  · dsimp only at *
    rw [hp] at hu ⊢
    by_cases e : u = t
    · subst e; rw [upd_same] at hu ⊢; exact h3 hu
    · rw [upd_ne _ _ e] at hu ⊢; exact han u hu
  · dsimp only at *
    rw [hp]
    by_cases e : u = t
    · subst e; rw [upd_same]; exact h4 hu
    · rw [upd_ne _ _ e]; exact idle u hu
  · dsimp only at *
    rw [hp] at hu
    by_cases e : u = t
    · subst e; rw [upd_same] at hu; rw [hu] at h2; cases h2
    · rw [upd_ne _ _ e] at hu; exact put u w k _ n q hu
  · dsimp only at *
    obtain ⟨w, k, e, n, hu⟩ := opn q x hx hf
    refine ⟨w, k, e, n, ?_⟩
    rw [hp, upd_ne _ _ ?_]
    · exact hu
    · intro e; rw [e] at hu; rw [hu] at h1; cases h1

/-- The notifications of a thread, in any place. -/
theorem shift (h : Inv c s) {τ : Term.St} {t : Nat} {p : Term.PC} {q' : List (Term.Slot × Nat × N)} {b' h' : List (Nat × N)}
    (hq : τ.queue = upd s.term.queue t (q'.map Prod.fst)) (hb : τ.buff t = s.term.buff t ∧ b' = s.buff t ∨ b'.length = (τ.buff t).length)
    (hbo : ∀ u, u ≠ t → τ.buff u = s.term.buff u) (hp : τ.pc = upd s.term.pc t p)
    (h1 : working (s.term.pc t) = false) (h2 : working p = false) (h3 : h'.length = Term.hand p)
    (hc : ∀ v, notes v h' + notes v b' + notes v (filled q') = notes v (s.hand t) + notes v (s.buff t) + notes v (filled (s.queue t)))
    (hsub : ∀ x ∈ h' ++ b', x ∈ s.hand t ++ s.buff t ∨ x ∈ (s.queue t).map Prod.snd)
    (hqs : ∃ l, s.queue t = l ++ q' ∧ ∀ x ∈ l, x.1.full = true) :
    Inv c { s with term := τ, queue := upd s.queue t q', buff := upd s.buff t b', hand := upd s.hand t h' } := by
  obtain ⟨l, hl, hlf⟩ := hqs
  obtain ⟨que, buf, han, idle, put, cont, opn, ownQ, ownB, ownH⟩ := h
  have hown : ∀ x ∈ h' ++ b', c.own x.1 = t := by
    intro x hx
    rcases hsub x hx with hx | hx
    · rcases List.mem_append.1 hx with hx | hx
      · exact ownH t x hx
      · exact ownB t x hx
    · obtain ⟨y, hy, rfl⟩ := List.mem_map.1 hx
      exact ownQ t y hy
  refine ⟨fun u => ?_, fun u => ?_, fun u hu => ?_, fun u hu => ?_, fun u w k e n q hu => ?_, fun v => ?_, fun q x hx hf => ?_, fun q x hx => ?_, fun q x hx => ?_, fun q x hx => ?_⟩
  all_goals dsimp only at *
  · rw [hq]
    by_cases e : u = t
    · subst e; rw [upd_same, upd_same]
    · rw [upd_ne _ _ e, upd_ne _ _ e]; exact que u
  · by_cases e : u = t
    · subst e; rw [upd_same]
      rcases hb with ⟨e1, e2⟩ | e
      · rw [e1, e2]; exact buf u
      · exact e
    · rw [upd_ne _ _ e, hbo u e]; exact buf u
  · rw [hp] at hu ⊢
    by_cases e : u = t
    · subst e; rw [upd_same, upd_same]; exact h3
    · rw [upd_ne _ _ e] at hu ⊢; rw [upd_ne _ _ e]; exact han u hu
  · rw [hp]
    by_cases e : u = t
    · subst e; exact absurd (idle u hu) (by simp [h1])
    · rw [upd_ne _ _ e]; exact idle u hu
  · rw [hp] at hu
    by_cases e : u = t
    · subst e; rw [upd_same] at hu; rw [hu] at h2; cases h2
    · rw [upd_ne _ _ e] at hu
      obtain ⟨v, u', m, p', l', r, sl, h4, h5, h6, h7, h8, h9⟩ := put u w k _ n q hu
      by_cases eq : q = t
      · subst eq
        rw [upd_same]
        rw [hl] at h6
        rcases List.append_eq_append_iff.1 h6 with ⟨l2, e1, e2⟩ | ⟨l2, e1, e2⟩
        · refine ⟨v, u', m, p', l2, r, sl, h4, h5, e2, h7, h8, fun x hx => h9 x ?_⟩
          rw [e1]; simp only [List.mem_append] at hx ⊢; tauto
        · cases l2 with
          | nil =>
            refine ⟨v, u', m, p', [], r, sl, h4, h5, e2.symm, h7, h8, fun x hx => h9 x ?_⟩
            simp only [List.mem_append, List.nil_append] at hx ⊢; tauto
          | cons y l2 =>
            rw [List.cons_append] at e2
            injection e2 with e3 e4
            have := hlf y (by rw [e1]; simp)
            rw [← e3, h8] at this; cases this
      · rw [upd_ne _ _ eq]; exact ⟨v, u', m, p', l', r, sl, h4, h5, h6, h7, h8, h9⟩
  · rw [cont v]
    by_cases e : c.own v = t
    · rw [e, upd_same, upd_same, upd_same]; exact (hc v).symm
    · rw [upd_ne _ _ e, upd_ne _ _ e, upd_ne _ _ e]
  · have hx' : x ∈ s.queue q := by
      by_cases e : q = t
      · subst e; rw [upd_same] at hx; rw [hl]; exact List.mem_append_right _ hx
      · rw [upd_ne _ _ e] at hx; exact hx
    obtain ⟨w, k, e, n, hu⟩ := opn q x hx' hf
    refine ⟨w, k, e, n, ?_⟩
    rw [hp, upd_ne _ _ ?_]
    · exact hu
    · intro e; rw [e] at hu; rw [hu] at h1; cases h1
  · by_cases e : q = t
    · subst e; rw [upd_same] at hx; exact ownQ q x (by rw [hl]; exact List.mem_append_right _ hx)
    · rw [upd_ne _ _ e] at hx; exact ownQ q x hx
  · by_cases e : q = t
    · subst e; rw [upd_same] at hx; exact hown x (List.mem_append_right _ hx)
    · rw [upd_ne _ _ e] at hx; exact ownB q x hx
  · by_cases e : q = t
    · subst e; rw [upd_same] at hx; exact hown x (List.mem_append_left _ hx)
    · rw [upd_ne _ _ e] at hx; exact ownH q x hx

theorem inv_loop_go [DecidableEq N] (h : Inv c s) {t : Nat} (hs : step a c max s (.loop (.go t)) = some s') : Inv c s' := by
  simp only [step] at hs
  split at hs
  case isFalse => cases hs
  case isTrue hbd =>
  obtain ⟨τ, hτ, rfl⟩ := Option.map_eq_some_iff.1 hs
  clear hs
  have hidle : s.alg.task t ≠ .idle → working (s.term.pc t) = true := h.idle t
  have hhan := h.han t
  simp only [Term.step] at hτ
  split at hτ
  case isFalse => cases hτ
  case isTrue htT =>
  cases hp : s.term.pc t with
  | pullB k =>
    rw [hp] at hidle hhan
    have hid : s.alg.task t = .idle := by
      by_contra hc
      exact absurd (hidle hc) (by simp [working])
    have hh : (s.hand t).length = k := hhan rfl
    have hb := h.buf t
    simp only [Term.goStep, hp] at hτ
    simp only [move]
    cases hbt : s.buff t with
    | nil =>
      rw [hbt] at hb
      rw [List.length_eq_zero_iff.1 hb.symm] at hτ
      cases hτ
      exact plain h rfl rfl rfl (by rw [hp]; rfl) rfl (fun _ => hh) (fun hc => absurd hid hc)
    | cons m rest =>
      rw [hbt] at hb
      obtain ⟨sl, rest', hbt'⟩ := List.exists_cons_of_length_pos (by rw [← hb]; simp : 0 < (s.term.buff t).length)
      rw [hbt'] at hτ hb
      dsimp only at hτ ⊢
      by_cases hk : k < max
      · rw [if_pos hk] at hτ
        rw [if_pos hk]
        cases hτ
        have := shift h (q' := s.queue t) (b' := rest) (h' := s.hand t ++ [m]) (t := t) (p := .pullB (k + 1))
          (τ := { (s.term.stamp t k).at t (.pullB (k + 1)) with buff := upd s.term.buff t rest' })
          (by rw [← h.que t, upd_self]; rfl) (.inr (by dsimp only; rw [upd_same]; simpa using hb)) (fun u hu => upd_ne _ _ hu) rfl
          (by rw [hp]; rfl) rfl (by simp [hh, Term.hand]) (fun v => by rw [hbt, notes_append, notes_cons v m rest, notes_cons v m [], notes_nil]; abel)
          (fun x hx => .inl (by rw [hbt]; simp only [List.mem_append, List.mem_cons, List.not_mem_nil, or_false] at hx ⊢; tauto)) ⟨[], rfl, fun x hx => nomatch hx⟩
        rw [upd_self] at this
        exact this
      · rw [if_neg hk] at hτ
        rw [if_neg hk]
        cases hτ
        exact plain h rfl rfl rfl (by rw [hp]; rfl) rfl (fun _ => hh) (fun hc => absurd hid hc)
  | pullQ k =>
    rw [hp] at hidle hhan
    have hid : s.alg.task t = .idle := by
      by_contra hc
      exact absurd (hidle hc) (by simp [working])
    have hh : (s.hand t).length = k := hhan rfl
    have hq := h.que t
    simp only [Term.goStep, hp, hq] at hτ
    simp only [move]
    cases hbt : s.queue t with
    | nil =>
      rw [hbt] at hτ
      cases hτ
      exact plain h rfl rfl rfl (by rw [hp]; rfl) rfl (fun _ => hh) (fun hc => absurd hid hc)
    | cons x rest =>
      obtain ⟨sl, m⟩ := x
      rw [hbt, List.map_cons] at hτ
      dsimp only at hτ ⊢
      by_cases hk : k < max ∧ sl.full = true
      · rw [if_pos hk] at hτ
        rw [if_pos hk]
        cases hτ
        have := shift h (q' := rest) (b' := s.buff t) (h' := s.hand t ++ [m]) (t := t) (p := .pullQ (k + 1))
          (τ := { (s.term.stamp t k).at t (.pullQ (k + 1)) with queue := upd s.term.queue t (rest.map Prod.fst) })
          rfl (.inl ⟨rfl, rfl⟩) (fun u hu => rfl) rfl
          (by rw [hp]; rfl) rfl (by simp [hh, Term.hand]) (fun v => by rw [hbt, filled_cons, if_pos hk.2, notes_append, notes_cons v m (filled rest), notes_cons v m [], notes_nil]; abel)
          (fun x hx => by rw [hbt]; simp only [List.mem_append, List.mem_cons, List.not_mem_nil, or_false, List.map_cons] at hx ⊢; tauto)
          ⟨[(sl, m)], hbt, fun x hx => by rw [List.mem_singleton.1 hx]; exact hk.2⟩
        rw [upd_self] at this
        exact this
      · rw [if_neg hk] at hτ
        rw [if_neg hk]
        cases hτ
        exact plain h rfl rfl rfl (by rw [hp]; rfl) rfl (fun _ => hh) (fun hc => absurd hid hc)
  | drain k =>
    rw [hp] at hidle hhan
    have hid : s.alg.task t = .idle := by
      by_contra hc
      exact absurd (hidle hc) (by simp [working])
    have hh : (s.hand t).length = k := hhan rfl
    have hq := h.que t
    simp only [Term.goStep, hp, hq] at hτ
    simp only [move]
    cases hbt : s.queue t with
    | nil =>
      rw [hbt] at hτ
      cases hτ
      exact plain h rfl rfl rfl (by rw [hp]; rfl) rfl (fun _ => hh) (fun hc => absurd hid hc)
    | cons x rest =>
      obtain ⟨sl, m⟩ := x
      rw [hbt, List.map_cons] at hτ
      dsimp only at hτ ⊢
      by_cases hk : sl.full = true
      · rw [if_pos hk] at hτ
        rw [if_pos hk]
        cases hτ
        have := shift h (q' := rest) (b' := s.buff t ++ [m]) (h' := s.hand t) (t := t) (p := .drain k)
          (τ := { s.term with queue := upd s.term.queue t (rest.map Prod.fst), buff := upd s.term.buff t (s.term.buff t ++ [sl]) })
          rfl (.inr (by dsimp only; rw [upd_same]; simp [h.buf t])) (fun u hu => upd_ne _ _ hu) (by dsimp only; rw [← hp, upd_self])
          (by rw [hp]; rfl) rfl hh (fun v => by rw [hbt, filled_cons, if_pos hk, notes_append, notes_cons v m (filled rest), notes_cons v m [], notes_nil]; abel)
          (fun x hx => by rw [hbt]; simp only [List.mem_append, List.mem_cons, List.not_mem_nil, or_false, List.map_cons] at hx ⊢; tauto)
          ⟨[(sl, m)], hbt, fun x hx => by rw [List.mem_singleton.1 hx]; exact hk⟩
        rw [upd_self] at this
        exact this
      · rw [if_neg hk] at hτ
        rw [if_neg hk]
        cases hτ
        exact plain h rfl rfl rfl (by rw [hp]; rfl) rfl (fun _ => hh) (fun hc => absurd hid hc)
  | work w k e n =>
    rw [hp] at hbd hidle hhan
    have hid : s.alg.task t = .idle := by
      cases w <;> simp only [batchDone, Bool.and_eq_true] at hbd
      · revert hbd; cases s.alg.task t <;> simp [isIdle]
      all_goals revert hbd; cases s.alg.task t <;> simp [isIdle]
    simp only [Term.goStep, hp] at hτ
    cases w with
    | msgs =>
      cases hτ
      have : s.hand t = [] := by simpa [batchDone, hid, isIdle] using hbd
      exact plain h rfl rfl rfl (by rw [hp]; rfl) rfl (fun _ => by rw [this]; rfl) (fun hc => absurd hid hc)
    | events =>
      cases hτ
      refine plain h rfl rfl rfl (by rw [hp]; rfl) ?_ ?_ (fun hc => absurd hid hc)
      · grind [isPut]
      · have := hhan rfl
        simp only [Term.hand] at this
        rw [this]
        grind [Term.hand, begun]
    | eventsOnly =>
      cases hτ
      exact plain h rfl rfl rfl (by rw [hp]; rfl) rfl (fun _ => hhan rfl) (fun hc => absurd hid hc)
  | put w k e n q => rw [hp] at hbd; cases hbd
  | _ =>
    rw [hp] at hidle hhan
    simp only [Term.goStep, hp] at hτ
    have hid : s.alg.task t = .idle := by
      by_contra hc
      exact absurd (hidle hc) (by simp [working])
    have hh := hhan rfl
    simp only [Term.hand] at hh
    simp only [move]
    repeat' split at hτ
    all_goals cases hτ
    all_goals refine plain h rfl rfl rfl (by rw [hp]; rfl) ?_ ?_ (fun hc => absurd hid hc)
    all_goals first
      | grind [isPut]
      | (rw [hh]; grind [Term.hand, begun])

theorem inv_loop [DecidableEq N] (h : Inv c s) {x : Term.Act} (hs : step a c max s (.loop x) = some s') : Inv c s' := by
  cases x with
  | go t => exact inv_loop_go h hs
  | send t q => cases hs
  | cont t =>
    simp only [step] at hs
    split at hs
    case isFalse => cases hs
    case isTrue hi =>
    have hid : s.alg.task t = .idle := by revert hi; cases s.alg.task t <;> simp [isIdle]
    obtain ⟨τ, hτ, rfl⟩ := Option.map_eq_some_iff.1 hs
    have hh := h.han t
    simp only [Term.step] at hτ
    repeat' split at hτ
    all_goals cases hτ
    rename_i k e n hp ht
    rw [hp] at hh
    exact plain h rfl rfl rfl (by rw [hp]; rfl) rfl (fun _ => hh rfl) (fun hc => absurd hid hc)
  | drain t =>
    simp only [step] at hs
    obtain ⟨τ, hτ, rfl⟩ := Option.map_eq_some_iff.1 hs
    have hh := h.han t; have hi := h.idle t
    simp only [Term.step] at hτ
    repeat' split at hτ
    all_goals cases hτ
    rename_i k hp ht
    rw [hp] at hh hi
    exact plain h rfl rfl rfl (by rw [hp]; rfl) rfl (fun _ => hh rfl) (fun hc => absurd (hi hc) (by simp [working]))
  | events t e =>
    simp only [step] at hs
    obtain ⟨τ, hτ, rfl⟩ := Option.map_eq_some_iff.1 hs
    have hh := h.han t
    simp only [Term.step] at hτ
    repeat' split at hτ
    all_goals cases hτ
    all_goals
      rename_i k hp
      rw [hp] at hh
      exact plain h rfl rfl rfl (by rw [hp]; rfl) rfl (fun _ => hh rfl) (fun _ => rfl)
  | close t =>
    simp only [step] at hs
    obtain ⟨τ, hτ, rfl⟩ := Option.map_eq_some_iff.1 hs
    simp only [Term.step] at hτ
    split at hτ
    · cases hτ
      exact ⟨h.que, h.buf, h.han, h.idle, h.put, h.cont, h.opn, h.ownQ, h.ownB, h.ownH⟩
    · cases hτ

/-- A step of a callback that sends nothing. -/
theorem alg_only (h : Inv c s) {α : Async.St P M N E} {t : Nat} (hp : α.pend = s.alg.pend) (ht : ∀ u, u ≠ t → α.task u = s.alg.task u)
    (hw : working (s.term.pc t) = true) (hn : isPut (s.term.pc t) = false) : Inv c { s with alg := α } := by
  refine ⟨h.que, h.buf, h.han, fun u hu => ?_, fun u w k e n q hu => ?_, fun v => ?_, h.opn, h.ownQ, h.ownB, h.ownH⟩
  all_goals dsimp only at *
  · by_cases e : u = t
    · rw [e]; exact hw
    · rw [ht u e] at hu; exact h.idle u hu
  · rw [ht u ?_]
    · exact h.put u w k e n q hu
    · intro e; rw [e] at hu; rw [hu] at hn; cases hn
  · rw [hp]; exact h.cont v

theorem inv_take [DecidableEq N] (h : Inv c s) {t i : Nat} (hs : step a c max s (.take t i) = some s') : Inv c s' := by
  simp only [step] at hs
  split at hs
  case h_2 => cases hs
  case h_1 _ _ k e n v m rest hp hh =>
  split at hs
  case isFalse => cases hs
  case isTrue hi =>
  obtain ⟨α, hα, rfl⟩ := Option.map_eq_some_iff.1 hs
  obtain ⟨hown, hpend, htask⟩ := recv_alg hα
  refine ⟨h.que, h.buf, fun u hu => ?_, fun u hu => ?_, fun u w k e n q hu => ?_, fun w => ?_, h.opn, h.ownQ, h.ownB, fun q x hx => ?_⟩
  all_goals dsimp only at *
  · by_cases e : u = t
    · subst e; rw [hp] at hu; cases hu
    · rw [upd_ne _ _ e]; exact h.han u hu
  · by_cases e : u = t
    · subst e; rw [hp]; rfl
    · rw [htask u e] at hu; exact h.idle u hu
  · rw [htask u ?_]
    · exact h.put u w k e n q hu
    · intro e; rw [e, hp] at hu; cases hu
  · rw [hpend]
    have hc := h.cont w
    by_cases e : c.own w = t
    · rw [e] at hc ⊢
      rw [upd_same]
      rw [hh, notes_cons] at hc
      dsimp only at hc
      by_cases ev : v = w
      · subst ev
        rw [upd_same]
        rw [if_pos rfl] at hc
        obtain ⟨hlt, hget⟩ := List.getElem?_eq_some_iff.1 hi
        have hperm := List.getElem_cons_eraseIdx_perm hlt
        rw [hget] at hperm
        have : (s.alg.pend v : Multiset N) = {m} + ((s.alg.pend v).eraseIdx i : Multiset N) := by
          rw [Multiset.singleton_add, ← Multiset.coe_eq_coe.2 hperm, Multiset.cons_coe]
        rw [this, add_assoc, add_assoc] at hc
        rw [add_assoc]
        exact add_left_cancel hc
      · rw [upd_ne _ _ (Ne.symm ev)]
        rw [if_neg ev, zero_add] at hc
        exact hc
    · rw [upd_ne _ _ e, upd_ne _ _ (by rintro rfl; exact e hown)]; exact hc
  · by_cases e : q = t
    · subst e; rw [upd_same] at hx; exact h.ownH q x (by rw [hh]; exact List.mem_cons_of_mem _ hx)
    · rw [upd_ne _ _ e] at hx; exact h.ownH q x hx

theorem inv_topo [DecidableEq N] (h : Inv c s) {x : Async.Act E} (hs : step a c max s (.topo x) = some s') : Inv c s' := by
  simp only [step] at hs
  split at hs
  · cases hs
  · rename_i t ht
    split at hs
    · cases hs
    · rename_i hp
      obtain ⟨α, hα, rfl⟩ := Option.map_eq_some_iff.1 hs
      obtain ⟨h1, h2⟩ := topo_alg ht hα
      exact alg_only h h1 h2 (by rw [hp]; rfl) (by rw [hp]; rfl)
    · cases hs

theorem inv_work [DecidableEq N] (h : Inv c s) {t : Nat} (hs : step a c max s (.work t) = some s') : Inv c s' := by
  simp only [step] at hs
  split at hs
  · cases hs
  · rename_i hp hn
    obtain ⟨α, hα, rfl⟩ := Option.map_eq_some_iff.1 hs
    obtain ⟨h1, h2⟩ := work_alg (fun v w n k e => by exact hn v w n k e) hα
    exact alg_only h h1 h2 (by rw [hp]; rfl) (by rw [hp]; rfl)
  · cases hs

theorem inv_claim [DecidableEq N] (h : Inv c s) {t : Nat} (hs : step a c max s (.claim t) = some s') : Inv c s' := by
  simp only [step] at hs
  split at hs
  case h_2 => cases hs
  case h_1 _ v w n k htask =>
  obtain ⟨τ, hτ, rfl⟩ := Option.map_eq_some_iff.1 hs
  simp only [Term.step] at hτ
  split at hτ
  case h_2 => cases hτ
  case h_1 _ kd ke e sent hp =>
  split at hτ
  case isFalse => cases hτ
  cases hτ
  have hnp : ∀ q, ∀ x ∈ s.queue q, x.1.src = t → x.1.full = true := by
    intro q x hx hsrc
    by_contra hf
    obtain ⟨_, _, _, _, h1⟩ := h.opn q x hx (by simpa using hf)
    rw [hsrc, hp] at h1; cases h1
  refine ⟨fun u => ?_, h.buf, fun u hu => ?_, fun u hu => ?_, fun u kd' k' e' n' q hu => ?_, fun v => ?_, fun q x hx hf => ?_, fun q x hx => ?_, h.ownB, h.ownH⟩
  all_goals dsimp only [Term.St.at] at *
  · by_cases e : u = c.own w
    · subst e; rw [upd_same, upd_same, List.map_append, h.que]; rfl
    · rw [upd_ne _ _ e, upd_ne _ _ e]; exact h.que u
  · have hh := h.han u
    by_cases e : u = t
    · subst e
      rw [upd_same] at hu ⊢
      rw [hp] at hh
      cases kd with
      | msgs => cases hu
      | events => exact hh rfl
      | eventsOnly => exact hh rfl
    · rw [upd_ne _ _ e] at hu ⊢; exact hh hu
  · by_cases e : u = t
    · subst e; rw [upd_same]; rfl
    · rw [upd_ne _ _ e]; exact h.idle u hu
  · by_cases e : u = t
    · subst e
      rw [upd_same] at hu
      injection hu with _ _ _ _ hq
      subst hq
      refine ⟨v, w, n, k, s.queue (c.own w), [], _, htask, rfl, upd_same _ _ _, rfl, rfl, fun x hx => ?_⟩
      rw [List.append_nil] at hx
      exact hnp _ x hx
    · rw [upd_ne _ _ e] at hu
      obtain ⟨v', u', m, p', l', r, sl, h4, h5, h6, h7, h8, h9⟩ := h.put u kd' k' _ n' q hu
      by_cases eq : q = c.own w
      · subst eq
        refine ⟨v', u', m, p', l', r ++ [(⟨t, s.term.acts t, false⟩, w, n)], sl, h4, h5, ?_, h7, h8, fun x hx hsrc => ?_⟩
        · rw [upd_same, h6]; simp
        · rw [← List.append_assoc] at hx
          rcases List.mem_append.1 hx with hx | hx
          · exact h9 x hx hsrc
          · rw [List.mem_singleton.1 hx] at hsrc
            exact absurd hsrc (Ne.symm e)
      · rw [upd_ne _ _ eq]; exact ⟨v', u', m, p', l', r, sl, h4, h5, h6, h7, h8, h9⟩
  · rw [h.cont v]
    by_cases e : c.own v = c.own w
    · rw [e, upd_same, filled_append]
      simp [filled]
    · rw [upd_ne _ _ e]
  · by_cases eq : q = c.own w
    · subst eq
      rw [upd_same] at hx
      rcases List.mem_append.1 hx with hx | hx
      · obtain ⟨w', k', e', n', h1⟩ := h.opn _ x hx hf
        refine ⟨w', k', e', n', ?_⟩
        rw [upd_ne _ _ ?_]
        · exact h1
        · intro e; rw [e, hp] at h1; cases h1
      · rw [List.mem_singleton.1 hx]
        exact ⟨_, _, _, _, upd_same _ _ _⟩
    · rw [upd_ne _ _ eq] at hx
      obtain ⟨w', k', e', n', h1⟩ := h.opn _ x hx hf
      refine ⟨w', k', e', n', ?_⟩
      rw [upd_ne _ _ ?_]
      · exact h1
      · intro e; rw [e, hp] at h1; cases h1
  · by_cases eq : q = c.own w
    · subst eq
      rw [upd_same] at hx
      rcases List.mem_append.1 hx with hx | hx
      · exact h.ownQ _ x hx
      · rw [List.mem_singleton.1 hx]
    · rw [upd_ne _ _ eq] at hx; exact h.ownQ _ x hx

theorem inv_fill [DecidableEq N] (h : Inv c s) {t : Nat} (hs : step a c max s (.fill t) = some s') : Inv c s' := by
  simp only [step] at hs
  split at hs
  case h_2 => cases hs
  case h_1 _ _ kd k e sent q _ _ _ _ hp htask0 =>
  obtain ⟨v, w, n, kk, l, r, sl, htask, hown, hqu, hsrc, hfull, hrest⟩ := h.put t _ _ _ _ _ hp
  obtain ⟨τ, hτ, hs⟩ := Option.bind_eq_some_iff.1 hs
  obtain ⟨α, hα, rfl⟩ := Option.map_eq_some_iff.1 hs
  obtain ⟨hpend, hother⟩ := put_alg htask hα
  simp only [Term.step, Term.goStep, hp] at hτ
  split at hτ
  case isFalse => cases hτ
  cases hτ
  have hmap : ∀ l' : List (Term.Slot × Nat × N), (∀ x ∈ l', x.1.src = t → x.1.full = true) →
      l'.map (fun x => if x.1.src = t then ({ x.1 with full := true }, x.2) else x) = l' := by
    intro l' hl
    refine (List.map_congr_left fun x hx => ?_).trans (List.map_id _)
    split
    · rename_i e1
      have := hl x hx e1
      obtain ⟨⟨s1, s2, s3⟩, y⟩ := x
      dsimp only at this
      subst this; rfl
    · rfl
  have hnew : (s.queue q).map (fun x => if x.1.src = t then ({ x.1 with full := true }, x.2) else x) = l ++ ({ sl with full := true }, w, n) :: r := by
    rw [hqu, List.map_append, List.map_cons, hmap l fun x hx => hrest x (List.mem_append_left _ hx), hmap r fun x hx => hrest x (List.mem_append_right _ hx)]
    simp [hsrc]
  refine ⟨fun u => ?_, h.buf, fun u hu => ?_, fun u hu => ?_, fun u kd' k' e' n' q' hu => ?_, fun v => ?_, fun q' x hx hf => ?_, fun q' x hx => ?_, h.ownB, h.ownH⟩
  all_goals dsimp only [Term.St.at] at *
  · by_cases e : u = q
    · subst e
      rw [upd_same, upd_same, h.que, List.map_map, List.map_map]
      refine List.map_congr_left fun x _ => ?_
      simp only [Function.comp]
      split <;> rfl
    · rw [upd_ne _ _ e, upd_ne _ _ e]; exact h.que u
  · have hh := h.han u
    by_cases e : u = t
    · subst e
      rw [upd_same] at hu ⊢
      rw [hp] at hh
      cases kd with
      | msgs => cases hu
      | events => exact hh rfl
      | eventsOnly => exact hh rfl
    · rw [upd_ne _ _ e] at hu ⊢; exact hh hu
  · by_cases e : u = t
    · subst e; rw [upd_same]; rfl
    · rw [upd_ne _ _ e]; rw [hother u e] at hu; exact h.idle u hu
  · by_cases e : u = t
    · subst e; rw [upd_same] at hu; cases hu
    · rw [upd_ne _ _ e] at hu
      obtain ⟨v', u', m, p', l', r', sl', h4, h5, h6, h7, h8, h9⟩ := h.put u kd' k' _ n' q' hu
      rw [hother u e]
      by_cases eq : q' = q
      · subst eq
        refine ⟨v', u', m, p', l'.map (fun x => if x.1.src = t then ({ x.1 with full := true }, x.2) else x), r'.map (fun x => if x.1.src = t then ({ x.1 with full := true }, x.2) else x), sl', h4, h5, ?_, h7, h8, fun x hx hxs => ?_⟩
        · rw [upd_same, h6, List.map_append, List.map_cons, if_neg]
          rw [h7]; exact e
        · rw [← List.map_append] at hx
          obtain ⟨y, hy, rfl⟩ := List.mem_map.1 hx
          split
          · rfl
          · rename_i hne
            rw [if_neg hne] at hxs
            exact h9 y hy hxs
      · rw [upd_ne _ _ eq]; exact ⟨v', u', m, p', l', r', sl', h4, h5, h6, h7, h8, h9⟩
  · have hc := h.cont v
    rw [hpend]
    by_cases e : c.own v = q
    · rw [e] at hc ⊢
      rw [upd_same, hnew]
      rw [hqu] at hc
      rw [filled_append, filled_cons, if_neg (by rw [hfull]; simp), notes_append] at hc
      rw [filled_append, filled_cons, if_pos rfl, notes_append, notes_cons]
      dsimp only
      by_cases ev : v = w
      · subst ev
        rw [upd_same, if_pos rfl, ← Multiset.coe_add, hc, Multiset.coe_singleton]
        abel
      · rw [upd_ne _ _ ev, if_neg (Ne.symm ev), hc, zero_add]
    · rw [upd_ne _ _ e, upd_ne _ _ (by rintro rfl; exact e hown)]; exact hc
  · have hx' : x ∈ s.queue q' ∧ x.1.src ≠ t := by
      by_cases eq : q' = q
      · subst eq
        rw [upd_same] at hx
        obtain ⟨y, hy, rfl⟩ := List.mem_map.1 hx
        split at hf
        · cases hf
        · rename_i hne
          rw [if_neg hne]; exact ⟨hy, hne⟩
      · rw [upd_ne _ _ eq] at hx
        refine ⟨hx, fun e => ?_⟩
        obtain ⟨_, _, _, _, h1⟩ := h.opn q' x hx hf
        rw [e, hp] at h1
        injection h1 with _ _ _ _ h1
        exact eq h1.symm
    obtain ⟨w', k', e', n', h1⟩ := h.opn q' x hx'.1 hf
    exact ⟨w', k', e', n', by rw [upd_ne _ _ hx'.2]; exact h1⟩
  · by_cases eq : q' = q
    · subst eq
      rw [upd_same] at hx
      obtain ⟨y, hy, rfl⟩ := List.mem_map.1 hx
      split
      · exact h.ownQ _ y hy
      · exact h.ownQ _ y hy
    · rw [upd_ne _ _ eq] at hx; exact h.ownQ _ x hx

theorem inv_step [DecidableEq N] (h : Inv c s) {x : Act E} (hs : step a c max s x = some s') : Inv c s' := by
  cases x with
  | loop x => exact inv_loop h hs
  | take t i => exact inv_take h hs
  | topo x => exact inv_topo h hs
  | work t => exact inv_work h hs
  | claim t => exact inv_claim h hs
  | fill t => exact inv_fill h hs

/-! ### The two machines inside -/

/-- The loops go on, or not. -/
theorem term_step [DecidableEq N] {x : Act E} (hs : step a c max s x = some s') :
    s'.term = s.term ∨ ∃ y, Term.step ⟨c.T, max⟩ s.term y = some s'.term := by
  cases x with
  | loop x =>
    cases x <;> simp only [step] at hs
    case go t =>
      split at hs
      · obtain ⟨τ, hτ, rfl⟩ := Option.map_eq_some_iff.1 hs; exact .inr ⟨_, hτ⟩
      · cases hs
    case cont t =>
      split at hs
      · obtain ⟨τ, hτ, rfl⟩ := Option.map_eq_some_iff.1 hs; exact .inr ⟨_, hτ⟩
      · cases hs
    case send => cases hs
    all_goals obtain ⟨τ, hτ, rfl⟩ := Option.map_eq_some_iff.1 hs; exact .inr ⟨_, hτ⟩
  | take t i =>
    simp only [step] at hs
    repeat' split at hs
    all_goals first | cases hs | (obtain ⟨α, hα, rfl⟩ := Option.map_eq_some_iff.1 hs; exact .inl rfl)
  | topo x =>
    simp only [step] at hs
    repeat' split at hs
    all_goals first | cases hs | (obtain ⟨α, hα, rfl⟩ := Option.map_eq_some_iff.1 hs; exact .inl rfl)
  | work t =>
    simp only [step] at hs
    repeat' split at hs
    all_goals first | cases hs | (obtain ⟨α, hα, rfl⟩ := Option.map_eq_some_iff.1 hs; exact .inl rfl)
  | claim t =>
    simp only [step] at hs
    split at hs
    · obtain ⟨τ, hτ, rfl⟩ := Option.map_eq_some_iff.1 hs; exact .inr ⟨_, hτ⟩
    · cases hs
  | fill t =>
    simp only [step] at hs
    split at hs
    · obtain ⟨τ, hτ, hs⟩ := Option.bind_eq_some_iff.1 hs
      obtain ⟨α, hα, rfl⟩ := Option.map_eq_some_iff.1 hs
      exact .inr ⟨_, hτ⟩
    · cases hs

/-- What the algorithm sees of an action: nothing, or a step of its own, which changes the graph only as topology
events do. -/
theorem alg_step [DecidableEq N] {x : Act E} (hs : step a c max s x = some s') :
    (s'.alg = s.alg ∧ topos [x] = []) ∨ ∃ y, Async.step a c s.alg y = some s'.alg ∧ changes [y] = topos [x] := by
  cases x with
  | loop x =>
    left
    cases x <;> simp only [step] at hs
    case go t =>
      split at hs
      · obtain ⟨τ, hτ, rfl⟩ := Option.map_eq_some_iff.1 hs
        simp only [move]
        repeat' split
        all_goals exact ⟨rfl, rfl⟩
      · cases hs
    case cont t =>
      split at hs
      · obtain ⟨τ, hτ, rfl⟩ := Option.map_eq_some_iff.1 hs; exact ⟨rfl, rfl⟩
      · cases hs
    case send => cases hs
    all_goals obtain ⟨τ, hτ, rfl⟩ := Option.map_eq_some_iff.1 hs; exact ⟨rfl, rfl⟩
  | take t i =>
    simp only [step] at hs
    repeat' split at hs
    all_goals first | cases hs | (obtain ⟨α, hα, rfl⟩ := Option.map_eq_some_iff.1 hs; exact .inr ⟨_, hα, rfl⟩)
  | topo x =>
    simp only [step] at hs
    repeat' split at hs
    all_goals first | cases hs | (obtain ⟨α, hα, rfl⟩ := Option.map_eq_some_iff.1 hs; exact .inr ⟨_, hα, by simp [changes, topos, *]⟩)
  | work t =>
    simp only [step] at hs
    repeat' split at hs
    all_goals first | cases hs | (obtain ⟨α, hα, rfl⟩ := Option.map_eq_some_iff.1 hs; exact .inr ⟨_, hα, rfl⟩)
  | claim t =>
    simp only [step] at hs
    split at hs
    · obtain ⟨τ, hτ, rfl⟩ := Option.map_eq_some_iff.1 hs; exact .inl ⟨rfl, rfl⟩
    · cases hs
  | fill t =>
    simp only [step] at hs
    split at hs
    · obtain ⟨τ, hτ, hs⟩ := Option.bind_eq_some_iff.1 hs
      obtain ⟨α, hα, rfl⟩ := Option.map_eq_some_iff.1 hs
      exact .inr ⟨_, hα, rfl⟩
    · cases hs

theorem topos_cons (x : Act E) (xs : List (Act E)) : topos (x :: xs) = topos [x] ++ topos xs := by
  rw [topos, ← List.singleton_append, List.filterMap_append]; rfl

theorem changes_cons (y : Async.Act E) (ys : List (Async.Act E)) : changes (y :: ys) = changes [y] ++ changes ys := by
  rw [changes, ← List.singleton_append, List.filter_append]; rfl

theorem proj [DecidableEq N] : ∀ {xs : List (Act E)} {s s' : St P M N E}, run a c max s xs = some s' →
    (Inv c s → Inv c s') ∧ (∃ ys, Term.run ⟨c.T, max⟩ s.term ys = some s'.term) ∧
    ∃ ys, Async.run a c s.alg ys = some s'.alg ∧ changes ys = topos xs
  | [], s, s', h => by
    simp only [run, Option.some.injEq] at h; subst h
    exact ⟨id, ⟨[], rfl⟩, [], rfl, rfl⟩
  | x :: xs, s, s', h => by
    simp only [run] at h
    obtain ⟨s1, h1, h2⟩ := Option.bind_eq_some_iff.1 h
    obtain ⟨i1, ⟨ys, i2⟩, zs, i3, i4⟩ := proj h2
    refine ⟨fun hi => i1 (inv_step hi h1), ?_, ?_⟩
    · rcases term_step h1 with e | ⟨y, hy⟩
      · rw [e] at i2; exact ⟨ys, i2⟩
      · exact ⟨y :: ys, by rw [Term.run, hy]; exact i2⟩
    · rcases alg_step h1 with ⟨e, hk⟩ | ⟨y, hy, hk⟩
      · rw [e] at i3
        exact ⟨zs, i3, by rw [topos_cons, hk, i4]; rfl⟩
      · exact ⟨y :: zs, by rw [Async.run, hy]; exact i3, by rw [topos_cons, changes_cons, hk, i4]⟩

end

end Verif.Engine
