import Verif.OracleRace

/-!
# C77, with others at work during the comparison

`C77_blocked`: with the graph threads blocked, the properties at the end are those at the beginning, for every
`OnFinish` and however the concurrent finishing of the query is interleaved. What that finishing reads of a
vertex is its property or the finished property (`C77_read`), and the latter does happen (`C77_read_false`).
`C77_live_false`: with threads at work an update is lost.
-/

namespace Verif.OracleRace

/-- Without updates: what the properties are at each place. -/
structure Inv (c : Cfg) (p : Nat → Nat) (s : St) : Prop where
  want : s.want = p
  saved : ∀ v < c.n, (match s.pc with | .save i => v < i | _ => True) → s.stash v = p v
  cell : ∀ v < c.n, s.prop v = (match s.pc with
    | .save _ => p v
    | .finish i => if v < i then c.finish v (p v) else p v
    | .compare => c.finish v (p v)
    | .restore i => if v < i then p v else c.finish v (p v)
    | .done => p v)
  seen : ∀ v x, s.seen v = some x → x = p v ∨ x = c.finish v (p v)

theorem inv_start (c : Cfg) (p : Nat → Nat) : Inv c p (start p) :=
  ⟨rfl, fun v _ h => by simp [start] at h, fun v _ => rfl, fun v x h => by simp [start] at h⟩

theorem inv_step (c : Cfg) (hl : c.live = false) (p : Nat → Nat) (s s' : St) (x : Act) (h : Inv c p s) (hs : step c s x = some s') : Inv c p s' := by
  obtain ⟨h1, h2, h3, h4⟩ := h
  cases x with
  | update v k => simp [step, hl] at hs
  | read v =>
    simp only [step] at hs
    split at hs
    · cases hs
      refine ⟨h1, h2, h3, ?_⟩
      intro u x hx
      simp only [upd] at hx
      split at hx
      · rename_i hv e
        subst e
        simp only [Option.some.injEq] at hx
        have := h3 u hv
        rw [hx] at this
        rw [this]
        split <;> try split
        all_goals simp
      · exact h4 u x hx
    · cases hs
  | ctl =>
    simp only [step, ctlStep] at hs
    cases hpc : s.pc with
    | save i =>
      simp only [hpc] at hs h2 h3
      split at hs
      · cases hs
        refine ⟨h1, ?_, h3, h4⟩
        intro v hv hvi
        simp only at hvi ⊢
        by_cases e : v = i
        · subst e; rw [upd_same]; exact h3 _ hv
        · rw [upd_ne _ _ e]; exact h2 v hv (by omega)
      · cases hs
        refine ⟨h1, ?_, ?_, h4⟩
        · intro v hv _; exact h2 v hv (by omega)
        · intro v hv; simp only; rw [if_neg (by omega)]; exact h3 v hv
    | finish i =>
      simp only [hpc] at hs h2 h3
      split at hs
      · cases hs
        refine ⟨h1, h2, ?_, h4⟩
        intro v hv
        simp only
        by_cases e : v = i
        · subst e; rw [upd_same, if_pos (by omega), h3 _ hv, if_neg (by omega)]
        · rw [upd_ne _ _ e, h3 v hv]
          by_cases hlt : v < i
          · rw [if_pos hlt, if_pos (by omega)]
          · rw [if_neg hlt, if_neg (by omega)]
      · cases hs
        refine ⟨h1, h2, ?_, h4⟩
        intro v hv
        simp only
        rw [h3 v hv, if_pos (by omega)]
    | compare =>
      simp only [hpc] at hs h2 h3
      cases hs
      refine ⟨h1, h2, ?_, h4⟩
      intro v hv
      simp only
      rw [if_neg (by omega)]; exact h3 v hv
    | restore i =>
      simp only [hpc] at hs h2 h3
      split at hs
      · cases hs
        refine ⟨h1, h2, ?_, h4⟩
        intro v hv
        simp only
        by_cases e : v = i
        · subst e; rw [upd_same, if_pos (by omega)]; exact h2 _ hv trivial
        · rw [upd_ne _ _ e, h3 v hv]
          by_cases hlt : v < i
          · rw [if_pos hlt, if_pos (by omega)]
          · rw [if_neg hlt, if_neg (by omega)]
      · cases hs
        refine ⟨h1, h2, ?_, h4⟩
        intro v hv
        simp only
        rw [h3 v hv, if_pos (by omega)]
    | done => simp [hpc] at hs

theorem inv_run (c : Cfg) (hl : c.live = false) (p : Nat → Nat) : ∀ (xs : List Act) (s s' : St), Inv c p s → run c s xs = some s' → Inv c p s' := by
  intro xs
  induction xs with
  | nil => intro s s' h hr; simp only [run, Option.some.injEq] at hr; exact hr ▸ h
  | cons x xs ih =>
    intro s s' h hr
    simp only [run] at hr
    cases hs : step c s x with
    | none => simp [hs] at hr
    | some s1 =>
      rw [hs] at hr
      exact ih s1 s' (inv_step c hl p s s1 x h hs) hr

/-- The full claim: the properties after a comparison are those there would be without it. -/
def C77LiveStatement (live : Bool) : Prop := ∀ (n : Nat) (finish : Nat → Nat → Nat) (p : Nat → Nat) (xs : List Act) (s : St),
    run ⟨n, live, finish⟩ (start p) xs = some s → s.pc = .done → ∀ v < n, s.prop v = s.want v

/-- **C77**, graph threads blocked (`BLOCK_ALL`, `EPOCH`): the comparison leaves the properties as they were. -/
theorem C77_blocked : C77LiveStatement false := by
  intro n f p xs s hr hd v hv
  have h := inv_run ⟨n, false, f⟩ rfl p xs (start p) s (inv_start _ p) hr
  rw [h.want, h.cell v hv, hd]

/-- What the concurrent finishing of a query reads during the comparison. -/
theorem C77_read (n : Nat) (f : Nat → Nat → Nat) (p : Nat → Nat) (xs : List Act) (s : St) (hr : run ⟨n, false, f⟩ (start p) xs = some s) (v x : Nat)
    (hx : s.seen v = some x) : x = p v ∨ x = f v (p v) :=
  (inv_run ⟨n, false, f⟩ rfl p xs (start p) s (inv_start _ p) hr).seen v x hx

/-- **Violation**: with the threads at work (`BLOCK_TOP`), what one of them adds after its vertex was saved is lost. -/
theorem C77_live_false : ¬ C77LiveStatement true := by
  intro h
  have := h 2 (fun _ x => 2 * x) (fun v => v + 10) [.ctl, .ctl, .update 0 5, .ctl, .ctl, .ctl, .ctl, .ctl, .ctl, .ctl, .ctl] _ rfl (by decide +kernel) 0 (by decide)
  revert this
  decide +kernel

/-- **Violation**: the query reports a vertex that has been finished twice, although it was asked after the threads had
stopped. -/
theorem C77_read_false : ¬ ∀ (n : Nat) (f : Nat → Nat → Nat) (p : Nat → Nat) (xs : List Act) (s : St), run ⟨n, false, f⟩ (start p) xs = some s →
    ∀ v x, s.seen v = some x → x = p v := by
  intro h
  have := h 1 (fun _ x => 2 * x) (fun _ => 10) [.ctl, .ctl, .ctl, .read 0] _ rfl 0 20 (by decide +kernel)
  simp at this

/-- A comparison of three vertices with a reader in between, to the end. -/
example : ∃ s, run ⟨3, false, fun v x => x * (v + 2)⟩ (start fun v => v + 1) [.ctl, .read 2, .ctl, .ctl, .ctl, .ctl, .read 0, .ctl, .ctl, .ctl, .ctl, .read 1, .ctl, .ctl, .ctl, .read 1, .ctl] = some s ∧
    s.pc = .done ∧ [s.seen 0, s.seen 1, s.seen 2] = [some 2, some 2, some 3] ∧ [s.prop 0, s.prop 1, s.prop 2] = [1, 2, 3] := by
  refine ⟨_, rfl, ?_⟩
  decide +kernel

end Verif.OracleRace
