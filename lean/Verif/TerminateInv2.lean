import Verif.TerminateInv
import Mathlib.Tactic.ByContra

/-! Invariants of the termination protocol, second part: what a snapshot says about messages. -/

namespace Verif.Term

section
variable {c : Cfg} {s s' : St} {a : Act}

/-- The next notification the thread will process. -/
def St.first (s : St) (t : Nat) : Option Slot := (s.buff t ++ s.queue t).head?

/-- The thread polled its queues without success since it passed the top of its loop. -/
def dry : PC → Bool
  | .drain k | .polled k | .recvd k => k = 0
  | .work w k _ _ | .put w k _ _ _ => w = .events ∧ k = 0
  | .report | .sum .. | .cmp .. => true
  | _ => false

/-- The thread is taking notifications. -/
def pulling : PC → Bool
  | .pullB k | .pullQ k => k ≠ 0
  | _ => false

theorem first_step (hs : step c s a = some s') :
    ∀ t sl, s'.first t = some sl →
      (∃ sl0, s.first t = some sl0 ∧ sl0.src = sl.src ∧ sl0.cnt = sl.cnt) ∨
      sl.cnt = s'.acts sl.src ∨ pulling (s'.pc t) = true := by
  step_cases hs
  all_goals simp only [St.acts, St.first] at *
  all_goals try grind [upd, pulling]
  · rename_i b _ _ w k e n q heq
    intro t sl h
    left
    by_cases e : t = q
    · subst e
      rw [upd_same, List.head?_append, List.head?_map] at h
      rw [List.head?_append]
      cases hb : (s.buff t).head? with
      | some x => rw [hb] at h; simp only [Option.some_or, Option.some.injEq] at h ⊢; exact ⟨x, rfl, by rw [h], by rw [h]⟩
      | none =>
        rw [hb] at h
        simp only [Option.none_or, Option.map_eq_some_iff] at h ⊢
        obtain ⟨x, hx, rfl⟩ := h
        exact ⟨x, hx, by split <;> rfl, by split <;> rfl⟩
    · rw [upd_ne _ _ e] at h; exact ⟨sl, h, rfl, rfl⟩
  · rename_i b q _ w k e n heq hh
    intro t sl h
    by_cases e : t = q
    · subst e
      rw [upd_same, ← List.append_assoc, List.head?_append] at h
      cases hb : (s.buff t ++ s.queue t).head? with
      | some x => rw [hb] at h; simp only [Option.some_or, Option.some.injEq] at h; exact Or.inl ⟨x, rfl, by rw [h], by rw [h]⟩
      | none =>
        rw [hb] at h
        simp only [Option.none_or, List.head?_cons, Option.some.injEq] at h
        subst h
        exact Or.inr (Or.inl rfl)
    · rw [upd_ne _ _ e] at h; exact Or.inl ⟨sl, h, rfl, rfl⟩

/-- The threads that became dry by this step. -/
theorem dry_step (hs : step c s a = some s') :
    ∀ t, dry (s'.pc t) = true → s'.cand t = s.cand t ∧ (dry (s.pc t) = true ∨
      (s.pc t = .pullQ 0 ∧ s'.queue = s.queue ∧ s'.buff = s.buff ∧
        ∀ sl, (s.queue t).head? = some sl → 0 < c.max → sl.full = false)) := by
  step_cases hs
  all_goals grind [upd, dry]

/-- Heads of queues seen from snapshots, and why a thread has worked since its snapshot. -/
structure L3 (c : Cfg) (s : St) : Prop where
  hc : ∀ t sl, dry (s.pc t) = true → s.first t = some sl → s.cand t sl.src ≤ sl.cnt
  hm : ∀ t sl, s.inst t = true → s.begun t ≤ s.mark t t → s.first t = some sl →
    s.mark t sl.src ≤ sl.cnt
  pt : ∀ t, s.inst t = true → s.mark t t < s.begun t → s.ptime t < s.clock
  why : ∀ r, s.inst r = true → s.mark r r < s.begun r → ∃ u, u < c.n ∧
    ((s.inst u = true ∧ s.mark r u < s.mark u u) ∨
     (s.mark r u < s.begun u ∧
       (s.inst u = true → s.mark u u < s.begun u ∧ s.ptime u < s.ptime r)))

theorem begun_ge (s : St) (t : Nat) : s.acts t ≤ s.begun t := Nat.le_add_right _ _

theorem L3.hc_step (hmax : 0 < c.max) (h1 : L1 c s) (h2 : L2 c s) (h : L3 c s)
    (hs : step c s a = some s') :
    ∀ t sl, dry (s'.pc t) = true → s'.first t = some sl → s'.cand t sl.src ≤ sl.cnt := by
  intro t sl hd hf
  have h1' := L1_step h1 hs
  have h2' := L2_step h1 h2 hs
  obtain ⟨hcand, hh⟩ := dry_step hs t hd
  rcases hh with hd0 | ⟨hp, hq, hb, hfull⟩
  · rcases first_step hs t sl hf with ⟨sl0, e0, e1, e2⟩ | e | e
    · rw [hcand, ← e1, ← e2]; exact h.hc t sl0 hd0 e0
    · rw [e]; exact le_trans (h2'.candD _ _) (h1'.dataA _)
    · exfalso; revert hd e; cases s'.pc t <;> simp [dry, pulling]
  · have hbe := h1.pull t 0 hp hmax
    have : (s.queue t).head? = some sl := by
      rw [St.first, hq, hb, hbe, List.nil_append] at hf; exact hf
    have hfl := hfull sl this hmax
    have := (h1.opn t sl (List.mem_of_head? this) hfl).2
    rw [hcand, this]
    exact le_trans (h2.candD _ _) (h1.dataA _)

/-- What a step does to the snapshots: a check confirms, a thread takes its first notification, or
nothing. -/
theorem snap_step (h1 : L1 c s) (h2 : L2 c s) (hs : step c s a = some s') :
    (∃ t acc, s.pc t = .cmp acc ∧ s.view t = acc ∧ s'.pc = upd s.pc t (.views 0 acc) ∧
      s'.mark = upd s.mark t (s.cand t) ∧
      s'.inst = upd s.inst t true ∧ s'.ptime = s.ptime ∧ s'.clock = s.clock ∧
      (∀ u, s'.acts u = s.acts u) ∧ (∀ u, s'.begun u = s.begun u) ∧ busy (s.pc t) = false ∧
      s'.first = s.first) ∨
    (∃ t sl, s'.mark = s.mark ∧ s'.inst = s.inst ∧ s.first t = some sl ∧ s.begun t = s.acts t ∧
      s'.begun t = s.acts t + 1 ∧ (∀ u, u ≠ t → s'.begun u = s.begun u) ∧
      s'.clock = s.clock + 1 ∧ s.acts t ≤ s.mark t t ∧ s'.ptime = upd s.ptime t s.clock) ∨
    (s'.mark = s.mark ∧ s'.inst = s.inst ∧ s'.ptime = s.ptime ∧ s.clock ≤ s'.clock ∧
      ∀ r, s.inst r = true → s.begun r ≤ s.mark r r → s'.begun r ≤ s'.mark r r) := by
  have hma : ∀ r, s.mark r r ≤ s.acts r := fun r => le_trans (h2.markD r r) (h1.dataA r)
  have hev := h1.workEv
  have hin := h1.inst
  clear h2
  step_cases hs
  all_goals first
    | (left
       refine ⟨_, _, by assumption, not_not.1 (by assumption), rfl, rfl, rfl, rfl, rfl, fun _ => rfl, ?_, ?_, rfl⟩
       · simp only [St.acts, St.begun] at *
         grind [upd, busy]
       · simp only [*, busy])
    | (right; right
       refine ⟨rfl, rfl, ?_, ?_, ?_⟩
       · grind
       · grind
       · simp only [St.acts, St.begun] at *
         grind [upd, busy])
    | skip
  · rename_i b _ _ k hp _ x rest hb _ hk
    right; left
    refine ⟨b, x, rfl, rfl, ?_, ?_, ?_, ?_, rfl, hk.2, rfl⟩
    · simp [St.first, hb]
    · simp [St.begun, hp, busy, hk.1]
    · simp [St.begun, St.acts, busy]
    · intro u hu; simp only [St.begun, St.acts, upd_ne _ _ hu]
  · rename_i b _ _ k hp _ x rest hb hk' hk
    right; left
    refine ⟨b, x, rfl, rfl, ?_, ?_, ?_, ?_, rfl, hk.2, rfl⟩
    · simp [St.first, hb, h1.pull b k hp hk'.1]
    · simp [St.begun, hp, busy, hk.1]
    · simp [St.begun, St.acts, busy]
    · intro u hu; simp only [St.begun, St.acts, upd_ne _ _ hu]

theorem L3.hm_step (h1 : L1 c s) (h2 : L2 c s) (h : L3 c s) (hs : step c s a = some s') :
    ∀ t sl, s'.inst t = true → s'.begun t ≤ s'.mark t t → s'.first t = some sl →
      s'.mark t sl.src ≤ sl.cnt := by
  intro t sl hi hb hf
  have h1' := L1_step h1 hs
  have h2' := L2_step h1 h2 hs
  have hmono := h1.begun_mono hs
  have key : s.inst t = true → s.begun t ≤ s.mark t t → s'.mark t = s.mark t →
      s'.mark t sl.src ≤ sl.cnt := by
    intro hi0 hb0 hm0
    rcases first_step hs t sl hf with ⟨sl0, e0, e1, e2⟩ | e | e
    · rw [hm0, ← e1, ← e2]; exact h.hm t sl0 hi0 hb0 e0
    · rw [e]; exact le_trans (h2'.markD _ _) (h1'.dataA _)
    · exfalso
      have : busy (s'.pc t) = true := by revert e; cases s'.pc t <;> simp [busy, pulling]
      have hh : s'.begun t = s'.acts t + 1 := by simp [St.begun, this]
      have := le_trans (h2'.markD t t) (h1'.dataA t)
      omega
  rcases snap_step h1 h2 hs with ⟨r, acc, hp, hv, hp', hmk, hin, _, _, ha, hbg, hnb, hfi⟩ |
    ⟨r, x, hmk, hin, _, hbr, hbr', hbo, _, hle, _⟩ | ⟨hmk, hin, _, _, hbb⟩
  · by_cases e : t = r
    · subst e
      rw [hfi] at hf
      rw [hmk, upd_same]
      exact h.hc t sl (by rw [hp]; rfl) hf
    · rw [hin, upd_ne _ _ e] at hi
      rw [hmk, upd_ne _ _ e, hbg] at hb
      exact key hi hb (by rw [hmk, upd_ne _ _ e])
  · rw [hin] at hi; rw [hmk] at hb
    exact key hi (le_trans (hmono t) hb) (by rw [hmk])
  · rw [hin] at hi; rw [hmk] at hb
    exact key hi (le_trans (hmono t) hb) (by rw [hmk])

theorem L3.pt_step (h1 : L1 c s) (h2 : L2 c s) (h : L3 c s) (hs : step c s a = some s') :
    ∀ t, s'.inst t = true → s'.mark t t < s'.begun t → s'.ptime t < s'.clock := by
  intro t hi hb
  rcases snap_step h1 h2 hs with ⟨r, acc, hp, hv, hp', hmk, hin, hpt, hcl, ha, hbg, hnb, hfi⟩ |
    ⟨r, x, hmk, hin, _, hbr, hbr', hbo, hcl, hle, hpt⟩ | ⟨hmk, hin, hpt, hcl, hbb⟩
  · rw [hpt, hcl]
    by_cases e : t = r
    · subst e
      exfalso
      have := (confirm h1 h2 hp hv).2.2
      rw [hmk, upd_same, hbg] at hb
      simp [St.begun, hnb] at hb; omega
    · rw [hin, upd_ne _ _ e] at hi
      rw [hmk, upd_ne _ _ e, hbg] at hb
      exact h.pt t hi hb
  · rw [hpt, hcl]
    by_cases e : t = r
    · subst e; rw [upd_same]; omega
    · rw [upd_ne _ _ e]
      rw [hin] at hi; rw [hmk, hbo t e] at hb
      have := h.pt t hi hb; omega
  · rw [hpt]
    rw [hin] at hi
    refine lt_of_lt_of_le (h.pt t hi ?_) hcl
    rcases Nat.lt_or_ge (s.mark t t) (s.begun t) with e | e
    · exact e
    · have := hbb t hi e; omega

theorem L3.why_step (h1 : L1 c s) (h2 : L2 c s) (h : L3 c s) (hs : step c s a = some s') :
    ∀ r, s'.inst r = true → s'.mark r r < s'.begun r → ∃ u, u < c.n ∧
      ((s'.inst u = true ∧ s'.mark r u < s'.mark u u) ∨
       (s'.mark r u < s'.begun u ∧
         (s'.inst u = true → s'.mark u u < s'.begun u ∧ s'.ptime u < s'.ptime r))) := by
  intro r hi hb
  have hmono := h1.begun_mono hs
  have hma : ∀ u, s.mark u u ≤ s.acts u := fun u => le_trans (h2.markD u u) (h1.dataA u)
  rcases snap_step h1 h2 hs with ⟨t, acc, hp, hv, hp', hmk, hin, hpt, hcl, ha, hbg, hnb, hfi⟩ |
    ⟨t, x, hmk, hin, hfirst, hbr, hbr', hbo, hcl, hle, hpt⟩ | ⟨hmk, hin, hpt, hcl, hbb⟩
  · have hc := (confirm h1 h2 hp hv).2.2
    have hbt : s.begun t = s.acts t := by simp [St.begun, hnb]
    by_cases e : r = t
    · subst e
      exfalso
      rw [hmk, upd_same, hbg] at hb; omega
    · rw [hin, upd_ne _ _ e] at hi
      rw [hmk, upd_ne _ _ e, hbg] at hb
      obtain ⟨u, hu, hw⟩ := h.why r hi hb
      refine ⟨u, hu, ?_⟩
      rw [hmk, hin, hpt, hbg, upd_ne _ _ e]
      by_cases e2 : u = t
      · subst e2
        simp only [upd_same]
        refine Or.inl ⟨trivial, ?_⟩
        rw [hc]
        rcases hw with hw | hw
        · exact lt_of_lt_of_le hw.2 (hma u)
        · omega
      · simp only [upd_ne _ _ e2]
        exact hw
  · by_cases e : r = t
    · subst e
      rw [hin] at hi
      have hfm := h.hm r x hi (by omega) hfirst
      have hx : x ∈ s.buff r ++ s.queue r := List.mem_of_head? hfirst
      have hsl : x.src < c.n ∧ x.cnt < s.begun x.src := by
        rcases List.mem_append.1 hx with hx | hx
        · exact h1.slotB r x hx
        · exact h1.slotQ r x hx
      have hne : x.src ≠ r := by
        intro e; rw [e] at hfm hsl; have := hma r; omega
      refine ⟨x.src, hsl.1, ?_⟩
      rw [hmk, hin, hpt, hbo _ hne, upd_same, upd_ne _ _ hne]
      by_cases hix : s.inst x.src = true
      · rcases Nat.lt_or_ge (s.mark x.src x.src) (s.begun x.src) with e | e
        · exact Or.inr ⟨by omega, fun _ => ⟨e, h.pt _ hix e⟩⟩
        · exact Or.inl ⟨hix, by omega⟩
      · exact Or.inr ⟨by omega, fun e => absurd e hix⟩
    · rw [hin] at hi
      rw [hmk, hbo r e] at hb
      obtain ⟨u, hu, hw⟩ := h.why r hi hb
      refine ⟨u, hu, ?_⟩
      rw [hmk, hin, hpt, upd_ne _ _ e]
      rcases hw with hw | ⟨hw1, hw2⟩
      · exact Or.inl hw
      · refine Or.inr ⟨lt_of_lt_of_le hw1 (hmono u), fun hiu => ?_⟩
        have hne : u ≠ t := by
          intro e; subst e; have := (hw2 hiu).1; omega
        rw [hbo u hne, upd_ne _ _ hne]; exact hw2 hiu
  · rw [hin] at hi
    have hb0 : s.mark r r < s.begun r := by
      rcases Nat.lt_or_ge (s.mark r r) (s.begun r) with e | e
      · exact e
      · have := hbb r hi e; omega
    obtain ⟨u, hu, hw⟩ := h.why r hi hb0
    refine ⟨u, hu, ?_⟩
    rw [hmk, hin, hpt]
    rcases hw with hw | ⟨hw1, hw2⟩
    · exact Or.inl hw
    · exact Or.inr ⟨lt_of_lt_of_le hw1 (hmono u), fun hiu =>
        ⟨lt_of_lt_of_le (hw2 hiu).1 (hmono u), (hw2 hiu).2⟩⟩

theorem L3_step (hmax : 0 < c.max) (h1 : L1 c s) (h2 : L2 c s) (h : L3 c s)
    (hs : step c s a = some s') : L3 c s' :=
  ⟨h.hc_step hmax h1 h2 hs, h.hm_step h1 h2 hs, h.pt_step h1 h2 hs, h.why_step h1 h2 hs⟩

/-- Nothing is in flight and nobody can create more. -/
def Still (c : Cfg) (s : St) : Prop :=
  ∀ t, t < c.n → s.queue t = [] ∧ s.buff t = [] ∧ busy (s.pc t) = false ∧ s.closed t = true

/-- Nothing is in flight, and `V` actions were performed, all of them reported. -/
def StillAt (c : Cfg) (s : St) (V : Nat) : Prop :=
  Still c s ∧ tot c.n s.acts = V ∧ ∀ t, t < c.n → s.data t = s.acts t

/-- If all threads have confirmed snapshots with the same sum, nothing is in flight. -/
theorem still_of_marks (h1 : L1 c s) (h2 : L2 c s) (h : L3 c s) {V : Nat}
    (hn : 0 < c.n)
    (hV : ∀ t, t < c.n → s.inst t = true ∧ tot c.n (s.mark t) = V) : StillAt c s V := by
  have heq : ∀ t t' u, t < c.n → t' < c.n → u < c.n → s.mark t u = s.mark t' u := by
    intro t t' u ht ht' hu
    have e : tot c.n (s.mark t) = tot c.n (s.mark t') := by rw [(hV t ht).2, (hV t' ht').2]
    rcases h2.ordMM t t' with o | o
    · exact eq_of_tot_eq (fun u _ => o u) e u hu
    · exact (eq_of_tot_eq (fun u _ => o u) e.symm u hu).symm
  have clean : ∀ p r, r < c.n → s.ptime r = p → s.begun r ≤ s.mark r r := by
    intro p
    induction p using Nat.strong_induction_on with
    | _ p ih =>
      intro r hr hp
      by_contra hn
      obtain ⟨u, hu, hw⟩ := h.why r (hV r hr).1 (by omega)
      rcases hw with ⟨_, hw⟩ | ⟨_, hw⟩
      · have := heq r u u hr hu hu; omega
      · have hw := hw (hV u hu).1
        have := ih (s.ptime u) (by omega) u hu rfl
        omega
  have hma : ∀ u, s.mark u u ≤ s.acts u := fun u => le_trans (h2.markD u u) (h1.dataA u)
  have hfirst : ∀ t, t < c.n → s.first t = none := by
    intro t ht
    cases hf : s.first t with
    | none => rfl
    | some sl =>
      exfalso
      have hfm := h.hm t sl (hV t ht).1 (clean _ t ht rfl) hf
      have hx : sl ∈ s.buff t ++ s.queue t := List.mem_of_head? hf
      have hsl : sl.src < c.n ∧ sl.cnt < s.begun sl.src := by
        rcases List.mem_append.1 hx with hx | hx
        · exact h1.slotB t sl hx
        · exact h1.slotQ t sl hx
      have := clean _ sl.src hsl.1 rfl
      have := heq t sl.src sl.src ht hsl.1 hsl.1
      omega
  have hact : ∀ t, t < c.n → s.data t = s.acts t ∧ s.mark t t = s.acts t := by
    intro t ht
    have h3 := clean _ t ht rfl
    have h4 := begun_ge s t
    have h5 := h2.markD t t
    have h6 := h1.dataA t
    omega
  refine ⟨?_, ?_, fun t ht => (hact t ht).1⟩
  swap
  · rw [← (hV 0 hn).2]
    refine Finset.sum_congr rfl fun u hu => ?_
    have hu := Finset.mem_range.1 hu
    rw [heq 0 u u hn hu hu]; exact (hact u hu).2.symm
  intro t ht
  have he : s.buff t ++ s.queue t = [] := List.head?_eq_none_iff.1 (hfirst t ht)
  rw [List.append_eq_nil_iff] at he
  refine ⟨he.2, he.1, ?_, h1.inst t (hV t ht).1⟩
  have := clean _ t ht rfl
  have := hma t
  cases hb : busy (s.pc t) with
  | false => rfl
  | true => simp [St.begun, hb] at *; omega

/-- Stillness lasts. -/
theorem still_step (h : Still c s) (hs : step c s a = some s') : Still c s' := by
  unfold Still at *
  step_cases hs
  all_goals grind [upd, busy]

theorem still_acts (h : Still c s) (hs : step c s a = some s') :
    ∀ t, t < c.n → s'.acts t = s.acts t := by
  unfold Still at *
  step_cases hs
  all_goals simp only [St.acts] at *
  all_goals grind [upd, busy]

theorem stillAt_step {V : Nat} (h : StillAt c s V) (hs : step c s a = some s') :
    StillAt c s' V := by
  obtain ⟨h1, h2, h3⟩ := h
  have ha := still_acts h1 hs
  refine ⟨still_step h1 hs, ?_, ?_⟩
  · rw [← h2]; exact Finset.sum_congr rfl fun u hu => ha u (Finset.mem_range.1 hu)
  · unfold Still at *
    clear h2
    step_cases hs
    all_goals simp only [St.acts] at *
    all_goals grind [upd, busy]

end

end Verif.Term
