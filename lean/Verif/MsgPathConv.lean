import Verif.MsgPathInv
import Verif.MinLabelConv
import Verif.WorkInit

/-!
# Message-passing shortest paths come to rest

As in `Verif/MinLabelConv.lean`: if no edge lowers a label, a note that improves a vertex has come along a path that
visits no vertex twice, so each vertex improves finitely often. A vertex sends along its edges only after it has
improved, once for every improvement at most, and after edges were added.
-/

namespace Verif.MsgPath

open Verif.Async Verif.MinLabel Finset

variable {L E : Type} [LinearOrder L] [OrderTop L]

set_option linter.unusedSectionVars false

theorem msgAlg_local (f : E → L → L) (n : Nat) : Local (msgAlg f) n := by
  have hb : ∀ l : List (Nat × L), (∀ q ∈ l, q.1 < n) → (sendAll l : Prog Unit L).Below n := by
    intro l
    induction l with
    | nil => exact fun _ => trivial
    | cons q l ih => exact fun h => ⟨h q (by simp), ih fun q hq => h q (by simp [hq])⟩
  refine ⟨?_, ?_, fun _ _ _ _ _ _ _ => trivial⟩
  · intro v p es x i m hes
    simp only [msgAlg, hUpd]
    generalize (if p.value > x then ({ value := x, willUpdate := true } : VP L) else p) = q
    split
    · trivial
    · split
      · trivial
      · refine hb _ fun q hq => ?_
        obtain ⟨e, he, rfl⟩ := List.mem_map.1 hq
        exact hes e he
  · intro v p es i m hes
    simp only [msgAlg, hAdd]
    split
    · trivial
    · refine hb _ fun q hq => ?_
      obtain ⟨e, he, rfl⟩ := List.mem_map.1 hq
      exact hes e (List.mem_of_mem_drop he)

theorem len_sendAll : ∀ l : List (Nat × L), (sendAll l : Prog Unit L).len = l.length
  | [] => rfl
  | (w, x) :: l => by simp only [sendAll, Prog.len, len_sendAll l, List.length_cons]; omega

theorem len_hUpd (f : E → L → L) (n : L) (i : Int) (p : VP L) (es : List (Edge E)) (m : Unit) : (hUpd f n i p es m).2.len ≤ es.length := by
  simp only [hUpd]
  generalize (if p.value > n then ({ value := n, willUpdate := true } : VP L) else p) = q
  split
  · exact Nat.zero_le _
  · split
    · exact Nat.zero_le _
    · simp [len_sendAll]

theorem len_hAdd (f : E → L → L) (st : Nat) (p : VP L) (es : List (Edge E)) (m : Unit) : (hAdd f st p es m).2.len ≤ es.length := by
  simp only [hAdd]
  split
  · exact Nat.zero_le _
  · simp [len_sendAll]

/-- The note of a visit can be told from what the visit does to a new vertex. -/
theorem hUpd_note {f : E → L → L} {n n' : L} {i i' : Int} (h : hUpd f n i = hUpd f n' i') : n = n' := by
  have h1 := hUpd_value f n i { value := ⊤, willUpdate := false } [] ()
  have h2 := hUpd_value f n' i' { value := ⊤, willUpdate := false } [] ()
  rw [h, h2] at h1
  simpa using h1.symm

theorem hAdd_note {f : E → L → L} {n : L} {i : Int} {st : Nat} (h : hAdd f st = hUpd f n i) : n = ⊤ := by
  have h1 := hUpd_value f n i { value := ⊤, willUpdate := false } [] ()
  rw [← h, hAdd_value] at h1
  simpa using h1.symm

/-! ## The invariant -/

/-- A label that is `⊤` or has a trail on which every vertex is at most the label of the trail. -/
def Has (f : E → L → L) (c : Cfg Unit L) (s : S L E) (v : Nat) (x : L) : Prop :=
  x = ⊤ ∨ ∃ p, Trail f s.edges (seedsN c s) ((v, x) :: p) ∧ ∀ q ∈ (v, x) :: p, (s.prop q.1).value ≤ q.2

/-- A note that, should it improve the vertex, has come along a trail. -/
def Fair (f : E → L → L) (c : Cfg Unit L) (s : S L E) (w : Nat) (x : L) : Prop :=
  x < (s.prop w).value → ∃ p, Trail f s.edges (seedsN c s) ((w, x) :: p) ∧ ∀ q ∈ p, (s.prop q.1).value ≤ q.2

/-- What threads may be doing, if `Q` holds for notes. -/
def TF (f : E → L → L) (Q : Nat → L → Prop) : Task (VP L) Unit L E → Prop
  | .idle => True
  | .load v h => (∀ n i, h = hUpd f n i → Q v n) ∧ ((∃ n i, h = hUpd f n i) ∨ ∃ st, h = hAdd f st)
  | .run _ q => Fine Q q
  | .cas _ _ _ => False
  | .put _ w n k => Q w n ∧ Fine Q k

structure FInv (f : E → L → L) (c : Cfg Unit L) (s : S L E) : Prop where
  prop : ∀ v, Has f c s v (s.prop v).value
  pend : ∀ v, ∀ n ∈ s.pend v, Fair f c s v n
  task : ∀ t, TF f (Fair f c s) (s.task t)

/-- The parts of the state that trails depend on have grown, and values have gone down. -/
structure Later (s s' : S L E) : Prop where
  edges : ∀ u e, e ∈ s.edges u → e ∈ s'.edges u
  inited : ∀ v, s.inited v = true → s'.inited v = true
  value : ∀ v, (s'.prop v).value ≤ (s.prop v).value

theorem seedsN_mono {c : Cfg Unit L} {s s' : S L E} (hin : ∀ v, s.inited v = true → s'.inited v = true) :
    ∀ v x, seedsN c s v = some x → seedsN c s' v = some x := by
  intro v x h
  unfold seedsN at *
  split at h
  · next hv => rw [if_pos (hin v hv)]; exact h
  · cases h

theorem Later.has {f : E → L → L} {c : Cfg Unit L} {s s' : S L E} (h : Later s s') {v : Nat} {x : L} (hx : Has f c s v x) : Has f c s' v x := by
  rcases hx with hx | ⟨p, h1, h2⟩
  · exact .inl hx
  · exact .inr ⟨p, h1.mono h.edges (seedsN_mono h.inited), fun q hq => le_trans (h.value _) (h2 q hq)⟩

theorem Later.fair {f : E → L → L} {c : Cfg Unit L} {s s' : S L E} (h : Later s s') (w : Nat) (x : L) (hx : Fair f c s w x) : Fair f c s' w x := by
  intro hlt
  obtain ⟨p, h1, h2⟩ := hx (lt_of_lt_of_le hlt (h.value w))
  exact ⟨p, h1.mono h.edges (seedsN_mono h.inited), fun q hq => le_trans (h.value _) (h2 q hq)⟩

/-- What a vertex sends along its edges is fair. -/
theorem fair_edge {f : E → L → L} {c : Cfg Unit L} {s : S L E} (htop : ∀ e, f e ⊤ = ⊤) (hinf : ∀ u e, e ∈ s.edges u → ∀ x, x ≤ f e.data x)
    {v : Nat} {x : L} (hx : Has f c s v x) {e : Edge E} (he : e ∈ s.edges v) : Fair f c s e.dst (f e.data x) := by
  intro hlt
  rcases hx with rfl | ⟨p, h1, h2⟩
  · rw [htop] at hlt; exact absurd hlt not_top_lt
  · refine ⟨(v, x) :: p, .edge v x p e h1 he ?_, h2⟩
    intro hm
    obtain ⟨q, hq, e1⟩ := List.mem_map.1 hm
    have h3 := h2 q hq
    have h4 := h1.le_head hinf v x p rfl q hq
    rw [e1] at h3
    exact absurd hlt (not_lt.2 (le_trans h3 (le_trans h4 (hinf v e he x))))

theorem tf_mono {f : E → L → L} {Q Q' : Nat → L → Prop} (h : ∀ v x, Q v x → Q' v x) (k : Task (VP L) Unit L E) (hk : TF f Q k) : TF f Q' k := by
  cases k with
  | idle => trivial
  | load v g => exact ⟨fun n i e => h _ _ (hk.1 n i e), hk.2⟩
  | run _ q => exact fine_mono h q hk
  | cas _ _ k => exact hk
  | put _ _ _ k => exact ⟨h _ _ hk.1, fine_mono h _ hk.2⟩

theorem fInv_mk {f : E → L → L} {c : Cfg Unit L} {s s' : S L E} (hi : FInv f c s) (hl : Later s s')
    (hp : ∀ v, (s'.prop v).value = (s.prop v).value ∨ Has f c s' v (s'.prop v).value) (hpd : ∀ v, ∀ n ∈ s'.pend v, n ∈ s.pend v ∨ Fair f c s' v n)
    (t : Nat) (y : Task (VP L) Unit L E) (hk : s'.task = upd s.task t y) (hy : TF f (Fair f c s') y) : FInv f c s' := by
  refine ⟨?_, ?_, ?_⟩
  · intro v
    rcases hp v with h | h
    · rw [h]; exact hl.has (hi.prop v)
    · exact h
  · intro v n hn
    rcases hpd v n hn with h | h
    · exact hl.fair _ _ (hi.pend v n h)
    · exact h
  · intro u
    rw [hk]
    by_cases e : u = t
    · rw [e, upd_same]; exact hy
    · rw [upd_ne _ _ e]; exact tf_mono hl.fair _ (hi.task u)

theorem fInv_start (f : E → L → L) (c : Cfg Unit L) (es0 : Nat → List (Edge E)) : FInv f c (start (msgAlg f) es0) :=
  ⟨fun _ => .inl rfl, fun v n h => by simp [start] at h, fun _ => trivial⟩

theorem fInv_go {f : E → L → L} {c : Cfg Unit L} (htop : ∀ e, f e ⊤ = ⊤) {s s' : S L E} {t : Nat} (hinf : ∀ u e, e ∈ s.edges u → ∀ x, x ≤ f e.data x)
    (hi : FInv f c s) (h : goStep (msgAlg f) s t (s.task t) = some s') : FInv f c s' := by
  have hsd := hi.task t
  have same : Later s s := ⟨fun _ _ h => h, fun _ h => h, fun _ => le_refl _⟩
  cases hk : s.task t with
  | idle => rw [hk] at h; cases h
  | load v hd =>
    rw [hk] at h hsd
    simp only [goStep, Option.some.injEq] at h
    have hle : (hd (s.prop v) (s.edges v) ()).1.value ≤ (s.prop v).value := by
      rcases hsd.2 with ⟨n, i, rfl⟩ | ⟨st, rfl⟩
      · rw [hUpd_value]; exact min_le_left _ _
      · rw [hAdd_value]
    have hprop : s'.prop = upd s.prop v (hd (s.prop v) (s.edges v) ()).1 := by subst h; rfl
    have hl : Later s s' := by
      refine ⟨fun u e he => by subst h; exact he, fun u hu => by subst h; exact hu, fun u => ?_⟩
      rw [hprop]
      by_cases e : u = v
      · rw [e, upd_same]; exact hle
      · rw [upd_ne _ _ e]
    have hedges : s'.edges = s.edges := by subst h; rfl
    have hpend : s'.pend = s.pend := by subst h; rfl
    have htask : s'.task = upd s.task t (.run v (hd (s.prop v) (s.edges v) ()).2) := by subst h; rfl
    have hinf' : ∀ u e, e ∈ s'.edges u → ∀ x, x ≤ f e.data x := by rw [hedges]; exact hinf
    clear h
    have hv : Has f c s' v (s'.prop v).value := by
      rw [hprop, upd_same]
      rcases hsd.2 with ⟨n, i, rfl⟩ | ⟨st, rfl⟩
      · rw [hUpd_value]
        rcases le_or_gt (s.prop v).value n with h1 | h1
        · rw [min_eq_left h1]; exact hl.has (hi.prop v)
        · rw [min_eq_right (le_of_lt h1)]
          obtain ⟨p, h2, h3⟩ := hsd.1 n i rfl h1
          refine .inr ⟨p, h2.mono hl.edges (seedsN_mono hl.inited), ?_⟩
          intro q hq
          rcases List.mem_cons.1 hq with rfl | hq
          · show (s'.prop v).value ≤ n
            rw [hprop, upd_same, hUpd_value]; exact min_le_right _ _
          · exact le_trans (hl.value _) (h3 q hq)
      · rw [hAdd_value]; exact hl.has (hi.prop v)
    refine fInv_mk hi hl ?_ (fun u n hn => .inl (by rw [hpend] at hn; exact hn)) t _ htask ?_
    · intro u
      by_cases e : u = v
      · right; rw [e]; exact hv
      · left; rw [hprop, upd_ne _ _ e]
    · show Fine (Fair f c s') _
      have hq : ∀ e ∈ s.edges v, Fair f c s' e.dst (f e.data (s'.prop v).value) := fun e he => fair_edge htop hinf' hv (by rw [hedges]; exact he)
      rw [hprop, upd_same] at hq
      rcases hsd.2 with ⟨n, i, rfl⟩ | ⟨st, rfl⟩
      · rw [hUpd_value] at hq; exact hUpd_fine f n i _ _ _ _ hq
      · rw [hAdd_value] at hq; exact hAdd_fine f st _ _ _ _ hq
  | run v q =>
    rw [hk] at h hsd
    cases q with
    | done =>
      simp only [goStep, Option.some.injEq] at h; subst h
      exact fInv_mk hi ⟨fun _ _ h => h, fun _ h => h, fun _ => le_refl _⟩ (fun _ => .inl rfl) (fun _ _ h => .inl h) t _ rfl trivial
    | post w m k => exact absurd hsd id
    | send w n k =>
      simp only [goStep, Option.some.injEq] at h; subst h
      exact fInv_mk hi ⟨fun _ _ h => h, fun _ h => h, fun _ => le_refl _⟩ (fun _ => .inl rfl) (fun _ _ h => .inl h) t _ rfl hsd
  | cas v w k => rw [hk] at hsd; exact absurd hsd id
  | put v w n k =>
    rw [hk] at h hsd
    simp only [goStep, Option.some.injEq] at h; subst h
    refine fInv_mk hi ⟨fun _ _ h => h, fun _ h => h, fun _ => le_refl _⟩ (fun _ => .inl rfl) ?_ t _ rfl hsd.2
    intro u x hx
    have hx' : x ∈ upd s.pend w (s.pend w ++ [n]) u := hx
    by_cases e : u = w
    · rw [e, upd_same] at hx'
      rw [e]
      rcases List.mem_append.1 hx' with h | h
      · exact .inl h
      · rw [List.mem_singleton.1 h]; exact .inr hsd.1
    · rw [upd_ne _ _ e] at hx'; exact .inl hx'

theorem fInv_step {f : E → L → L} {c : Cfg Unit L} (hnm : ∀ v, c.initMail v = none) (htop : ∀ e, f e ⊤ = ⊤) {s s' : S L E} {x : Act E} (hx : AddOnly x)
    (hinf : ∀ u e, e ∈ s.edges u → ∀ x, x ≤ f e.data x) (hi : FInv f c s) (h : step (msgAlg f) c s x = some s') : FInv f c s' := by
  cases x with
  | init t v =>
    simp only [step] at h
    split at h
    · have hin : ∀ u, s.inited u = true → upd s.inited v true u = true := by
        intro u hu; by_cases e : u = v
        · rw [e, upd_same]
        · rw [upd_ne _ _ e]; exact hu
      split at h
      · next m hm => rw [hnm] at hm; cases hm
      · next n hm hn =>
        simp only [Option.some.injEq] at h; subst h
        refine fInv_mk hi ⟨fun _ _ h => h, hin, fun _ => le_refl _⟩ (fun _ => .inl rfl) (fun _ _ h => .inl h) t _ rfl ⟨fun _ => ⟨[], .init v n ?_, fun q hq => nomatch hq⟩, trivial⟩
        unfold seedsN
        show (if upd s.inited v true v = true then _ else _) = _
        rw [upd_same, if_pos rfl, hn]
      · simp only [Option.some.injEq] at h; subst h
        have hl : Later s { s with inited := upd s.inited v true } := ⟨fun _ _ h => h, hin, fun _ => le_refl _⟩
        exact ⟨fun u => hl.has (hi.prop u), fun u n hn => hl.fair _ _ (hi.pend u n hn), fun u => tf_mono hl.fair _ (hi.task u)⟩
    · cases h
  | recv t v i =>
    simp only [step] at h
    split at h
    · cases hp : (s.pend v)[i]? with
      | none => rw [hp] at h; cases h
      | some n =>
        rw [hp] at h
        simp only [Option.some.injEq] at h; subst h
        refine fInv_mk hi ⟨fun _ _ h => h, fun _ h => h, fun _ => le_refl _⟩ (fun _ => .inl rfl) ?_ t _ rfl ⟨?_, .inl ⟨n, _, rfl⟩⟩
        · intro u x hx
          left
          have hx' : x ∈ upd s.pend v ((s.pend v).eraseIdx i) u := hx
          by_cases e : u = v
          · rw [e] at hx' ⊢; rw [upd_same] at hx'; exact List.mem_of_mem_eraseIdx hx'
          · rw [upd_ne _ _ e] at hx'; exact hx'
        · intro n' i' e
          have : n = n' := hUpd_note (f := f) (i := s.act v - 1) (i' := i') e
          rw [← this]
          exact hi.pend v n (List.mem_of_getElem? hp)
    · cases h
  | add t v es =>
    simp only [step] at h
    split at h
    · simp only [Option.some.injEq] at h; subst h
      refine fInv_mk hi ⟨?_, fun _ h => h, fun _ => le_refl _⟩ (fun _ => .inl rfl) (fun _ _ h => .inl h) t _ rfl ⟨?_, .inr ⟨_, rfl⟩⟩
      · intro u e he
        show e ∈ upd s.edges v _ u
        by_cases ev : u = v
        · rw [ev] at he ⊢; rw [upd_same]; exact List.mem_append_left _ he
        · rw [upd_ne _ _ ev]; exact he
      · intro n i e hlt
        have : n = ⊤ := hAdd_note (f := f) (st := (s.edges v).length) (i := i) e
        rw [this] at hlt
        exact absurd hlt not_top_lt
    · cases h
  | del t v keep => exact absurd hx id
  | go t =>
    simp only [step] at h
    split at h
    · exact fInv_go htop hinf hi h
    · cases h

/-- Edges are kept. -/
theorem edges_kept {c : Cfg Unit L} {f : E → L → L} {s s' : S L E} {x : Act E} (hx : AddOnly x) (h : step (msgAlg f) c s x = some s') :
    ∀ u e, e ∈ s.edges u → e ∈ s'.edges u := by
  intro u e he
  cases x with
  | init t v =>
    simp only [step] at h
    split at h
    · split at h
      · split at h <;> (simp only [Option.some.injEq] at h; subst h; exact he)
      · simp only [Option.some.injEq] at h; subst h; exact he
      · simp only [Option.some.injEq] at h; subst h; exact he
    · cases h
  | recv t v i => rw [edges_work rfl h]; exact he
  | add t v es =>
    simp only [step] at h
    split at h
    · simp only [Option.some.injEq] at h; subst h
      show e ∈ upd s.edges v _ u
      by_cases ev : u = v
      · subst ev; rw [upd_same]; exact List.mem_append_left _ he
      · rw [upd_ne _ _ ev]; exact he
    · cases h
  | del t v keep => exact absurd hx id
  | go t => rw [edges_work rfl h]; exact he

theorem fInv_run {f : E → L → L} {c : Cfg Unit L} (hnm : ∀ v, c.initMail v = none) (htop : ∀ e, f e ⊤ = ⊤) : ∀ {xs : List (Act E)} {s s' : S L E}, (∀ x ∈ xs, AddOnly x) →
    FInv f c s → run (msgAlg f) c s xs = some s' → (∀ u e, e ∈ s'.edges u → ∀ x, x ≤ f e.data x) → FInv f c s' ∧ ∀ u e, e ∈ s.edges u → e ∈ s'.edges u
  | [], s, s', _, hi, h, _ => by simp only [run, Option.some.injEq] at h; subst h; exact ⟨hi, fun _ _ h => h⟩
  | x :: xs, s, s', hx, hi, h, hinf => by
    simp only [run] at h
    obtain ⟨s1, h1, h2⟩ := Option.bind_eq_some_iff.1 h
    have hx0 := hx x (by simp)
    have hxs : ∀ y ∈ xs, AddOnly y := fun y hy => hx y (by simp [hy])
    have hall : ∀ {ys : List (Act E)} {r r' : S L E}, (∀ y ∈ ys, AddOnly y) → run (msgAlg f) c r ys = some r' → ∀ u e, e ∈ r.edges u → e ∈ r'.edges u := by
      intro ys
      induction ys with
      | nil => intro r r' _ h u e he; simp only [run, Option.some.injEq] at h; subst h; exact he
      | cons y ys ih =>
        intro r r' hy h u e he
        simp only [run] at h
        obtain ⟨r1, h3, h4⟩ := Option.bind_eq_some_iff.1 h
        exact ih (fun z hz => hy z (by simp [hz])) h4 u e (edges_kept (hy y (by simp)) h3 u e he)
    have h12 := hall hxs h2
    have h01 := edges_kept hx0 h1
    have hi1 := fInv_step hnm htop hx0 (fun u e he => hinf u e (h12 u e (h01 u e he))) hi h1
    exact ⟨(fInv_run hnm htop hxs hi1 h2 hinf).1, fun u e he => h12 u e (h01 u e he)⟩

/-! ## The bound -/

open Classical in
/-- Sends that a task has left, if a vertex has at most `B` edges; a visit pays for its own from the vertex. -/
noncomputable def debt (f : E → L → L) (B : Nat) : Task (VP L) Unit L E → Nat
  | .idle => 0
  | .load _ h => if ∃ n i, h = hUpd f n i then 0 else B
  | .run _ q => q.len
  | .cas _ _ _ => 0
  | .put _ _ _ k => k.len

/-- What a vertex may still send: once for every value it can still take, and once if it has put off sending. -/
noncomputable def fund (F : Finset L) (B : Nat) (p : VP L) : Nat := B * rank F p.value + if p.willUpdate = true then B else 0

noncomputable def credit (f : E → L → L) (F : Finset L) (B n : Nat) (c : Cfg Unit L) (s : S L E) : Nat :=
  (∑ v ∈ range n, fund F B (s.prop v)) + ∑ t ∈ range c.T, debt f B (s.task t)

/-- A visit pays for what it sends. -/
theorem hUpd_pays {f : E → L → L} {F : Finset L} {B : Nat} {n : L} {i : Int} {p : VP L} {es : List (Edge E)} {m : Unit} (hB : es.length ≤ B)
    (hF : n < p.value → n ∈ F) : fund F B (hUpd f n i p es m).1 + (hUpd f n i p es m).2.len ≤ fund F B p := by
  simp only [hUpd]
  have key : ∀ q : VP L, fund F B q ≤ fund F B p → 
      fund F B (if i > 0 then (q, (.done : Prog Unit L)) else if q.willUpdate = false then (q, .done) else ({ q with willUpdate := false }, sendAll (es.map fun e => (e.dst, f e.data q.value)))).1 +
      (if i > 0 then (q, (.done : Prog Unit L)) else if q.willUpdate = false then (q, .done) else ({ q with willUpdate := false }, sendAll (es.map fun e => (e.dst, f e.data q.value)))).2.len ≤ fund F B p := by
    intro q hq
    split
    · simpa [Prog.len] using hq
    · split
      · simpa [Prog.len] using hq
      · next hw =>
        have hw' : q.willUpdate = true := by simpa using hw
        simp only [fund, hw', if_true, len_sendAll, List.length_map, Bool.false_eq_true, if_false] at hq ⊢
        omega
  by_cases hn : p.value > n
  · rw [if_pos hn]
    refine key _ ?_
    have hr := rank_lt F hn (hF hn)
    have : B * (rank F n + 1) ≤ B * rank F p.value := Nat.mul_le_mul_left _ hr
    rw [Nat.mul_add] at this
    simp only [fund, if_true]
    omega
  · rw [if_neg hn]
    exact key _ (Nat.le_refl _)

theorem hAdd_pays {f : E → L → L} {F : Finset L} {B : Nat} {st : Nat} {p : VP L} {es : List (Edge E)} {m : Unit} (hB : es.length ≤ B) :
    fund F B (hAdd f st p es m).1 + (hAdd f st p es m).2.len ≤ fund F B p + B := by
  have h := len_hAdd f st p es m
  have h1 : fund F B (hAdd f st p es m).1 ≤ fund F B p := by
    unfold hAdd
    split
    · exact Nat.le_refl _
    · simp only [fund, Bool.false_eq_true, if_false]
      omega
  omega

theorem credit_task {f : E → L → L} {F : Finset L} {B n : Nat} {c : Cfg Unit L} {s s' : S L E} {t : Nat} {k : Task (VP L) Unit L E} (ht : t < c.T)
    (hp : s'.prop = s.prop) (hk : s'.task = upd s.task t k) : credit f F B n c s' + debt f B (s.task t) = credit f F B n c s + debt f B k := by
  have := sum_upd (debt f B) s.task t k c.T ht
  unfold credit
  rw [hp, hk]
  omega

theorem credit_step {f : E → L → L} {c : Cfg Unit L} {n B : Nat} {F : Finset L} {s s' : S L E} {x : Act E} (hB : ∀ v, (s.edges v).length ≤ B)
    (hF : ∀ v y p, Trail f s.edges (seedsN c s) ((v, y) :: p) → y ∈ F) (hs : Supp n s) (hi : FInv f c s)
    (hx : x.work = true) (h : step (msgAlg f) c s x = some s') :
    credit f F B n c s' + (if charged (msgAlg f) s x = true then 1 else 0) ≤ credit f F B n c s := by
  cases x with
  | init _ _ => cases hx
  | add _ _ _ => cases hx
  | del _ _ _ => cases hx
  | recv t v i =>
    simp only [step] at h
    split at h
    · next hf =>
      obtain ⟨ht, hown, hk⟩ := (free_iff c s t v).1 hf
      cases hp : (s.pend v)[i]? with
      | none => rw [hp] at h; cases h
      | some y =>
        rw [hp] at h
        simp only [Option.some.injEq] at h
        have hc := credit_task (f := f) (F := F) (B := B) (n := n) (s := s) (s' := s') (k := .load v (hUpd f y (s.act v - 1))) ht (by subst h; rfl) (by subst h; rfl)
        have hd : debt f B (.load v (hUpd f y (s.act v - 1)) : Task (VP L) Unit L E) = 0 := by
          simp only [debt]; exact if_pos ⟨_, _, rfl⟩
        rw [hd] at hc
        simp only [charged, Bool.false_eq_true, if_false]
        omega
    · cases h
  | go t =>
    simp only [step] at h
    split at h
    · next ht =>
      have hsd := hi.task t
      cases hk : s.task t with
      | idle => rw [hk] at h; cases h
      | load v hd =>
        rw [hk] at h hsd
        simp only [goStep, Option.some.injEq] at h
        have hprop : s'.prop = upd s.prop v (hd (s.prop v) (s.edges v) ()).1 := by subst h; rfl
        have htask : s'.task = upd s.task t (.run v (hd (s.prop v) (s.edges v) ()).2) := by subst h; rfl
        have hch : charged (msgAlg f) s (.go t) = false := by simp [charged, hk]
        have hpay : fund F B (hd (s.prop v) (s.edges v) ()).1 + (hd (s.prop v) (s.edges v) ()).2.len ≤ fund F B (s.prop v) + debt f B (s.task t) := by
          rw [hk]
          simp only [debt]
          by_cases hu : ∃ n i, hd = hUpd f n i
          · rw [if_pos hu]
            obtain ⟨y, i, rfl⟩ := hu
            refine hUpd_pays (hB v) fun hlt => ?_
            obtain ⟨p, hp, -⟩ := hsd.1 y i rfl hlt
            exact hF v y p hp
          · rw [if_neg hu]
            obtain ⟨st, rfl⟩ := hsd.2.resolve_left hu
            exact hAdd_pays (hB v)
        have hlen : (hd (s.prop v) (s.edges v) ()).2.len ≤ (s.edges v).length := by
          rcases hsd.2 with ⟨y, i, rfl⟩ | ⟨st, rfl⟩
          · exact len_hUpd _ _ _ _ _ _
          · exact len_hAdd _ _ _ _ _
        have h1 := sum_upd (debt f B) s.task t (.run v (hd (s.prop v) (s.edges v) ()).2) c.T ht
        rw [hch]
        unfold credit
        rw [hprop, htask]
        rw [show debt f B (.run v (hd (s.prop v) (s.edges v) ()).2 : Task (VP L) Unit L E) = (hd (s.prop v) (s.edges v) ()).2.len from rfl] at h1
        simp only [Bool.false_eq_true, if_false]
        by_cases hv : v < n
        · have h2 := sum_upd (fund F B) s.prop v (hd (s.prop v) (s.edges v) ()).1 n hv
          omega
        · have h2 : (∑ u ∈ range n, fund F B (upd s.prop v (hd (s.prop v) (s.edges v) ()).1 u)) = ∑ u ∈ range n, fund F B (s.prop u) := by
            refine sum_congr rfl fun u hu => ?_
            rw [upd_ne _ _ (by have := mem_range.1 hu; omega)]
          have h3 : (s.edges v).length = 0 := by rw [hs.edges v (Nat.le_of_not_lt hv)]; rfl
          omega
      | run v q =>
        rw [hk] at h hsd
        cases q with
        | done =>
          simp only [goStep, Option.some.injEq] at h
          have hc := credit_task (f := f) (F := F) (B := B) (n := n) (s := s) (s' := s') (k := .idle) ht (by subst h; rfl) (by subst h; rfl)
          have hch : charged (msgAlg f) s (.go t) = false := by simp [charged, hk]
          rw [hk] at hc
          rw [hch]
          simp only [debt, Prog.len] at hc
          simp only [Bool.false_eq_true, if_false]
          omega
        | post w m k => exact absurd hsd id
        | send w y k =>
          simp only [goStep, Option.some.injEq] at h
          have hc := credit_task (f := f) (F := F) (B := B) (n := n) (s := s) (s' := s') (k := .put v w y k) ht (by subst h; rfl) (by subst h; rfl)
          have hch : charged (msgAlg f) s (.go t) = true := by simp [charged, hk]
          rw [hk] at hc
          rw [hch]
          simp only [debt, Prog.len] at hc
          simp only [if_true]
          omega
      | cas v w k => rw [hk] at hsd; exact absurd hsd id
      | put v w y k =>
        rw [hk] at h
        simp only [goStep, Option.some.injEq] at h
        have hc := credit_task (f := f) (F := F) (B := B) (n := n) (s := s) (s' := s') (k := .run v k) ht (by subst h; rfl) (by subst h; rfl)
        have hch : charged (msgAlg f) s (.go t) = false := by simp [charged, hk]
        rw [hk] at hc
        rw [hch]
        simp only [debt] at hc
        simp only [Bool.false_eq_true, if_false]
        omega
    · cases h

/-- **The bound.** After any history without deletes, on a graph where no edge lowers a label, the number
of steps that can follow without topology changes is bounded. -/
theorem converge (f : E → L → L) (htop : ∀ e, f e ⊤ = ⊤) (c : Cfg Unit L) (hnm : ∀ v, c.initMail v = none) (n : Nat)
    {es0 : Nat → List (Edge E)} (h1 : ∀ v, n ≤ v → es0 v = []) (h2 : ∀ v e, e ∈ es0 v → e.dst < n)
    {xs : List (Act E)} (hx : ∀ x ∈ xs, AddOnly x) (hxn : xs.all (Act.below n) = true) {s : S L E}
    (h : run (msgAlg f) c (start (msgAlg f) es0) xs = some s) (hinf : ∀ u e, e ∈ s.edges u → ∀ x, x ≤ f e.data x) :
    ∃ B, ∀ ys s', (∀ y ∈ ys, Act.work y = true) → run (msgAlg f) c s ys = some s' → ys.length ≤ B := by
  have hloc := msgAlg_local f n
  have hi := (fInv_run hnm htop hx (fInv_start f c es0) h hinf).1
  have hs := supp_run hloc hxn (supp_loaded _ n es0 h1 h2) h
  have hfin : (Values f s.edges (seedsN c s)).Finite := by
    refine values_finite f s.edges (seedsN c s) (n := n) ?_ hs.dst
    intro v x hv
    by_contra hnv
    unfold seedsN at hv
    rw [hs.inited v (Nat.le_of_not_lt hnv)] at hv
    cases hv
  let F := hfin.toFinset
  let B := ∑ u ∈ range n, (s.edges u).length
  have hlen : ∀ v, (s.edges v).length ≤ B := by
    intro v
    by_cases hv : v < n
    · exact single_le_sum (f := fun u => (s.edges u).length) (fun _ _ => Nat.zero_le _) (mem_range.2 hv)
    · rw [hs.edges v (Nat.le_of_not_lt hv)]; exact Nat.zero_le _
  let I : S L E → Prop := fun r => FInv f c r ∧ r.edges = s.edges ∧ r.inited = s.inited
  refine ⟨work B n c s + (B + 5) * credit f F B n c s, fun ys s' hy hr => ?_⟩
  have := work_bound (c := c) (B := B) hloc I (credit f F B n c) ?_ ?_ (s := s) ⟨hi, rfl, rfl⟩ hs ?_ hy hr
  · omega
  · rintro r ⟨-, he, -⟩ v p y i m
    rw [he]
    exact Nat.le_trans (len_hUpd f y i p (s.edges v) m) (hlen v)
  · rintro r r' x ⟨hir, her, hnr⟩ hsr hxw hstep
    have hadd : AddOnly x := by cases x <;> trivial
    refine ⟨⟨fInv_step hnm htop hadd (by rw [her]; exact hinf) hir hstep, (edges_work hxw hstep).trans her, (inited_stays hxw hstep).trans hnr⟩, ?_⟩
    refine credit_step (by rw [her]; exact hlen) ?_ hsr hir hxw hstep
    intro v y p hp
    have hsd : seedsN c r = seedsN c s := by funext u; unfold seedsN; rw [hnr]
    rw [her, hsd] at hp
    exact hfin.mem_toFinset.2 ⟨v, p, hp⟩
  · intro t v k hk p m
    have := hi.task t
    rw [hk] at this
    rcases this.2 with ⟨y, i, rfl⟩ | ⟨st, rfl⟩
    · exact Nat.le_trans (len_hUpd _ _ _ _ _ _) (hlen v)
    · exact Nat.le_trans (len_hAdd _ _ _ _ _) (hlen v)

end Verif.MsgPath
