import Verif.Colouring
import Verif.AsyncInv
import Mathlib.Data.List.Nodup
import Mathlib.Data.List.Perm.Subperm

/-!
# Invariants of graph colouring
-/

namespace Verif.Colouring

open Verif.Async Verif.MinLabel

/-! ## Numbers -/

theorem enc_mask {c : Nat} (h : c < 2147483648) : (c ||| MSB) &&& MASK = c := by
  apply Nat.eq_of_testBit_eq
  intro i
  have e1 : MSB = 2 ^ 31 := rfl
  have e2 : MASK = 2 ^ 31 - 1 := rfl
  rw [Nat.testBit_and, Nat.testBit_or, e1, e2, Nat.testBit_two_pow_sub_one, Nat.testBit_two_pow]
  by_cases hi : i < 31
  · have : ¬ 31 = i := by omega
    simp [hi, this]
  · have : c.testBit i = false := Nat.testBit_lt_two_pow (lt_of_lt_of_le h (by
      calc 2147483648 = 2 ^ 31 := by decide
        _ ≤ 2 ^ i := Nat.pow_le_pow_right (by decide) (by omega)))
    simp [hi, this]

theorem mask_of_lt {c : Nat} (h : c < 2147483648) : c &&& MASK = c := by
  have e2 : MASK = 2 ^ 31 - 1 := rfl
  rw [e2, Nat.and_two_pow_sub_one_eq_mod, Nat.mod_eq_of_lt (by simpa using h)]

theorem enc_msb (c : Nat) : (c ||| MSB) &&& MSB ≠ 0 := by
  intro h
  have := congrArg (fun n => Nat.testBit n 31) h
  have e1 : MSB = 2 ^ 31 := rfl
  have t : Nat.testBit 2147483648 31 = true := by decide
  simp [Nat.testBit_and, Nat.testBit_or, e1, t] at this

theorem msb_of_lt {c : Nat} (h : c < 2147483648) : c &&& MSB = 0 := by
  apply Nat.eq_of_testBit_eq
  intro i
  have e1 : MSB = 2 ^ 31 := rfl
  rw [Nat.testBit_and, e1, Nat.testBit_two_pow, Nat.zero_testBit]
  by_cases hi : 31 = i
  · subst hi
    have : c.testBit 31 = false := Nat.testBit_lt_two_pow (by simpa using h)
    simp [this]
  · simp [hi]

/-! ## The first unused colour -/

theorem firstUnused_spec (l : List Nat) : firstUnused l ∉ l ∧ ∀ m, m < firstUnused l → m ∈ l := by
  unfold firstUnused
  cases h : (List.range (l.length + 1)).find? fun n => !l.contains n with
  | none =>
    exfalso
    rw [List.find?_eq_none] at h
    have hs : List.range (l.length + 1) ⊆ l := by
      intro x hx
      have := h x hx
      simpa using this
    have := (List.nodup_range (n := l.length + 1)).subperm hs
    have := this.length_le
    simp at this
    omega
  | some n =>
    obtain ⟨h1, as, bs, h2, h3⟩ := List.find?_eq_some_iff_append.1 h
    have hn : as = List.range n := by
      have hl : as.length = n := by
        have := congrArg (fun l => l[as.length]?) h2
        simp only [List.getElem?_append_right (Nat.le_refl _), Nat.sub_self, List.getElem?_cons_zero, List.getElem?_range'] at this
        by_cases hlt : as.length < l.length + 1
        · rw [List.getElem?_range hlt] at this
          simpa using this
        · have hlen := congrArg List.length h2
          simp at hlen
          omega
      have := congrArg (List.take n) h2
      rw [← hl, List.take_left] at this
      rw [← this, List.take_range, hl]
      congr 1
      have hlen := congrArg List.length h2
      simp at hlen
      omega
    refine ⟨by simpa using h1, ?_⟩
    intro m hm
    have := h3 m (by rw [hn]; exact List.mem_range.2 hm)
    simpa using this

theorem firstUnused_le {l l' : List Nat} (h : ∀ x ∈ l, x ∈ l') : firstUnused l ≤ l'.length := by
  have hs : List.range (firstUnused l) ⊆ l' := by
    intro x hx
    exact h x ((firstUnused_spec l).2 x (List.mem_range.1 hx))
  have := ((List.nodup_range (n := firstUnused l)).subperm hs).length_le
  simpa using this

theorem best_le (ns : List Nat) : firstUnused (used ns) ≤ ns.length := by
  have := firstUnused_le (l := used ns) (l' := used ns) (fun _ h => h)
  refine this.trans ?_
  unfold used
  refine (List.length_filter_le _ _).trans ?_
  simp

/-- The new colour is in none of the entries. -/
theorem best_not {ns : List Nat} {p x : Nat} (h : ns[p]? = some x) : x &&& MASK ≠ firstUnused (used ns) := by
  intro e
  apply (firstUnused_spec (used ns)).1
  unfold used at e ⊢
  rw [← e, List.mem_filter]
  refine ⟨List.mem_map.2 ⟨x, List.mem_of_getElem? h, rfl⟩, ?_⟩
  rw [e]
  exact decide_eq_true (best_le ns)

/-! ## The mailbox -/

/-- `u` has priority over `w`. -/
def prior (u w : Nat) : Bool := comparePriority (hash u) (hash w) u w

theorem prior_or {u w : Nat} (h : u ≠ w) : prior u w = true ∨ prior w u = true := by
  unfold prior comparePriority
  simp only [Bool.or_eq_true, Bool.and_eq_true, decide_eq_true_eq]
  omega

theorem prior_asymm {u w : Nat} (h : prior u w = true) : prior w u = false := by
  unfold prior comparePriority at *
  simp only [Bool.or_eq_true, Bool.and_eq_true, decide_eq_true_eq, Bool.or_eq_false_iff, Bool.and_eq_false_iff, decide_eq_false_iff_not] at *
  omega

theorem prior_irrefl (u : Nat) : prior u u = false := by
  unfold prior comparePriority; simp

/-- What `MailMerge` stores for mail of `u`. -/
def stored (u : Nat) (m : Mail) : Nat := if prior m.box u = false then m.colour ||| MSB else m.colour

/-- Entries grow from nothing to `EMPTY` by the growth of the array. -/
def Filled (x y : Option Nat) : Prop := x = y ∨ (x = none ∧ y = some EMPTY)

theorem merge_self (m : Mail) (u : Nat) (x : Mail) (h : u = m.box) : merge m u x = (x, true) := by
  unfold merge; simp [h]

theorem merge_slot (m : Mail) (u : Nat) (x : Mail) (h : u ≠ m.box) (p : Nat) :
    (p = m.pos → (merge m u x).1.scratch[p]? = some (stored u m)) ∧ (p ≠ m.pos → Filled x.scratch[p]? (merge m u x).1.scratch[p]?) := by
  have hc : (if comparePriority (hash m.box) (hash u) m.box u = false then m.colour ||| MSB else m.colour) = stored u m := rfl
  unfold merge
  simp only [if_neg h, hc]
  split
  · next hl =>
    constructor
    · rintro rfl
      rw [List.getElem?_set_self (by simp; omega)]
    · intro hp
      rw [List.getElem?_set_ne (by omega)]
      by_cases h1 : p < x.scratch.length
      · rw [List.getElem?_append_left h1]; exact .inl rfl
      · rw [List.getElem?_append_right (by omega), List.getElem?_eq_none (by omega : x.scratch.length ≤ p)]
        by_cases h2 : p - x.scratch.length < m.pos + 1 - x.scratch.length
        · rw [List.getElem?_replicate_of_lt h2]; exact .inr ⟨rfl, rfl⟩
        · rw [List.getElem?_eq_none (by simp; omega)]; exact .inl rfl
  · next hl =>
    split
    · constructor
      · rintro rfl
        rw [List.getElem?_set_self (by omega)]
      · intro hp
        rw [List.getElem?_set_ne (by omega)]; exact .inl rfl
    · next hs =>
      constructor
      · rintro rfl
        simpa using hs
      · intro _; exact .inl rfl

theorem merge_len (m : Mail) (u : Nat) (x : Mail) (n : Nat) (hx : x.scratch.length ≤ n) (hp : m.pos < n) : (merge m u x).1.scratch.length ≤ n := by
  unfold merge
  simp only
  generalize (if comparePriority (hash m.box) (hash u) m.box u = false then m.colour ||| MSB else m.colour) = q
  split
  · exact hx
  · split
    · simp only [List.length_set, List.length_append, List.length_replicate]; omega
    · split
      · simp only [List.length_set]; exact hx
      · exact hx

/-- No news for a vertex without priority: the entry was there already. -/
theorem merge_quiet (m : Mail) (u : Nat) (x : Mail) (h : (merge m u x).2 = false) : (merge m u x).1 = x ∨ (prior m.box u = true ∧ u ≠ m.box) := by
  unfold merge at *
  simp only at *
  generalize (if comparePriority (hash m.box) (hash u) m.box u = false then m.colour ||| MSB else m.colour) = q at *
  split at h
  · cases h
  · next hne =>
    rw [if_neg hne]
    split at h
    · right
      exact ⟨by simpa [prior] using h, hne⟩
    · split at h
      · right
        exact ⟨by simpa [prior] using h, hne⟩
      · left
        next h1 h2 => rw [if_neg h1, if_neg h2]

/-! ## Programs -/

/-- The entry `p` of the mailbox of `w`, now `cur`, will be `t` when the program of `u` has run. -/
def Ends (u w p : Nat) : Prog Mail Unit → Option Nat → Nat → Prop
  | .done, cur, t => cur = some t
  | .post w' m k, cur, t => ∀ b, Ends u w p (k b) (if w' = w ∧ m.pos = p then some (stored u m) else cur) t
  | .send _ _ k, cur, t => Ends u w p k cur t

/-- Edges added so far: source, destination, position. -/
abbrev Added := List (Nat × Nat × Nat)

/-- The program of `u` posts along edges of `u` only. -/
def Along (U : Added) (u : Nat) : Prog Mail Unit → Prop
  | .done => True
  | .post w m k => m.box = w ∧ m.colour ≤ EMPTY ∧ (u, w, m.pos) ∈ U ∧ ∀ b, Along U u (k b)
  | .send _ _ _ => False

theorem ends_none {u w p t : Nat} : ∀ (q : Prog Mail Unit), Ends u w p q none t → ∀ cur, Ends u w p q cur t
  | .done, h, _ => by cases h
  | .post w' m k, h, cur => by
    intro b
    have := h b
    by_cases e : w' = w ∧ m.pos = p
    · rw [if_pos e] at *; exact this
    · rw [if_neg e] at *; exact ends_none (k b) this cur
  | .send _ _ k, h, cur => ends_none k h cur

theorem ends_filled {u w p t : Nat} {q : Prog Mail Unit} {x y : Option Nat} (h : Ends u w p q x t) (hf : Filled x y) : Ends u w p q y t := by
  rcases hf with rfl | ⟨rfl, rfl⟩
  · exact h
  · exact ends_none q h _

theorem along_mono {U U' : Added} {u : Nat} (h : ∀ a ∈ U, a ∈ U') : ∀ q : Prog Mail Unit, Along U u q → Along U' u q
  | .done, _ => trivial
  | .post _ _ k, ⟨h1, h0, h2, h3⟩ => ⟨h1, h0, h _ h2, fun b => along_mono h (k b) (h3 b)⟩
  | .send _ _ _, hf => hf

/-- The entry after posting a list. -/
def after (u w p : Nat) : List (Nat × Mail) → Option Nat → Option Nat
  | [], cur => cur
  | (w', m) :: l, cur => after u w p l (if w' = w ∧ m.pos = p then some (stored u m) else cur)

theorem ends_postAll {u w p t : Nat} (k : Bool → Prog Mail Unit) : ∀ (l : List (Nat × Mail)) (sent : Bool) (cur : Option Nat),
    (∀ b, Ends u w p (k b) (after u w p l cur) t) → Ends u w p (postAll l sent k) cur t
  | [], sent, cur, h => h sent
  | (w', m) :: l, sent, cur, h => fun b => ends_postAll k l (sent || b) _ h

theorem along_postAll {U : Added} {u : Nat} (k : Bool → Prog Mail Unit) (hk : ∀ b, Along U u (k b)) : ∀ (l : List (Nat × Mail)) (sent : Bool),
    (∀ x ∈ l, x.2.box = x.1 ∧ x.2.colour ≤ EMPTY ∧ (u, x.1, x.2.pos) ∈ U) → Along U u (postAll l sent k)
  | [], sent, _ => hk sent
  | (w', m) :: l, sent, h => ⟨(h (w', m) (by simp)).1, (h (w', m) (by simp)).2.1, (h (w', m) (by simp)).2.2, fun b => along_postAll k hk l _ (fun x hx => h x (by simp [hx]))⟩

/-- Posting the colour `c` along edges: entries that have it keep it. -/
theorem after_keep {u w p c : Nat} (hp : prior u w = true) : ∀ (es : List (Edge Nat)), after u w p (es.map (tell c)) (some (c ||| MSB)) = some (c ||| MSB)
  | [] => rfl
  | e :: es => by
    have ih := after_keep (c := c) (p := p) hp es
    show after u w p (es.map (tell c)) (if e.dst = w ∧ e.data = p then some (stored u (tell c e).2) else some (c ||| MSB)) = _
    by_cases h : e.dst = w ∧ e.data = p
    · rw [if_pos h]
      have : stored u (tell c e).2 = c ||| MSB := by
        unfold stored tell
        simp only [h.1, prior_asymm hp, if_true]
      rw [this]; exact ih
    · rw [if_neg h]; exact ih

/-- Entries of the edges get it. -/
theorem after_gets {u w p c : Nat} (hp : prior u w = true) : ∀ (es : List (Edge Nat)) (cur : Option Nat), (⟨w, p⟩ : Edge Nat) ∈ es → after u w p (es.map (tell c)) cur = some (c ||| MSB)
  | [], _, h => by simp at h
  | e :: es, cur, h => by
    show after u w p (es.map (tell c)) (if e.dst = w ∧ e.data = p then some (stored u (tell c e).2) else cur) = _
    by_cases he : e.dst = w ∧ e.data = p
    · rw [if_pos he]
      have : stored u (tell c e).2 = c ||| MSB := by
        unfold stored tell
        simp only [he.1, prior_asymm hp, if_true]
      rw [this]; exact after_keep hp es
    · rw [if_neg he]
      refine after_gets hp es cur ?_
      rcases List.mem_cons.1 h with rfl | h
      · exact absurd ⟨rfl, rfl⟩ he
      · exact h

/-- Other entries are left alone. -/
theorem after_not {u w p c : Nat} : ∀ (es : List (Edge Nat)) (cur : Option Nat), (⟨w, p⟩ : Edge Nat) ∉ es → after u w p (es.map (tell c)) cur = cur
  | [], _, _ => rfl
  | e :: es, cur, h => by
    show after u w p (es.map (tell c)) (if e.dst = w ∧ e.data = p then some (stored u (tell c e).2) else cur) = _
    have he : ¬ (e.dst = w ∧ e.data = p) := by
      rintro ⟨rfl, rfl⟩
      exact h (by simp)
    rw [if_neg he]
    exact after_not es cur (fun hm => h (by simp [hm]))

/-! ## Callbacks -/

/-- The entry at the other end of an edge. -/
def slot (s : St Nat Mail Unit Nat) (v p : Nat) : Option Nat := (s.inbox v).scratch[p]?

theorem mark_best {ns : List Nat} (hl : ns.length < EMPTY) {p : Nat} (h : mark ns p = firstUnused (used ns)) : p = firstUnused (used ns) := by
  unfold mark at h
  split at h
  · have := best_le ns
    omega
  · exact h

/-- After a visit or an edge callback, the entries at the far ends hold the new colour, if the
continuation leaves them so. -/
theorem ends_update {u w p : Nat} (hp : prior u w = true) (col : Nat) (es : List (Edge Nat)) (m : Mail) (hl : m.scratch.length < EMPTY) (he : (⟨w, p⟩ : Edge Nat) ∈ es)
    (cur : Option Nat) (k : Bool → Prog Mail Unit)
    (hk : ∀ b x, (x = some (firstUnused (used m.scratch) ||| MSB) ∨ (b = false ∧ col = firstUnused (used m.scratch) ∧ x = cur)) → Ends u w p (k b) x (firstUnused (used m.scratch) ||| MSB)) :
    Ends u w p (update col es m k).2 cur ((update col es m k).1 ||| MSB) := by
  unfold update
  simp only
  split
  · next h => exact hk false cur (.inr ⟨rfl, mark_best hl h, rfl⟩)
  · apply ends_postAll
    intro b
    exact hk b _ (.inl (after_gets hp es cur he))

theorem update_fst (col : Nat) (es : List (Edge Nat)) (m : Mail) (k : Bool → Prog Mail Unit) : (update col es m k).1 = firstUnused (used m.scratch) := by
  unfold update; simp only; split <;> rfl

theorem along_update {U : Added} {u : Nat} (col : Nat) (es : List (Edge Nat)) (m : Mail) (hl : m.scratch.length < EMPTY) (k : Bool → Prog Mail Unit) (hes : ∀ e ∈ es, (u, e.dst, e.data) ∈ U) (hk : ∀ b, Along U u (k b)) :
    Along U u (update col es m k).2 := by
  unfold update
  simp only
  split
  · exact hk false
  · apply along_postAll k hk
    intro x hx
    obtain ⟨e, he, rfl⟩ := List.mem_map.1 hx
    exact ⟨rfl, (best_le _).trans hl.le, hes e he⟩

/-- The callback is right for `u` with these edges and entries. -/
structure LoadOk (U : Added) (u : Nat) (col : Nat) (es : List (Edge Nat)) (cur : Nat → Nat → Option Nat) (h : Nat → List (Edge Nat) → Mail → Nat × Prog Mail Unit) : Prop where
  new : ∀ m, (h col es m).1 = firstUnused (used m.scratch)
  along : ∀ m, m.scratch.length < EMPTY → Along U u (h col es m).2
  ends : ∀ m, m.scratch.length < EMPTY → ∀ e ∈ es, prior u e.dst = true → Ends u e.dst e.data (h col es m).2 (cur e.dst e.data) ((h col es m).1 ||| MSB)

theorem best_ne {col : Nat} {m : Mail} (hl : m.scratch.length < EMPTY) (h : col = firstUnused (used m.scratch)) : col ≠ EMPTY := by
  have := best_le m.scratch
  omega

theorem loadOk_update {U : Added} {u col : Nat} {es : List (Edge Nat)} {cur : Nat → Nat → Option Nat} (hes : ∀ e ∈ es, (u, e.dst, e.data) ∈ U)
    (htold : col ≠ EMPTY → ∀ e ∈ es, prior u e.dst = true → cur e.dst e.data = some (col ||| MSB)) : LoadOk U u col es cur (fun p es m => update p es m fun _ => .done) := by
  refine ⟨fun m => update_fst _ _ _ _, fun m hl => along_update _ _ _ hl _ hes (fun _ => trivial), ?_⟩
  intro m hl e he hp
  refine ends_update hp col es m hl he _ _ ?_
  rintro b x (rfl | ⟨-, h2, rfl⟩)
  · rfl
  · show cur e.dst e.data = _
    rw [htold (best_ne hl h2) e he hp, h2]

theorem loadOk_add {U : Added} {u col : Nat} {es : List (Edge Nat)} {st : Nat} {cur : Nat → Nat → Option Nat} (hes : ∀ e ∈ es, (u, e.dst, e.data) ∈ U)
    (htold : col ≠ EMPTY → ∀ e ∈ es.take st, prior u e.dst = true → cur e.dst e.data = some (col ||| MSB)) : LoadOk U u col es cur (fun p es m => onEdgeAdd u p es st m) := by
  refine ⟨fun m => update_fst _ _ _ _, fun m hl => along_update _ _ _ hl _ hes ?_, ?_⟩
  · intro b
    split
    · trivial
    · refine along_postAll _ (fun _ => ?_) _ _ ?_
      · trivial
      intro x hx
      obtain ⟨e, he, rfl⟩ := List.mem_map.1 hx
      exact ⟨rfl, (best_le _).trans hl.le, hes e (List.mem_of_mem_drop (List.mem_filter.1 he).1)⟩
  · intro m hl e he hp
    refine ends_update hp col es m hl he _ _ ?_
    rintro b x (rfl | ⟨rfl, h2, rfl⟩)
    · split
      · rfl
      · apply ends_postAll
        intro b
        exact after_keep hp _
    · rw [if_neg (by simp)]
      apply ends_postAll
      intro b
      show after _ _ _ _ _ = _
      rw [← List.take_append_drop st es] at he
      rcases List.mem_append.1 he with h | h
      · rw [htold (best_ne hl h2) e h hp, h2]
        exact after_keep hp _
      · exact after_gets hp _ _ (List.mem_filter.2 ⟨h, hp⟩)

theorem loadOk_del {U : Added} {u col : Nat} {es ds : List (Edge Nat)} {cur : Nat → Nat → Option Nat} (hes : ∀ e ∈ es, (u, e.dst, e.data) ∈ U) (hds : ∀ e ∈ ds, (u, e.dst, e.data) ∈ U)
    (hdis : ∀ e ∈ es, e ∉ ds) (htold : col ≠ EMPTY → ∀ e ∈ es, prior u e.dst = true → cur e.dst e.data = some (col ||| MSB)) : LoadOk U u col es cur (fun p es m => onEdgeDel p es ds m) := by
  refine ⟨fun m => update_fst _ _ _ _, fun m hl => along_update _ _ _ hl _ hes ?_, ?_⟩
  · intro b
    refine along_postAll _ (fun _ => ?_) _ _ ?_
    · trivial
    intro x hx
    obtain ⟨e, he, rfl⟩ := List.mem_map.1 hx
    exact ⟨rfl, Nat.le_refl _, hds e he⟩
  · intro m hl e he hp
    refine ends_update hp col es m hl he _ _ ?_
    rintro b x (rfl | ⟨rfl, h2, rfl⟩)
    · apply ends_postAll
      intro b
      exact after_not _ _ (hdis e he)
    · apply ends_postAll
      intro b
      show after _ _ _ _ _ = _
      rw [after_not _ _ (hdis e he), htold (best_ne hl h2) e he hp, h2]

/-! ## The invariant -/

abbrev S := St Nat Mail Unit Nat

/-- The vertex a task is about. -/
def about : Task Nat Mail Unit Nat → Option Nat
  | .idle => none
  | .load u _ => some u
  | .run u _ => some u
  | .cas u _ _ => some u
  | .put u _ _ _ => some u

/-- The rest of a callback of `u` is right: it posts along edges of `u`, and leaves the entries at the far
ends as they should be. -/
structure RunOk (U : Added) (s : S) (u : Nat) (q : Prog Mail Unit) : Prop where
  along : Along U u q
  ends : ∀ e ∈ s.edges u, prior u e.dst = true → Ends u e.dst e.data q (slot s e.dst e.data) (s.prop u ||| MSB)

def TaskOk (U : Added) (s : S) : Task Nat Mail Unit Nat → Prop
  | .idle => True
  | .load u h => LoadOk U u (s.prop u) (s.edges u) (slot s) h
  | .run u q => RunOk U s u q
  | .cas u _ k => ∀ b, RunOk U s u (k b)
  | .put u _ _ k => RunOk U s u k

def key (e : Edge Nat) : Nat × Nat := (e.dst, e.data)

structure Inv (U : Added) (c : Cfg Mail Unit) (s : S) : Prop where
  src : ∀ u, ∀ e ∈ s.edges u, (u, e.dst, e.data) ∈ U
  nd : ∀ u, (s.edges u).Nodup
  own : ∀ t u, about (s.task t) = some u → c.own u = t
  task : ∀ t, TaskOk U s (s.task t)
  rest : ∀ u, s.prop u ≠ EMPTY → about (s.task (c.own u)) ≠ some u → ∀ e ∈ s.edges u, prior u e.dst = true → slot s e.dst e.data = some (s.prop u ||| MSB)
  seen : ∀ v p x, slot s v p = some x → x &&& MSB ≠ 0 → x &&& MASK = s.prop v → Unseen v s.log
  filled : ∀ v p x, slot s v p = some x → x &&& MASK ≠ EMPTY → ∃ u, (u, v, p) ∈ U
  len : ∀ v, (s.inbox v).scratch.length < EMPTY
  col : ∀ v, s.prop v ≤ EMPTY
  deg : ∀ v, s.prop v = EMPTY ∨ s.prop v ≤ (U.filter fun a => decide (a.2.1 = v)).length

/-- What the trace has to guarantee about positions. -/
structure Keyed (U : Added) : Prop where
  nd : (U.map Prod.snd).Nodup
  pos : ∀ a ∈ U, a.2.2 + 1 < EMPTY

theorem Keyed.src {U : Added} (h : Keyed U) {u u' w p : Nat} (h1 : (u, w, p) ∈ U) (h2 : (u', w, p) ∈ U) : u = u' := by
  have := List.inj_on_of_nodup_map h.nd h1 h2 rfl
  exact congrArg Prod.fst this

/-- The edges of a graph loaded before. -/
def load0 (U : Added) (u : Nat) : List (Edge Nat) := (U.filter fun a => decide (a.1 = u)).map fun a => ⟨a.2.1, a.2.2⟩

theorem inv_start {U : Added} (hU : Keyed U) (c : Cfg Mail Unit) : Inv U c (start colouring (load0 U)) := by
  refine ⟨?_, ?_, ?_, fun _ => trivial, ?_, ?_, ?_, fun _ => by show 0 < EMPTY; decide, fun _ => Nat.le_refl _, fun _ => .inl rfl⟩
  · intro u e h
    obtain ⟨a, ha, rfl⟩ := List.mem_map.1 h
    obtain ⟨h1, h2⟩ := List.mem_filter.1 ha
    have h2 : a.1 = u := of_decide_eq_true h2
    rw [← h2]; exact h1
  · intro u
    have : ((U.filter fun a => decide (a.1 = u)).map Prod.snd).Nodup := (List.filter_sublist.map Prod.snd).nodup hU.nd
    show (load0 U u).Nodup
    unfold load0
    have e : (U.filter fun a => decide (a.1 = u)).map (fun a => (⟨a.2.1, a.2.2⟩ : Edge Nat)) = ((U.filter fun a => decide (a.1 = u)).map Prod.snd).map fun b => (⟨b.1, b.2⟩ : Edge Nat) := by
      rw [List.map_map]; rfl
    rw [e]
    refine List.Nodup.map ?_ this
    rintro ⟨a, b⟩ ⟨a', b'⟩ h
    injection h with h1 h2
    exact Prod.ext h1 h2
  · intro t u h; cases h
  · intro u h; exact absurd rfl h
  · intro v p x h; exact absurd h (by simp [slot, start, colouring])
  · intro v p x h; exact absurd h (by simp [slot, start, colouring])

theorem runOk_congr {U : Added} {s s' : S} {u : Nat} {q : Prog Mail Unit} (h : RunOk U s u q) (he : s'.edges u = s.edges u) (hp : s'.prop u = s.prop u)
    (hs : ∀ e ∈ s.edges u, Filled (slot s e.dst e.data) (slot s' e.dst e.data)) : RunOk U s' u q := by
  refine ⟨h.along, ?_⟩
  intro e hm hpr
  rw [he] at hm
  rw [hp]
  exact ends_filled (h.ends e hm hpr) (hs e hm)

theorem loadOk_congr {U : Added} {u col : Nat} {es : List (Edge Nat)} {cur cur' : Nat → Nat → Option Nat} {h : Nat → List (Edge Nat) → Mail → Nat × Prog Mail Unit}
    (hl : LoadOk U u col es cur h) (hs : ∀ e ∈ es, Filled (cur e.dst e.data) (cur' e.dst e.data)) : LoadOk U u col es cur' h :=
  ⟨hl.new, hl.along, fun m hm e he hp => ends_filled (hl.ends m hm e he hp) (hs e he)⟩

/-- Tasks of vertices whose edges, colour and entries stay. -/
theorem taskOk_congr {U : Added} {s s' : S} {k : Task Nat Mail Unit Nat} (h : TaskOk U s k)
    (hs : ∀ u, about k = some u → s'.edges u = s.edges u ∧ s'.prop u = s.prop u ∧ ∀ e ∈ s.edges u, Filled (slot s e.dst e.data) (slot s' e.dst e.data)) : TaskOk U s' k := by
  cases k with
  | idle => trivial
  | load u f =>
    obtain ⟨h1, h2, h3⟩ := hs u rfl
    show LoadOk U u (s'.prop u) (s'.edges u) (slot s') f
    rw [h1, h2]
    exact loadOk_congr h h3
  | run u q => obtain ⟨h1, h2, h3⟩ := hs u rfl; exact runOk_congr h h1 h2 h3
  | cas u w f => obtain ⟨h1, h2, h3⟩ := hs u rfl; exact fun b => runOk_congr (h b) h1 h2 h3
  | put u w n f => obtain ⟨h1, h2, h3⟩ := hs u rfl; exact runOk_congr h h1 h2 h3

/-- A step of thread `t` that leaves the shared state alone: its task changes. -/
theorem inv_move {U : Added} {c : Cfg Mail Unit} {s s' : S} (hi : Inv U c s) (t : Nat) (x : Task Nat Mail Unit Nat) (hk : s'.task = upd s.task t x)
    (hp : s'.prop = s.prop) (he : s'.edges = s.edges) (hb : s'.inbox = s.inbox) (hlog : ∀ v, Unseen v s.log → Unseen v s'.log)
    (hown : ∀ u, about x = some u → c.own u = t) (hx : TaskOk U s x)
    (hdone : ∀ u, c.own u = t → about x ≠ some u → about (s.task t) = some u → ∀ e ∈ s.edges u, prior u e.dst = true → slot s e.dst e.data = some (s.prop u ||| MSB)) : Inv U c s' := by
  have hsl : ∀ v p, slot s' v p = slot s v p := by intro v p; unfold slot; rw [hb]
  have hok : ∀ k, TaskOk U s k → TaskOk U s' k := fun k h => taskOk_congr h (fun u _ => ⟨by rw [he], by rw [hp], fun e _ => .inl (hsl _ _).symm⟩)
  refine ⟨by rw [he]; exact hi.src, by rw [he]; exact hi.nd, ?_, ?_, ?_, ?_, ?_, by rw [hb]; exact hi.len, by rw [hp]; exact hi.col, by rw [hp]; exact hi.deg⟩
  · intro i u h
    rw [hk] at h
    by_cases e : i = t
    · rw [e, upd_same] at h; rw [e]; exact hown u h
    · rw [upd_ne _ _ e] at h; exact hi.own i u h
  · intro i
    rw [hk]
    by_cases e : i = t
    · rw [e, upd_same]; exact hok _ hx
    · rw [upd_ne _ _ e]; exact hok _ (hi.task i)
  · intro u hpu h e hm hpr
    rw [hp] at hpu
    rw [hsl, hp]
    rw [he] at hm
    rw [hk] at h
    by_cases e' : c.own u = t
    · rw [e', upd_same] at h
      by_cases ha : about (s.task t) = some u
      · exact hdone u e' h ha e hm hpr
      · exact hi.rest u hpu (by rw [e']; exact ha) e hm hpr
    · rw [upd_ne _ _ e'] at h
      exact hi.rest u hpu h e hm hpr
  · intro v p x h
    rw [hsl] at h
    rw [hp]
    exact fun h1 h2 => hlog v (hi.seen v p x h h1 h2)
  · intro v p x h
    rw [hsl] at h
    exact hi.filled v p x h

theorem unseen_dep_mono {v w : Nat} {l : List Note} (h : Unseen v l) : Unseen v (l ++ [.dep w]) := (unseen_dep v w l).2 (.inr h)

theorem stored_msb {u : Nat} {m : Mail} (hc : m.colour < 2147483648) (h : stored u m &&& MSB ≠ 0) : prior m.box u = false := by
  unfold stored at h
  split at h
  · assumption
  · rw [msb_of_lt hc] at h; exact absurd rfl h


theorem colour_lt {c : Nat} (h : c ≤ EMPTY) : c < 2147483648 := Nat.lt_succ_of_le h

/-- Posting from the callback of `u`: the entries of other vertices' edges stay (or appear). -/
theorem post_slot {U : Added} (hU : Keyed U) {s : S} {u w : Nat} {m : Mail} (hb : m.box = w) (hk : (u, w, m.pos) ∈ U) (v p : Nat) :
    (v = w → p = m.pos → u ≠ w → slot { s with inbox := upd s.inbox w (merge m u (s.inbox w)).1 } v p = some (stored u m)) ∧
    ((v, p) ≠ (w, m.pos) ∨ u = w → Filled (slot s v p) (slot { s with inbox := upd s.inbox w (merge m u (s.inbox w)).1 } v p)) := by
  unfold slot
  simp only
  constructor
  · rintro rfl rfl hne
    rw [upd_same]
    exact (merge_slot m u (s.inbox v) (by rw [hb]; exact hne) _).1 rfl
  · intro h
    by_cases hv : v = w
    · subst hv
      rw [upd_same]
      by_cases hs : u = m.box
      · rw [merge_self m u _ hs]; exact .inl rfl
      · refine (merge_slot m u (s.inbox v) hs p).2 ?_
        rintro rfl
        rcases h with h | h
        · exact h rfl
        · exact hs (by rw [hb, h])
    · rw [upd_ne _ _ hv]; exact .inl rfl

theorem run_post {U : Added} (hU : Keyed U) {c : Cfg Mail Unit} {s s' : S} (hi : Inv U c s) {t u w : Nat} {m : Mail} {k : Bool → Prog Mail Unit} (ht : s.task t = .run u (.post w m k))
    (x : Task Nat Mail Unit Nat) (hk : s'.task = upd s.task t x) (hp : s'.prop = s.prop) (he : s'.edges = s.edges) (hb : s'.inbox = upd s.inbox w (merge m u (s.inbox w)).1)
    (hx : x = .run u (k false) ∨ x = .cas u w k)
    (hlog : ∀ v, Unseen v s.log → Unseen v s'.log) (hnews : (merge m u (s.inbox w)).2 = true → Unseen w s'.log) : Inv U c s' := by
  have hok : RunOk U s u (.post w m k) := by have := hi.task t; rw [ht] at this; exact this
  obtain ⟨hbox, hcol, hkey, hal⟩ := hok.along
  have hown := hi.own t u (by rw [ht]; rfl)
  have hps := post_slot hU (s := s) hbox hkey
  have hsl : ∀ v p, slot s' v p = slot { s with inbox := upd s.inbox w (merge m u (s.inbox w)).1 } v p := by intro v p; unfold slot; rw [hb]
  have hab : about x = some u := by rcases hx with rfl | rfl <;> rfl
  -- entries of other vertices
  have hoth : ∀ u', u' ≠ u → ∀ e ∈ s.edges u', Filled (slot s e.dst e.data) (slot s' e.dst e.data) := by
    intro u' hne e hm
    rw [hsl]
    apply (hps e.dst e.data).2
    left
    intro h
    have h1 := hi.src u' e hm
    have e1 : e.dst = w := congrArg Prod.fst h
    have e2 : e.data = m.pos := congrArg Prod.snd h
    rw [e1, e2] at h1
    exact hne (hU.src h1 hkey)
  have hrun : ∀ b, RunOk U s' u (k b) := by
    intro b
    refine ⟨hal b, ?_⟩
    intro e hm hpr
    rw [he] at hm
    rw [hp, hsl]
    have h1 := hok.ends e hm hpr b
    have hne : u ≠ e.dst := by
      intro h
      rw [← h, prior_irrefl] at hpr
      cases hpr
    by_cases hc : w = e.dst ∧ m.pos = e.data
    · rw [if_pos hc] at h1
      rw [(hps e.dst e.data).1 hc.1.symm hc.2.symm (by rw [hc.1]; exact hne)]
      exact h1
    · rw [if_neg hc] at h1
      refine ends_filled h1 ((hps e.dst e.data).2 (.inl ?_))
      intro h
      exact hc ⟨(congrArg Prod.fst h).symm, (congrArg Prod.snd h).symm⟩
  refine ⟨by rw [he]; exact hi.src, by rw [he]; exact hi.nd, ?_, ?_, ?_, ?_, ?_, ?_, by rw [hp]; exact hi.col, by rw [hp]; exact hi.deg⟩
  · intro i v h
    rw [hk] at h
    by_cases e : i = t
    · rw [e, upd_same, hab] at h
      injection h with h
      rw [e, ← h]; exact hown
    · rw [upd_ne _ _ e] at h; exact hi.own i v h
  · intro i
    rw [hk]
    by_cases e : i = t
    · rw [e, upd_same]
      rcases hx with rfl | rfl
      · exact hrun false
      · exact hrun
    · rw [upd_ne _ _ e]
      refine taskOk_congr (hi.task i) ?_
      intro v hv
      refine ⟨by rw [he], by rw [hp], hoth v ?_⟩
      rintro rfl
      exact e ((hi.own i v hv).symm.trans hown)
  · intro v hpv h e hm hpr
    rw [he] at hm
    rw [hp] at hpv ⊢
    have hvu : v ≠ u := by
      rintro rfl
      rw [hown, hk, upd_same, hab] at h
      exact h rfl
    have h1 := hi.rest v hpv (by
      intro h'
      have := hi.own _ _ h'
      by_cases e : c.own v = t
      · rw [e, ht] at h'
        injection h' with h'
        exact hvu h'.symm
      · apply h
        rw [hk, upd_ne _ _ e]; exact h') e hm hpr
    rcases hoth v hvu e hm with h2 | ⟨h2, -⟩
    · rw [← h2]; exact h1
    · rw [h1] at h2; cases h2
  · intro v p x h h1 h2
    rw [hp] at h2
    rw [hsl] at h
    by_cases hw : (v, p) = (w, m.pos) ∧ u ≠ w
    · obtain ⟨hw, hne⟩ := hw
      injection hw with hw1 hw2
      rw [(hps v p).1 hw1 hw2 hne] at h
      injection h with h
      subst h
      have hnp := stored_msb (colour_lt hcol) h1
      by_cases hn : (merge m u (s.inbox w)).2 = true
      · rw [hw1]; exact hnews hn
      · rcases merge_quiet m u (s.inbox w) (by simpa using hn) with h3 | ⟨h3, -⟩
        · apply hlog
          refine hi.seen v p (stored u m) ?_ h1 h2
          have := (hps v p).1 hw1 hw2 hne
          unfold slot at this ⊢
          simp only at this
          rw [hw1, upd_same, h3] at this
          rw [hw1]; exact this
        · rw [hnp] at h3; cases h3
    · have hf := (hps v p).2 (by
        by_cases h3 : u = w
        · exact .inr h3
        · left; intro h4; exact hw ⟨h4, h3⟩)
      rcases hf with h3 | ⟨-, h3⟩
      · rw [← h3] at h
        exact hlog v (hi.seen v p x h h1 h2)
      · rw [h] at h3
        injection h3 with h3
        subst h3
        exact absurd (msb_of_lt (by decide)) h1
  · intro v p x h h1
    rw [hsl] at h
    by_cases hw : (v, p) = (w, m.pos) ∧ u ≠ w
    · obtain ⟨hw, hne⟩ := hw
      injection hw with hw1 hw2
      rw [hw1, hw2]
      exact ⟨u, hkey⟩
    · have hf := (hps v p).2 (by
        by_cases h3 : u = w
        · exact .inr h3
        · left; intro h4; exact hw ⟨h4, h3⟩)
      rcases hf with h3 | ⟨-, h3⟩
      · rw [← h3] at h
        exact hi.filled v p x h h1
      · rw [h] at h3
        injection h3 with h3
        subst h3
        exact absurd (mask_of_lt (by decide)) h1
  · intro v
    rw [hb]
    by_cases hv : v = w
    · subst hv
      rw [upd_same]
      have h1 := hi.len v
      have h2 := hU.pos _ hkey
      have := merge_len m u (s.inbox v) (EMPTY - 1) (by omega) (by simp only at h2; omega)
      omega
    · rw [upd_ne _ _ hv]; exact hi.len v

/-- Reading the mailbox and computing the new colour. -/
theorem load_inv {U : Added} {c : Cfg Mail Unit} {s s' : S} (hi : Inv U c s) {t u : Nat} {h : Nat → List (Edge Nat) → Mail → Nat × Prog Mail Unit} (ht : s.task t = .load u h)
    (hk : s'.task = upd s.task t (.run u (h (s.prop u) (s.edges u) (s.inbox u)).2)) (hp : s'.prop = upd s.prop u (h (s.prop u) (s.edges u) (s.inbox u)).1)
    (he : s'.edges = s.edges) (hb : s'.inbox = s.inbox) (hlog : s'.log = s.log ++ [.obs u]) : Inv U c s' := by
  have hok : LoadOk U u (s.prop u) (s.edges u) (slot s) h := by have := hi.task t; rw [ht] at this; exact this
  have hown := hi.own t u (by rw [ht]; rfl)
  have hsl : ∀ v p, slot s' v p = slot s v p := by intro v p; unfold slot; rw [hb]
  have hnew : s'.prop u = firstUnused (used (s.inbox u).scratch) := by rw [hp, upd_same, hok.new]
  have hpu : (h (s.prop u) (s.edges u) (s.inbox u)).1 = s'.prop u := by rw [hp, upd_same]
  have hpo : ∀ v, v ≠ u → s'.prop v = s.prop v := by intro v hv; rw [hp, upd_ne _ _ hv]
  have hlt := hi.len u
  refine ⟨by rw [he]; exact hi.src, by rw [he]; exact hi.nd, ?_, ?_, ?_, ?_, ?_, by rw [hb]; exact hi.len, ?_, ?_⟩
  · intro i v h'
    rw [hk] at h'
    by_cases e : i = t
    · rw [e, upd_same] at h'
      injection h' with h'
      rw [e, ← h']; exact hown
    · rw [upd_ne _ _ e] at h'; exact hi.own i v h'
  · intro i
    rw [hk]
    by_cases e : i = t
    · rw [e, upd_same]
      refine ⟨hok.along _ hlt, ?_⟩
      intro e hm hpr
      rw [he] at hm
      rw [hsl, ← hpu]
      exact hok.ends _ hlt e hm hpr
    · rw [upd_ne _ _ e]
      refine taskOk_congr (hi.task i) ?_
      intro v hv
      refine ⟨by rw [he], hpo v ?_, fun e _ => .inl (hsl _ _).symm⟩
      rintro rfl
      exact e ((hi.own i v hv).symm.trans hown)
  · intro v hpv h' e hm hpr
    have hvu : v ≠ u := by
      rintro rfl
      rw [hown, hk, upd_same] at h'
      exact h' rfl
    rw [he] at hm
    rw [hsl, hpo v hvu]
    refine hi.rest v (by rw [← hpo v hvu]; exact hpv) ?_ e hm hpr
    intro h''
    by_cases e : c.own v = t
    · rw [e, ht] at h''
      injection h'' with h''
      exact hvu h''.symm
    · apply h'
      rw [hk, upd_ne _ _ e]; exact h''
  · intro v p x h1 h2 h3
    rw [hsl] at h1
    by_cases hv : v = u
    · subst hv
      rw [hnew] at h3
      exact absurd h3 (best_not h1)
    · rw [hpo v hv] at h3
      rw [hlog]
      exact (unseen_obs v u s.log).2 ⟨fun h => hv h.symm, hi.seen v p x h1 h2 h3⟩
  · intro v p x h1
    rw [hsl] at h1
    exact hi.filled v p x h1
  · intro v
    by_cases hv : v = u
    · subst hv
      rw [hnew]
      exact (best_le _).trans hlt.le
    · rw [hpo v hv]; exact hi.col v
  · intro v
    by_cases hv : v = u
    · subst hv
      right
      rw [hnew]
      have := firstUnused_le (l := used (s.inbox v).scratch) (l' := (U.filter fun a => decide (a.2.1 = v)).map fun a => ((s.inbox v).scratch.getD a.2.2 0) &&& MASK) (by
        intro x hx
        unfold used at hx
        obtain ⟨hx, hle⟩ := List.mem_filter.1 hx
        obtain ⟨y, hy, rfl⟩ := List.mem_map.1 hx
        have hle : y &&& MASK ≤ (s.inbox v).scratch.length := of_decide_eq_true hle
        obtain ⟨p, hp⟩ := List.getElem?_of_mem hy
        obtain ⟨w, hw⟩ := hi.filled v p y hp (by omega)
        refine List.mem_map.2 ⟨(w, v, p), List.mem_filter.2 ⟨hw, by simp⟩, ?_⟩
        simp only [List.getD_eq_getElem?_getD, hp, Option.getD_some])
      simpa using this
    · rw [hpo v hv]; exact hi.deg v

theorem inv_go {U : Added} (hU : Keyed U) {c : Cfg Mail Unit} {s s' : S} {t : Nat} (hi : Inv U c s) (h : goStep colouring s t (s.task t) = some s') : Inv U c s' := by
  cases hk : s.task t with
  | idle => rw [hk] at h; cases h
  | load u f =>
    rw [hk] at h
    simp only [goStep, Option.some.injEq] at h
    subst h
    refine load_inv hi hk rfl rfl rfl ?_ rfl
    show upd s.inbox u (s.inbox u) = s.inbox
    funext v
    by_cases e : v = u
    · rw [e, upd_same]
    · rw [upd_ne _ _ e]
  | run u q =>
    rw [hk] at h
    have hok : RunOk U s u q := by have := hi.task t; rw [hk] at this; exact this
    have hown := hi.own t u (by rw [hk]; rfl)
    cases q with
    | done =>
      simp only [goStep, Option.some.injEq] at h
      subst h
      refine inv_move hi t .idle rfl rfl rfl rfl (fun _ h => h) (by intro _ h; cases h) trivial ?_
      intro v _ _ ha e hm hpr
      rw [hk] at ha
      injection ha with ha
      subst ha
      exact hok.ends e hm hpr
    | post w m k =>
      simp only [goStep] at h
      split at h
      · simp only [Option.some.injEq] at h; subst h
        exact run_post hU hi hk _ rfl rfl rfl rfl (.inr rfl) (fun _ h => unseen_dep_mono h) (fun _ => (unseen_dep _ _ _).2 (.inl rfl))
      · next hn =>
        simp only [Option.some.injEq] at h; subst h
        exact run_post hU hi hk _ rfl rfl rfl rfl (.inl rfl) (fun _ h => h) (fun h => absurd h hn)
    | send w n k => exact absurd hok.along id
  | cas u w k =>
    rw [hk] at h
    have hok : ∀ b, RunOk U s u (k b) := by have := hi.task t; rw [hk] at this; exact this
    have hown := hi.own t u (by rw [hk]; rfl)
    have hab : ∀ v, about (s.task t) = some v → v = u := by intro v h; rw [hk] at h; injection h with h; exact h.symm
    simp only [goStep] at h
    split at h <;> (simp only [Option.some.injEq] at h; subst h)
    · exact inv_move hi t _ rfl rfl rfl rfl (fun _ h => h) (by intro _ h; injection h with h; rw [← h]; exact hown) (hok true)
        (fun v _ hne ha => absurd (by rw [hab v ha]; rfl) hne)
    · exact inv_move hi t _ rfl rfl rfl rfl (fun _ h => h) (by intro _ h; injection h with h; rw [← h]; exact hown) (hok false)
        (fun v _ hne ha => absurd (by rw [hab v ha]; rfl) hne)
  | put u w n k =>
    rw [hk] at h
    have hok : RunOk U s u k := by have := hi.task t; rw [hk] at this; exact this
    have hown := hi.own t u (by rw [hk]; rfl)
    have hab : ∀ v, about (s.task t) = some v → v = u := by intro v h; rw [hk] at h; injection h with h; exact h.symm
    simp only [goStep, Option.some.injEq] at h
    subst h
    exact inv_move hi t _ rfl rfl rfl rfl (fun _ h => h) (by intro _ h; injection h with h; rw [← h]; exact hown) hok
      (fun v _ hne ha => absurd (by rw [hab v ha]; rfl) hne)

/-- The edges added by an action. -/
def addsOf : Act Nat → Added
  | .add _ v es => es.map fun e => (v, e.dst, e.data)
  | _ => []

theorem loadOk_mono {U U' : Added} (hm : ∀ a ∈ U, a ∈ U') {u col : Nat} {es : List (Edge Nat)} {cur : Nat → Nat → Option Nat} {h : Nat → List (Edge Nat) → Mail → Nat × Prog Mail Unit}
    (hl : LoadOk U u col es cur h) : LoadOk U' u col es cur h :=
  ⟨hl.new, fun m hlen => along_mono hm _ (hl.along m hlen), hl.ends⟩

theorem taskOk_mono {U U' : Added} (hm : ∀ a ∈ U, a ∈ U') {s : S} {k : Task Nat Mail Unit Nat} (h : TaskOk U s k) : TaskOk U' s k := by
  cases k with
  | idle => trivial
  | load u f => exact loadOk_mono hm h
  | run u q => exact ⟨along_mono hm _ h.along, h.ends⟩
  | cas u w f => exact fun b => ⟨along_mono hm _ (h b).along, (h b).ends⟩
  | put u w n f => exact ⟨along_mono hm _ h.along, h.ends⟩

/-- Changing the edges of `v` and starting its callback. -/
theorem inv_edges {U U' V : Added} (hV : U' = U ++ V) {c : Cfg Mail Unit} {s s' : S} (hi : Inv U c s) {t v : Nat} (ht : s.task t = .idle) (hown : c.own v = t) (es : List (Edge Nat))
    (h : Nat → List (Edge Nat) → Mail → Nat × Prog Mail Unit) (hk : s'.task = upd s.task t (.load v h)) (hp : s'.prop = s.prop) (he : s'.edges = upd s.edges v es)
    (hb : s'.inbox = s.inbox) (hlog : s'.log = s.log) (hsrc : ∀ e ∈ es, (v, e.dst, e.data) ∈ U') (hnd : es.Nodup) (hload : LoadOk U' v (s.prop v) es (slot s) h) : Inv U' c s' := by
  have hm : ∀ a ∈ U, a ∈ U' := by intro a ha; rw [hV]; exact List.mem_append_left _ ha
  have hsl : ∀ v p, slot s' v p = slot s v p := by intro v p; unfold slot; rw [hb]
  have heo : ∀ w, w ≠ v → s'.edges w = s.edges w := by intro w hw; rw [he, upd_ne _ _ hw]
  have hev : s'.edges v = es := by rw [he, upd_same]
  refine ⟨?_, ?_, ?_, ?_, ?_, ?_, ?_, by rw [hb]; exact hi.len, by rw [hp]; exact hi.col, ?_⟩
  · intro u e h'
    by_cases e' : u = v
    · subst e'; rw [hev] at h'; exact hsrc e h'
    · rw [heo u e'] at h'; exact hm _ (hi.src u e h')
  · intro u
    by_cases e' : u = v
    · subst e'; rw [hev]; exact hnd
    · rw [heo u e']; exact hi.nd u
  · intro i u h'
    rw [hk] at h'
    by_cases e : i = t
    · rw [e, upd_same] at h'
      injection h' with h'
      rw [e, ← h']; exact hown
    · rw [upd_ne _ _ e] at h'; exact hi.own i u h'
  · intro i
    rw [hk]
    by_cases e : i = t
    · rw [e, upd_same]
      show LoadOk U' v (s'.prop v) (s'.edges v) (slot s') h
      rw [hp, hev]
      exact loadOk_congr hload (fun e _ => .inl (hsl _ _).symm)
    · rw [upd_ne _ _ e]
      refine taskOk_congr (taskOk_mono hm (hi.task i)) ?_
      intro u hu
      refine ⟨heo u ?_, by rw [hp], fun e _ => .inl (hsl _ _).symm⟩
      rintro rfl
      exact e ((hi.own i u hu).symm.trans hown)
  · intro u hpu h' e hm' hpr
    rw [hp] at hpu
    have huv : u ≠ v := by
      rintro rfl
      rw [hown, hk, upd_same] at h'
      exact h' rfl
    rw [heo u huv] at hm'
    rw [hsl, hp]
    refine hi.rest u hpu ?_ e hm' hpr
    intro h''
    by_cases e : c.own u = t
    · rw [e, ht] at h''; cases h''
    · apply h'
      rw [hk, upd_ne _ _ e]; exact h''
  · intro w p x h1 h2 h3
    rw [hsl] at h1
    rw [hp] at h3
    rw [hlog]
    exact hi.seen w p x h1 h2 h3
  · intro w p x h1 h2
    rw [hsl] at h1
    obtain ⟨u, hu⟩ := hi.filled w p x h1 h2
    exact ⟨u, hm _ hu⟩
  · intro w
    rw [hp]
    rcases hi.deg w with h1 | h1
    · exact .inl h1
    · right
      rw [hV, List.filter_append, List.length_append]
      omega

theorem select_mem {α : Type} : ∀ (ks : List Bool) (es : List α), (∀ x ∈ (select ks es).1, x ∈ es) ∧ (∀ x ∈ (select ks es).2, x ∈ es)
  | [], es => by simp [select]
  | _ :: _, [] => by simp [select]
  | k :: ks, e :: es => by
    obtain ⟨h1, h2⟩ := select_mem ks es
    cases k
    · simp only [select, Bool.false_eq_true, if_false]
      exact ⟨fun x hx => List.mem_cons_of_mem _ (h1 x hx), fun x hx => by
        rcases List.mem_cons.1 hx with rfl | hx
        · simp
        · exact List.mem_cons_of_mem _ (h2 x hx)⟩
    · simp only [select, if_true]
      exact ⟨fun x hx => by
        rcases List.mem_cons.1 hx with rfl | hx
        · simp
        · exact List.mem_cons_of_mem _ (h1 x hx), fun x hx => List.mem_cons_of_mem _ (h2 x hx)⟩

theorem select_nodup {α : Type} : ∀ (ks : List Bool) (es : List α), es.Nodup → (select ks es).1.Nodup ∧ ∀ x ∈ (select ks es).1, x ∉ (select ks es).2
  | [], es, h => by simp [select, h]
  | _ :: _, [], _ => by simp [select]
  | k :: ks, e :: es, h => by
    obtain ⟨hn, h⟩ := List.nodup_cons.1 h
    obtain ⟨h1, h2⟩ := select_nodup ks es h
    obtain ⟨m1, m2⟩ := select_mem ks es
    cases k
    · simp only [select, Bool.false_eq_true, if_false]
      refine ⟨h1, ?_⟩
      intro x hx hc
      rcases List.mem_cons.1 hc with rfl | hc
      · exact hn (m1 _ hx)
      · exact h2 x hx hc
    · simp only [select, if_true]
      refine ⟨List.nodup_cons.2 ⟨fun hx => hn (m1 _ hx), h1⟩, ?_⟩
      intro x hx hc
      rcases List.mem_cons.1 hx with rfl | hx
      · exact hn (m2 _ hc)
      · exact h2 x hx hc

theorem inv_step {U : Added} {T : Nat} {own : Nat → Nat} {s s' : S} {x : Act Nat} (hU : Keyed (U ++ addsOf x)) (hi : Inv U (cfg T own) s) (h : step colouring (cfg T own) s x = some s') :
    Inv (U ++ addsOf x) (cfg T own) s' := by
  cases x with
  | init t v =>
    simp only [addsOf, List.append_nil] at hU ⊢
    simp only [step] at h
    split at h
    · next hf =>
      obtain ⟨ht, hown, hk⟩ := (free_iff _ s t v).1 hf.1
      simp only [cfg] at h
      split at h
      · simp only [Option.some.injEq] at h; subst h
        have hin : upd s.inbox v (colouring.merge { scratch := [], pos := 0, colour := 0, box := v } v (s.inbox v)).1 = s.inbox := by
          funext w
          by_cases e : w = v
          · rw [e, upd_same]
            exact congrArg Prod.fst (merge_self { scratch := [], pos := 0, colour := 0, box := v } v (s.inbox v) rfl)
          · rw [upd_ne _ _ e]
        refine inv_move hi t _ rfl rfl rfl hin (fun _ h => unseen_dep_mono h) (by intro u hu; injection hu with hu; rw [← hu]; exact hown) ?_ ?_
        · exact loadOk_update (hi.src v) (fun hne => hi.rest v hne (by show about (s.task (own v)) ≠ _; rw [show own v = t from hown, hk]; simp [about]))
        · intro u _ _ ha; rw [hk] at ha; cases ha
      · next hn => exact absurd (congrArg Prod.snd (merge_self { scratch := [], pos := 0, colour := 0, box := v } v (s.inbox v) rfl)) hn
    · cases h
  | recv t v i =>
    simp only [addsOf, List.append_nil] at hU ⊢
    simp only [step] at h
    split at h
    · next hf =>
      obtain ⟨ht, hown, hk⟩ := (free_iff _ s t v).1 hf
      cases hp : (s.pend v)[i]? with
      | none => rw [hp] at h; cases h
      | some m =>
        rw [hp] at h
        simp only [Option.some.injEq] at h; subst h
        refine inv_move hi t _ rfl rfl rfl rfl (fun _ h => h) (by intro u hu; injection hu with hu; rw [← hu]; exact hown) ?_ ?_
        · exact loadOk_update (hi.src v) (fun hne => hi.rest v hne (by show about (s.task (own v)) ≠ _; rw [show own v = t from hown, hk]; simp [about]))
        · intro u _ _ ha; rw [hk] at ha; cases ha
    · cases h
  | add t v es =>
    simp only [step] at h
    split at h
    · next hf =>
      obtain ⟨ht, hown, hk⟩ := (free_iff _ s t v).1 hf.1
      simp only [Option.some.injEq] at h; subst h
      have hsrc : ∀ e ∈ s.edges v ++ es, (v, e.dst, e.data) ∈ U ++ addsOf (.add t v es) := by
        intro e he
        rcases List.mem_append.1 he with he | he
        · exact List.mem_append_left _ (hi.src v e he)
        · exact List.mem_append_right _ (List.mem_map.2 ⟨e, he, rfl⟩)
      refine inv_edges rfl hi hk hown (s.edges v ++ es) _ rfl rfl rfl rfl rfl hsrc ?_ ?_
      · have hnd := hU.nd
        rw [List.map_append, List.nodup_append] at hnd
        obtain ⟨-, h2, h3⟩ := hnd
        rw [List.nodup_append]
        refine ⟨hi.nd v, ?_, ?_⟩
        · have : (addsOf (.add t v es)).map Prod.snd = es.map key := by
            simp only [addsOf, List.map_map]; rfl
          rw [this] at h2
          exact List.Nodup.of_map _ h2
        · rintro a ha b hb rfl
          exact h3 (a.dst, a.data) (List.mem_map.2 ⟨_, hi.src v a ha, rfl⟩) (a.dst, a.data) (List.mem_map.2 ⟨(v, a.dst, a.data), List.mem_map.2 ⟨a, hb, rfl⟩, rfl⟩) rfl
      · refine loadOk_add hsrc ?_
        rw [List.take_left]
        exact fun hne => hi.rest v hne (by show about (s.task (own v)) ≠ _; rw [show own v = t from hown, hk]; simp [about])
    · cases h
  | del t v keep =>
    simp only [addsOf, List.append_nil] at hU ⊢
    simp only [step] at h
    split at h
    · next hf =>
      obtain ⟨ht, hown, hk⟩ := (free_iff _ s t v).1 hf
      simp only [Option.some.injEq] at h; subst h
      obtain ⟨m1, m2⟩ := select_mem keep (s.edges v)
      obtain ⟨n1, n2⟩ := select_nodup keep (s.edges v) (hi.nd v)
      refine inv_edges (V := []) (List.append_nil U).symm hi hk hown _ _ rfl rfl rfl rfl rfl (fun e he => hi.src v e (m1 e he)) n1 ?_
      refine loadOk_del (fun e he => hi.src v e (m1 e he)) (fun e he => hi.src v e (m2 e he)) n2 ?_
      intro hne e he
      exact hi.rest v hne (by show about (s.task (own v)) ≠ _; rw [show own v = t from hown, hk]; simp [about]) e (m1 e he)
    · cases h
  | go t =>
    simp only [addsOf, List.append_nil] at hU ⊢
    simp only [step] at h
    split at h
    · next ht => exact inv_go hU hi h
    · cases h

/-- All edges added in a run. -/
def adds (xs : List (Act Nat)) : Added := xs.flatMap addsOf

theorem Keyed.left {U V : Added} (h : Keyed (U ++ V)) : Keyed U :=
  ⟨by have := h.nd; rw [List.map_append, List.nodup_append] at this; exact this.1, fun a ha => h.pos a (List.mem_append_left _ ha)⟩

theorem inv_run {T : Nat} {own : Nat → Nat} : ∀ (xs : List (Act Nat)) (U : Added) (s s' : S), Keyed (U ++ adds xs) → Inv U (cfg T own) s → run colouring (cfg T own) s xs = some s' →
    Inv (U ++ adds xs) (cfg T own) s'
  | [], U, s, s', _, hi, h => by
    simp only [run, Option.some.injEq] at h
    subst h
    simpa [adds] using hi
  | x :: xs, U, s, s', hU, hi, h => by
    simp only [run] at h
    obtain ⟨s1, h1, h2⟩ := Option.bind_eq_some_iff.1 h
    have e : U ++ adds (x :: xs) = (U ++ addsOf x) ++ adds xs := by simp [adds]
    rw [e] at hU ⊢
    exact inv_run xs _ s1 s' hU (inv_step hU.left hi h1) h2

end Verif.Colouring
