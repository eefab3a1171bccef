import Verif.Loader
import Verif.Props.Io

/-!
# C21, C22, C50: from the file to the emitted event stream
-/

namespace Verif.Props.Loader

open Verif.Io Verif.Loader Verif.Props.Io

variable {E : Type}

/-! ## Specification -/

/-- Is the line a comment? -/
def IsComment (line : List UInt8) : Prop := line.head? = some 35

/-- The line has a token in every column that is asked for. -/
def Enough (c : Cfg) (rest : List (List UInt8)) : Prop :=
  (∀ p, c.wPos = some p → p < rest.length) ∧ (∀ p, c.tPos = some p → p < rest.length)

/-- `e` is the edge written on `line`, the `k`-th edge line of the file: source and destination
(swapped when transposing), weight and timestamp columns, or the logical time. -/
def EventOf (o : Ops E) (c : Cfg) (line : List UInt8) (k : Nat) (e : Ev E) : Prop :=
  ∃ s d rest, Tokens line (s :: d :: rest) ∧ rest.length ≤ 3 ∧ Enough c rest ∧
    e.typ = .add ∧ (e.src, e.dst) = (if c.transpose then (toInt d, toInt s) else (toInt s, toInt d)) ∧
    ∃ p, p = (if c.wPos = none ∧ c.tPos = none then o.defaultWeight o.zero
        else o.parse (c.wPos.bind (rest[·]?)) (c.tPos.bind (rest[·]?)) (o.defaultWeight o.zero)) ∧
      e.prop = o.replaceRaw e.dst
        (if c.logicalTime then o.replaceTs (if c.undirected then 2 * k else k) p else p) ∧ e.idx = 0

/-- `evs` are the edges written on the edge lines of `file`, in file order; the first edge line
is number `k`. -/
inductive Reads (o : Ops E) (c : Cfg) : Nat → List (List UInt8) → List (Ev E) → Prop
  | nil (k : Nat) : Reads o c k [] []
  | comment (k : Nat) (line : List UInt8) (file : List (List UInt8)) (evs : List (Ev E)) :
      IsComment line → Reads o c k file evs → Reads o c k (line :: file) evs
  | edge (k : Nat) (line : List UInt8) (file : List (List UInt8)) (e : Ev E) (evs : List (Ev E)) :
      ¬ IsComment line → EventOf o c line k e → Reads o c (k + 1) file evs →
      Reads o c k (line :: file) (e :: evs)

/-! ## What the loaders put into their queues -/

/-- Every `n`-th element from the one with number `≡ i`. -/
def pick {α : Type} (n i : Nat) : Nat → List α → List α
  | _, [] => []
  | k, x :: xs => if k % n = i then x :: pick n i (k + 1) xs else pick n i (k + 1) xs

theorem succ_mod' (k n : Nat) (hn : 0 < n) : (k + 1) % n = if k % n + 1 = n then 0 else k % n + 1 := by
  have h1 := Nat.mod_lt k hn
  rw [Nat.add_mod]
  by_cases h : n = 1
  · subst h; simp [Nat.mod_one]
  · rw [Nat.mod_eq_of_lt (show 1 < n by omega)]
    split
    · rename_i e; rw [e, Nat.mod_self]
    · rw [Nat.mod_eq_of_lt (by omega)]

theorem succ_div' (k n : Nat) (hn : 0 < n) : (k + 1) / n = if k % n + 1 = n then k / n + 1 else k / n := by
  have h1 := Nat.mod_lt k hn
  have h2 := Nat.div_add_mod k n
  split
  · rename_i e
    rw [Nat.div_eq_of_lt_le]
    · rw [Nat.add_mul, Nat.mul_comm]; omega
    · rw [Nat.add_mul, Nat.add_mul, Nat.mul_comm (k / n)]; omega
  · rw [Nat.div_eq_of_lt_le]
    · rw [Nat.mul_comm]; omega
    · rw [Nat.add_mul, Nat.mul_comm]; omega

theorem pick_get {α : Type} (n i : Nat) (hi : i < n) : ∀ (xs : List α) (k m : Nat),
    (pick n i k xs)[m]? = xs[m * n + (if k % n ≤ i then i - k % n else i + n - k % n)]? := by
  intro xs
  have hn : 0 < n := by omega
  induction xs with
  | nil => intro k m; simp [pick]
  | cons x xs ih =>
    intro k m
    have hs := succ_mod' k n hn
    have h1 := Nat.mod_lt k hn
    by_cases h : k % n = i
    · rw [pick, if_pos h]
      have e0 : (if k % n ≤ i then i - k % n else i + n - k % n) = 0 := by rw [if_pos (by omega)]; omega
      rw [e0, Nat.add_zero]
      cases m with
      | zero => simp
      | succ m =>
        rw [List.getElem?_cons_succ, ih]
        have e1 : (if (k + 1) % n ≤ i then i - (k + 1) % n else i + n - (k + 1) % n) = n - 1 := by
          rw [hs]; split <;> split <;> omega
        rw [e1, show (m + 1) * n = (m * n + (n - 1)) + 1 by rw [Nat.add_mul]; omega, List.getElem?_cons_succ]
    · rw [pick, if_neg h, ih]
      have e1 : (if k % n ≤ i then i - k % n else i + n - k % n) =
          (if (k + 1) % n ≤ i then i - (k + 1) % n else i + n - (k + 1) % n) + 1 := by
        rw [hs]
        by_cases h2 : k % n + 1 = n
        · rw [if_pos h2, if_neg (by omega), if_pos (by omega)]; omega
        · rw [if_neg h2]; split <;> split <;> omega
      rw [e1, ← Nat.add_assoc, List.getElem?_cons_succ]

theorem column_eq {rest pad : List (List UInt8)} {p : Option Nat} (h : ∀ q, p = some q → q < rest.length) :
    column (rest ++ pad) p = some (p.bind (rest[·]?)) := by
  cases p with
  | none => rfl
  | some q =>
    have := h q rfl
    simp [column, List.getElem?_append_left this, this]

theorem mkEvent_eq (o : Ops E) (c : Cfg) {line : List UInt8} {k : Nat} {e : Ev E} (he : EventOf o c line k e)
    (fields : List (List UInt8)) (hf : fields.length = 5) :
    ∃ f, fastFields fields line = some f ∧ f.length = 5 ∧ mkEvent o c f k = some e := by
  obtain ⟨s, d, rest, ht, hl, ⟨hw, hts⟩, htyp, hsd, p, hp, hprop, hidx⟩ := he
  have hlen : (s :: d :: rest).length ≤ fields.length := by simp; omega
  refine ⟨_, C16_fastFields line _ ht fields hlen, by simp; omega, ?_⟩
  simp only [List.cons_append, mkEvent]
  rw [column_eq hw, column_eq hts]
  simp only
  obtain ⟨typ, idx, src, dst, prop⟩ := e
  simp only at htyp hsd hprop hidx
  subst htyp hidx hprop hp
  have e1 : src = if c.transpose = true then toInt d else toInt s := by
    have := congrArg Prod.fst hsd; simp only at this; rw [this]; split <;> rfl
  have e2 : dst = if c.transpose = true then toInt s else toInt d := by
    have := congrArg Prod.snd hsd; simp only at this; rw [this]; split <;> rfl
  rw [← e1, ← e2]
  have hb : (if c.wPos = none ∧ c.tPos = none then o.defaultWeight o.zero
        else o.parse (c.wPos.bind (rest[·]?)) (c.tPos.bind (rest[·]?)) (o.defaultWeight o.zero)) =
      if (c.wPos.isSome || c.tPos.isSome) = true then o.parse (c.wPos.bind (rest[·]?)) (c.tPos.bind (rest[·]?)) (o.defaultWeight o.zero)
        else o.defaultWeight o.zero := by
    cases c.wPos <;> cases c.tPos <;> simp
  rw [hb]
  have hm : (k * if c.undirected = true then 2 else 1) = if c.undirected = true then 2 * k else k := by
    split <;> omega
  rw [hm]

theorem tokens_ne_nil {line : List UInt8} {ts : List (List UInt8)} (h : Tokens line ts) (hts : ts ≠ []) : line ≠ [] := by
  cases h with
  | none _ _ => exact absurd rfl hts
  | cons sp tok rest ts' _ b => intro e; simp at e; exact b e.2.1

theorem eventOf_ne_nil {o : Ops E} {c : Cfg} {line : List UInt8} {k : Nat} {e : Ev E} (he : EventOf o c line k e) : line ≠ [] := by
  obtain ⟨s, d, rest, ht, -⟩ := he
  exact tokens_ne_nil ht (by simp)

theorem loader_eq (o : Ops E) (c : Cfg) (n i : Nat) {k : Nat} {file : List (List UInt8)} {evs : List (Ev E)}
    (h : Reads o c k file evs) : ∀ fields : List (List UInt8), fields.length = 5 →
    loader o c n i fields k file = some (pick n i k evs) := by
  induction h with
  | nil k => intro fields _; rfl
  | comment k line file evs hc _ ih =>
    intro fields hf
    cases line with
    | nil => simp [IsComment] at hc
    | cons b0 bs =>
      have : b0 = 35 := by simpa [IsComment] using hc
      subst this
      simp only [loader, if_true]
      exact ih fields hf
  | edge k line file e evs hc he _ ih =>
    intro fields hf
    obtain ⟨f, hff, hfl, hm⟩ := mkEvent_eq o c he fields hf
    have hne := eventOf_ne_nil he
    cases line with
    | nil => exact absurd rfl hne
    | cons b0 bs =>
      have hb : b0 ≠ 35 := by intro e; exact hc (by simp [IsComment, e])
      simp only [loader, if_neg hb]
      by_cases hk : k % n = i
      · rw [if_pos hk, hff]
        simp [hm, ih f hfl, pick, hk]
      · rw [if_neg hk, pick, if_neg hk]
        exact ih fields hf

/-- Every loader runs through the file without a panic, and loader `i` of `n` puts exactly the
edges with number `i`, `i + n`, `i + 2n`, ... into its queue. -/
theorem C21_loader_share (o : Ops E) (c : Cfg) (file : List (List UInt8)) (evs : List (Ev E))
    (h : Reads o c 0 file evs) (n i : Nat) (hi : i < n) :
    ∃ q, loaded o c n i file = some q ∧ ∀ m : Nat, q[m]? = evs[m * n + i]? := by
  refine ⟨_, loader_eq o c n i h emptyFields (by simp [emptyFields]), ?_⟩
  intro m
  rw [pick_get n i hi]; simp

/-! ## The emitter -/

/-- The stream for a list of edges, starting with event index `k`. -/
def emitAll (o : Ops E) (c : Cfg) : Nat → List (Ev E) → List (Ev E)
  | _, [] => []
  | k, e :: es => emitOne o c k e ++ emitAll o c (k + (if c.undirected then 2 else 1)) es

theorem emitOne_length (o : Ops E) (c : Cfg) (k : Nat) (e : Ev E) :
    (emitOne o c k e).length = if c.undirected then 2 else 1 := by
  unfold emitOne; split <;> rfl

theorem emitAll_length (o : Ops E) (c : Cfg) (k : Nat) (es : List (Ev E)) :
    (emitAll o c k es).length = es.length * (if c.undirected then 2 else 1) := by
  induction es generalizing k with
  | nil => simp [emitAll]
  | cons e es ih => simp [emitAll, emitOne_length, ih, Nat.add_mul, Nat.add_comm]

theorem emitAll_snoc (o : Ops E) (c : Cfg) (k : Nat) (es : List (Ev E)) (e : Ev E) :
    emitAll o c k (es ++ [e]) = emitAll o c k es ++ emitOne o c (k + es.length * (if c.undirected then 2 else 1)) e := by
  induction es generalizing k with
  | nil => simp [emitAll]
  | cons x es ih =>
    simp only [List.cons_append, emitAll, ih, List.append_assoc, List.length_cons]
    rw [show k + (if c.undirected = true then 2 else 1) + es.length * (if c.undirected = true then 2 else 1) =
      k + (es.length + 1) * (if c.undirected = true then 2 else 1) by rw [Nat.add_mul]; omega]

theorem emitAll_append (o : Ops E) (c : Cfg) (k : Nat) (es fs : List (Ev E)) :
    emitAll o c k (es ++ fs) = emitAll o c k es ++ emitAll o c (k + es.length * (if c.undirected then 2 else 1)) fs := by
  induction es generalizing k with
  | nil => simp [emitAll]
  | cons x es ih =>
    simp only [List.cons_append, emitAll, ih, List.append_assoc, List.length_cons]
    rw [show k + (if c.undirected = true then 2 else 1) + es.length * (if c.undirected = true then 2 else 1) =
      k + (es.length + 1) * (if c.undirected = true then 2 else 1) by rw [Nat.add_mul]; omega]

/-- Invariant: after `t` edges have been taken. -/
structure Inv (o : Ops E) (c : Cfg) (n : Nat) (evs : List (Ev E)) (qs : Nat → List (Ev E)) (s : St E) (t : Nat) : Prop where
  le : t ≤ evs.length
  turn : s.turn = t % n
  taken : ∀ i, i < n → s.taken i = t / n + if i < t % n then 1 else 0
  takenLe : ∀ i, i < n → s.taken i ≤ s.sent i
  sent : ∀ i, i < n → s.sent i ≤ (qs i).length
  closed : ∀ i, i < n → s.closed i = true → s.sent i = (qs i).length
  out : s.out = emitAll o c 0 (evs.take t)

theorem inv_step (o : Ops E) (c : Cfg) (n : Nat) (hn : 0 < n) (evs : List (Ev E)) (qs : Nat → List (Ev E))
    (hq : ∀ i, i < n → ∀ m : Nat, (qs i)[m]? = evs[m * n + i]?) {s s' : St E} {t : Nat} (a : Act)
    (hi : Inv o c n evs qs s t) (h : step o c n qs s a = some s') :
    ∃ t', Inv o c n evs qs s' t' := by
  obtain ⟨h1, h2, h3, h3', h4, h5, h6⟩ := hi
  have htn : t % n < n := Nat.mod_lt t hn
  cases a with
  | put i =>
    simp only [step] at h
    split at h
    · rename_i hc
      injection h with h; subst h
      refine ⟨t, h1, h2, h3, ?_, ?_, ?_, h6⟩
      · intro j hj
        by_cases e : j = i
        · subst e; simp [upd]; have := h3' j hj; omega
        · simp [upd, e]; exact h3' j hj
      · intro j hj
        by_cases e : j = i
        · subst e; simp [upd]; omega
        · simp [upd, e]; exact h4 j hj
      · intro j hj hcl
        by_cases e : j = i
        · subst e; have := h5 j hj hcl; omega
        · simp [upd, e]; exact h5 j hj hcl
    · cases h
  | close i =>
    simp only [step] at h
    split at h
    · rename_i hc
      injection h with h; subst h
      refine ⟨t, h1, h2, h3, h3', h4, ?_, h6⟩
      intro j hj hcl
      by_cases e : j = i
      · subst e; exact hc.2
      · simp [upd, e] at hcl; exact h5 j hj hcl
    · cases h
  | emit =>
    simp only [step] at h
    split at h
    · rename_i hc
      have ht : s.turn < n := by rw [h2]; exact htn
      have htk : s.taken s.turn = t / n := by rw [h3 _ ht, h2]; simp
      have hget : (qs s.turn)[s.taken s.turn]? = evs[t]? := by
        rw [hq _ ht, htk, h2, Nat.mul_comm, Nat.div_add_mod]
      rw [hget] at h
      cases he : evs[t]? with
      | none => rw [he] at h; cases h
      | some e =>
        rw [he] at h
        injection h with h; subst h
        have hlt : t < evs.length := by
          rcases Nat.lt_or_ge t evs.length with h | h
          · exact h
          · rw [List.getElem?_eq_none h] at he; cases he
        refine ⟨t + 1, by omega, ?_, ?_, ?_, h4, h5, ?_⟩
        · simp only [h2]
          rw [Nat.add_mod, Nat.mod_mod, ← Nat.add_mod]
        · intro i hi
          have e1 := succ_mod' t n hn
          have e2 := succ_div' t n hn
          have e3 := h3 i hi
          by_cases ei : i = s.turn
          · subst ei; simp only [upd, if_true]
            rw [htk, e1, e2]
            by_cases hw : t % n + 1 = n
            · simp [hw]
            · simp [hw, h2]
          · simp only [upd, if_neg ei]
            rw [h2] at ei
            rw [e3, e1, e2]
            by_cases hw : t % n + 1 = n
            · simp only [hw, if_true]; rw [if_pos (by omega), if_neg (by omega)]
            · simp only [hw, if_false]
              by_cases hlt2 : i < t % n
              · rw [if_pos hlt2, if_pos (by omega)]
              · rw [if_neg hlt2, if_neg (by omega)]
        · intro i hi
          by_cases ei : i = s.turn
          · subst ei; simp only [upd, if_true]; have := hc.2.2; omega
          · simp only [upd, if_neg ei]; exact h3' i hi
        · have hout := h6
          have htake : evs.take (t + 1) = evs.take t ++ [e] := by
            rw [List.take_add_one, he]; rfl
          rw [htake, emitAll_snoc, ← h6]
          have : s.out.length = 0 + (evs.take t).length * (if c.undirected then 2 else 1) := by
            rw [h6, emitAll_length, Nat.zero_add]
          rw [this]
    · cases h
  | look =>
    simp only [step] at h
    split at h
    · injection h with h; subst h; exact ⟨t, h1, h2, h3, h3', h4, h5, h6⟩
    · cases h
  | check =>
    simp only [step] at h
    split at h
    · injection h with h; subst h; exact ⟨t, h1, h2, h3, h3', h4, h5, h6⟩
    · cases h

theorem inv_run (o : Ops E) (c : Cfg) (n : Nat) (hn : 0 < n) (evs : List (Ev E)) (qs : Nat → List (Ev E))
    (hq : ∀ i, i < n → ∀ m : Nat, (qs i)[m]? = evs[m * n + i]?) : ∀ (as : List Act) {s s' : St E} {t : Nat},
    Inv o c n evs qs s t → run o c n qs s as = some s' → ∃ t', Inv o c n evs qs s' t' := by
  intro as
  induction as with
  | nil => intro s s' t hi h; injection h with h; subst h; exact ⟨t, hi⟩
  | cons a as ih =>
    intro s s' t hi h
    simp only [run] at h
    cases hs : step o c n qs s a with
    | none => rw [hs] at h; cases h
    | some s1 =>
      rw [hs] at h
      obtain ⟨t1, hi1⟩ := inv_step o c n hn evs qs hq a hi hs
      exact ih hi1 h

theorem inv_start (o : Ops E) (c : Cfg) (n : Nat) (evs : List (Ev E)) (qs : Nat → List (Ev E)) :
    Inv o c n evs qs (start : St E) 0 :=
  ⟨by simp, by simp [start], by simp [start], by simp [start], by simp [start], by simp [start], by simp [start, emitAll]⟩

/-- An edge as `k`-th event. -/
def numbered (e : Ev E) (k : Nat) : Ev E := ⟨e.typ, k, e.src, e.dst, e.prop⟩

/-- The reverse edge as `k`-th event: it stores its own target's raw id and its own time. -/
def mirror (o : Ops E) (c : Cfg) (e : Ev E) (k : Nat) : Ev E :=
  ⟨e.typ, k, e.dst, e.src,
    if c.logicalTime then o.replaceTs k (o.replaceRaw e.src e.prop) else o.replaceRaw e.src e.prop⟩

/-- Specification of the stream: in directed mode event `k` is edge `k` of the file, in
undirected mode events `2k` and `2k+1` are edge `k` and its mirror image. -/
def IsStream (o : Ops E) (c : Cfg) (evs out : List (Ev E)) : Prop :=
  (c.undirected = false → ∀ k, out[k]? = (evs[k]?).map (numbered · k)) ∧
  (c.undirected = true → ∀ k, out[2 * k]? = (evs[k]?).map (numbered · (2 * k)) ∧
    out[2 * k + 1]? = (evs[k]?).map (mirror o c · (2 * k + 1)))

theorem emitAll_get_dir (o : Ops E) (c : Cfg) (hu : c.undirected = false) : ∀ (evs : List (Ev E)) (j k : Nat),
    (emitAll o c j evs)[k]? = (evs[k]?).map (numbered · (j + k)) := by
  intro evs
  induction evs with
  | nil => intro j k; simp [emitAll]
  | cons x xs ih =>
    intro j k
    simp only [emitAll, emitOne, hu, Bool.false_eq_true, if_false, List.singleton_append]
    cases k with
    | zero => simp [numbered]
    | succ k =>
      rw [List.getElem?_cons_succ, List.getElem?_cons_succ, ih]
      rw [show j + 1 + k = j + (k + 1) by omega]

theorem emitAll_get_und (o : Ops E) (c : Cfg) (hu : c.undirected = true) : ∀ (evs : List (Ev E)) (j k : Nat),
    (emitAll o c j evs)[2 * k]? = (evs[k]?).map (numbered · (j + 2 * k)) ∧
    (emitAll o c j evs)[2 * k + 1]? = (evs[k]?).map (mirror o c · (j + 2 * k + 1)) := by
  intro evs
  induction evs with
  | nil => intro j k; simp [emitAll]
  | cons x xs ih =>
    intro j k
    simp only [emitAll, emitOne, hu, if_true, List.cons_append, List.nil_append]
    cases k with
    | zero => simp [numbered, mirror]
    | succ k =>
      have := ih (j + 2) k
      rw [show 2 * (k + 1) = 2 * k + 1 + 1 by omega, List.getElem?_cons_succ, List.getElem?_cons_succ, List.getElem?_cons_succ,
        List.getElem?_cons_succ, List.getElem?_cons_succ, this.1, this.2]
      rw [show j + 2 + 2 * k = j + (2 * k + 1 + 1) by omega]
      exact ⟨rfl, rfl⟩

theorem isStream_emitAll (o : Ops E) (c : Cfg) (evs : List (Ev E)) : IsStream o c evs (emitAll o c 0 evs) := by
  constructor
  · intro hu k
    rw [emitAll_get_dir o c hu, Nat.zero_add]
  · intro hu k
    obtain ⟨h1, h2⟩ := emitAll_get_und o c hu evs 0 k
    simp only [Nat.zero_add] at h1 h2
    exact ⟨h1, h2⟩

/-- A stream is determined by its specification. -/
theorem isStream_unique (o : Ops E) (c : Cfg) (evs out : List (Ev E)) (h : IsStream o c evs out) :
    out = emitAll o c 0 evs := by
  have h' := isStream_emitAll o c evs
  apply List.ext_getElem?
  intro k
  cases hu : c.undirected with
  | false => rw [h.1 hu k, h'.1 hu k]
  | true =>
    rcases Nat.mod_two_eq_zero_or_one k with hk | hk
    · obtain ⟨j, rfl⟩ : ∃ j, k = 2 * j := ⟨k / 2, by omega⟩
      rw [(h.2 hu j).1, (h'.2 hu j).1]
    · obtain ⟨j, rfl⟩ : ∃ j, k = 2 * j + 1 := ⟨k / 2, by omega⟩
      rw [(h.2 hu j).2, (h'.2 hu j).2]

/-- The queue contents that arise from a file. -/
def FromFile (o : Ops E) (c : Cfg) (n : Nat) (file : List (List UInt8)) (qs : Nat → List (Ev E)) : Prop :=
  ∀ i, i < n → loaded o c n i file = some (qs i)

theorem fromFile_get {o : Ops E} {c : Cfg} {n : Nat} {file : List (List UInt8)} {qs : Nat → List (Ev E)} {evs : List (Ev E)}
    (h : Reads o c 0 file evs) (hq : FromFile o c n file qs) : ∀ i, i < n → ∀ m : Nat, (qs i)[m]? = evs[m * n + i]? := by
  intro i hi m
  obtain ⟨q, e1, e2⟩ := C21_loader_share o c file evs h n i hi
  rw [hq i hi] at e1
  injection e1 with e1
  rw [e1]; exact e2 m

/-- **C21** (order) and **C22**. For every file whose edge lines have the columns asked for,
every number of loader threads, and every relative speed of loaders and emitter: what has been
emitted at any moment is an initial part of the stream of the file - file order, nothing twice,
nothing skipped, mirrored pairs adjacent. -/
theorem C21_in_order (o : Ops E) (c : Cfg) (file : List (List UInt8)) (evs stream : List (Ev E))
    (h : Reads o c 0 file evs) (hst : IsStream o c evs stream) (n : Nat) (hn : 0 < n)
    (qs : Nat → List (Ev E)) (hq : FromFile o c n file qs) (as : List Act) (s : St E)
    (hr : run o c n qs start as = some s) : s.out <+: stream := by
  obtain ⟨t, hi⟩ := inv_run o c n hn evs qs (fromFile_get h hq) as (inv_start o c n evs qs) hr
  rw [isStream_unique o c evs stream hst, hi.out]
  have := emitAll_append o c 0 (evs.take t) (evs.drop t)
  rw [List.take_append_drop] at this
  exact ⟨_, this.symm⟩

/-- Full statement of C21: when the emitter has stopped, everything in the file was emitted. -/
def C21Statement : Prop :=
  ∀ (E : Type) (o : Ops E) (c : Cfg) (file : List (List UInt8)) (evs stream : List (Ev E)),
    Reads o c 0 file evs → IsStream o c evs stream → ∀ n, 0 < n → ∀ qs : Nat → List (Ev E), FromFile o c n file qs →
    ∀ (as : List Act) (s : St E), run o c n qs start as = some s → s.done = true → s.out = stream

/-- A plain edge property. -/
def unitOps : Ops Unit :=
  { zero := (), defaultWeight := id, parse := fun _ _ => id, replaceTs := fun _ => id, getTs := fun _ => 0, replaceRaw := fun _ => id }

def plain : Cfg := ⟨none, none, false, false, false⟩

/-- "1 2" -/
def line12 : List UInt8 := [49, 32, 50]

theorem tokens12 : Tokens line12 [[49], [50]] :=
  Tokens.cons [] [49] [32, 50] [[50]] (by simp) (by simp) (by simp [IsSpace]) (by simp [IsSpace])
    (Tokens.cons [32] [50] [] [] (by simp [IsSpace]) (by simp) (by simp [IsSpace]) (by simp) (Tokens.none [] (by simp)))

theorem reads12 : Reads unitOps plain 0 [line12] [⟨.add, 0, 1, 2, ()⟩] :=
  Reads.edge 0 line12 [] _ [] (by simp [IsComment, line12])
    ⟨[49], [50], [], tokens12, by simp, ⟨by simp [plain], by simp [plain]⟩, rfl, by decide, (), by simp [plain, unitOps], rfl, rfl⟩
    (Reads.nil 1)

/-- Violated through the race of C02: the emitter finds the queue empty, then the loader puts its
last edge and closes, then the emitter sees "closed" and stops; the edge "1 2" is lost. -/
theorem C21_statement_false : ¬ C21Statement := by
  intro h
  have := h Unit unitOps plain [line12] [⟨.add, 0, 1, 2, ()⟩] (emitAll unitOps plain 0 [⟨.add, 0, 1, 2, ()⟩]) reads12
    (isStream_emitAll _ _ _) 1 (by decide) (fun _ => [⟨.add, 0, 1, 2, ()⟩])
    (fun i hi => by
      obtain rfl : i = 0 := by omega
      exact loader_eq unitOps plain 1 0 reads12 emptyFields (by simp [emptyFields]))
    [.look, .put 0, .close 0, .check] _ rfl rfl
  exact absurd this (by decide)

/-- **C21** (completeness), what holds: if the queue at which the emitter stopped was empty (that
is, the race did not happen), the whole stream was emitted. Missing for the full property: the
schedules of `C21_statement_false`. -/
theorem C21_complete_partial (o : Ops E) (c : Cfg) (file : List (List UInt8)) (evs stream : List (Ev E))
    (h : Reads o c 0 file evs) (hst : IsStream o c evs stream) (n : Nat) (hn : 0 < n)
    (qs : Nat → List (Ev E)) (hq : FromFile o c n file qs) (as : List Act) (s : St E)
    (hr : run o c n qs start as = some s) (hd : s.done = true) (hnorace : s.taken s.turn = s.sent s.turn) :
    s.out = stream := by
  have hclosed : ∀ (as : List Act) (s0 : St E), (s0.done = true → s0.closed s0.turn = true) → run o c n qs s0 as = some s →
      s.done = true → s.closed s.turn = true := by
    intro as
    induction as with
    | nil => intro s0 h0 h; injection h with h; subst h; exact h0
    | cons a as ih =>
      intro s0 h0 h
      simp only [run] at h
      cases hs : step o c n qs s0 a with
      | none => rw [hs] at h; cases h
      | some s1 =>
        rw [hs] at h
        refine ih s1 ?_ h
        cases a with
        | put i =>
          simp only [step] at hs
          split at hs
          · injection hs with hs; subst hs; exact h0
          · cases hs
        | close i =>
          simp only [step] at hs
          split at hs
          · injection hs with hs; subst hs
            intro hd; have := h0 hd
            simp only [upd]; split <;> simp_all
          · cases hs
        | emit =>
          simp only [step] at hs
          split at hs
          · rename_i hc
            split at hs
            · cases hs
            · injection hs with hs; subst hs
              intro hd; simp only at hd; rw [hc.1] at hd; cases hd
          · cases hs
        | look =>
          simp only [step] at hs
          split at hs
          · injection hs with hs; subst hs; exact h0
          · cases hs
        | check =>
          simp only [step] at hs
          split at hs
          · injection hs with hs; subst hs; exact fun h => h
          · cases hs
  have hcl := hclosed as start (by simp [start]) hr hd
  have hq' := fromFile_get h hq
  obtain ⟨t, hi⟩ := inv_run o c n hn evs qs hq' as (inv_start o c n evs qs) hr
  have ht : s.turn < n := by rw [hi.turn]; exact Nat.mod_lt t hn
  have hs := hi.closed _ ht hcl
  have htk : s.taken s.turn = t / n := by rw [hi.taken _ ht, hi.turn]; simp
  have hnone : evs[t]? = none := by
    have := hq' s.turn ht (t / n)
    rw [hi.turn, Nat.mul_comm, Nat.div_add_mod, ← hi.turn, List.getElem?_eq_none (by omega)] at this
    exact this.symm
  have hlen : evs.length ≤ t := by simpa using hnone
  rw [isStream_unique o c evs stream hst, hi.out, List.take_of_length_le hlen]

theorem run_append (o : Ops E) (c : Cfg) (n : Nat) (qs : Nat → List (Ev E)) : ∀ (as bs : List Act) (s : St E),
    run o c n qs s (as ++ bs) = (run o c n qs s as).bind (fun s' => run o c n qs s' bs) := by
  intro as
  induction as with
  | nil => intro bs s; rfl
  | cons a as ih =>
    intro bs s
    simp only [List.cons_append, run]
    cases step o c n qs s a with
    | none => rfl
    | some s1 => exact ih bs s1

/-- C21 (no deadlock): from every reachable state in which the emitter is still running, loaders
and emitter can go on until it has stopped with everything emitted, unless it is already past the
emptiness test of the race. -/
theorem C21_can_finish (o : Ops E) (c : Cfg) (file : List (List UInt8)) (evs stream : List (Ev E))
    (h : Reads o c 0 file evs) (hst : IsStream o c evs stream) (n : Nat) (hn : 0 < n)
    (qs : Nat → List (Ev E)) (hq : FromFile o c n file qs) (as : List Act) (s : St E)
    (hr : run o c n qs start as = some s) (hd : s.done = false) (hse : s.sawEmpty = false) :
    ∃ bs s', run o c n qs s bs = some s' ∧ s'.done = true ∧ s'.out = stream := by
  have hq' := fromFile_get h hq
  obtain ⟨t, hi⟩ := inv_run o c n hn evs qs hq' as (inv_start o c n evs qs) hr
  have key : ∀ (m t : Nat) (s : St E), evs.length - t = m → Inv o c n evs qs s t → s.done = false → s.sawEmpty = false →
      ∃ bs s', run o c n qs s bs = some s' ∧ s'.done = true ∧ s'.out = emitAll o c 0 evs := by
    intro m
    induction m with
    | zero =>
      intro t s hm hi hd hse
      have ht : s.turn < n := by rw [hi.turn]; exact Nat.mod_lt t hn
      have htk : s.taken s.turn = t / n := by rw [hi.taken _ ht, hi.turn]; simp
      have hnone : (qs s.turn)[s.taken s.turn]? = none := by
        rw [hq' _ ht, htk, hi.turn, Nat.mul_comm, Nat.div_add_mod, List.getElem?_eq_none (by omega)]
      have hlen : (qs s.turn).length ≤ s.taken s.turn := by simpa using hnone
      have h1 := hi.takenLe _ ht
      have h2 := hi.sent _ ht
      refine ⟨[.close s.turn, .look, .check], { s with closed := upd s.closed s.turn true, sawEmpty := false, done := true }, ?_, rfl, ?_⟩
      · simp only [run, step]
        rw [if_pos ⟨ht, by omega⟩]
        simp only [Option.bind_some]
        rw [if_pos ⟨hd, hse, by omega⟩]
        simp [hd, upd]
      · show s.out = _
        rw [hi.out, List.take_of_length_le (by omega)]
    | succ m ih =>
      intro t s hm hi hd hse
      have ht : s.turn < n := by rw [hi.turn]; exact Nat.mod_lt t hn
      have htk : s.taken s.turn = t / n := by rw [hi.taken _ ht, hi.turn]; simp
      have hlt : t < evs.length := by omega
      have hget : (qs s.turn)[s.taken s.turn]? = some evs[t] := by
        rw [hq' _ ht, htk, hi.turn, Nat.mul_comm, Nat.div_add_mod, List.getElem?_eq_getElem hlt]
      have hlen : s.taken s.turn < (qs s.turn).length := by
        rcases Nat.lt_or_ge (s.taken s.turn) (qs s.turn).length with h | h
        · exact h
        · rw [List.getElem?_eq_none h] at hget; cases hget
      -- after a put, if one is needed, the emitter can emit
      have emit : ∀ s1 : St E, Inv o c n evs qs s1 t → s1.done = false → s1.sawEmpty = false → s1.turn = s.turn → s1.taken = s.taken →
          s1.taken s1.turn < s1.sent s1.turn → ∃ bs s', run o c n qs s1 bs = some s' ∧ s'.done = true ∧ s'.out = emitAll o c 0 evs := by
        intro s1 hi1 hd1 hse1 e1 e2 hlt1
        have hstep : step o c n qs s1 .emit = some { s1 with taken := upd s1.taken s1.turn (s1.taken s1.turn + 1), turn := (s1.turn + 1) % n, out := s1.out ++ emitOne o c s1.out.length evs[t] } := by
          simp only [step]
          rw [if_pos ⟨hd1, hse1, hlt1⟩, e1, e2, hget]
        obtain ⟨t2, hi2⟩ := inv_step o c n hn evs qs hq' .emit hi1 hstep
        have ht2 : t2 = t + 1 := by
          have a1 := congrArg List.length hi2.out
          have a2 := congrArg List.length hi1.out
          simp only [List.length_append, emitOne_length, emitAll_length, List.length_take] at a1 a2
          rw [a2] at a1
          have b1 := hi2.le
          rw [Nat.min_eq_left b1, Nat.min_eq_left hi1.le] at a1
          split at a1 <;> omega
        subst ht2
        obtain ⟨bs, s', r1, r2⟩ := ih (t + 1) _ (by omega) hi2 hd1 hse1
        exact ⟨.emit :: bs, s', by simp only [run]; rw [hstep]; exact r1, r2⟩
      by_cases hav : s.taken s.turn < s.sent s.turn
      · exact emit s hi hd hse rfl rfl hav
      · have h1 := hi.takenLe _ ht
        have hstep : step o c n qs s (.put s.turn) = some { s with sent := upd s.sent s.turn (s.sent s.turn + 1) } := by
          simp only [step]; rw [if_pos ⟨ht, by omega⟩]
        obtain ⟨t1, hi1⟩ := inv_step o c n hn evs qs hq' (.put s.turn) hi hstep
        have ht1 : t1 = t := by
          have a1 := congrArg List.length hi1.out
          have a2 := congrArg List.length hi.out
          simp only [emitAll_length, List.length_take] at a1 a2
          rw [a2] at a1
          rw [Nat.min_eq_left hi1.le, Nat.min_eq_left hi.le] at a1
          split at a1 <;> omega
        subst ht1
        obtain ⟨bs, s', r1, r2⟩ := emit _ hi1 hd hse rfl rfl (by simp [upd]; omega)
        exact ⟨.put s.turn :: bs, s', by simp only [run]; rw [hstep]; exact r1, r2⟩
  obtain ⟨bs, s', r1, r2, r3⟩ := key _ t s rfl hi hd hse
  exact ⟨bs, s', r1, r2, by rw [r3, isStream_unique o c evs stream hst]⟩

/-- C21 (logical time): when the property stores a timestamp, the logical time of every emitted
event is its position in the stream. -/
theorem C21_logical_time (o : Ops E) (c : Cfg) (file : List (List UInt8)) (evs stream : List (Ev E))
    (hlaw : ∀ t p, o.getTs (o.replaceTs t p) = t) (hraw : ∀ r p, o.getTs (o.replaceRaw r p) = o.getTs p)
    (hlt : c.logicalTime = true) (h : Reads o c 0 file evs) (hst : IsStream o c evs stream) (k : Nat) (e : Ev E)
    (hk : stream[k]? = some e) : o.getTs e.prop = k ∧ e.idx = k := by
  have base : ∀ (j : Nat) (file : List (List UInt8)) (evs : List (Ev E)), Reads o c j file evs → ∀ m (e0 : Ev E), evs[m]? = some e0 →
      o.getTs e0.prop = if c.undirected then 2 * (j + m) else j + m := by
    intro j file evs h
    induction h with
    | nil k => intro m e0 h; simp at h
    | comment k line file evs _ _ ih => exact ih
    | edge k line file e evs _ he _ ih =>
      intro m e0 hm
      cases m with
      | zero =>
        simp at hm; subst hm
        obtain ⟨s, d, rest, -, -, -, -, -, p, -, hp, -⟩ := he
        rw [hp, hraw, if_pos hlt, hlaw]; rfl
      | succ m =>
        rw [List.getElem?_cons_succ] at hm
        rw [ih m e0 hm]; simp only [show k + 1 + m = k + (m + 1) by omega]
  cases hu : c.undirected with
  | false =>
    rw [hst.1 hu k, Option.map_eq_some_iff] at hk
    obtain ⟨e0, h0, rfl⟩ := hk
    have := base 0 file evs h k e0 h0
    rw [hu] at this; simpa [numbered] using this
  | true =>
    rcases Nat.mod_two_eq_zero_or_one k with hk2 | hk2
    · obtain ⟨j, rfl⟩ : ∃ j, k = 2 * j := ⟨k / 2, by omega⟩
      rw [(hst.2 hu j).1, Option.map_eq_some_iff] at hk
      obtain ⟨e0, h0, rfl⟩ := hk
      have := base 0 file evs h j e0 h0
      rw [hu] at this; simpa [numbered] using this
    · obtain ⟨j, rfl⟩ : ∃ j, k = 2 * j + 1 := ⟨k / 2, by omega⟩
      rw [(hst.2 hu j).2, Option.map_eq_some_iff] at hk
      obtain ⟨e0, h0, rfl⟩ := hk
      simp [mirror, hlt, hlaw]

/-- **C22.** In undirected mode the stream consists of adjacent pairs: the edge and its reverse,
consecutive indexes, same type, same property apart from the stored raw id and logical time. -/
theorem C22_mirrored_pairs (o : Ops E) (c : Cfg) (hu : c.undirected = true) (evs stream : List (Ev E))
    (hst : IsStream o c evs stream) :
    stream.length = 2 * evs.length ∧ ∀ k (e : Ev E), stream[2 * k]? = some e →
      ∃ m, stream[2 * k + 1]? = some m ∧ m.src = e.dst ∧ m.dst = e.src ∧ m.typ = e.typ ∧ e.idx = 2 * k ∧ m.idx = 2 * k + 1 ∧
        (c.logicalTime = false → m.prop = o.replaceRaw e.src e.prop) ∧
        (c.logicalTime = true → m.prop = o.replaceTs m.idx (o.replaceRaw e.src e.prop)) := by
  constructor
  · rw [isStream_unique o c evs stream hst, emitAll_length, if_pos hu]; omega
  · intro k e hk
    rw [(hst.2 hu k).1, Option.map_eq_some_iff] at hk
    obtain ⟨e0, h0, rfl⟩ := hk
    refine ⟨mirror o c e0 (2 * k + 1), by rw [(hst.2 hu k).2, h0]; rfl, rfl, rfl, rfl, rfl, rfl, ?_, ?_⟩
    · intro h; simp [mirror, numbered, h]
    · intro h; simp [mirror, numbered, h]

/-- The timestamped, weighted edge (`graph-edge.go:121-156`) with a stored raw id; tokens are kept
as they are. -/
def tsOps : Ops (Nat × List UInt8 × UInt32) :=
  { zero := (0, [], 0), defaultWeight := fun p => (p.1, [49], p.2.2),
    parse := fun w _ p => (p.1, w.getD p.2.1, p.2.2),
    replaceTs := fun t p => (t, p.2), getTs := fun p => p.1, replaceRaw := fun r p => (p.1, p.2.1, r) }

/-- Two lines and a comment through two loaders, undirected, with logical time. -/
example :
    (run tsOps ⟨none, none, false, true, true⟩ 2
        (fun i => (loaded tsOps ⟨none, none, false, true, true⟩ 2 i [line12, [35, 33], [51, 9, 52]]).getD []) start [.put 1, .look, .check, .put 0, .emit, .emit, .close 0, .look, .check]).map
        (fun s => (s.out.map (fun e => [e.idx, e.src.toNat, e.dst.toNat, e.prop.1, e.prop.2.2.toNat]), s.done)) =
      some ([[0, 1, 2, 0, 2], [1, 2, 1, 1, 1], [2, 3, 4, 2, 4], [3, 4, 3, 3, 3]], true) := by decide +kernel

/-! ## C50: a line's event depends on that line only -/

/-- Full statement of C50: two loaders or one, a line yields the same event. -/
def C50Statement : Prop :=
  ∀ (c : Cfg) (file : List (List UInt8)) (n : Nat), 0 < n →
    ∀ q1 q, loaded tsOps c 1 0 file = some q1 → loaded tsOps c n 0 file = some q →
      ∀ m, m * n < q1.length → q[m]? = q1[m * n]?

/-- Violated: a line with a missing column takes it from the previous line that the same loader
read. File "1 2 7", "1 2 8", "1 2": with one loader the third edge gets weight 8, with two
loaders weight 7. -/
theorem C50_statement_false : ¬ C50Statement := by
  intro h
  have := h ⟨some 0, none, false, false, false⟩ [[49, 32, 50, 32, 55], [49, 32, 50, 32, 56], [49, 32, 50]] 2 (by decide)
    [⟨.add, 0, 1, 2, (0, [55], 2)⟩, ⟨.add, 0, 1, 2, (0, [56], 2)⟩, ⟨.add, 0, 1, 2, (0, [56], 2)⟩]
    [⟨.add, 0, 1, 2, (0, [55], 2)⟩, ⟨.add, 0, 1, 2, (0, [55], 2)⟩] (by decide +kernel) (by decide +kernel) 1 (by decide)
  exact absurd this (by decide)

/-- What holds: when every edge line has the columns asked for, a line's event is the same for
every number of loaders and every loader. -/
theorem C50_same_event_partial (o : Ops E) (c : Cfg) (file : List (List UInt8)) (evs : List (Ev E))
    (h : Reads o c 0 file evs) (n : Nat) (i : Nat) (hi : i < n) (q1 q : List (Ev E))
    (h1 : loaded o c 1 0 file = some q1) (h2 : loaded o c n i file = some q) (m : Nat) :
    q[m]? = q1[m * n + i]? := by
  obtain ⟨q1', e1, g1⟩ := C21_loader_share o c file evs h 1 0 (by decide)
  obtain ⟨q', e2, g2⟩ := C21_loader_share o c file evs h n i hi
  rw [h1] at e1; rw [h2] at e2
  injection e1 with e1; injection e2 with e2
  subst e1 e2
  rw [g2, g1]; simp

/-! ## C51: blank lines -/

/-- Full statement of C51: blank lines are ignored. -/
def C51Statement : Prop :=
  ∀ (c : Cfg) (before after : List (List UInt8)) (n i : Nat), i < n → ∀ q,
    loaded unitOps c n i (before ++ after) = some q → loaded unitOps c n i (before ++ [] :: after) = some q

/-- An empty line in the file aborts every loader (272: `b[0]`), whatever its position. -/
theorem C51_blank_line_panics (o : Ops E) (c : Cfg) (n i : Nat) (file rest : List (List UInt8)) (evs : List (Ev E))
    (h : Reads o c 0 file evs) : loaded o c n i (file ++ [] :: rest) = none := by
  have key : ∀ (k : Nat) (file : List (List UInt8)) (evs : List (Ev E)), Reads o c k file evs → ∀ fields : List (List UInt8),
      fields.length = 5 → loader o c n i fields k (file ++ [] :: rest) = none := by
    intro k file evs h
    induction h with
    | nil k => intro fields _; rfl
    | comment k line file evs hc _ ih =>
      intro fields hf
      cases line with
      | nil => simp [IsComment] at hc
      | cons b0 bs =>
        have : b0 = 35 := by simpa [IsComment] using hc
        subst this
        simp only [List.cons_append, loader, if_true]
        exact ih fields hf
    | edge k line file e evs hc he _ ih =>
      intro fields hf
      obtain ⟨f, hff, hfl, hm⟩ := mkEvent_eq o c he fields hf
      have hne := eventOf_ne_nil he
      cases line with
      | nil => exact absurd rfl hne
      | cons b0 bs =>
        have hb : b0 ≠ 35 := by intro e; exact hc (by simp [IsComment, e])
        simp only [List.cons_append, loader, if_neg hb]
        by_cases hk : k % n = i
        · rw [if_pos hk, hff]
          simp [hm, ih f hfl]
        · rw [if_neg hk]
          exact ih fields hf
  exact key 0 file evs h emptyFields (by simp [emptyFields])

/-- Violated: "1 2", "" aborts. -/
theorem C51_statement_false : ¬ C51Statement := by
  intro h
  have h1 := h plain [line12] [] 1 0 (by decide) _ (loader_eq unitOps plain 1 0 reads12 emptyFields (by simp [emptyFields]))
  rw [C51_blank_line_panics unitOps plain 1 0 [line12] [] _ reads12] at h1
  cases h1

/-- What holds for C51: comment lines can be put anywhere. -/
theorem C51_comment_ignored_partial (o : Ops E) (c : Cfg) (n i : Nat) (before after : List (List UInt8)) (evs : List (Ev E))
    (line : List UInt8) (hc : IsComment line) (h : Reads o c 0 (before ++ after) evs) :
    loaded o c n i (before ++ line :: after) = loaded o c n i (before ++ after) := by
  have key : ∀ (before : List (List UInt8)) (k : Nat) (evs : List (Ev E)), Reads o c k (before ++ after) evs →
      Reads o c k (before ++ line :: after) evs := by
    intro before
    induction before with
    | nil => intro k evs h; exact Reads.comment k line after evs hc h
    | cons l before ih =>
      intro k evs h
      cases h with
      | comment _ _ _ _ a b => exact Reads.comment k l _ evs a (ih k evs b)
      | edge _ _ _ e es a b d => exact Reads.edge k l _ e es a b (ih (k + 1) es d)
  have h2 := key before 0 evs h
  rw [loaded, loader_eq o c n i h2 emptyFields (by simp [emptyFields]), loaded, loader_eq o c n i h emptyFields (by simp [emptyFields])]

example : loaded unitOps plain 1 0 ([line12] ++ [] :: []) = none := C51_blank_line_panics _ _ _ _ _ _ _ reads12

end Verif.Props.Loader
