import Verif.ResultFile
import Verif.Props.AnswerCase
import Verif.Props.GraphStats

/-!
# C84: the result file
-/

namespace Verif.Props.ResultFile

open Verif Verif.ResultFile
open Verif.Io (toInt)
open Verif.Loader (Ev)
open Verif.Pipeline (Params Act run start fromRaw rawId owner)
open Verif.Props.Io (decimal IsLines)
open Verif.Props.GraphStats (ids mem_ids)
open Verif.Props.Answer (Loaded InFile FileWalk FileConnected Ran)

variable {E P : Type}

/-! ## Reading the file -/

/-- What the lines say of a vertex: the rest of each line with its number before the first comma. -/
def values (ls : List (List UInt8)) (u : UInt32) : List (List UInt8) :=
  (ls.filter fun l => decide (toInt (l.takeWhile (· != 44)) = u)).map fun l => (l.dropWhile (· != 44)).drop 1

theorem decimal_digits (n : Nat) : ∀ b ∈ decimal n, 48 ≤ b.toNat ∧ b.toNat ≤ 57 := by
  induction n using Nat.strongRecOn with
  | ind n ih =>
    intro b hb
    rw [decimal] at hb
    have key : ∀ d : Fin 10, 48 ≤ (UInt8.ofNat (48 + d.val)).toNat ∧ (UInt8.ofNat (48 + d.val)).toNat ≤ 57 := by decide
    split at hb
    · next h =>
      rw [List.mem_singleton] at hb
      subst hb
      exact key ⟨n, h⟩
    · next h =>
      rcases List.mem_append.1 hb with hb | hb
      · exact ih (n / 10) (by omega) b hb
      · rw [List.mem_singleton] at hb
        subst hb
        exact key ⟨n % 10, by omega⟩

theorem decimal_ne (n : Nat) (c : UInt8) (hc : c.toNat < 48) : ∀ b ∈ decimal n, b ≠ c := by
  intro b hb e
  have := decimal_digits n b hb
  rw [e] at this
  omega

theorem takeWhile_comma (a rest : List UInt8) (h : ∀ b ∈ a, b ≠ 44) : (a ++ 44 :: rest).takeWhile (· != 44) = a ∧ (a ++ 44 :: rest).dropWhile (· != 44) = 44 :: rest := by
  induction a with
  | nil => simp
  | cons x a ih =>
    have hx := h x List.mem_cons_self
    obtain ⟨h1, h2⟩ := ih fun b hb => h b (List.mem_cons_of_mem _ hb)
    have e : (x != 44) = true := by simpa using hx
    constructor
    · rw [List.cons_append, List.takeWhile_cons, if_pos e, h1]
    · rw [List.cons_append, List.dropWhile_cons, if_pos e, h2]

theorem toInt_decimal (r : UInt32) : toInt (decimal r.toNat) = r := by
  apply UInt32.toNat_inj.1
  exact Props.Io.C16_toInt_decimal _ r.toNat_lt

/-- The line of a vertex, without its newline. -/
def entry (raw : UInt32) (text : List UInt8) : List UInt8 := decimal raw.toNat ++ 44 :: text

theorem entry_num (raw : UInt32) (text : List UInt8) : toInt ((entry raw text).takeWhile (· != 44)) = raw := by
  unfold entry
  rw [(takeWhile_comma _ text (decimal_ne _ _ (by decide))).1, toInt_decimal]

theorem entry_text (raw : UInt32) (text : List UInt8) : ((entry raw text).dropWhile (· != 44)).drop 1 = text := by
  unfold entry
  rw [(takeWhile_comma _ text (decimal_ne _ _ (by decide))).2]; rfl

theorem isLines_entries : ∀ (l : List (UInt32 × List UInt8)), (∀ x ∈ l, ∀ b ∈ x.2, b ≠ 10) →
    IsLines (l.flatMap fun x => line x.1 x.2) (l.map fun x => entry x.1 x.2) := by
  intro l
  induction l with
  | nil => intro _; exact .nil
  | cons x l ih =>
    intro h
    have h1 : ∀ b ∈ entry x.1 x.2, b ≠ 10 := by
      intro b hb
      unfold entry at hb
      rcases List.mem_append.1 hb with hb | hb
      · exact decimal_ne _ _ (by decide) b hb
      · rcases List.mem_cons.1 hb with rfl | hb
        · decide
        · exact h x List.mem_cons_self b hb
    have := IsLines.cons (entry x.1 x.2) _ _ h1 (ih fun y hy => h y (List.mem_cons_of_mem _ hy))
    rw [List.flatMap_cons, List.map_cons]
    have e : line x.1 x.2 ++ List.flatMap (fun x => line x.1 x.2) l = entry x.1 x.2 ++ 10 :: List.flatMap (fun x => line x.1 x.2) l := by
      unfold line entry
      simp
    rw [e]
    exact this

theorem values_entries (l : List (UInt32 × List UInt8)) (u : UInt32) :
    values (l.map fun x => entry x.1 x.2) u = (l.filter fun x => decide (x.1 = u)).map (·.2) := by
  unfold values
  rw [List.filter_map, List.map_map]
  have h1 : ((fun l => decide (toInt (l.takeWhile (· != 44)) = u)) ∘ fun x : UInt32 × List UInt8 => entry x.1 x.2) = fun x => decide (x.1 = u) := by
    funext x; simp only [Function.comp, entry_num]
  rw [h1]
  apply List.map_congr_left
  intro x _
  exact entry_text _ _

theorem filter_one {α : Type} (q : α → Bool) (a : α) : ∀ (l : List α), l.Nodup → a ∈ l → (∀ x ∈ l, q x = true ↔ x = a) → l.filter q = [a] := by
  intro l
  induction l with
  | nil => intro _ h; cases h
  | cons y l ih =>
    intro hn ha hq
    have hn' := List.nodup_cons.1 hn
    by_cases hy : y = a
    · subst hy
      rw [List.filter_cons_of_pos ((hq y List.mem_cons_self).2 rfl)]
      congr 1
      rw [List.filter_eq_nil_iff]
      intro x hx hc
      rw [(hq x (List.mem_cons_of_mem _ hx)).1 hc] at hx
      exact hn'.1 hx
    · rw [List.filter_cons_of_neg (fun hc => hy ((hq y List.mem_cons_self).1 hc))]
      exact ih hn'.2 ((List.mem_cons.1 ha).resolve_left fun e => hy e.symm) fun x hx => hq x (List.mem_cons_of_mem _ hx)

theorem ids_nodup (p : Params E) (s : Pipeline.St E) : (ids p s).Nodup := by
  unfold ids
  rw [List.nodup_flatMap]
  refine ⟨fun t _ => ?_, ?_⟩
  · exact (List.nodup_range).map fun a b h => by injection h
  · refine List.Pairwise.imp ?_ (List.nodup_range (n := p.T))
    intro a b hab x hx hy
    obtain ⟨i, -, rfl⟩ := List.mem_map.1 hx
    obtain ⟨j, -, e⟩ := List.mem_map.1 hy
    injection e with e1
    exact hab e1.symm

theorem content_eq (p : Params E) (s : Pipeline.St E) (sh : P → List UInt8) (prop : Nat × Nat → P) :
    content p.T s.th sh prop = ((ids p s).map fun i => ((rawId s i).getD 0, sh (prop i))).flatMap fun x => line x.1 x.2 := by
  unfold content ids
  rw [List.flatMap_map, List.flatMap_assoc]
  congr 1
  funext t
  rw [List.flatMap_map]
  unfold List.flatMap
  congr 1
  apply List.map_congr_left
  intro i hi
  have hi := List.mem_range.1 hi
  simp only [rawId, List.getElem?_eq_getElem hi, Option.map_some, Option.getD_some]

/-- **C84**: at any moment of any run, the file written has lines; for a raw id in the graph exactly one, with the
property of its vertex as printed; for any other none. If printed properties have no newline. -/
theorem C84_lines (p : Params E) (hT : 0 < p.T) (stream : List (Ev E)) (as : List Act) (s : Pipeline.St E) (h : run p stream (start p) as = some s)
    (sh : P → List UInt8) (hsh : ∀ x, ∀ b ∈ sh x, b ≠ 10) (prop : Nat × Nat → P) :
    ∃ ls, IsLines (content p.T s.th sh prop) ls ∧ ∀ u, values ls u = match fromRaw p s u with
      | some i => [sh (prop i)]
      | none => [] := by
  refine ⟨_, Eq.mpr (by rw [content_eq]) (isLines_entries ((ids p s).map fun i => ((rawId s i).getD 0, sh (prop i))) ?_), ?_⟩
  · intro x hx
    obtain ⟨i, -, rfl⟩ := List.mem_map.1 hx
    exact hsh _
  · intro u
    rw [values_entries, List.filter_map, List.map_map]
    have hone := Props.Pipeline.C45_one_id p stream as s h
    have hraw : ∀ i ∈ ids p s, ∃ r, rawId s i = some r := by
      intro i hi
      refine ⟨_, by unfold rawId; rw [List.getElem?_eq_getElem (mem_ids.1 hi).2]; rfl⟩
    cases hf : fromRaw p s u with
    | none =>
      have : (ids p s).filter ((fun x : UInt32 × List UInt8 => decide (x.1 = u)) ∘ fun i => ((rawId s i).getD 0, sh (prop i))) = [] := by
        rw [List.filter_eq_nil_iff]
        intro i hi hc
        simp only [Function.comp, decide_eq_true_eq] at hc
        obtain ⟨r, hr⟩ := hraw i hi
        rw [hr, Option.getD_some] at hc
        subst hc
        have := (hone r i).2 ⟨hr, Props.Pipeline.C45_owner p stream as s h i r hr⟩
        rw [hf] at this; cases this
      rw [this]; rfl
    | some i0 =>
      obtain ⟨h1, h2⟩ := (hone u i0).1 hf
      have hm : i0 ∈ ids p s := by
        refine mem_ids.2 ⟨by rw [h2]; exact Nat.mod_lt _ hT, ?_⟩
        unfold rawId at h1
        obtain ⟨v, h3, -⟩ := Option.map_eq_some_iff.1 h1
        exact (List.getElem?_eq_some_iff.1 h3).1
      have : (ids p s).filter ((fun x : UInt32 × List UInt8 => decide (x.1 = u)) ∘ fun i => ((rawId s i).getD 0, sh (prop i))) = [i0] := by
        refine filter_one _ i0 _ (ids_nodup p s) hm ?_
        intro i hi
        simp only [Function.comp, decide_eq_true_eq]
        constructor
        · intro hc
          obtain ⟨r, hr⟩ := hraw i hi
          rw [hr, Option.getD_some] at hc
          subst hc
          have := (hone r i).2 ⟨hr, Props.Pipeline.C45_owner p stream as s h i r hr⟩
          rw [hf] at this
          injection this with this; exact this.symm
        · intro e; rw [e, h1]; rfl
      rw [this]; rfl

/-! ## No other vertices -/

/-- Everything in the queues and tables comes from the stream. -/
structure Only (stream : List (Ev E)) (s : Pipeline.St E) : Prop where
  fe : ∀ t, ∀ e ∈ s.fe t, e ∈ stream
  tr : ∀ t, ∀ r ∈ s.tr t, ∃ e ∈ stream, e.src = r.src
  rem : ∀ r, s.rem = .hold r → ∃ e ∈ stream, e.src = r.src
  topo : ∀ t, ∀ r ∈ s.topo t, ∃ e ∈ stream, e.src = r.src
  vmap : ∀ t u i, (s.th t).vmap u = some i → InFile stream u

theorem lookup_vmap {th : Pipeline.Th} {raw : UInt32} {n : Nat} {u : UInt32} {i : Nat} (h : (Pipeline.lookup th raw n).1.vmap u = some i) :
    th.vmap u = some i ∨ u = raw := by
  unfold Pipeline.lookup at h
  split at h
  · exact .inl h
  · dsimp only [Pipeline.newVertex] at h
    by_cases hu : u = raw
    · exact .inr hu
    · rw [upd_ne _ _ hu] at h; exact .inl h

theorem convert_vmap {t : Nat} {th th' : Pipeline.Th} {e : Ev E} {r : Pipeline.REv E} (h : Pipeline.convert t th e = some (th', r)) :
    r.src = e.src ∧ ∀ u i, th'.vmap u = some i → th.vmap u = some i ∨ u = e.dst := by
  unfold Pipeline.convert at h
  dsimp only at h
  split at h
  · split at h
    · cases h
    · injection h with h
      injection h with h1 h2
      subst h1 h2
      exact ⟨rfl, fun u i hu => lookup_vmap hu⟩
  · injection h with h
    injection h with h1 h2
    subst h1 h2
    exact ⟨rfl, fun u i hu => lookup_vmap hu⟩

theorem mem_upd {α : Type} {f : Nat → List α} {t t' : Nat} {x y : α} (h : y ∈ upd f t (f t ++ [x]) t') : y ∈ f t' ∨ y = x := by
  by_cases ht : t' = t
  · subst ht
    rw [upd_same] at h
    simpa using h
  · rw [upd_ne _ _ ht] at h; exact .inl h

theorem only_step {p : Params E} {stream : List (Ev E)} {s s' : Pipeline.St E} (a : Act) (ha : a ≠ .remGiveUp) (hi : Only stream s)
    (h : Pipeline.step p stream s a = some s') : Only stream s' := by
  obtain ⟨i1, i2, i3, i4, i5⟩ := hi
  cases a with
  | emitPut =>
    simp only [Pipeline.step] at h
    split at h
    · cases h
    · next e he =>
      split at h
      · injection h with h; subst h
        refine ⟨fun t x hx => ?_, i2, i3, i4, i5⟩
        rcases mem_upd hx with hx | rfl
        · exact i1 t x hx
        · exact List.mem_of_getElem? he
      · cases h
  | emitOrder =>
    simp only [Pipeline.step] at h
    split at h
    · cases h
    · split at h
      · injection h with h; subst h; exact ⟨i1, i2, i3, i4, i5⟩
      · cases h
  | emitClose =>
    simp only [Pipeline.step] at h
    split at h
    · injection h with h; subst h; exact ⟨i1, i2, i3, i4, i5⟩
    · cases h
  | convert t =>
    simp only [Pipeline.step] at h
    split at h
    · split at h
      · cases h
      · next e he =>
        split at h
        · cases h
        · next th r hc =>
          injection h with h; subst h
          obtain ⟨c1, c2⟩ := convert_vmap hc
          have hm := i1 t e (List.mem_of_getElem? he)
          refine ⟨i1, fun t' x hx => ?_, i3, i4, fun t' u i hu => ?_⟩
          · rcases mem_upd hx with hx | rfl
            · exact i2 t' x hx
            · exact ⟨e, hm, c1.symm⟩
          · by_cases ht : t' = t
            · subst ht
              dsimp only at hu
              rw [upd_same] at hu
              rcases c2 u i hu with hu | rfl
              · exact i5 _ u i hu
              · exact ⟨e, hm, .inr rfl⟩
            · dsimp only at hu
              rw [upd_ne _ _ ht] at hu
              exact i5 _ u i hu
    · cases h
  | threadClose t =>
    simp only [Pipeline.step] at h
    split at h
    · injection h with h; subst h; exact ⟨i1, i2, i3, i4, i5⟩
    · cases h
  | remTake =>
    simp only [Pipeline.step] at h
    split at h
    · injection h with h; subst h; exact ⟨i1, i2, fun r hr => by simp at hr, i4, i5⟩
    · cases h
  | remStop =>
    simp only [Pipeline.step] at h
    split at h
    · split at h
      · injection h with h; subst h; exact ⟨i1, i2, fun r hr => by simp at hr, i4, i5⟩
      · cases h
    · cases h
  | remGet =>
    simp only [Pipeline.step] at h
    split at h
    · next t _ =>
      split at h
      · cases h
      · next r hr =>
        injection h with h; subst h
        refine ⟨i1, i2, fun r' hr' => ?_, i4, i5⟩
        injection hr' with hr'
        subst hr'
        exact i2 t r (List.mem_of_getElem? hr)
    · cases h
  | remLook =>
    simp only [Pipeline.step] at h
    split at h
    · split at h
      · injection h with h; subst h; exact ⟨i1, i2, fun r hr => by simp at hr, i4, i5⟩
      · cases h
    · cases h
  | remRetry =>
    simp only [Pipeline.step] at h
    split at h
    · split at h
      · injection h with h; subst h; exact ⟨i1, i2, fun r hr => by simp at hr, i4, i5⟩
      · cases h
    · cases h
  | remGiveUp => exact absurd rfl ha
  | remPut =>
    simp only [Pipeline.step] at h
    split at h
    · next r hr =>
      have ht : ∀ t, ∀ x ∈ upd s.topo (owner p.T r.src) (s.topo (owner p.T r.src) ++ [r]) t, ∃ e ∈ stream, e.src = x.src := by
        intro t x hx
        rcases mem_upd hx with hx | rfl
        · exact i4 t x hx
        · exact i3 _ hr
      split at h
      · split at h
        · injection h with h; subst h; exact ⟨i1, i2, fun r hr => by simp at hr, ht, i5⟩
        · split at h
          · injection h with h; subst h; exact ⟨i1, i2, fun r hr => by simp at hr, ht, i5⟩
          · injection h with h; subst h; exact ⟨i1, i2, fun r hr => by simp at hr, ht, i5⟩
      · cases h
    · cases h
  | remQuery =>
    simp only [Pipeline.step] at h
    split at h
    · split at h
      · injection h with h; subst h; exact ⟨i1, i2, fun r hr => by simp at hr, i4, i5⟩
      · cases h
    · cases h
  | enact t =>
    simp only [Pipeline.step] at h
    split at h
    · split at h
      · cases h
      · next r hr =>
        injection h with h; subst h
        refine ⟨i1, i2, i3, i4, fun t' u i hu => ?_⟩
        by_cases ht : t' = t
        · subst ht
          dsimp only at hu
          rw [upd_same] at hu
          rcases lookup_vmap hu with hu | rfl
          · exact i5 _ u i hu
          · obtain ⟨e, he, h1⟩ := i4 _ r (List.mem_of_getElem? hr)
            exact ⟨e, he, .inl h1⟩
        · dsimp only at hu
          rw [upd_ne _ _ ht] at hu
          exact i5 _ u i hu
    · cases h

theorem only_run {p : Params E} {stream : List (Ev E)} : ∀ (as : List Act) (s s' : Pipeline.St E), Act.remGiveUp ∉ as → Only stream s →
    run p stream s as = some s' → Only stream s' := by
  intro as
  induction as with
  | nil => intro s s' _ hi h; injection h with h; subst h; exact hi
  | cons a as ih =>
    intro s s' hn hi h
    obtain ⟨s1, h1, h2⟩ := Option.bind_eq_some_iff.1 h
    exact ih s1 s' (fun hc => hn (List.mem_cons_of_mem _ hc)) (only_step a (fun e => hn (e ▸ List.mem_cons_self)) hi h1) h2

/-- A vertex in the graph is named in the file. -/
theorem loaded_only {ops : Loader.Ops E} {c : Loader.Cfg} {p : Params E} {tm : E → UInt64 × UInt64} {o : Enact.Opts} {file : List (List UInt8)}
    {evs stream : List (Ev E)} {s : Pipeline.St E} {S : Nat → Enact.Th E} (L : Loaded False ops c p tm o file evs stream s S)
    (u : UInt32) (i : Nat × Nat) (hi : fromRaw p s u = some i) : InFile evs u := by
  obtain ⟨bs, hn, hr⟩ := L.complete.pipeline L.reads L.emitted
  have ho := only_run bs _ _ hn ⟨by simp [start], by simp [start], by simp [start], by simp [start], by simp [start]⟩ hr
  unfold fromRaw at hi
  obtain ⟨j, hj, -⟩ := Option.map_eq_some_iff.1 hi
  obtain ⟨x, hx, hc⟩ := ho.vmap _ u j hj
  obtain ⟨e, he, -, ⟨b1, b2⟩ | ⟨-, b1, b2⟩⟩ := (Built.fileEdge_iff (ops := ops) (w := fun _ => ()) L.emitted (fun _ => ⟨fun _ => rfl, fun _ => rfl⟩) x.src x.dst ()).1
    ⟨x, hx, rfl, rfl, rfl⟩
  · exact ⟨e, he, by rw [b1, b2]; exact hc⟩
  · exact ⟨e, he, by rw [b1, b2]; exact hc.symm⟩

/-! ## The answer of a run, read from the file -/

section
variable {ops : Loader.Ops E} {c : Loader.Cfg} {p : Params E} {tm : E → UInt64 × UInt64} {o : Enact.Opts} {file : List (List UInt8)}
  {evs stream : List (Ev E)} {s : Pipeline.St E} {S : Nat → Enact.Th E}

/-- **C84** (vertices), with or without the races on closing queues: the result file has one line for each vertex named
in the input file, with the property of its vertex, and no others. -/
def VerticesRight (races : Prop) : Prop :=
  ∀ (E P : Type) (ops : Loader.Ops E) (c : Loader.Cfg) (p : Params E) (tm : E → UInt64 × UInt64) (o : Enact.Opts) (file : List (List UInt8))
    (evs stream : List (Ev E)) (s : Pipeline.St E) (S : Nat → Enact.Th E), Loaded races ops c p tm o file evs stream s S →
  ∀ (sh : P → List UInt8), (∀ x, ∀ b ∈ sh x, b ≠ 10) → ∀ (prop : Nat × Nat → P),
    ∃ ls, IsLines (content p.T s.th sh prop) ls ∧ (∀ u, ¬ InFile evs u → values ls u = []) ∧
      ∀ u, InFile evs u → ∃ i, fromRaw p s u = some i ∧ values ls u = [sh (prop i)]

/-- **C84** (vertices), full statement. -/
def C84VerticesStatement : Prop := VerticesRight True

/-- **C84** (vertices), in runs without the races on closing queues. -/
theorem C84_vertices_partial : VerticesRight False := by
  intro E P ops c p tm o file evs stream s S L sh hsh prop
  obtain ⟨bs, -, hr⟩ := L.complete.pipeline L.reads L.emitted
  obtain ⟨ls, h1, h2⟩ := C84_lines p L.threads stream bs s hr sh hsh prop
  refine ⟨ls, h1, fun u hu => ?_, fun u hu => ?_⟩
  · have := h2 u
    cases hf : fromRaw p s u with
    | none => rw [hf] at this; exact this
    | some i => exact absurd (loaded_only L u i hf) hu
  · obtain ⟨i, hi⟩ := L.vertex u hu
    have := h2 u
    rw [hi] at this
    exact ⟨i, hi, this⟩

open Verif.MinLabel (Dist Label sssp cc)
open Verif.Props.Engine (Finished)

/-- **C84** with C81: after a run of shortest paths the line of each vertex named in the input file shows the length
of a shortest walk. -/
theorem C84_paths_partial (L : Loaded False ops c p tm o file evs stream s S) (w : E → ℚ) (hw : Built.Blind ops w) (src : UInt32) (i0 : Nat × Nat)
    (h0 : fromRaw p s src = some i0) (k : Async.Cfg Dist Unit) (hk : ∀ v, k.initMail v = if v = Built.pack i0 then some 0 else none)
    {max : Nat} {es0 : Nat → List (Async.Edge ℚ)} {xs0 : List (Async.Act ℚ)} {r0 r : Engine.St Dist Dist Unit ℚ} {xs : List (Engine.Act ℚ)}
    (R : Ran sssp k max p s (Built.graphOf (fun _ => w) p s S) es0 xs0 r0 r xs) (hd : Finished k r)
    (sh : Dist → List UInt8) (hsh : ∀ x, ∀ b ∈ sh x, b ≠ 10) :
    ∃ ls, IsLines (content p.T s.th sh fun i => r.alg.prop (Built.pack i)) ls ∧ (∀ u, ¬ InFile evs u → values ls u = []) ∧
      ∀ u, InFile evs u → ∃ x, values ls u = [sh x] ∧ (x = ⊤ ↔ ¬ ∃ d, FileWalk c w evs src u d) ∧
        ∀ d : ℚ, x = (d : Dist) ↔ IsLeast {x | FileWalk c w evs src u x} d := by
  obtain ⟨ls, h1, h2, h3⟩ := C84_vertices_partial _ _ _ _ _ _ _ _ _ _ _ _ L sh hsh fun i => r.alg.prop (Built.pack i)
  refine ⟨ls, h1, h2, fun u hu => ?_⟩
  obtain ⟨i, hi, hv⟩ := h3 u hu
  obtain ⟨j, hj, ha⟩ := Props.Answer.C81_paths_partial E ops c p tm o file evs stream s S L w hw src i0 h0 k hk max es0 xs0 r0 r xs R hd u hu
  rw [hi] at hj
  injection hj with hj
  subst hj
  exact ⟨_, hv, ha⟩

/-- A property with one number as `%v` prints the pointer to it: `&{5}`. -/
def braces (n : Nat) : List UInt8 := 38 :: 123 :: (decimal n ++ [125])

/-- **C84** with C81: after a run of components on an undirected graph, the line of each vertex named in the input
file is its number, a comma and `&{n}` with `n` the smallest number of a vertex connected with it. -/
theorem C84_components_partial (L : Loaded False ops c p tm o file evs stream s S) (hund : c.undirected = true)
    (raw : Nat → Label) (hraw : ∀ u i, fromRaw p s u = some i → (raw (Built.pack i)).val = u.toNat)
    (k : Async.Cfg Label Unit) (hk : ∀ v, k.initMail v = some (raw v)) {max : Nat} {es0 : Nat → List (Async.Edge Unit)} {xs0 : List (Async.Act Unit)}
    {r0 r : Engine.St Label Label Unit Unit} {xs : List (Engine.Act Unit)} (R : Ran cc k max p s (Built.graphOf (fun _ _ => ()) p s S) es0 xs0 r0 r xs)
    (hd : Finished k r) :
    ∃ ls, IsLines (content p.T s.th (fun l : Label => braces l.val) fun i => r.alg.prop (Built.pack i)) ls ∧ (∀ u, ¬ InFile evs u → values ls u = []) ∧
      ∀ u, InFile evs u → ∃ n, values ls u = [braces n] ∧ IsLeast {x : Nat | ∃ u', FileConnected evs u' u ∧ u'.toNat = x} n := by
  obtain ⟨ls, h1, h2, h3⟩ := C84_vertices_partial _ _ _ _ _ _ _ _ _ _ _ _ L (fun l : Label => braces l.val) (by
    intro x b hb
    unfold braces at hb
    rcases List.mem_cons.1 hb with rfl | hb
    · decide
    rcases List.mem_cons.1 hb with rfl | hb
    · decide
    rcases List.mem_append.1 hb with hb | hb
    · exact decimal_ne _ _ (by decide) b hb
    · rw [List.mem_singleton] at hb; subst hb; decide) fun i => r.alg.prop (Built.pack i)
  refine ⟨ls, h1, h2, fun u hu => ?_⟩
  obtain ⟨i, hi, hv⟩ := h3 u hu
  obtain ⟨j, hj, ha⟩ := Props.Answer.C81_components_partial L hund raw hraw k hk R hd u hu
  rw [hi] at hj
  injection hj with hj
  subst hj
  exact ⟨_, hv, ha⟩

end

/-! ## The name of the file -/

/-- `b` is the last part of `name`, without the extension: what comes after the last slash and before the last dot. -/
def IsBase (name b : List UInt8) : Prop :=
  ∃ dir ext, name = dir ++ b ++ ext ∧ (dir = [] ∨ ∃ d, dir = d ++ [47]) ∧ 47 ∉ b ∧
    ((ext = [] ∧ 46 ∉ b) ∨ ∃ e, ext = 46 :: e ∧ 46 ∉ e ∧ 47 ∉ e)

/-- **C84** (names), full statement: the results of two runs on graphs whose files have different names, or in different
modes, are both there after both were written. -/
def C84NamesStatement : Prop :=
  ∀ (d d1 d2 : Dir) (n1 n2 : List UInt8) (dy1 dy2 : Bool) (t1 t2 : List UInt8),
    write d n1 dy1 t1 = some d1 → write d1 n2 dy2 t2 = some d2 → (n1 ≠ n2 ∨ dy1 ≠ dy2) →
    ∃ f1 f2, d2 f1 = some t1 ∧ d2 f2 = some t2 ∧ fileName n1 dy1 = some f1 ∧ fileName n2 dy2 = some f2

theorem split_ne_nil (c : UInt8) (l : List UInt8) : split c l ≠ [] := by
  induction l with
  | nil => simp [split]
  | cons b l ih =>
    unfold split
    split
    · simp
    · split <;> simp

theorem split_append (c : UInt8) : ∀ (a b : List UInt8), split c (a ++ c :: b) = split c a ++ split c b := by
  intro a
  induction a with
  | nil => intro b; simp [split]
  | cons x a ih =>
    intro b
    rw [List.cons_append, split, ih, split]
    split
    · rfl
    · cases h : split c a with
      | nil => exact absurd h (split_ne_nil c a)
      | cons y ys => rfl

theorem split_none (c : UInt8) (a : List UInt8) (h : c ∉ a) : split c a = [a] := by
  induction a with
  | nil => rfl
  | cons x a ih =>
    rw [split, if_neg (fun e : x = c => h (by rw [e]; exact List.mem_cons_self)), ih fun hc => h (List.mem_cons_of_mem _ hc)]

theorem split_last_mem (c : UInt8) (a b : List UInt8) (h : c ∉ b) : (split c (a ++ c :: b))[(split c (a ++ c :: b)).length - 1]? = some b := by
  rw [split_append, split_none c b h]
  simp

/-- There is always a name (no index is out of range). -/
theorem C84_named (name : List UInt8) : ∃ b, pathlessName name = some b := by
  unfold pathlessName
  have hl : 0 < (split 47 name).length := List.length_pos_of_ne_nil (split_ne_nil _ _)
  dsimp only
  rw [List.getElem?_eq_getElem (by omega), Option.bind_some]
  generalize (split 47 name)[(split 47 name).length - 1] = m
  have hm : 0 < (split 46 m).length := List.length_pos_of_ne_nil (split_ne_nil _ _)
  split
  · exact ⟨_, List.getElem?_eq_getElem (by omega)⟩
  · exact ⟨_, List.getElem?_eq_getElem (by omega)⟩

/-- **C84** (names): the name is the last part without the extension, if that has no dot. -/
theorem C84_base_partial (name b : List UInt8) (h : IsBase name b) (hb : 46 ∉ b) : pathlessName name = some b := by
  obtain ⟨dir, ext, rfl, hd, h1, h2⟩ := h
  have h47 : 47 ∉ b ++ ext := by
    rw [List.mem_append]
    rintro (h | h)
    · exact h1 h
    · rcases h2 with ⟨rfl, -⟩ | ⟨e, rfl, -, h3⟩
      · cases h
      · rcases List.mem_cons.1 h with h | h
        · exact absurd h (by decide)
        · exact h3 h
  have hlast : (split 47 (dir ++ b ++ ext))[(split 47 (dir ++ b ++ ext)).length - 1]? = some (b ++ ext) := by
    rcases hd with rfl | ⟨d, rfl⟩
    · rw [List.nil_append, split_none _ _ h47]; rfl
    · have : d ++ [47] ++ b ++ ext = d ++ 47 :: (b ++ ext) := by simp
      rw [this]
      exact split_last_mem _ _ _ h47
  unfold pathlessName
  dsimp only
  rw [hlast, Option.bind_some]
  rcases h2 with ⟨rfl, -⟩ | ⟨e, rfl, h3, -⟩
  · rw [List.append_nil, split_none _ _ hb]; rfl
  · rw [split_append, split_none _ _ hb, split_none _ _ h3]; rfl

/-- Two files have the same name just if the names of the graphs and the modes are the same. -/
theorem fileName_inj {b b' : List UInt8} {dy dy' : Bool}
    (h : ascii "results/" ++ b ++ ascii "-props-" ++ ascii (if dy then "dynamic" else "static") ++ ascii ".txt" =
      ascii "results/" ++ b' ++ ascii "-props-" ++ ascii (if dy' then "dynamic" else "static") ++ ascii ".txt") : b = b' ∧ dy = dy' := by
  have e : dy = dy' := by
    have h := congrArg List.reverse (List.append_cancel_right h)
    simp only [List.reverse_append] at h
    cases dy <;> cases dy' <;> first | rfl | (exfalso; revert h; simp [ascii])
  subst e
  simp only [List.append_assoc] at h
  have h := List.append_cancel_left h
  simp only [← List.append_assoc] at h
  have h := List.append_cancel_right h
  have h := List.append_cancel_right h
  exact ⟨List.append_cancel_right h, rfl⟩

/-- **C84** (names): of graphs whose files have different names apart from directories and extension, these without
dots, or in different modes, both results are there. -/
theorem C84_kept_partial (d d1 d2 : Dir) (n1 n2 b1 b2 : List UInt8) (dy1 dy2 : Bool) (t1 t2 : List UInt8) (h1 : write d n1 dy1 t1 = some d1)
    (h2 : write d1 n2 dy2 t2 = some d2) (hb1 : IsBase n1 b1) (hb2 : IsBase n2 b2) (hd1 : 46 ∉ b1) (hd2 : 46 ∉ b2) (hne : b1 ≠ b2 ∨ dy1 ≠ dy2) :
    ∃ f1 f2, d2 f1 = some t1 ∧ d2 f2 = some t2 ∧ fileName n1 dy1 = some f1 ∧ fileName n2 dy2 = some f2 := by
  unfold write at h1 h2
  obtain ⟨f1, a1, rfl⟩ := Option.map_eq_some_iff.1 h1
  obtain ⟨f2, a2, rfl⟩ := Option.map_eq_some_iff.1 h2
  refine ⟨f1, f2, ?_, upd_same _ _ _, a1, a2⟩
  have hf : f1 ≠ f2 := by
    rintro rfl
    unfold fileName at a1 a2
    rw [C84_base_partial _ _ hb1 hd1] at a1
    rw [C84_base_partial _ _ hb2 hd2] at a2
    rw [Option.map_some] at a1 a2
    injection a1 with a1
    injection a2 with a2
    obtain ⟨e1, e2⟩ := fileName_inj (a1.trans a2.symm)
    rcases hne with h | h
    · exact h e1
    · exact h e2
  rw [upd_ne _ _ hf, upd_same]

/-- Files of the same name in different directories. -/
theorem C84_names_false : ¬ C84NamesStatement := by
  intro h
  obtain ⟨f1, f2, h1, h2, h3, h4⟩ := h (fun _ => none) _ _ (ascii "a/test.txt") (ascii "b/test.txt") false false [1] [2] rfl rfl (.inl (by decide))
  have e : fileName (ascii "a/test.txt") false = fileName (ascii "b/test.txt") false := by decide +kernel
  rw [e, h4] at h3
  injection h3 with h3
  subst h3
  rw [h1] at h2
  revert h2
  decide

/-- A name with two dots loses its first part: `a.b.txt` gives `b`. -/
theorem C84_base_false : ¬ ∀ name b, IsBase name b → pathlessName name = some b := by
  intro h
  have := h (ascii "a.b.txt") (ascii "a.b") ⟨[], ascii ".txt", by decide, .inl rfl, by decide, .inr ⟨ascii "txt", by decide, by decide, by decide⟩⟩
  revert this
  decide +kernel

/-! ## Examples -/

/-- Three vertices of two threads: 5, 6 and 7 with properties 1, 2, 3. -/
example : (run Props.Pipeline.twoThreads Props.Pipeline.three (start Props.Pipeline.twoThreads) Props.Pipeline.exAs).map (fun s =>
    content 2 s.th braces fun i => i.1 * 10 + i.2) = some (ascii "6,&{0}\n7,&{10}\n5,&{11}\n") := by decide +kernel

example : IsBase (ascii "data/graph.txt") (ascii "graph") ∧ pathlessName (ascii "data/graph.txt") = some (ascii "graph") :=
  ⟨⟨ascii "data/", ascii ".txt", by decide, .inr ⟨ascii "data", by decide⟩, by decide, .inr ⟨ascii "txt", by decide, by decide, by decide⟩⟩, by decide +kernel⟩

example : fileName (ascii "data/graph.txt") true = some (ascii "results/graph-props-dynamic.txt") := by decide +kernel

section
open Verif.Props.Answer Verif.Props.Loader Verif.Props.EndToEnd Verif.Props.Engine Verif.Engine Verif.Props.Converge

/-- A run in which no edges come from step 0 on, seen up to step `n`. -/
theorem ran_at {V M N D : Type} [DecidableEq N] {a : Async.Alg V M N D} {k : Async.Cfg M N} {max : Nat} {p : Params E} {s : Pipeline.St E}
    {g es0 : Nat → List (Async.Edge D)} {xs0 : List (Async.Act D)} {e : Exec a k max} (R : Runs p s g es0 xs0 e 0) (n : Nat) :
    Ran a k max p s g es0 xs0 (e.st 0) (e.st n) ((List.range n).map e.act) := by
  have hin : ∀ u i, fromRaw p s u = some i → (e.st n).alg.inited (Built.pack i) = true := by
    intro u i hu
    obtain ⟨zs, hz, hr, -⟩ := seg_alg e 0 (fun i hi => by
      cases hx : e.act i with
      | topo y => exact absurd hx (R.noTopo i y hi)
      | _ => rfl) n
    rw [Nat.zero_add] at hr
    rw [(stay_run hz hr).2]
    exact R.inited u i hu
  refine ⟨R.batch, R.own, R.first, R.start, exec_run a k max e n, R.keeps0, fun t v b hm => ?_, fun v => ?_, hin⟩
  · obtain ⟨i, -, hi⟩ := List.mem_map.1 hm
    exact R.keeps i t v b hi
  · have : topos ((List.range n).map e.act) = [] := by
      rw [topos, List.filterMap_eq_nil_iff]
      intro x hx
      obtain ⟨i, -, hi⟩ := List.mem_map.1 hx
      cases x with
      | topo y => exact absurd hi (R.noTopo i y (Nat.zero_le _))
      | _ => rfl
    rw [this]
    have := R.graph v
    rwa [List.range_zero, List.map_nil, show topos ([] : List (Engine.Act D)) = [] from rfl] at this

/-- **C84** (vertices) fails with the race at the loader's queue: vertex 3 of the file "1 2", "2 3" has no line. -/
theorem C84_vertices_false : ¬ C84VerticesStatement := by
  intro h
  have hrun : ∃ l, Loader.run unitOps plain 1 (fun _ => evs2) Loader.start [.put 0, .emit, .look, .put 0, .close 0, .check] = some l ∧
      l.done = true ∧ l.out = two.take 1 := ⟨_, rfl, by decide, by decide⟩
  obtain ⟨l, h1, h2, h4⟩ := hrun
  obtain ⟨s, S, L, a1, a2, a3, a4, a5⟩ := built True 1 shows1 _ l h1 h2 (fun h => absurd trivial h) h4
  obtain ⟨ls, -, -, h5⟩ := h Unit Unit _ _ _ _ _ _ _ _ s S L (fun _ => []) (by simp) fun _ => ()
  obtain ⟨i, hi, -⟩ := h5 3 ⟨_, by simp [evs2]; exact .inr rfl, .inr rfl⟩
  rw [a3] at hi
  cases hi

open Verif.MinLabel (cc) in
/-- The file "1 2" in undirected mode: the result file has the line `2,&{1}` and no other line about 2, and none about
3 (`C84_components_partial`, whose hypotheses are met). -/
example : ∃ (s : Pipeline.St Unit) (S : Nat → Enact.Th Unit) (r : Engine.St MinLabel.Label MinLabel.Label Unit Unit) (ls : List (List UInt8)),
    Loaded False unitOps und oneThread noTime Enact.exOpts [line12] evs1 both s S ∧ Finished kU r ∧
    IsLines (content oneThread.T s.th (fun l : MinLabel.Label => braces l.val) fun i => r.alg.prop (Built.pack i)) ls ∧
    values ls 2 = [braces 1] ∧ values ls 3 = [] := by
  obtain ⟨s, S, L, a1, a2, a3, -, a5⟩ := builtU
  obtain ⟨e, R⟩ := execU cc (by rw [MinLabel.cc_eq]; exact MinLabel.minAlg_local _ _ _) kU rfl (fun _ => rfl) () 5 5 [(0, ()), (1, ())] (by decide) (by decide +kernel) s a5
  rw [← a3] at R
  have hraw : ∀ u i, fromRaw oneThread s u = some i → (raw1 (Built.pack i)).val = u.toNat := fun u i hu => by
    rcases a5 u i hu with ⟨rfl, rfl⟩ | ⟨rfl, rfl⟩ <;> decide +kernel
  obtain ⟨n, hn, -⟩ := C81_components_return_partial L rfl raw1 hraw kU (fun _ => rfl) (fun _ => rfl) R
  obtain ⟨ls, h1, h2, h3⟩ := C84_components_partial L rfl raw1 hraw kU (fun _ => rfl) (ran_at R n) hn
  refine ⟨s, S, e.st n, ls, L, hn, h1, ?_, h2 3 ?_⟩
  · obtain ⟨m, hm, hl⟩ := h3 2 ⟨_, List.mem_singleton.2 rfl, .inr rfl⟩
    have h1 : IsLeast {x : Nat | ∃ u', FileConnected evs1 u' 2 ∧ u'.toNat = x} 1 := by
      refine ⟨⟨1, .rel _ _ ⟨_, List.mem_singleton.2 rfl, rfl, rfl⟩, by decide⟩, ?_⟩
      rintro x ⟨u, hu, rfl⟩
      obtain ⟨e, he, h⟩ := (connected_in hu).2 ⟨_, List.mem_singleton.2 rfl, .inr rfl⟩
      rcases List.mem_singleton.1 he with rfl
      rcases h with rfl | rfl <;> decide
    rw [hm, hl.unique h1]
  · rintro ⟨x, hx, h⟩
    rcases List.mem_singleton.1 hx with rfl
    revert h
    decide

end

end Verif.Props.ResultFile
