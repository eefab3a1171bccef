import Verif.Pipeline

/-! The inductive invariant of the construction pipeline. -/

namespace Verif.Pipeline

open Verif.Loader (Typ Ev)

variable {E : Type}

/-! ## Counting and splitting -/

/-- Number of `ADD`s with destination `d`. -/
def countAdds (es : List (Ev E)) (d : UInt32) : Nat :=
  es.countP (fun e => decide (e.typ = .add) && decide (e.dst = d))

/-- The event belongs to destination thread `t`. -/
def ownD (T t : Nat) (e : Ev E) : Bool := decide (owner T e.dst = t)

/-- The event belongs to source thread `t`. -/
def ownS (T t : Nat) (e : Ev E) : Bool := decide (owner T e.src = t)

def ownR (T t : Nat) (r : REv E) : Bool := decide (owner T r.src = t)

theorem countAdds_filter (T : Nat) (es : List (Ev E)) (d : UInt32) :
    countAdds (es.filter (ownD T (owner T d))) d = countAdds es d := by
  unfold countAdds
  rw [List.countP_filter]
  apply List.countP_congr
  intro e _
  simp only [ownD, Bool.and_eq_true, decide_eq_true_eq]
  constructor
  · intro h; exact h.1
  · intro h; exact ⟨h, by rw [h.2]⟩

theorem take_succ_of {α : Type} {l : List α} {n : Nat} {x : α} (h : l[n]? = some x) : l.take (n + 1) = l.take n ++ [x] := by
  rw [List.take_add_one, h]; rfl

theorem lt_of_get {α : Type} {l : List α} {n : Nat} {x : α} (h : l[n]? = some x) : n < l.length := by
  rcases Nat.lt_or_ge n l.length with h1 | h1
  · exact h1
  · rw [List.getElem?_eq_none h1] at h; cases h

/-- Position of `l[k]` among the elements kept by a filter of a longer initial part. -/
theorem filter_take_split {α : Type} (q : α → Bool) (l : List α) (k n : Nat) (x : α) (hx : l[k]? = some x) (hq : q x = true) (hk : k < n) :
    ((l.take n).filter q)[((l.take k).filter q).length]? = some x ∧
      ((l.take n).filter q).take ((l.take k).filter q).length = (l.take k).filter q := by
  obtain ⟨tl, htl⟩ : ∃ tl, l.take n = l.take k ++ x :: tl := by
    have h1 : l.take n = (l.take n).take (k + 1) ++ (l.take n).drop (k + 1) := (List.take_append_drop _ _).symm
    refine ⟨(l.take n).drop (k + 1), ?_⟩
    rw [List.take_take, Nat.min_eq_left (by omega), take_succ_of hx] at h1
    simpa using h1
  rw [htl, List.filter_append, List.filter_cons, if_pos hq]
  constructor
  · simp
  · simp

/-! ## Vertex tables -/

/-- Consistent vertex tables of thread `t`. -/
structure ThOk (T t : Nat) (th : Th) : Prop where
  fwd : ∀ r i, th.vmap r = some i → ∃ v : Vx, th.verts[i]? = some v ∧ v.raw = r
  bwd : ∀ (i : Nat) (v : Vx), th.verts[i]? = some v → th.vmap v.raw = some i ∧ owner T v.raw = t

def Ext (a b : Th) : Prop := ∀ r i, a.vmap r = some i → b.vmap r = some i

theorem Ext.refl (a : Th) : Ext a a := fun _ _ h => h

theorem lookup_known {th : Th} {r : UInt32} {n i : Nat} (h : th.vmap r = some i) : lookup th r n = (th, i) := by
  simp [lookup, h]

theorem lookup_spec {T t : Nat} {th : Th} (h : ThOk T t th) (raw : UInt32) (n : Nat) (ho : owner T raw = t) :
    ThOk T t (lookup th raw n).1 ∧ Ext th (lookup th raw n).1 ∧ (lookup th raw n).1.vmap raw = some (lookup th raw n).2 ∧
    (∀ (i : Nat) (v : Vx), (lookup th raw n).1.verts[i]? = some v → th.verts[i]? = some v ∨ (th.vmap raw = none ∧ v = ⟨raw, n, 0⟩)) := by
  unfold lookup
  cases hm : th.vmap raw with
  | some i => exact ⟨h, Ext.refl _, hm, fun i v hv => .inl hv⟩
  | none =>
    simp only [newVertex]
    refine ⟨⟨?_, ?_⟩, ?_, by simp, ?_⟩
    · intro r i hr
      by_cases e : r = raw
      · subst e
        simp only [upd_same] at hr
        injection hr with hr; subst hr
        exact ⟨⟨r, n, 0⟩, by simp, rfl⟩
      · simp only [upd_ne _ _ e] at hr
        obtain ⟨v, hv, hr2⟩ := h.fwd r i hr
        exact ⟨v, by rw [List.getElem?_append_left (lt_of_get hv)]; exact hv, hr2⟩
    · intro i v hv
      by_cases hi : i < th.verts.length
      · simp only [List.getElem?_append_left hi] at hv
        obtain ⟨h1, h2⟩ := h.bwd i v hv
        refine ⟨?_, h2⟩
        have : v.raw ≠ raw := by intro e; rw [e, hm] at h1; cases h1
        simp only [upd_ne _ _ this, h1]
      · have hlt := lt_of_get hv
        simp only [List.length_append, List.length_singleton] at hlt
        obtain rfl : i = th.verts.length := by omega
        simp only [List.getElem?_concat_length] at hv
        injection hv with hv; subst hv
        exact ⟨by simp, ho⟩
    · intro r i hr
      have : r ≠ raw := by intro e; rw [e, hm] at hr; cases hr
      simp only [upd_ne _ _ this, hr]
    · intro i v hv
      by_cases hi : i < th.verts.length
      · simp only [List.getElem?_append_left hi] at hv
        exact .inl hv
      · have hlt := lt_of_get hv
        simp only [List.length_append, List.length_singleton] at hlt
        obtain rfl : i = th.verts.length := by omega
        simp only [List.getElem?_concat_length] at hv
        injection hv with hv
        exact .inr ⟨trivial, hv.symm⟩

/-- `r` is event `e` with destination id and in-edge position filled in; `before` are the events
in front of `e`. -/
structure Conv (T : Nat) (ths : Nat → Th) (before : List (Ev E)) (e : Ev E) (r : REv E) : Prop where
  typ : r.typ = e.typ
  idx : r.idx = e.idx
  src : r.src = e.src
  dst : r.dst = e.dst
  prop : r.prop = e.prop
  thread : r.didx.1 = owner T e.dst
  vertex : (ths (owner T e.dst)).vmap e.dst = some r.didx.2
  pos : r.pos = if e.typ = .add then some (countAdds before e.dst) else none

theorem Conv.mono {T : Nat} {ths ths' : Nat → Th} {b : List (Ev E)} {e : Ev E} {r : REv E} (h : Conv T ths b e r)
    (hx : ∀ t, Ext (ths t) (ths' t)) : Conv T ths' b e r :=
  { h with vertex := hx _ _ _ h.vertex }

/-- The positions stored with the vertices are the numbers of `ADD`s in `es`. -/
def PosOk (th : Th) (es : List (Ev E)) : Prop := ∀ (i : Nat) (v : Vx), th.verts[i]? = some v → v.inPos = countAdds es v.raw

theorem countAdds_snoc (es : List (Ev E)) (e : Ev E) (d : UInt32) :
    countAdds (es ++ [e]) d = countAdds es d + if e.typ = .add ∧ e.dst = d then 1 else 0 := by
  unfold countAdds
  rw [List.countP_append, List.countP_singleton]
  by_cases h1 : e.typ = .add <;> by_cases h2 : e.dst = d <;> simp [h1, h2]

/-- Nothing goes to an unknown vertex. -/
def Known (th : Th) (es : List (Ev E)) : Prop := ∀ e ∈ es, (th.vmap e.dst).isSome

theorem countAdds_unknown {th : Th} {es : List (Ev E)} (h : Known th es) {d : UInt32} (hd : th.vmap d = none) : countAdds es d = 0 := by
  unfold countAdds
  rw [List.countP_eq_zero]
  intro e he
  simp only [Bool.and_eq_true, decide_eq_true_eq, not_and]
  intro _ h2
  have := h e he
  rw [h2, hd] at this
  cases this

theorem Known.mono {a b : Th} {es : List (Ev E)} (h : Known a es) (hx : Ext a b) : Known b es := by
  intro e he
  have := h e he
  obtain ⟨i, hi⟩ := Option.isSome_iff_exists.1 this
  rw [hx _ _ hi]; rfl

theorem lookup_pos {T t : Nat} {th : Th} (h : ThOk T t th) (raw : UInt32) (n : Nat) (ho : owner T raw = t) {es : List (Ev E)}
    (hp : PosOk th es) (hk : Known th es) : PosOk (lookup th raw n).1 es := by
  intro i v hv
  rcases (lookup_spec h raw n ho).2.2.2 i v hv with h1 | ⟨h1, h2⟩
  · exact hp i v h1
  · subst h2; simp only; rw [countAdds_unknown hk h1]

theorem convert_spec {T t : Nat} {th : Th} (h : ThOk T t th) (e : Ev E) (ho : owner T e.dst = t) {es : List (Ev E)}
    (hp : PosOk th es) (hk : Known th es) :
    ∃ th' r, convert t th e = some (th', r) ∧ ThOk T t th' ∧ Ext th th' ∧ PosOk th' (es ++ [e]) ∧ Known th' (es ++ [e]) ∧
      ∀ ths : Nat → Th, ths t = th' → Conv T ths es e r := by
  obtain ⟨h1, h2, h3, -⟩ := lookup_spec h e.dst e.idx ho
  have h4 := lookup_pos h e.dst e.idx ho hp hk
  have hkn : Known (lookup th e.dst e.idx).1 (es ++ [e]) := by
    intro e' he'
    rw [List.mem_append] at he'
    rcases he' with he' | he'
    · exact hk.mono h2 e' he'
    · simp only [List.mem_singleton] at he'; subst he'; rw [h3]; rfl
  unfold convert
  generalize hl : lookup th e.dst e.idx = q at h1 h2 h3 h4 hkn ⊢
  obtain ⟨th1, i⟩ := q
  simp only at h1 h2 h3 h4 hkn ⊢
  cases ht : e.typ with
  | add =>
    obtain ⟨v, hv, hvr⟩ := h1.fwd _ _ h3
    simp only [hv]
    have hvp := h4 i v hv
    refine ⟨_, _, rfl, ⟨?_, ?_⟩, ?_, ?_, ?_, ?_⟩
    · intro r j hr
      obtain ⟨w, hw, hwr⟩ := h1.fwd r j hr
      by_cases ej : j = i
      · subst ej
        rw [hv] at hw; injection hw with hw; subst hw
        exact ⟨{ v with inPos := v.inPos + 1 }, by rw [List.getElem?_set_self (lt_of_get hv)], hwr⟩
      · exact ⟨w, by rw [List.getElem?_set_ne (Ne.symm ej)]; exact hw, hwr⟩
    · intro j w hw
      by_cases ej : j = i
      · subst ej
        simp only [List.getElem?_set_self (lt_of_get hv)] at hw
        injection hw with hw; subst hw
        exact h1.bwd j v hv
      · simp only [List.getElem?_set_ne (Ne.symm ej)] at hw
        exact h1.bwd j w hw
    · exact h2
    · intro j w hw
      by_cases ej : j = i
      · subst ej
        simp only [List.getElem?_set_self (lt_of_get hv)] at hw
        injection hw with hw; subst hw
        simp only
        rw [countAdds_snoc, hvp, if_pos ⟨ht, hvr.symm⟩]
      · simp only [List.getElem?_set_ne (Ne.symm ej)] at hw
        rw [countAdds_snoc, h4 j w hw]
        have : ¬ (e.typ = .add ∧ e.dst = w.raw) := by
          rintro ⟨-, hd⟩
          have := (h1.bwd j w hw).1
          rw [← hd, h3] at this
          injection this with this; exact ej this.symm
        rw [if_neg this, Nat.add_zero]
    · exact hkn
    · intro ths hths
      refine ⟨ht.symm, rfl, rfl, rfl, rfl, ho.symm, ?_, ?_⟩
      · rw [ho, hths]; exact h3
      · rw [if_pos ht, hvp, hvr]
  | del =>
    refine ⟨_, _, rfl, h1, h2, ?_, hkn, ?_⟩
    · intro j w hw
      rw [countAdds_snoc, h4 j w hw]; simp [ht]
    · intro ths hths
      refine ⟨ht.symm, rfl, rfl, rfl, rfl, ho.symm, ?_, ?_⟩
      · rw [ho, hths]; exact h3
      · rw [if_neg (by rw [ht]; decide)]

/-! ## The invariant -/

/-- Events fetched by the remitter so far. -/
def fetched (s : St E) : Nat := s.remitted.length + match s.rem with | .hold _ => 1 | _ => 0

/-- The remitter's position. -/
def RemOk (p : Params E) (stream : List (Ev E)) (s : St E) : Prop :=
  match s.rem with
  | .idle => s.ordN = s.remitted.length
  | .querying => s.ordN = s.remitted.length
  | .stopped => s.ordN = s.remitted.length ∧ s.remitted.length = stream.length
  | .want t => s.ordN = s.remitted.length + 1 ∧ s.ord[s.remitted.length]? = some t
  | .sawEmpty t => s.ordN = s.remitted.length + 1 ∧ s.ord[s.remitted.length]? = some t
  | .hold r => s.ordN = s.remitted.length + 1 ∧ ∃ e, stream[s.remitted.length]? = some e ∧ Conv p.T s.th (stream.take s.remitted.length) e r

structure Inv (p : Params E) (stream : List (Ev E)) (s : St E) : Prop where
  em1 : s.ordered ≤ s.emitted
  em2 : s.emitted ≤ s.ordered + 1
  em3 : s.emitted ≤ stream.length
  clo : 0 < s.closing → s.emitted = stream.length ∧ s.ordered = stream.length
  clo2 : s.closing ≤ p.T + 1
  fe : ∀ t, s.fe t = (stream.take s.emitted).filter (ownD p.T t)
  feN : ∀ t, s.feN t ≤ (s.fe t).length
  ord : s.ord = (stream.take s.ordered).map (fun e => owner p.T e.dst)
  ordN : s.ordN ≤ s.ord.length
  trLen : ∀ t, (s.tr t).length = s.feN t
  tr : ∀ t i e r, (s.fe t)[i]? = some e → (s.tr t)[i]? = some r → Conv p.T s.th ((s.fe t).take i) e r
  th : ∀ t, ThOk p.T t (s.th t)
  pos : ∀ t, PosOk (s.th t) ((s.fe t).take (s.feN t))
  known : ∀ t, Known (s.th t) ((s.fe t).take (s.feN t))
  rem : RemOk p stream s
  trN : ∀ t, s.trN t = ((stream.take (fetched s)).filter (ownD p.T t)).length
  trLe : ∀ t, s.trN t ≤ (s.tr t).length
  remd : ∀ k r, s.remitted[k]? = some r → ∃ e, stream[k]? = some e ∧ Conv p.T s.th (stream.take k) e r
  topo : ∀ t, s.topo t = s.remitted.filter (ownR p.T t)
  topoN : ∀ t, s.topoN t ≤ (s.topo t).length
  en : ∀ t, (s.enacted t).map Prod.snd = (s.topo t).take (s.topoN t)
  enS : ∀ t i r, (i, r) ∈ s.enacted t → (s.th t).vmap r.src = some i

theorem inv_start (p : Params E) (stream : List (Ev E)) : Inv p stream (start p) := by
  refine ⟨by simp [start], by simp [start], by simp [start], by simp [start], by simp [start], by simp [start], by simp [start], by simp [start],
    by simp [start], by simp [start], by simp [start], ?_, ?_, ?_, ?_, ?_, by simp [start], ?_, by simp [start], by simp [start], by simp [start], by simp [start]⟩
  · intro t; exact ⟨by simp [start], by simp [start]⟩
  · intro t i v h; simp [start] at h
  · intro t e h; simp [start] at h
  · simp [RemOk, start]
  · intro t; simp [start, fetched]
  · intro k r h; simp [start] at h

theorem remOk_mono {p : Params E} {stream : List (Ev E)} {s s' : St E} (h : RemOk p stream s) (h1 : s'.rem = s.rem)
    (h2 : s'.ordN = s.ordN) (h3 : s'.remitted = s.remitted) (h4 : ∃ tl, s'.ord = s.ord ++ tl) (h5 : ∀ t, Ext (s.th t) (s'.th t)) :
    RemOk p stream s' := by
  unfold RemOk at *
  rw [h1]
  obtain ⟨tl, h4⟩ := h4
  cases hr : s.rem with
  | idle => rw [hr] at h; simp only at h ⊢; rw [h2, h3]; exact h
  | querying => rw [hr] at h; simp only at h ⊢; rw [h2, h3]; exact h
  | stopped => rw [hr] at h; simp only at h ⊢; rw [h2, h3]; exact h
  | want t =>
    rw [hr] at h; simp only at h ⊢; rw [h2, h3, h4]
    exact ⟨h.1, by rw [List.getElem?_append_left (lt_of_get h.2)]; exact h.2⟩
  | sawEmpty t =>
    rw [hr] at h; simp only at h ⊢; rw [h2, h3, h4]
    exact ⟨h.1, by rw [List.getElem?_append_left (lt_of_get h.2)]; exact h.2⟩
  | hold r =>
    rw [hr] at h; simp only at h ⊢; rw [h2, h3]
    obtain ⟨a, e, b, c⟩ := h
    exact ⟨a, e, b, c.mono h5⟩

theorem fetched_congr {s s' : St E} (h1 : s'.rem = s.rem) (h2 : s'.remitted = s.remitted) : fetched s' = fetched s := by
  unfold fetched; rw [h1, h2]

theorem ext_upd {f : Nat → Th} {t : Nat} {th : Th} (h : Ext (f t) th) : ∀ t', Ext (f t') (upd f t th t') := by
  intro t'
  by_cases e : t' = t
  · subst e; rw [upd_same]; exact h
  · rw [upd_ne _ _ e]; exact Ext.refl _

theorem inv_step (p : Params E) (stream : List (Ev E)) {s s' : St E} (a : Act) (ha : a ≠ .remGiveUp)
    (hi : Inv p stream s) (h : step p stream s a = some s') : Inv p stream s' := by
  cases a with
  | emitPut =>
    simp only [step] at h
    cases he : stream[s.emitted]? with
    | none => rw [he] at h; cases h
    | some e =>
      rw [he] at h; simp only at h
      split at h
      · rename_i hc
        injection h with h; subst h
        have hlt := lt_of_get he
        have hfe : ∀ t, upd s.fe (owner p.T e.dst) (s.fe (owner p.T e.dst) ++ [e]) t = s.fe t ++ (if owner p.T e.dst = t then [e] else []) := by
          intro t
          by_cases et : t = owner p.T e.dst
          · subst et; simp
          · rw [upd_ne _ _ et, if_neg (Ne.symm et)]; simp
        have hpre : ∀ t, (upd s.fe (owner p.T e.dst) (s.fe (owner p.T e.dst) ++ [e]) t).take (s.feN t) = (s.fe t).take (s.feN t) := by
          intro t; rw [hfe, List.take_append_of_le_length (hi.feN t)]
        refine { hi with
          em1 := by have := hi.em1; simp only; omega
          em2 := by simp only; omega
          em3 := by simp only; omega
          clo := by intro hcl; have := hi.clo hcl; omega
          fe := ?_, feN := ?_, tr := ?_, pos := ?_, known := ?_, trN := ?_
          rem := remOk_mono hi.rem rfl rfl rfl ⟨[], by simp⟩ (fun t => Ext.refl _) }
        · intro t
          simp only
          rw [hfe, take_succ_of he, List.filter_append, hi.fe t]
          congr 1
          by_cases et : owner p.T e.dst = t <;> simp [ownD, et]
        · intro t; simp only; rw [hfe]; have := hi.feN t; simp; omega
        · intro t i e' r h1 h2
          simp only at h1 h2 ⊢
          have hir := lt_of_get h2
          rw [hi.trLen] at hir
          have hle := hi.feN t
          rw [hfe, List.getElem?_append_left (by omega)] at h1
          rw [hfe, List.take_append_of_le_length (by omega)]
          exact hi.tr t i e' r h1 h2
        · intro t; simp only; rw [hpre]; exact hi.pos t
        · intro t; simp only; rw [hpre]; exact hi.known t
        · intro t; exact hi.trN t
      · cases h
  | emitOrder =>
    simp only [step] at h
    cases he : stream[s.ordered]? with
    | none => rw [he] at h; cases h
    | some e =>
      rw [he] at h; simp only at h
      split at h
      · rename_i hc
        injection h with h; subst h
        have hlt := lt_of_get he
        refine { hi with
          em1 := by simp only; omega
          em2 := by simp only; omega
          clo := by intro hcl; have := hi.clo hcl; omega
          ord := ?_, ordN := ?_
          rem := remOk_mono hi.rem rfl rfl rfl ⟨[owner p.T e.dst], rfl⟩ (fun t => Ext.refl _)
          trN := fun t => hi.trN t }
        · simp only; rw [take_succ_of he, List.map_append, ← hi.ord]; rfl
        · have := hi.ordN; simp; omega
      · cases h
  | emitClose =>
    simp only [step] at h
    split at h
    · rename_i hc
      injection h with h; subst h
      exact { hi with
        clo := fun _ => ⟨hc.1, hc.2.1⟩
        clo2 := by simp only; omega
        rem := remOk_mono hi.rem rfl rfl rfl ⟨[], by simp⟩ (fun t => Ext.refl _)
        trN := fun t => hi.trN t }
    · cases h
  | convert t =>
    simp only [step] at h
    split at h
    · rename_i hc
      cases he : (s.fe t)[s.feN t]? with
      | none => rw [he] at h; cases h
      | some e =>
        rw [he] at h; simp only at h
        have hown : owner p.T e.dst = t := by
          have := List.mem_of_getElem? he
          rw [hi.fe t, List.mem_filter] at this
          simpa [ownD] using this.2
        obtain ⟨th', r, e1, h1, h2, h3, h4, h5⟩ := convert_spec (hi.th t) e hown (hi.pos t) (hi.known t)
        rw [e1] at h; simp only at h
        injection h with h; subst h
        have hlt := lt_of_get he
        have hext := ext_upd (f := s.th) h2
        refine { hi with
          feN := ?_, trLen := ?_, tr := ?_, th := ?_, pos := ?_, known := ?_
          rem := remOk_mono hi.rem rfl rfl rfl ⟨[], by simp⟩ hext
          trN := fun t => hi.trN t
          trLe := ?_
          remd := ?_, enS := ?_ }
        · intro t'
          by_cases et : t' = t
          · subst et; simp only [upd_same]; omega
          · simp only [upd_ne _ _ et]; exact hi.feN t'
        · intro t'
          by_cases et : t' = t
          · subst et; simp only [upd_same, List.length_append, List.length_singleton, hi.trLen]
          · simp only [upd_ne _ _ et]; exact hi.trLen t'
        · intro t' i e' r' g1 g2
          simp only at g1 g2 ⊢
          by_cases et : t' = t
          · subst et
            simp only [upd_same] at g2
            by_cases hil : i < (s.tr t').length
            · rw [List.getElem?_append_left hil] at g2
              exact (hi.tr t' i e' r' g1 g2).mono hext
            · have := lt_of_get g2
              simp only [List.length_append, List.length_singleton] at this
              obtain rfl : i = (s.tr t').length := by omega
              rw [List.getElem?_concat_length] at g2
              injection g2 with g2; subst g2
              rw [hi.trLen] at g1 ⊢
              rw [he] at g1; injection g1 with g1; subst g1
              exact h5 _ (by rw [upd_same])
          · simp only [upd_ne _ _ et] at g2
            exact (hi.tr t' i e' r' g1 g2).mono hext
        · intro t'
          by_cases et : t' = t
          · subst et; simp only [upd_same]; exact h1
          · simp only [upd_ne _ _ et]; exact hi.th t'
        · intro t'
          by_cases et : t' = t
          · subst et; simp only [upd_same]; rw [take_succ_of he]; exact h3
          · simp only [upd_ne _ _ et]; exact hi.pos t'
        · intro t'
          by_cases et : t' = t
          · subst et; simp only [upd_same]; rw [take_succ_of he]; exact h4
          · simp only [upd_ne _ _ et]; exact hi.known t'
        · intro t'
          by_cases et : t' = t
          · subst et; have := hi.trLe t'; simp only [upd_same, List.length_append]; omega
          · simp only [upd_ne _ _ et]; exact hi.trLe t'
        · intro k r' hk
          obtain ⟨e', a1, a2⟩ := hi.remd k r' hk
          exact ⟨e', a1, a2.mono hext⟩
        · intro t' i r' hm
          exact hext _ _ _ (hi.enS t' i r' hm)
    · cases h
  | threadClose t =>
    simp only [step] at h
    split at h
    · injection h with h; subst h
      exact { hi with
        rem := remOk_mono hi.rem rfl rfl rfl ⟨[], by simp⟩ (fun t => Ext.refl _)
        trN := fun t => hi.trN t }
    · cases h
  | remTake =>
    simp only [step] at h
    split at h
    · rename_i t hr ht
      injection h with h; subst h
      have hrem := hi.rem
      simp only [RemOk, hr] at hrem
      have hlt := lt_of_get ht
      refine { hi with ordN := by simp only; omega, rem := ?_, trN := ?_ }
      · simp only [RemOk]; rw [← hrem]; exact ⟨rfl, ht⟩
      · intro t'; rw [hi.trN t']; simp [fetched, hr]
    · cases h
  | remStop =>
    simp only [step] at h
    split at h
    · rename_i hr
      split at h
      · rename_i hc
        injection h with h; subst h
        have hrem := hi.rem
        simp only [RemOk, hr] at hrem
        obtain ⟨c1, c2⟩ := hi.clo (by omega)
        refine { hi with rem := ?_, trN := ?_ }
        · simp only [RemOk]
          refine ⟨hrem, ?_⟩
          have := hc.2
          rw [hi.ord, List.length_map, List.length_take, c2, Nat.min_self] at this
          omega
        · intro t'; rw [hi.trN t']; simp [fetched, hr]
      · cases h
    · cases h
  | remGet =>
    simp only [step] at h
    split at h
    · rename_i t hr
      cases hg : (s.tr t)[s.trN t]? with
      | none => rw [hg] at h; cases h
      | some r =>
        rw [hg] at h; simp only at h
        injection h with h; subst h
        have hrem := hi.rem
        simp only [RemOk, hr] at hrem
        obtain ⟨g1, g2⟩ := hrem
        have hf : fetched s = s.remitted.length := by simp [fetched, hr]
        rw [hi.ord, List.getElem?_map] at g2
        obtain ⟨e, ge, ho⟩ := Option.map_eq_some_iff.1 g2
        have hlt : s.remitted.length < s.ordered := by
          have := lt_of_get ge; rw [List.length_take] at this; omega
        have hge : stream[s.remitted.length]? = some e := by
          rw [List.getElem?_take, if_pos hlt] at ge; exact ge
        have hown : ownD p.T t e = true := by simp [ownD, ho]
        have hem : s.remitted.length < s.emitted := by have := hi.em1; omega
        obtain ⟨k1, k2⟩ := filter_take_split (ownD p.T t) stream s.remitted.length s.emitted e hge hown hem
        have htn := hi.trN t
        rw [hf] at htn
        rw [← htn, ← hi.fe t] at k1
        have hconv := hi.tr t _ e r k1 hg
        rw [hi.fe t, htn, k2] at hconv
        refine { hi with rem := ?_, trN := ?_, trLe := ?_ }
        · simp only [RemOk]
          refine ⟨g1, e, hge, ?_⟩
          refine { hconv with pos := ?_ }
          rw [hconv.pos, ← ho, countAdds_filter]
        · intro t'
          have hf' : fetched { s with trN := upd s.trN t (s.trN t + 1), rem := .hold r } = s.remitted.length + 1 := by simp [fetched]
          rw [hf', take_succ_of hge, List.filter_append, List.length_append, ← hf, ← hi.trN t']
          by_cases et : t' = t
          · subst et; simp [hown]
          · have : ownD p.T t' e = false := by simp [ownD, ho, Ne.symm et]
            simp [this, upd_ne _ _ et]
        · intro t'
          by_cases et : t' = t
          · subst et; simp only [upd_same]; have := lt_of_get hg; omega
          · simp only [upd_ne _ _ et]; exact hi.trLe t'
    · cases h
  | remLook =>
    simp only [step] at h
    split at h
    · rename_i t hr
      split at h
      · injection h with h; subst h
        have hrem := hi.rem
        simp only [RemOk, hr] at hrem
        exact { hi with rem := by simp only [RemOk]; exact hrem, trN := by intro t'; rw [hi.trN t']; simp [fetched, hr] }
      · cases h
    · cases h
  | remRetry =>
    simp only [step] at h
    split at h
    · rename_i t hr
      split at h
      · injection h with h; subst h
        have hrem := hi.rem
        simp only [RemOk, hr] at hrem
        exact { hi with rem := by simp only [RemOk]; exact hrem, trN := by intro t'; rw [hi.trN t']; simp [fetched, hr] }
      · cases h
    · cases h
  | remGiveUp => exact absurd rfl ha
  | remPut =>
    simp only [step] at h
    split at h
    · rename_i r hr
      split at h
      · have hrem := hi.rem
        simp only [RemOk, hr] at hrem
        obtain ⟨g1, e, g2, g3⟩ := hrem
        have key : ∀ (x : Rem E) (nt : Nat), (x = .idle ∨ x = .querying) →
            Inv p stream { s with topo := upd s.topo (owner p.T r.src) (s.topo (owner p.T r.src) ++ [r]), remitted := s.remitted ++ [r], rem := x, nextTarget := nt } := by
          intro x nt hx
          have htp : ∀ t, upd s.topo (owner p.T r.src) (s.topo (owner p.T r.src) ++ [r]) t = s.topo t ++ (if owner p.T r.src = t then [r] else []) := by
            intro t
            by_cases et : t = owner p.T r.src
            · subst et; simp
            · rw [upd_ne _ _ et, if_neg (Ne.symm et)]; simp
          refine { hi with rem := ?_, trN := ?_, remd := ?_, topo := ?_, topoN := ?_, en := ?_ }
          · rcases hx with hx | hx <;> subst hx <;> simp [RemOk, g1]
          · intro t
            rw [hi.trN t]
            rcases hx with hx | hx <;> subst hx <;> simp [fetched, hr]
          · intro k r' hk
            simp only at hk ⊢
            by_cases hkl : k < s.remitted.length
            · rw [List.getElem?_append_left hkl] at hk
              exact hi.remd k r' hk
            · have := lt_of_get hk
              simp only [List.length_append, List.length_singleton] at this
              obtain rfl : k = s.remitted.length := by omega
              rw [List.getElem?_concat_length] at hk
              injection hk with hk; subst hk
              exact ⟨e, g2, g3⟩
          · intro t
            simp only
            rw [htp, List.filter_append, hi.topo t]
            congr 1
            by_cases et : owner p.T r.src = t <;> simp [ownR, et]
          · intro t; simp only; rw [htp]; have := hi.topoN t; simp; omega
          · intro t; simp only; rw [htp, List.take_append_of_le_length (hi.topoN t)]; exact hi.en t
        split at h
        · injection h with h; subst h; exact key _ _ (.inl rfl)
        · split at h
          · injection h with h; subst h; exact key _ _ (.inr rfl)
          · injection h with h; subst h; exact key _ _ (.inl rfl)
      · cases h
    · cases h
  | remQuery =>
    simp only [step] at h
    split at h
    · rename_i hr
      split at h
      · injection h with h; subst h
        have hrem := hi.rem
        simp only [RemOk, hr] at hrem
        exact { hi with rem := by simp only [RemOk]; exact hrem, trN := by intro t'; rw [hi.trN t']; simp [fetched, hr] }
      · cases h
    · cases h
  | enact t =>
    simp only [step] at h
    split at h
    · cases hg : (s.topo t)[s.topoN t]? with
      | none => rw [hg] at h; cases h
      | some r =>
        rw [hg] at h; simp only at h
        injection h with h; subst h
        have hown : owner p.T r.src = t := by
          have := List.mem_of_getElem? hg
          rw [hi.topo t, List.mem_filter] at this
          simpa [ownR] using this.2
        obtain ⟨h1, h2, h3, -⟩ := lookup_spec (hi.th t) r.src r.idx hown
        have hext := ext_upd (f := s.th) h2
        refine { hi with
          tr := ?_, th := ?_, pos := ?_, known := ?_
          rem := remOk_mono hi.rem rfl rfl rfl ⟨[], by simp⟩ hext
          trN := fun t => hi.trN t
          remd := ?_, topoN := ?_, en := ?_, enS := ?_ }
        · intro t' i e' r' a1 a2; exact (hi.tr t' i e' r' a1 a2).mono hext
        · intro t'
          by_cases et : t' = t
          · subst et; simp only [upd_same]; exact h1
          · simp only [upd_ne _ _ et]; exact hi.th t'
        · intro t'
          by_cases et : t' = t
          · subst et; simp only [upd_same]; exact lookup_pos (hi.th t') r.src r.idx hown (hi.pos t') (hi.known t')
          · simp only [upd_ne _ _ et]; exact hi.pos t'
        · intro t'
          exact (hi.known t').mono (hext t')
        · intro k r' hk
          obtain ⟨e', a1, a2⟩ := hi.remd k r' hk
          exact ⟨e', a1, a2.mono hext⟩
        · intro t'
          by_cases et : t' = t
          · subst et; simp only [upd_same]; have := lt_of_get hg; omega
          · simp only [upd_ne _ _ et]; exact hi.topoN t'
        · intro t'
          by_cases et : t' = t
          · subst et; simp only [upd_same, List.map_append, List.map_cons, List.map_nil]; rw [hi.en t', take_succ_of hg]
          · simp only [upd_ne _ _ et]; exact hi.en t'
        · intro t' i r' hm
          simp only at hm ⊢
          by_cases et : t' = t
          · subst et
            simp only [upd_same, List.mem_append, List.mem_singleton] at hm
            rcases hm with hm | hm
            · exact hext _ _ _ (hi.enS t' i r' hm)
            · injection hm with m1 m2; subst m1 m2; rw [upd_same]; exact h3
          · simp only [upd_ne _ _ et] at hm
            exact hext _ _ _ (hi.enS t' i r' hm)
    · cases h

theorem run_cons {p : Params E} {stream : List (Ev E)} {s s' : St E} {a : Act} {as : List Act} (h : run p stream s (a :: as) = some s') :
    ∃ s1, step p stream s a = some s1 ∧ run p stream s1 as = some s' := by
  simp only [run] at h
  cases hs : step p stream s a with
  | none => rw [hs] at h; cases h
  | some s1 => rw [hs] at h; exact ⟨s1, rfl, h⟩

theorem inv_run (p : Params E) (stream : List (Ev E)) : ∀ (as : List Act) {s s' : St E}, Act.remGiveUp ∉ as → Inv p stream s →
    run p stream s as = some s' → Inv p stream s' := by
  intro as
  induction as with
  | nil => intro s s' _ hi h; injection h with h; subst h; exact hi
  | cons a as ih =>
    intro s s' hn hi h
    obtain ⟨s1, h1, h2⟩ := run_cons h
    simp only [List.mem_cons, not_or] at hn
    exact ih hn.2 (inv_step p stream a (Ne.symm hn.1) hi h1) h2

end Verif.Pipeline
