import Verif.Inject
import Verif.Props.Sorting
import Mathlib.Data.List.Perm.Subperm
import Mathlib.Data.List.Nodup

/-!
# C27: the delete-injection generator keeps the final structure
-/

namespace Verif.Props.Inject

open Verif.Inject
open Verif.Sorting (shuffle removeRandomElement)

variable {E : Type}

/-! ## Specification -/

/-- An edge of the multigraph. -/
structure REdge (E : Type) where
  src : UInt32
  dst : UInt32
  prop : E
  deriving DecidableEq, Repr

def edgeOf (e : TEv E) : REdge E := ⟨e.src, e.dst, e.prop⟩

def ends (e : REdge E) : UInt32 × UInt32 := (e.src, e.dst)

/-- Apply events to a multigraph: an add appends, a delete removes the earliest edge with these
endpoints and is invalid (`none`) if there is none. Other event types are invalid. -/
def replay : List (REdge E) → List (TEv E) → Option (List (REdge E))
  | g, [] => some g
  | g, e :: es =>
    if e.type = 0 then replay (g ++ [edgeOf e]) es
    else if e.type = 1 then
      if g.any (fun x => decide (ends x = (e.src, e.dst))) then replay (g.eraseP (fun x => decide (ends x = (e.src, e.dst)))) es else none
    else none

/-! ## Proof -/

theorem word_typ (k w : UInt64) : ((k <<< 2) ||| (w &&& 3)) &&& 3 = w &&& 3 := by
  apply UInt64.toNat_inj.1
  simp only [UInt64.toNat_and, UInt64.toNat_or, UInt64.toNat_shiftLeft]
  have h3 : (3 : UInt64).toNat = 2 ^ 2 - 1 := rfl
  have h2 : (2 : UInt64).toNat % 64 = 2 := rfl
  rw [h3, h2, Nat.and_two_pow_sub_one_eq_mod, Nat.and_two_pow_sub_one_eq_mod, Nat.or_mod_two_pow, Nat.shiftLeft_eq, Nat.mod_mod]
  have : k.toNat * 2 ^ 2 % 2 ^ 64 % 2 ^ 2 = 0 := by omega
  rw [this, Nat.zero_or]

theorem word_idx (k w : UInt64) (hk : k.toNat < 2 ^ 62) : ((k <<< 2) ||| (w &&& 3)) >>> 2 = k := by
  apply UInt64.toNat_inj.1
  simp only [UInt64.toNat_and, UInt64.toNat_or, UInt64.toNat_shiftLeft, UInt64.toNat_shiftRight]
  have h3 : (3 : UInt64).toNat = 2 ^ 2 - 1 := rfl
  have h2 : (2 : UInt64).toNat % 64 = 2 := rfl
  rw [h3, h2, Nat.and_two_pow_sub_one_eq_mod, Nat.shiftLeft_eq, Nat.mod_eq_of_lt (by omega : k.toNat * 2 ^ 2 < 2 ^ 64), Nat.shiftRight_or_distrib, Nat.shiftRight_eq_div_pow, Nat.shiftRight_eq_div_pow]
  have : w.toNat % 2 ^ 2 / 2 ^ 2 = 0 := by omega
  rw [this, Nat.or_zero]; omega

theorem setIdx_type (k : UInt64) (e : TEv E) : (setIdx k e).type = e.type := word_typ k e.word

theorem setIdx_edge (k : UInt64) (e : TEv E) : edgeOf (setIdx k e) = edgeOf e := rfl

/-- What `RemoveRandomElement` does, as a multiset. -/
theorem remove_perm {s r : Array (TEv E)} {i : Nat} {x : TEv E} (h : removeRandomElement s i = some (x, r)) : s.toList.Perm (x :: r.toList) :=
  (Verif.Props.Sorting.C40_remove_exact s i x r h).2

theorem eraseP_map_ends (g : List (REdge E)) (c : UInt32 × UInt32) : (g.eraseP (fun x => decide (ends x = c))).map ends = (g.map ends).erase c := by
  induction g with
  | nil => rfl
  | cons a g ih =>
    by_cases h : ends a = c
    · simp [h]
    · rw [List.eraseP_cons_of_neg (by simp [h]), List.map_cons, List.map_cons, List.erase_cons_tail (by simpa using h), ih]

/-- Loop invariant: the current multigraph has the endpoints of `previous`. -/
theorem loop_replay : ∀ (cs : List (Bool × Nat)) (k : UInt64) (av pr : Array (TEv E)) (out : List (TEv E)) (g : List (REdge E)) (S : REdge E → Prop),
    injectLoop k av pr cs = some out → (∀ e ∈ av.toList ++ pr.toList, e.type = 0 ∧ S (edgeOf e)) →
    (g.map ends).Perm (pr.toList.map fun e => ends (edgeOf e)) → (∀ x ∈ g, S x) →
    ∃ g', replay g out = some g' ∧ (g'.map ends).Perm ((av.toList ++ pr.toList).map fun e => ends (edgeOf e)) ∧ ∀ x ∈ g', S x := by
  intro cs
  induction cs with
  | nil =>
    intro k av pr out g S h hS hg hgS
    simp only [injectLoop] at h
    by_cases hz : av.size = 0
    · rw [if_pos hz] at h
      injection h with h; subst h
      have : av.toList = [] := by rw [← List.length_eq_zero_iff]; simpa using hz
      exact ⟨g, rfl, by rw [this]; exact hg, hgS⟩
    · rw [if_neg hz] at h; cases h
  | cons c cs ih =>
    intro k av pr out g S h hS hg hgS
    obtain ⟨coin, r⟩ := c
    simp only [injectLoop] at h
    by_cases hz : av.size = 0
    · rw [if_pos hz] at h; cases h
    rw [if_neg hz] at h
    by_cases hc : pr.size > 0 ∧ coin = true
    · rw [if_pos hc] at h
      cases hr : removeRandomElement pr r with
      | none => rw [hr] at h; cases h
      | some q =>
        obtain ⟨cur, pr'⟩ := q
        rw [hr] at h
        obtain ⟨out', ho, rfl⟩ := Option.map_eq_some_iff.1 h
        have hp := remove_perm hr
        have hall : ∀ e ∈ (av.push cur).toList ++ pr'.toList, e ∈ av.toList ++ pr.toList := by
          intro e he
          simp only [Array.toList_push, List.mem_append, List.mem_singleton] at he ⊢
          rw [hp.mem_iff, List.mem_cons]
          tauto
        have hmem : cur ∈ av.toList ++ pr.toList := hall cur (by simp)
        have hg' : (g.map ends).Perm (ends (edgeOf cur) :: pr'.toList.map fun e => ends (edgeOf e)) := hg.trans (hp.map _)
        have hin : ends (edgeOf cur) ∈ g.map ends := hg'.mem_iff.2 (List.mem_cons_self ..)
        have hany : g.any (fun x => decide (ends x = (cur.src, cur.dst))) = true := by
          obtain ⟨x, hx, hxe⟩ := List.mem_map.1 hin
          exact List.any_eq_true.2 ⟨x, hx, decide_eq_true hxe⟩
        have hgp : ((g.eraseP (fun x => decide (ends x = (cur.src, cur.dst)))).map ends).Perm (pr'.toList.map fun e => ends (edgeOf e)) := by
          rw [eraseP_map_ends]
          have := hg'.erase (ends (edgeOf cur))
          rwa [List.erase_cons_head] at this
        obtain ⟨g', a1, a2, a3⟩ := ih (k + 1) (av.push cur) pr' out' _ S ho (fun e he => hS e (hall e he)) hgp
          (fun x hx => hgS x (List.eraseP_sublist.subset hx))
        refine ⟨g', ?_, ?_, a3⟩
        · have ht : (setIdx k { cur with word := 1 } : TEv E).type = 1 := by rw [setIdx_type]; show (1 : UInt64) &&& 3 = 1; decide
          simp only [replay, ht]
          rw [if_neg (by decide), if_pos trivial]
          have e1 : (setIdx k { cur with word := 1 } : TEv E).src = cur.src := rfl
          have e2 : (setIdx k { cur with word := 1 } : TEv E).dst = cur.dst := rfl
          rw [e1, e2, if_pos hany]
          exact a1
        · refine a2.trans (List.Perm.map _ ?_)
          rw [Array.toList_push, List.append_assoc]
          exact List.Perm.append_left _ hp.symm
    · rw [if_neg hc] at h
      cases hr : removeRandomElement av r with
      | none => rw [hr] at h; cases h
      | some q =>
        obtain ⟨cur, av'⟩ := q
        rw [hr] at h
        obtain ⟨out', ho, rfl⟩ := Option.map_eq_some_iff.1 h
        have hp := remove_perm hr
        have hperm : (av'.toList ++ (pr.push cur).toList).Perm (av.toList ++ pr.toList) := by
          rw [Array.toList_push]
          refine List.Perm.trans ?_ (List.Perm.append_right pr.toList hp.symm)
          rw [← List.append_assoc]
          exact List.perm_append_singleton cur _
        have hcur : cur ∈ av.toList ++ pr.toList := hperm.mem_iff.1 (by simp)
        obtain ⟨g', a1, a2, a3⟩ := ih (k + 1) av' (pr.push cur) out' (g ++ [edgeOf cur]) S ho (fun e he => hS e (hperm.mem_iff.1 he))
          (by rw [List.map_append, Array.toList_push, List.map_append]; exact List.Perm.append_right _ hg) (by
            intro x hx
            rw [List.mem_append, List.mem_singleton] at hx
            rcases hx with hx | rfl
            · exact hgS x hx
            · exact (hS cur hcur).2)
        refine ⟨g', ?_, a2.trans (hperm.map _), a3⟩
        have ht : (setIdx k cur).type = 0 := by rw [setIdx_type]; exact (hS cur hcur).1
        simp only [replay, ht, if_true]
        exact a1

/-- **C27**: for every list of adds and every outcome of the random choices, the generated stream is
valid (no delete without an edge, at any point) and leaves exactly the endpoints of the list. -/
theorem C27_structure (sc : Array (TEv E)) (hadd : ∀ e ∈ sc.toList, e.type = 0) (shuf : List Nat) (cs : List (Bool × Nat)) (out : List (TEv E))
    (h : inject sc shuf cs = some out) :
    ∃ g, replay [] out = some g ∧ (g.map ends).Perm (sc.toList.map fun e => (e.src, e.dst)) := by
  unfold inject at h
  cases hs : shuffle sc shuf with
  | none => rw [hs] at h; cases h
  | some av =>
    rw [hs] at h
    have hp := Verif.Props.Sorting.C40_shuffle_perm sc shuf av hs
    obtain ⟨g, a1, a2, -⟩ := loop_replay cs 0 av #[] out [] (fun _ => True) h (by
      intro e he
      simp only [List.append_nil] at he
      exact ⟨hadd e (hp.mem_iff.1 he), trivial⟩) (by simp) (by simp)
    refine ⟨g, a1, a2.trans ?_⟩
    simp only [List.append_nil]
    exact hp.map _

/-- **C27** with properties: if no two edges of the list have the same endpoints, the final edges are
those of the list, properties included. -/
theorem C27_properties_partial [DecidableEq E] (sc : Array (TEv E)) (hadd : ∀ e ∈ sc.toList, e.type = 0) (hd : (sc.toList.map fun e => (e.src, e.dst)).Nodup)
    (shuf : List Nat) (cs : List (Bool × Nat)) (out : List (TEv E)) (h : inject sc shuf cs = some out) :
    ∃ g, replay [] out = some g ∧ g.Perm (sc.toList.map edgeOf) := by
  unfold inject at h
  cases hs : shuffle sc shuf with
  | none => rw [hs] at h; cases h
  | some av =>
    rw [hs] at h
    have hp := Verif.Props.Sorting.C40_shuffle_perm sc shuf av hs
    obtain ⟨g, a1, a2, a3⟩ := loop_replay cs 0 av #[] out [] (fun x => x ∈ sc.toList.map edgeOf) h (by
      intro e he
      simp only [List.append_nil] at he
      have := hp.mem_iff.1 he
      exact ⟨hadd e this, List.mem_map.2 ⟨e, this, rfl⟩⟩) (by simp) (by simp)
    refine ⟨g, a1, ?_⟩
    simp only [List.append_nil] at a2
    have a4 := a2.trans (hp.map _)
    have hn : (g.map ends).Nodup := a4.nodup_iff.2 hd
    have hlen : g.length = (sc.toList.map edgeOf).length := by
      have := a4.length_eq
      simpa using this
    exact (List.subperm_of_subset (List.Nodup.of_map _ hn) a3).perm_of_length_le (by omega)

/-- With properties the claim fails for parallel edges: the generator may delete the younger of two
parallel edges, the graph deletes the older one. -/
theorem C27_properties_false : ∃ (sc : Array (TEv Nat)) (shuf : List Nat) (cs : List (Bool × Nat)) (out : List (TEv Nat)) (g : List (REdge Nat)),
    (∀ e ∈ sc.toList, e.type = 0) ∧ inject sc shuf cs = some out ∧ replay [] out = some g ∧ ¬ g.Perm (sc.toList.map edgeOf) := by
  refine ⟨#[⟨0, 1, 2, 10⟩, ⟨0, 1, 2, 20⟩, ⟨0, 3, 4, 0⟩], [0, 1, 2], [(false, 0), (false, 1), (true, 1), (false, 1), (false, 0)],
    [⟨0, 1, 2, 10⟩, ⟨4, 1, 2, 20⟩, ⟨9, 1, 2, 20⟩, ⟨12, 1, 2, 20⟩, ⟨16, 3, 4, 0⟩], [⟨1, 2, 20⟩, ⟨1, 2, 20⟩, ⟨3, 4, 0⟩], ?_, ?_, ?_, ?_⟩
  · decide
  · decide +kernel
  · decide +kernel
  · decide +kernel

theorem loop_idx : ∀ (cs : List (Bool × Nat)) (k : UInt64) (av pr : Array (TEv E)) (out : List (TEv E)), injectLoop k av pr cs = some out →
    k.toNat + out.length ≤ 2 ^ 62 → ∀ (i : Nat) (e : TEv E), out[i]? = some e → e.eventIdx.toNat = k.toNat + i := by
  intro cs
  induction cs with
  | nil =>
    intro k av pr out h
    simp only [injectLoop] at h
    split at h
    · injection h with h; subst h
      intro _ i e he; simp at he
    · cases h
  | cons c cs ih =>
    intro k av pr out h hk
    obtain ⟨coin, r⟩ := c
    simp only [injectLoop] at h
    have key : ∀ (x : TEv E) (av' pr' : Array (TEv E)), (injectLoop (k + 1) av' pr' cs).map (setIdx k x :: ·) = some out →
        ∀ (i : Nat) (e : TEv E), out[i]? = some e → e.eventIdx.toNat = k.toNat + i := by
      intro x av' pr' h i e he
      obtain ⟨out', ho, rfl⟩ := Option.map_eq_some_iff.1 h
      simp only [List.length_cons] at hk
      have hk1 : (k + 1).toNat = k.toNat + 1 := by
        rw [UInt64.toNat_add]
        have : (1 : UInt64).toNat = 1 := rfl
        rw [this, Nat.mod_eq_of_lt (by omega)]
      cases i with
      | zero =>
        simp only [List.getElem?_cons_zero, Option.some.injEq] at he
        subst he
        show (setIdx k x).eventIdx.toNat = k.toNat + 0
        unfold TEv.eventIdx setIdx
        rw [word_idx k x.word (by omega)]
        omega
      | succ i =>
        simp only [List.getElem?_cons_succ] at he
        have := ih (k + 1) av' pr' out' ho (by omega) i e he
        omega
    split at h
    · cases h
    split at h
    · cases hr : removeRandomElement pr r with
      | none => rw [hr] at h; cases h
      | some q => rw [hr] at h; exact key _ _ _ h
    · cases hr : removeRandomElement av r with
      | none => rw [hr] at h; cases h
      | some q => rw [hr] at h; exact key _ _ _ h

/-- **C27**: the generated events are numbered from 0 in order. -/
theorem C27_numbered (sc : Array (TEv E)) (shuf : List Nat) (cs : List (Bool × Nat)) (out : List (TEv E))
    (h : inject sc shuf cs = some out) (hl : out.length ≤ 2 ^ 62) (i : Nat) (e : TEv E) (he : out[i]? = some e) : e.eventIdx.toNat = i := by
  unfold inject at h
  cases hs : shuffle sc shuf with
  | none => rw [hs] at h; cases h
  | some av =>
    rw [hs] at h
    have h0 : (0 : UInt64).toNat = 0 := rfl
    have := loop_idx cs 0 av #[] out h (by omega) i e he
    omega

theorem loop_finish : ∀ (n : Nat) (k : UInt64) (av pr : Array (TEv E)), av.size = n → ∃ cs out, injectLoop k av pr cs = some out := by
  intro n
  induction n with
  | zero => intro k av pr h; exact ⟨[], [], by simp [injectLoop, h]⟩
  | succ n ih =>
    intro k av pr h
    have h0 : 0 < av.size := by omega
    have hr : removeRandomElement av 0 = some (av[0], (av.set 0 (av[av.size - 1]'(by omega)) h0).pop) := by
      unfold removeRandomElement; rw [dif_pos h0]
    obtain ⟨cs, out, ho⟩ := ih (k + 1) ((av.set 0 (av[av.size - 1]'(by omega)) h0).pop) (pr.push av[0]) (by simp [h])
    refine ⟨(false, 0) :: cs, setIdx k av[0] :: out, ?_⟩
    simp only [injectLoop]
    rw [if_neg (by omega), if_neg (by simp), hr]
    simp only [ho, Option.map_some]

/-- **C27**: from every reachable point the generator can finish (it does so with probability one if
`chance < 1/2`), so the theorems above are not empty: here from the start, for every shuffle. -/
theorem C27_finishes (sc : Array (TEv E)) (shuf : List Nat) (hl : shuf.length = sc.size) (hr : ∀ k j : Nat, shuf[k]? = some j → j ≤ k) :
    ∃ cs out, inject sc shuf cs = some out := by
  obtain ⟨av, ha⟩ := Verif.Props.Sorting.C40_shuffle_total sc shuf hl hr
  obtain ⟨cs, out, h⟩ := loop_finish av.size 0 av #[] rfl
  exact ⟨cs, out, by simp only [inject, ha, h]⟩

/-! ## Concrete case -/

def exList : Array (TEv Unit) := #[⟨0, 1, 2, ()⟩, ⟨0, 1, 2, ()⟩, ⟨0, 3, 4, ()⟩]

example : (inject exList [0, 1, 0] [(true, 1), (true, 0), (false, 0), (false, 1), (false, 0)]).map (fun l => l.map fun e => (e.type, e.eventIdx, e.src)) =
    some [(0, 0, 1), (1, 1, 1), (0, 2, 3), (0, 3, 1), (0, 4, 1)] := by decide +kernel

example : ((inject exList [0, 1, 0] [(true, 1), (true, 0), (false, 0), (false, 1), (false, 0)]).bind (replay [])).map List.length = some 3 := by decide +kernel

end Verif.Props.Inject
