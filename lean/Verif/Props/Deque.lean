import Verif.DequeOps

/-!
# Property C06: the deque behaves as a double-ended list

The specification is the obvious one on plain lists and mentions no nodes.
-/

namespace Verif.Props.Deque

open Verif.Deque

variable {α : Type}

/-- What a call returns, given the items from front to back. -/
def listOut (z : α) (c : List α) : Op α → Out α
  | .init | .pushFront _ | .pushBack _ | .fastSlow _ => .unit
  | .popFront | .tryUpdate | .front =>
    match c with
    | [] => .item z false
    | x :: _ => .item x true
  | .popBack | .back =>
    match c.getLast? with
    | none => .item z false
    | some x => .item x true
  | .len => .num c.length

/-- The items after a call. -/
def listNext (c : List α) : Op α → List α
  | .init => []
  | .pushFront x => x :: c
  | .pushBack x | .fastSlow x => c ++ [x]
  | .popFront | .tryUpdate => c.tail
  | .popBack => c.dropLast
  | .front | .back | .len => c

/-- All results of a sequence of calls on a list. -/
def listRun (z : α) (c : List α) : List (Op α) → List (Out α)
  | [] => []
  | o :: os => listOut z c o :: listRun z (listNext c o) os

theorem rep_init (d : Dq α) : Rep (init d) ([] : List α) := ⟨rfl, rfl, Or.inl ⟨rfl, rfl, rfl⟩⟩

theorem step_spec (z : α) {d : Dq α} {c : List α} (h : Rep d c) (o : Op α) :
    ∃ d', step z d o = some (d', listOut z c o) ∧ Rep d' (listNext c o) := by
  cases o with
  | init => exact ⟨_, rfl, rep_init d⟩
  | pushFront x =>
    obtain ⟨d', e, h'⟩ := pushFront_spec z h x
    exact ⟨d', by simp [step, e, listOut], h'⟩
  | pushBack x =>
    obtain ⟨⟨d', e, h'⟩, -⟩ := pushBack_spec z h x
    exact ⟨d', by simp [step, e, listOut], h'⟩
  | fastSlow x =>
    obtain ⟨⟨d', e, h'⟩, e2⟩ := pushBack_spec z h x
    exact ⟨d', by simp [step, e2, e, listOut], h'⟩
  | popFront =>
    cases c with
    | nil => exact ⟨d, by simp [step, popFront_eq, tryPopFront_nil z h, listOut], h⟩
    | cons y c =>
      obtain ⟨d', e, h'⟩ := tryPopFront_cons z h
      exact ⟨_, by simp [step, popFront_eq, e, listOut], h'⟩
  | tryUpdate =>
    cases c with
    | nil => exact ⟨d, by simp [step, tryPopFront_nil z h, listOut], h⟩
    | cons y c =>
      obtain ⟨d', e, h'⟩ := tryPopFront_cons z h
      exact ⟨_, by simp [step, e, listOut], h'⟩
  | popBack =>
    rcases List.eq_nil_or_concat c with rfl | ⟨c, y, rfl⟩
    · refine ⟨d, ?_, h⟩
      have : popBack z d = some (d, z, false) := by rw [popBack, if_pos (show d.len = 0 from h.len), if_pos h.tz]
      simp [step, this, listOut]
    · rw [List.concat_eq_append] at *
      obtain ⟨d', e, h'⟩ := popBack_spec z h
      exact ⟨d', by simp [step, e, listOut], by simpa [listNext] using h'⟩
  | front =>
    refine ⟨d, ?_, h⟩
    rw [step, front_spec z h]
    cases c <;> rfl
  | back =>
    refine ⟨d, ?_, h⟩
    rw [step, back_spec z h]
    cases hg : c.getLast? <;> simp [listOut, hg]
  | len => exact ⟨d, by simp [step, listOut, h.len], h⟩

/-- **C06.** After `Init` on any deque whatever (new, used or garbage), every sequence of calls
runs without a panic and returns exactly what the same calls return on a plain list. -/
theorem C06_deque_is_list (z : α) (d : Dq α) (os : List (Op α)) :
    (run z (init d) os).map (·.2) = some (listRun z [] os) := by
  have key : ∀ (os : List (Op α)) (d : Dq α) (c : List α), Rep d c →
      (run z d os).map (·.2) = some (listRun z c os) := by
    intro os
    induction os with
    | nil => intro d c _; rfl
    | cons o os ih =>
      intro d c h
      obtain ⟨d', e, h'⟩ := step_spec z h o
      have := ih d' _ h'
      rw [run, e]
      simp only [Option.map_map]
      rcases hr : run z d' os with _ | p
      · rw [hr] at this; simp at this
      · rw [hr] at this; simp at this
        simp [Function.comp, listRun, this]
  exact key os (init d) [] (rep_init d)

/-- In particular: pushing any list at the back and popping it all from the front gives it back,
whatever the size (so across any number of nodes). -/
theorem C06_queue_roundtrip (z : α) (d : Dq α) (xs : List α) :
    (run z (init d) (xs.map .pushBack ++ xs.map (fun _ => .popFront))).map (·.2) =
      some (xs.map (fun _ => .unit) ++ xs.map (fun x => .item x true)) := by
  rw [C06_deque_is_list]
  congr 1
  have h2 : ∀ ys c : List α, listRun z (ys ++ c) (ys.map (fun _ => .popFront)) = ys.map (fun x => .item x true) := by
    intro ys
    induction ys with
    | nil => intro c; rfl
    | cons y ys ih => intro c; simp only [List.map_cons, listRun, List.cons_append, listOut, listNext, List.tail_cons, ih c]
  have h1 : ∀ ys zs c : List α, listRun z c (ys.map .pushBack ++ zs.map (fun _ => .popFront)) =
      ys.map (fun _ => .unit) ++ listRun z (c ++ ys) (zs.map (fun _ => .popFront)) := by
    intro ys zs
    induction ys with
    | nil => intro c; simp
    | cons y ys ih => intro c; simp [listRun, listOut, listNext, ih]
  rw [h1 xs xs [], List.nil_append]
  have := h2 xs []
  rw [List.append_nil] at this
  rw [this]

/-- Pushing at the front and popping from the back is a queue as well, and pushing and popping at
the same end is a stack. -/
theorem C06_stack_roundtrip (z : α) (d : Dq α) (xs : List α) :
    (run z (init d) (xs.map .pushFront ++ xs.map (fun _ => .popBack))).map (·.2) =
      some (xs.map (fun _ => .unit) ++ xs.map (fun x => .item x true)) ∧
    (run z (init d) (xs.map .pushBack ++ xs.map (fun _ => .popBack))).map (·.2) =
      some (xs.map (fun _ => .unit) ++ xs.reverse.map (fun x => .item x true)) := by
  have h1 : ∀ ys zs c : List α, listRun z c (ys.map .pushFront ++ zs.map (fun _ => .popBack)) =
      ys.map (fun _ => .unit) ++ listRun z (ys.reverse ++ c) (zs.map (fun _ => .popBack)) := by
    intro ys zs
    induction ys with
    | nil => intro c; simp
    | cons y ys ih => intro c; simp [listRun, listOut, listNext, ih]
  have h1' : ∀ ys zs c : List α, listRun z c (ys.map .pushBack ++ zs.map (fun _ => .popBack)) =
      ys.map (fun _ => .unit) ++ listRun z (c ++ ys) (zs.map (fun _ => .popBack)) := by
    intro ys zs
    induction ys with
    | nil => intro c; simp
    | cons y ys ih => intro c; simp [listRun, listOut, listNext, ih]
  have h2 : ∀ ys zs : List α, ys.length = zs.length →
      listRun z ys.reverse (zs.map (fun _ => .popBack)) = ys.map (fun x => .item x true) := by
    intro ys
    induction ys with
    | nil => intro zs h; cases zs <;> simp_all [listRun]
    | cons y ys ih =>
      intro zs h
      cases zs with
      | nil => simp at h
      | cons w zs =>
        simp only [List.length_cons, Nat.add_right_cancel_iff] at h
        simp [listRun, listOut, listNext, ih zs h]
  constructor
  · rw [C06_deque_is_list, h1 xs xs [], List.append_nil, h2 xs xs rfl]
  · rw [C06_deque_is_list, h1' xs xs [], List.nil_append]
    have := h2 xs.reverse xs (by simp)
    rw [List.reverse_reverse] at this
    rw [this]

/-- A run that grows the first slice, crosses to a second node and comes back. -/
example : (run 0 (init zeroDq) ((List.range 70).map .pushBack ++ [.pushFront 99, .popBack, .popBack, .popBack, .popBack,
      .popBack, .popBack, .popBack, .len, .front, .back, .popFront, .tryUpdate])).map (fun p => (p.2.drop 71, p.1.spare, p.1.next)) =
    some ([.item 69 true, .item 68 true, .item 67 true, .item 66 true, .item 65 true, .item 64 true, .item 63 true,
      .num 64, .item 99 true, .item 62 true, .item 99 true, .item 0 true], 2, 3) := by decide +kernel

/-! ### The zero value (C49) -/

/-- Full statement of C49: what the comment on the type says (`deque.go:67-68`), "the zero value
for deque is an empty deque ready to use". -/
def C49Statement (α : Type) : Prop :=
  ∀ (z : α) (os : List (Op α)), (run z zeroDq os).map (·.2) = some (listRun z [] os)

/-- It is not: `tZero` is nil until `Init`, so asking an empty zero-value deque for its front
panics instead of reporting "empty", and so does the first successful pop. -/
theorem C49_zero_value_false (z x : α) :
    run z zeroDq [.front] = none ∧ run z zeroDq [.popFront] = none ∧
    run z zeroDq [.pushBack x, .popFront] = none ∧ run z zeroDq [.pushBack x, .popBack] = none := by
  refine ⟨rfl, rfl, rfl, rfl⟩

theorem C49_statement_false [Inhabited α] : ¬ C49Statement α := by
  intro h
  have := h default [.front]
  rw [(C49_zero_value_false (default : α) default).1] at this
  cases this

/-- What does hold without `Init`: pushes and `Len` (and looking at a non-empty deque) agree with
the list. -/
theorem C49_zero_value_partial (z : α) (os : List (Op α))
    (h : ∀ o ∈ os, (∃ x, o = .pushFront x) ∨ (∃ x, o = .pushBack x) ∨ (∃ x, o = .fastSlow x) ∨ o = .len) :
    (run z zeroDq os).map (·.2) = some (listRun z [] os) := by
  have key : ∀ (os : List (Op α)) (d : Dq α) (c : List α), Rep { d with tz := true } c →
      (∀ o ∈ os, (∃ x, o = .pushFront x) ∨ (∃ x, o = .pushBack x) ∨ (∃ x, o = .fastSlow x) ∨ o = .len) →
      (run z d os).map (·.2) = some (listRun z c os) := by
    have hst : ∀ (d : Dq α) (x i : Nat) (y : α), store { d with tz := true } x i y =
        (store d x i y).map (fun e => { e with tz := true }) := by
      intro d x i y; unfold store
      by_cases h : i < (d.mem x).v.length
      · rw [if_pos h, if_pos h]; rfl
      · rw [if_neg h, if_neg h]; rfl
    have hfp : ∀ d : Dq α, frontPrep z { d with tz := true } = { frontPrep z d with tz := true } := by
      intro d; unfold frontPrep
      repeat' (first | rfl | split)
    have hpf : ∀ (d : Dq α) x, pushFront z { d with tz := true } x = (pushFront z d x).map (fun e => { e with tz := true }) := by
      intro d x; rw [pushFront, hfp, pushFront]; exact hst { frontPrep z d with len := (frontPrep z d).len + 1 } _ _ _
    have hpb : ∀ (d : Dq α) x, pushBack z { d with tz := true } x = (pushBack z d x).map (fun e => { e with tz := true }) := by
      intro d x
      by_cases h1 : d.isNil = true
      · simp only [pushBack, h1, if_true]; exact hst { firstNode z d with hlp := firstSliceSize - 1, tp := 1, len := d.len + 1 } _ _ _
      by_cases h2 : d.tp < (d.mem d.tail).v.length
      · rw [pushBack, if_neg h1, if_pos h2, pushBack, if_neg h1, if_pos h2]
        exact hst { d with tp := d.tp + 1, len := d.len + 1 } _ _ _
      by_cases h3 : d.tp < maxFirstSliceSize
      · rw [pushBack, if_neg h1, if_neg h2, if_pos h3, pushBack, if_neg h1, if_neg h2, if_pos h3]
        exact hst { d with mem := _, tp := d.tp + 1, hlp := _, len := d.len + 1 } _ _ _
      by_cases h4 : (d.mem d.tail).n ≠ d.head
      · rw [pushBack, if_neg h1, if_neg h2, if_neg h3, if_pos h4, pushBack, if_neg h1, if_neg h2, if_neg h3, if_pos h4]
        exact hst { d with spare := d.spare - 1, tail := _, tp := 1, len := d.len + 1 } _ _ _
      · rw [pushBack, if_neg h1, if_neg h2, if_neg h3, if_neg h4, pushBack, if_neg h1, if_neg h2, if_neg h3, if_neg h4]
        exact hst { d with mem := _, next := d.next + 1, tail := _, tp := 1, len := d.len + 1 } _ _ _
    have hfb : ∀ (d : Dq α) x, fastPushBack { d with tz := true } x = (fastPushBack d x).map (fun e => ({ e.1 with tz := true }, e.2)) := by
      intro d x
      by_cases h1 : d.isNil = true
      · rw [fastPushBack, if_pos h1, fastPushBack, if_pos h1]; rfl
      by_cases h2 : d.tp < (d.mem d.tail).v.length
      · rw [fastPushBack, if_neg h1, if_pos h2, fastPushBack, if_neg h1, if_pos h2]
        rw [show store { d with tz := true, tp := d.tp + 1, len := d.len + 1 } d.tail d.tp x = _ from
          hst { d with tp := d.tp + 1, len := d.len + 1 } _ _ _, Option.map_map, Option.map_map]; rfl
      by_cases h4 : (d.mem d.tail).n ≠ d.head
      · rw [fastPushBack, if_neg h1, if_neg h2, if_pos h4, fastPushBack, if_neg h1, if_neg h2, if_pos h4]
        rw [show spareTail { d with tz := true } x = (spareTail d x).map (fun e => { e with tz := true }) from
          hst { d with spare := d.spare - 1, tail := _, tp := 1, len := d.len + 1 } _ _ _, Option.map_map, Option.map_map]; rfl
      · rw [fastPushBack, if_neg h1, if_neg h2, if_neg h4, fastPushBack, if_neg h1, if_neg h2, if_neg h4]; rfl
    have hsb : ∀ (d : Dq α) x, slowPushBack z { d with tz := true } x = (slowPushBack z d x).map (fun e => { e with tz := true }) := by
      intro d x
      by_cases h1 : d.isNil = true
      · simp only [slowPushBack, h1, if_true]; exact hst { firstNode z d with hlp := firstSliceSize - 1, tp := 1, len := d.len + 1 } _ _ _
      by_cases h3 : d.tp < maxFirstSliceSize
      · rw [slowPushBack, if_neg h1, if_pos h3, slowPushBack, if_neg h1, if_pos h3]
        exact hst { d with mem := _, tp := d.tp + 1, hlp := _, len := d.len + 1 } _ _ _
      · rw [slowPushBack, if_neg h1, if_neg h3, slowPushBack, if_neg h1, if_neg h3]
        exact hst { d with mem := _, next := d.next + 1, tail := _, tp := 1, len := d.len + 1 } _ _ _
    have hfs : ∀ (d : Dq α) x, fastSlowPushBack z { d with tz := true } x = (fastSlowPushBack z d x).map (fun e => { e with tz := true }) := by
      intro d x
      rw [fastSlowPushBack, hfb, fastSlowPushBack]
      cases hr : fastPushBack d x with
      | none => rfl
      | some r =>
        obtain ⟨e, b⟩ := r
        cases b with
        | false => exact hsb e x
        | true => rfl
    intro os
    induction os with
    | nil => intro d c _ _; rfl
    | cons o os ih =>
      intro d c hrep ho
      have ihs := fun d' c' h' => ih d' c' h' (fun o' h' => ho o' (by simp [h']))
      obtain ⟨e', he, h'⟩ := step_spec z hrep o
      have fin : ∀ d', step z d o = some (d', listOut z c o) → Rep { d' with tz := true } (listNext c o) →
          (run z d (o :: os)).map (·.2) = some (listRun z c (o :: os)) := by
        intro d' e1 h1
        have := ihs d' _ h1
        rw [run, e1]
        simp only [Option.map_map]
        rcases hr : run z d' os with _ | p
        · rw [hr] at this; simp at this
        · rw [hr] at this; simp at this
          simp [Function.comp, listRun, this]
      have push : ∀ (f : Dq α → Option (Dq α)), step z d o = (f d).map (·, .unit) →
          step z { d with tz := true } o = (f { d with tz := true }).map (·, .unit) →
          f { d with tz := true } = (f d).map (fun e => { e with tz := true }) → listOut z c o = .unit →
          (run z d (o :: os)).map (·.2) = some (listRun z c (o :: os)) := by
        intro f e1 e2 e3 e4
        rw [e2, e3] at he
        cases hfd : f d with
        | none => rw [hfd] at he; cases he
        | some d' =>
          rw [hfd] at he e1
          simp at he
          refine fin d' (by rw [e1, e4]; rfl) ?_
          rw [he.1]; exact h'
      rcases ho o (by simp) with ⟨x, rfl⟩ | ⟨x, rfl⟩ | ⟨x, rfl⟩ | rfl
      · exact push (fun d => pushFront z d x) rfl rfl (hpf d x) rfl
      · exact push (fun d => pushBack z d x) rfl rfl (hpb d x) rfl
      · exact push (fun d => fastSlowPushBack z d x) rfl rfl (hfs d x) rfl
      · refine fin d ?_ hrep
        have := hrep.len
        simp only at this
        simp [step, listOut, this]
  exact key os zeroDq [] ⟨rfl, rfl, Or.inl ⟨rfl, rfl, rfl⟩⟩ h

example : (run 0 zeroDq [.pushBack 1, .pushFront 2, .fastSlow 3, .len]).map (·.2) = some [.unit, .unit, .unit, .num 3] := by
  decide +kernel

end Verif.Props.Deque
