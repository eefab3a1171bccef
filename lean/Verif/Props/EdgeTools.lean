import Verif.EdgeTools
import Verif.Props.Io

/-!
# C41: the edge list tools
-/

namespace Verif.Props.EdgeTools

open Verif.EdgeTools
open Verif.Io (fastFields)
open Verif.Props.Io (Tokens C16_fastFields C16_tokens_exist)

/-! ## Specification -/

/-- The edge lines of a file. -/
def edgeLines (file : List Line) : List Line := file.filter (fun l => !decide (l.head? = some 35))

/-- The timestamp of a line with tokens `ts`: token number `tsPos`, empty if missing. -/
def tsOf (tsPos : Nat) (ts : List (List UInt8)) : List UInt8 := (ts[tsPos]?).getD []

/-- The number written with these digits. -/
def value (ds : List UInt8) : Nat := ds.foldl (fun n d => 10 * n + (d.toNat - 48)) 0

def Digits (ds : List UInt8) : Prop := ∀ d ∈ ds, 48 ≤ d.toNat ∧ d.toNat ≤ 57

/-! ## Loading -/

/-- The lines that pass through channel `i`; `n` is the number of the line before. -/
def share (q i : Nat) : Nat → List Line → List Line
  | _, [] => []
  | n, l :: ls => if (n + 1) % q = i ∧ comment l = false then l :: share q i (n + 1) ls else share q i (n + 1) ls

theorem share_append (q i : Nat) : ∀ (a b : List Line) (n : Nat), share q i n (a ++ b) = share q i n a ++ share q i (n + a.length) b
  | [], b, n => by simp [share]
  | l :: a, b, n => by
    simp only [List.cons_append, share, List.length_cons]
    rw [share_append q i a b (n + 1)]
    have : n + 1 + a.length = n + (a.length + 1) := by omega
    rw [this]
    split <;> simp

theorem share_take (q i n : Nat) (lines : List Line) (k : Nat) (l : Line) (h : lines[k]? = some l) :
    share q i n (lines.take (k + 1)) = share q i n (lines.take k) ++ if (n + k + 1) % q = i ∧ comment l = false then [l] else [] := by
  have hk := (List.getElem?_eq_some_iff.1 h).1
  rw [List.take_add_one, h, Option.toList_some, share_append, List.length_take, Nat.min_eq_left (by omega)]
  congr 1

theorem share_none (q i : Nat) (h : ¬ i < q) (hq : 0 < q) : ∀ (ls : List Line) (n : Nat), share q i n ls = [] := by
  intro ls
  induction ls with
  | nil => intro n; rfl
  | cons l ls ih =>
    intro n
    have := Nat.mod_lt (n + 1) hq
    simp only [share]
    rw [if_neg (by omega), ih]

structure Inv (q : Nat) (lines : List Line) (s : St) : Prop where
  pos : ∀ i, s.pos i ≤ lines.length
  got : ∀ i, i < q → s.lists i ++ s.chan i = share q i 0 (lines.take (s.pos i))
  cl : 0 < s.closing → ∀ i, i < q → s.pos i = lines.length
  dn : ∀ i, s.done i = true → s.chan i = [] ∧ 0 < s.closing

theorem inv_start (q : Nat) (lines : List Line) : Inv q lines start :=
  ⟨by simp [start], by simp [start, share], by simp [start], by simp [start]⟩

theorem inv_step {q : Nat} {lines : List Line} {s s' : St} {a : Act} (hi : Inv q lines s) (h : step q lines s a = some s') : Inv q lines s' := by
  cases a with
  | read i =>
    simp only [step] at h
    by_cases hq : i < q
    · rw [if_pos hq] at h
      cases hl : lines[s.pos i]? with
      | none => rw [hl] at h; cases h
      | some l =>
        rw [hl] at h
        simp only at h
        have hlt := (List.getElem?_eq_some_iff.1 hl).1
        have hcl : ¬ 0 < s.closing := fun hc => by have := hi.cl hc i hq; omega
        have hst := share_take q i 0 lines (s.pos i) l hl
        simp only [Nat.zero_add] at hst
        have hpos : ∀ j, upd s.pos i (s.pos i + 1) j ≤ lines.length := by
          intro j
          by_cases e : j = i
          · subst e; rw [upd_same]; omega
          · rw [upd_ne _ _ e]; exact hi.pos j
        have hskip : (¬((s.pos i + 1) % q = i ∧ comment l = false)) → ∀ j, j < q →
            s.lists j ++ s.chan j = share q j 0 (lines.take (upd s.pos i (s.pos i + 1) j)) := by
          intro hn j hj
          by_cases e : j = i
          · subst e
            rw [upd_same, hst, if_neg hn, List.append_nil]; exact hi.got j hj
          · rw [upd_ne _ _ e]; exact hi.got j hj
        by_cases hm : (s.pos i + 1) % q ≠ i
        · rw [if_pos hm] at h
          injection h with h; subst h
          exact ⟨hpos, hskip (fun h => hm h.1), fun hc => absurd hc hcl, hi.dn⟩
        · rw [if_neg hm] at h
          by_cases hc : comment l = true
          · rw [if_pos hc] at h
            injection h with h; subst h
            exact ⟨hpos, hskip (by rintro ⟨-, h⟩; rw [hc] at h; cases h), fun hc => absurd hc hcl, hi.dn⟩
          · rw [if_neg hc] at h
            have hm' : (s.pos i + 1) % q = i := Classical.not_not.1 hm
            rw [hm'] at h
            split at h
            · injection h with h; subst h
              refine ⟨hpos, ?_, fun hc => absurd hc hcl, ?_⟩
              · intro j hj
                by_cases e : j = i
                · subst e
                  show s.lists j ++ upd s.chan j (s.chan j ++ [l]) j = share q j 0 (lines.take (upd s.pos j (s.pos j + 1) j))
                  rw [upd_same, upd_same, hst, if_pos ⟨hm', by simpa using hc⟩, ← List.append_assoc, hi.got j hj]
                · show s.lists j ++ upd s.chan i (s.chan i ++ [l]) j = share q j 0 (lines.take (upd s.pos i (s.pos i + 1) j))
                  rw [upd_ne _ _ e, upd_ne _ _ e]; exact hi.got j hj
              · intro j hj
                exact absurd (hi.dn j hj).2 hcl
            · cases h
    · rw [if_neg hq] at h; cases h
  | close =>
    simp only [step] at h
    split at h
    · next hc =>
      injection h with h; subst h
      simp only [Bool.and_eq_true, List.all_eq_true, List.mem_range, decide_eq_true_eq] at hc
      exact ⟨hi.pos, hi.got, fun _ => hc.1, fun i h => ⟨(hi.dn i h).1, Nat.succ_pos _⟩⟩
    · cases h
  | recv i =>
    simp only [step] at h
    split at h
    · next hq =>
      cases hc : s.chan i with
      | nil => rw [hc] at h; cases h
      | cons l ls =>
        rw [hc] at h
        injection h with h; subst h
        refine ⟨hi.pos, ?_, hi.cl, ?_⟩
        · intro j hj
          by_cases e : j = i
          · subst e
            show upd s.lists j (s.lists j ++ [l]) j ++ upd s.chan j ls j = _
            rw [upd_same, upd_same, List.append_assoc]
            have := hi.got j hj
            rw [hc] at this
            exact this
          · show upd s.lists i (s.lists i ++ [l]) j ++ upd s.chan i ls j = _
            rw [upd_ne _ _ e, upd_ne _ _ e]; exact hi.got j hj
        · intro j hj
          have hj' : s.done j = true := hj
          have e : j ≠ i := by rintro rfl; rw [hq.2] at hj'; cases hj'
          show upd s.chan i ls j = [] ∧ _
          rw [upd_ne _ _ e]; exact hi.dn j hj'
    · cases h
  | finish i =>
    simp only [step] at h
    split at h
    · next hc =>
      injection h with h; subst h
      refine ⟨hi.pos, hi.got, hi.cl, ?_⟩
      intro j hj
      by_cases e : j = i
      · subst e; exact ⟨hc.2.2, by have := hc.2.1; show 0 < s.closing; omega⟩
      · have hj' : upd s.done i true j = true := hj
        rw [upd_ne _ _ e] at hj'; exact hi.dn j hj'
    · cases h

theorem inv_run {q : Nat} {lines : List Line} : ∀ {as : List Act} {s s' : St}, Inv q lines s → run q lines s as = some s' → Inv q lines s'
  | [], s, s', hi, h => by simp only [run, Option.some.injEq] at h; exact h ▸ hi
  | a :: as, s, s', hi, h => by
    simp only [run] at h
    obtain ⟨s1, h1, h2⟩ := Option.bind_eq_some_iff.1 h
    exact inv_run (inv_step hi h1) h2

theorem flatMap_congr' {α β : Type} {l : List α} {f g : α → List β} (h : ∀ a ∈ l, f a = g a) : l.flatMap f = l.flatMap g := by
  rw [List.flatMap_def, List.flatMap_def, List.map_congr_left h]

theorem flatMap_insert {α : Type} (f : Nat → List α) (x : α) (m q : Nat) (hm : m < q) :
    ((List.range q).flatMap (fun i => if m = i then x :: f i else f i)).Perm (x :: (List.range q).flatMap f) := by
  induction q with
  | zero => omega
  | succ q ih =>
    rw [List.range_succ, List.flatMap_append, List.flatMap_append]
    simp only [List.flatMap_cons, List.flatMap_nil, List.append_nil]
    by_cases e : m = q
    · subst e
      rw [if_pos rfl]
      have : (List.range m).flatMap (fun i => if m = i then x :: f i else f i) = (List.range m).flatMap f := by
        apply flatMap_congr'
        intro i hi
        rw [List.mem_range] at hi
        rw [if_neg (by omega)]
      rw [this]
      exact List.perm_middle
    · rw [if_neg e]
      have := (ih (by omega)).append_right (f q)
      simpa using this

theorem share_perm (q : Nat) (hq : 0 < q) : ∀ (ls : List Line) (n : Nat), ((List.range q).flatMap (fun i => share q i n ls)).Perm (edgeLines ls) := by
  intro ls
  induction ls with
  | nil =>
    intro n
    have : (List.range q).flatMap (fun i => share q i n ([] : List Line)) = [] := by simp [share]
    rw [this]; exact List.Perm.refl _
  | cons l ls ih =>
    intro n
    by_cases hc : comment l = true
    · have h1 : (fun i => share q i n (l :: ls)) = fun i => share q i (n + 1) ls := by
        funext i
        simp only [share]
        rw [if_neg (by rw [hc]; simp)]
      have h2 : edgeLines (l :: ls) = edgeLines ls := by
        have : l.head? = some 35 := by simpa [comment] using hc
        simp [edgeLines, this]
      rw [h1, h2]; exact ih (n + 1)
    · have hc' : comment l = false := by simpa using hc
      have h1 : (fun i => share q i n (l :: ls)) = fun i => if (n + 1) % q = i then l :: share q i (n + 1) ls else share q i (n + 1) ls := by
        funext i
        simp only [share, hc', and_true]
      have h2 : edgeLines (l :: ls) = l :: edgeLines ls := by
        have : ¬ l.head? = some 35 := by simpa [comment] using hc
        simp [edgeLines, this]
      rw [h1, h2]
      exact (flatMap_insert _ l _ q (Nat.mod_lt _ hq)).trans ((ih (n + 1)).cons l)

/-- **C41**, loading: for every number of threads and every schedule, the loaded list is determined by
the file, and it has exactly the edge lines of the file (before the first overlong line). -/
theorem C41_load (q : Nat) (hq : 0 < q) (file : List Line) (as : List Act) (s : St) (h : run q (scanned file) start as = some s) (hf : finished q s = true) :
    (result q s).Perm (edgeLines (scanned file)) ∧
    ∀ as' s', run q (scanned file) start as' = some s' → finished q s' = true → result q s' = result q s := by
  have key : ∀ as s, run q (scanned file) start as = some s → finished q s = true → result q s = (List.range q).flatMap (fun i => share q i 0 (scanned file)) := by
    intro as s h hf
    have hi := inv_run (inv_start q (scanned file)) h
    apply flatMap_congr'
    intro i hiq
    rw [List.mem_range] at hiq
    have hd : s.done i = true := List.all_eq_true.1 hf i (List.mem_range.2 hiq)
    obtain ⟨hc, hcl⟩ := hi.dn i hd
    have hg := hi.got i hiq
    rw [hc, List.append_nil, hi.cl hcl i hiq, List.take_length] at hg
    exact hg
  refine ⟨?_, ?_⟩
  · rw [key as s h hf]
    exact share_perm q hq _ 0
  · intro as' s' h' hf'
    rw [key as s h hf, key as' s' h' hf']

/-- Files with normal lines are read completely. -/
theorem C41_scanned (file : List Line) (h : ∀ l ∈ file, l.length < 65536) : scanned file = file := by
  unfold scanned
  induction file with
  | nil => rfl
  | cons a l ih =>
    rw [List.takeWhile_cons, if_pos (by simpa using h a (List.mem_cons_self ..)), ih (fun x hx => h x (List.mem_cons_of_mem _ hx))]

theorem scanned_prefix (a b : List Line) (l : Line) (ha : ∀ x ∈ a, x.length < 65536) (hl : 65536 ≤ l.length) : scanned (a ++ l :: b) = a := by
  induction a with
  | nil =>
    unfold scanned
    rw [List.nil_append, List.takeWhile_cons, if_neg (by simpa using hl)]
  | cons x a ih =>
    have h1 := ha x (List.mem_cons_self ..)
    have := ih (fun y hy => ha y (List.mem_cons_of_mem _ hy))
    unfold scanned at this ⊢
    rw [List.cons_append, List.takeWhile_cons, if_pos (by simpa using h1), this]

/-- After an overlong line everything is dropped, silently. -/
theorem C41_overlong_false : ∃ file : List Line, edgeLines file ≠ edgeLines (scanned file) := by
  refine ⟨[] ++ List.replicate 65536 49 :: [[50]], ?_⟩
  rw [scanned_prefix [] [[50]] (List.replicate 65536 49) (by simp) (Nat.le_of_eq List.length_replicate.symm)]
  intro h
  have h2 : ([50] : Line) ∈ edgeLines ([] ++ List.replicate 65536 49 :: [[50]]) := by
    unfold edgeLines
    rw [List.mem_filter]
    exact ⟨List.mem_append_right _ (List.mem_cons_of_mem _ (List.mem_singleton.2 rfl)), by decide⟩
  rw [h] at h2
  exact absurd h2 List.not_mem_nil

/-- The order of the loaded list depends on the number of threads, and is not that of the file. -/
theorem C41_order_false : ∃ (file : List Line) (as as' : List Act) (s s' : St), run 1 file start as = some s ∧ finished 1 s = true ∧
    run 2 file start as' = some s' ∧ finished 2 s' = true ∧ result 1 s = file ∧ result 2 s' ≠ file := by
  have e1 : (run 1 [[65], [66]] start [.read 0, .read 0, .close, .recv 0, .recv 0, .finish 0]).map (fun s => (finished 1 s, result 1 s)) = some (true, [[65], [66]]) := by
    decide +kernel
  have e2 : (run 2 [[65], [66]] start [.read 0, .read 1, .read 1, .read 0, .close, .close, .recv 0, .recv 1, .finish 0, .finish 1]).map
      (fun s => (finished 2 s, result 2 s)) = some (true, [[66], [65]]) := by decide +kernel
  obtain ⟨s, h1, h2⟩ := Option.map_eq_some_iff.1 e1
  obtain ⟨s', h3, h4⟩ := Option.map_eq_some_iff.1 e2
  injection h2 with h5 h6
  injection h4 with h7 h8
  exact ⟨[[65], [66]], _, _, s, s', h1, h5, h3, h7, h6, by rw [h8]; decide⟩

/-! ## Sorting -/

theorem ltBytes_irrefl : ∀ a : List UInt8, ltBytes a a = false
  | [] => rfl
  | a :: as => by simp [ltBytes, ltBytes_irrefl as]

theorem ltBytes_asymm : ∀ a b : List UInt8, ltBytes a b = true → ltBytes b a = false
  | a, [], h => by simp [ltBytes] at h
  | [], b :: bs, _ => by simp [ltBytes]
  | a :: as, b :: bs, h => by
    simp only [ltBytes] at h ⊢
    by_cases h1 : a < b
    · rw [if_neg (by exact UInt8.lt_asymm h1), if_neg (by intro e; subst e; exact absurd h1 (UInt8.lt_irrefl _))]
    · rw [if_neg h1] at h
      by_cases h2 : a = b
      · subst h2
        rw [if_pos rfl] at h
        rw [if_neg h1, if_pos rfl]
        exact ltBytes_asymm as bs h
      · rw [if_neg h2] at h; cases h

theorem geBytes_trans : ∀ a b c : List UInt8, ltBytes b a = false → ltBytes c b = false → ltBytes c a = false
  | [], _, c, _, _ => by cases c <;> rfl
  | a :: as, [], c, h1, _ => by simp [ltBytes] at h1
  | a :: as, b :: bs, [], _, h2 => by simp [ltBytes] at h2
  | a :: as, b :: bs, c :: cs, h1, h2 => by
    simp only [ltBytes] at h1 h2 ⊢
    by_cases x1 : b < a
    · rw [if_pos x1] at h1; cases h1
    · rw [if_neg x1] at h1
      by_cases x2 : c < b
      · rw [if_pos x2] at h2; cases h2
      · rw [if_neg x2] at h2
        rw [UInt8.not_lt] at x1 x2
        have x3 : a ≤ c := UInt8.le_trans x1 x2
        rw [if_neg (UInt8.not_lt.2 x3)]
        by_cases x4 : c = a
        · rw [if_pos x4]
          subst x4
          have x5 : b = c := UInt8.le_antisymm x2 x1
          subst x5
          rw [if_pos rfl] at h1 h2
          exact geBytes_trans as bs cs h1 h2
        · rw [if_neg x4]

/-- `Less` is the comparison of the timestamps, missing ones counting as empty, in spite of the shared
field buffer. -/
theorem less_eq (tsPos : Nat) (htp : tsPos < 5) (a b : Line) (ta tb : List (List UInt8)) (ha : Tokens a ta) (hb : Tokens b tb) (la : ta.length ≤ 5) (lb : tb.length ≤ 5) :
    less tsPos a b = some (ltBytes (tsOf tsPos ta) (tsOf tsPos tb)) := by
  have h1 := C16_fastFields a ta ha (List.replicate 5 []) (by simpa using la)
  have hlen : (ta ++ (List.replicate 5 ([] : List UInt8)).drop ta.length).length = 5 := by simp; omega
  have h2 := C16_fastFields b tb hb (ta ++ (List.replicate 5 ([] : List UInt8)).drop ta.length) (by omega)
  have g1 : (ta ++ (List.replicate 5 ([] : List UInt8)).drop ta.length)[tsPos]? = some (tsOf tsPos ta) := by
    unfold tsOf
    by_cases h : tsPos < ta.length
    · rw [List.getElem?_append_left h, List.getElem?_eq_getElem h]; rfl
    · rw [List.getElem?_append_right (by omega), List.getElem?_eq_none (by omega : ta.length ≤ tsPos)]
      rw [List.drop_replicate, List.getElem?_replicate, if_pos (by omega)]
      rfl
  unfold less
  rw [h1]
  simp only [g1, h2]
  by_cases h : tsPos < tb.length
  · rw [List.getElem?_append_left h, List.getElem?_eq_getElem h]
    simp only [tsOf, List.getElem?_eq_getElem h, Option.getD_some]
  · have e : (tb ++ (ta ++ (List.replicate 5 ([] : List UInt8)).drop ta.length).drop tb.length)[tsPos]? = some (tsOf tsPos ta) := by
      rw [List.getElem?_append_right (by omega), List.getElem?_drop]
      have : tb.length + (tsPos - tb.length) = tsPos := by omega
      rw [this, g1]
    rw [e]
    have e2 : tsOf tsPos tb = [] := by unfold tsOf; rw [List.getElem?_eq_none (by omega)]; rfl
    simp only [e2, ltBytes_irrefl]
    cases tsOf tsPos ta <;> rfl

/-- The timestamp as `Less` reads it. -/
def key (tsPos : Nat) (l : Line) : List UInt8 := ((fastFields (List.replicate 5 []) l).bind (·[tsPos]?)).getD []

theorem key_eq (tsPos : Nat) (htp : tsPos < 5) (l : Line) (ts : List (List UInt8)) (h : Tokens l ts) (hl : ts.length ≤ 5) : key tsPos l = tsOf tsPos ts := by
  have h1 := C16_fastFields l ts h (List.replicate 5 []) (by simpa using hl)
  unfold key tsOf
  rw [h1, Option.bind_some]
  by_cases hp : tsPos < ts.length
  · rw [List.getElem?_append_left hp]
  · rw [List.getElem?_append_right (by omega), List.getElem?_eq_none (by omega : ts.length ≤ tsPos), List.drop_replicate, List.getElem?_replicate, if_pos (by omega)]
    rfl

theorem insertSorted_congr {α : Type} {le le' : α → α → Bool} (a : α) : ∀ (l : List α), (∀ b ∈ l, le a b = le' a b) → insertSorted le a l = insertSorted le' a l
  | [], _ => rfl
  | b :: l, h => by
    unfold insertSorted
    rw [h b (List.mem_cons_self ..), insertSorted_congr a l (fun c hc => h c (List.mem_cons_of_mem _ hc))]

theorem stableSort_congr {α : Type} {le le' : α → α → Bool} : ∀ (l : List α), (∀ a ∈ l, ∀ b ∈ l, le a b = le' a b) → stableSort le l = stableSort le' l
  | [], _ => rfl
  | a :: l, h => by
    unfold stableSort
    rw [stableSort_congr l (fun x hx y hy => h x (List.mem_cons_of_mem _ hx) y (List.mem_cons_of_mem _ hy))]
    apply insertSorted_congr
    intro b hb
    exact h a (List.mem_cons_self ..) b (List.mem_cons_of_mem _ ((stableSort_perm le' l).mem_iff.1 hb))

/-- **C41**, sorting: on lines of at most five fields, the result is a permutation, ordered by the
bytes of the timestamps, and lines keep their order where the timestamps allow. -/
theorem C41_sorted (tsPos : Nat) (htp : tsPos < 5) (ls : List Line) (hl : ∀ l ∈ ls, ∃ ts, Tokens l ts ∧ ts.length ≤ 5) :
    ∃ out, sortLines tsPos ls = some out ∧ out.Perm ls ∧
      out.Pairwise (fun a b => ∀ ta tb, Tokens a ta → Tokens b tb → ltBytes (tsOf tsPos tb) (tsOf tsPos ta) = false) ∧
      ∀ sub : List Line, sub.Sublist ls →
        sub.Pairwise (fun a b => ∀ ta tb, Tokens a ta → Tokens b tb → ltBytes (tsOf tsPos tb) (tsOf tsPos ta) = false) → sub.Sublist out := by
  have hkey : ∀ l ∈ ls, ∃ ts, Tokens l ts ∧ ts.length ≤ 5 ∧ key tsPos l = tsOf tsPos ts := by
    intro l hm
    obtain ⟨ts, h1, h2⟩ := hl l hm
    exact ⟨ts, h1, h2, key_eq tsPos htp l ts h1 h2⟩
  have huniq : ∀ l ∈ ls, ∀ ts, Tokens l ts → key tsPos l = tsOf tsPos ts := by
    intro l hm ts ht
    obtain ⟨ts', h1, h2, h3⟩ := hkey l hm
    by_cases h5 : ts.length ≤ 5
    · exact key_eq tsPos htp l ts ht h5
    · have e1 := Verif.Props.Io.C16_fastFields_too_many l ts ht (List.replicate 5 []) (by simpa using h5)
      have e2 := C16_fastFields l ts' h1 (List.replicate 5 []) (by simpa using h2)
      rw [e1] at e2; cases e2
  have hless : ∀ a ∈ ls, ∀ b ∈ ls, less tsPos a b = some (ltBytes (key tsPos a) (key tsPos b)) := by
    intro a ha b hb
    obtain ⟨ta, a1, a2, a3⟩ := hkey a ha
    obtain ⟨tb, b1, b2, b3⟩ := hkey b hb
    rw [less_eq tsPos htp a b ta tb a1 b1 a2 b2, a3, b3]
  have hsort : stableSort (fun a b => (less tsPos b a).getD false == false) ls = stableSort (fun a b => !ltBytes (key tsPos b) (key tsPos a)) ls := by
    apply stableSort_congr
    intro a ha b hb
    simp only [hless b hb a ha, Option.getD_some]
    cases ltBytes (key tsPos b) (key tsPos a) <;> rfl
  have hout : sortLines tsPos ls = some (stableSort (fun a b => !ltBytes (key tsPos b) (key tsPos a)) ls) := by
    unfold sortLines
    by_cases hs : ls.length < 2
    · rw [if_pos hs]
      match ls, hs with
      | [], _ => rfl
      | [a], _ => rfl
    · rw [if_neg hs, if_pos, hsort]
      rw [List.all_eq_true]
      intro l hm
      rw [hless l hm l hm]; rfl
  refine ⟨_, hout, stableSort_perm _ _, ?_, ?_⟩
  · have hp := stableSort_pairwise (le := fun a b => !ltBytes (key tsPos b) (key tsPos a)) (by
      intro a b c h1 h2
      simp only [Bool.not_eq_true'] at h1 h2 ⊢
      exact geBytes_trans _ _ _ h1 h2) (by
      intro a b
      cases h : ltBytes (key tsPos b) (key tsPos a) with
      | false => rfl
      | true => rw [ltBytes_asymm _ _ h]; rfl) ls
    refine List.Pairwise.imp_of_mem ?_ hp
    intro a b ha hb h ta tb h1 h2
    rw [(stableSort_perm _ ls).mem_iff] at ha hb
    rw [← huniq a ha ta h1, ← huniq b hb tb h2]
    simpa using h
  · intro sub hsub hp
    refine sublist_stableSort ?_ hsub
    refine List.Pairwise.imp_of_mem ?_ hp
    intro a b ha hb h
    obtain ⟨ta, a1, a2, a3⟩ := hkey a (hsub.subset ha)
    obtain ⟨tb, b1, b2, b3⟩ := hkey b (hsub.subset hb)
    have := h ta tb a1 b1
    rw [← a3, ← b3] at this
    simpa using this

/-! ## By value? -/

theorem value_lt (a : List UInt8) (ha : Digits a) : value a < 10 ^ a.length := by
  have key : ∀ (a : List UInt8) (n : Nat), Digits a → a.foldl (fun n d => 10 * n + (d.toNat - 48)) n < (n + 1) * 10 ^ a.length := by
    intro a
    induction a with
    | nil => intro n _; simp
    | cons d a ih =>
      intro n h
      have h1 := ih (10 * n + (d.toNat - 48)) (fun x hx => h x (List.mem_cons_of_mem _ hx))
      have h2 := h d (List.mem_cons_self ..)
      refine Nat.lt_of_lt_of_le h1 ?_
      rw [List.length_cons, Nat.pow_succ, Nat.mul_comm (10 ^ a.length) 10, ← Nat.mul_assoc]
      exact Nat.mul_le_mul_right _ (by omega)
  simpa [value] using key a 0 ha

theorem value_cons (d : UInt8) (a : List UInt8) : value (d :: a) = (d.toNat - 48) * 10 ^ a.length + value a := by
  have key : ∀ (a : List UInt8) (n : Nat), a.foldl (fun n d => 10 * n + (d.toNat - 48)) n = n * 10 ^ a.length + value a := by
    intro a
    induction a with
    | nil => intro n; simp [value]
    | cons d a ih =>
      intro n
      have hv : value (d :: a) = (10 * 0 + (d.toNat - 48)) * 10 ^ a.length + value a := by
        rw [← ih]; rfl
      rw [List.foldl_cons, ih, hv, List.length_cons, Nat.pow_succ, Nat.mul_comm (10 ^ a.length) 10, ← Nat.mul_assoc]
      rw [Nat.add_mul, Nat.mul_zero, Nat.zero_add, Nat.mul_comm 10 n]
      omega
  rw [value, List.foldl_cons, key]
  simp

/-- For digit strings of one length, byte order is the order of values. -/
theorem ltBytes_value : ∀ (a b : List UInt8), a.length = b.length → Digits a → Digits b → (ltBytes a b = true ↔ value a < value b)
  | [], [], _, _, _ => by simp [ltBytes, value]
  | a :: as, b :: bs, hl, ha, hb => by
    have ha' : Digits as := fun x hx => ha x (List.mem_cons_of_mem _ hx)
    have hb' : Digits bs := fun x hx => hb x (List.mem_cons_of_mem _ hx)
    have ih := ltBytes_value as bs (by simpa using hl) ha' hb'
    have h1 := ha a (List.mem_cons_self ..)
    have h2 := hb b (List.mem_cons_self ..)
    have v1 := value_lt as ha'
    have v2 := value_lt bs hb'
    have hl' : as.length = bs.length := by simpa using hl
    rw [value_cons, value_cons, ← hl']
    rw [← hl'] at v2
    simp only [ltBytes]
    by_cases c1 : a < b
    · have c2 : a.toNat < b.toNat := UInt8.lt_iff_toNat_lt.1 c1
      have : (a.toNat - 48 + 1) * 10 ^ as.length ≤ (b.toNat - 48) * 10 ^ as.length := Nat.mul_le_mul_right _ (by omega)
      rw [Nat.add_mul] at this
      rw [if_pos c1]
      constructor
      · intro _; omega
      · intro _; rfl
    · rw [if_neg c1]
      by_cases c2 : a = b
      · subst c2
        rw [if_pos rfl, ih]
        omega
      · rw [if_neg c2]
        have c3 : b.toNat < a.toNat := by
          have h3 : ¬ a.toNat < b.toNat := fun h => c1 (UInt8.lt_iff_toNat_lt.2 h)
          have h4 : a.toNat ≠ b.toNat := fun h => c2 (UInt8.toNat_inj.1 h)
          omega
        have : (b.toNat - 48 + 1) * 10 ^ as.length ≤ (a.toNat - 48) * 10 ^ as.length := Nat.mul_le_mul_right _ (by omega)
        rw [Nat.add_mul] at this
        constructor
        · intro h; cases h
        · intro h; omega

/-- **C41**, what holds of "sorted by timestamp value": if all timestamps have the same number of
digits. -/
theorem C41_by_value_partial (tsPos : Nat) (htp : tsPos < 5) (w : Nat) (ls : List Line)
    (hl : ∀ l ∈ ls, ∃ ts, Tokens l ts ∧ ts.length ≤ 5) (hw : ∀ l ∈ ls, ∀ ts, Tokens l ts → Digits (tsOf tsPos ts) ∧ (tsOf tsPos ts).length = w) :
    ∃ out, sortLines tsPos ls = some out ∧ out.Perm ls ∧
      out.Pairwise (fun a b => ∀ ta tb, Tokens a ta → Tokens b tb → value (tsOf tsPos ta) ≤ value (tsOf tsPos tb)) := by
  obtain ⟨out, h1, h2, h3, -⟩ := C41_sorted tsPos htp ls hl
  refine ⟨out, h1, h2, List.Pairwise.imp_of_mem ?_ h3⟩
  intro a b ha hb h ta tb t1 t2
  have := h ta tb t1 t2
  obtain ⟨d1, l1⟩ := hw a (h2.mem_iff.1 ha) ta t1
  obtain ⟨d2, l2⟩ := hw b (h2.mem_iff.1 hb) tb t2
  have hiff := ltBytes_value _ _ (l2.trans l1.symm) d2 d1
  rw [this] at hiff
  have : ¬ value (tsOf tsPos tb) < value (tsOf tsPos ta) := fun h => by have := hiff.2 h; cases this
  omega

/-- In general the code does not sort by value: timestamp 10 comes before 9. -/
theorem C41_by_value_false : sortLines 2 [[49, 32, 50, 32, 57], [49, 32, 50, 32, 49, 48]] = some [[49, 32, 50, 32, 49, 48], [49, 32, 50, 32, 57]] ∧
    value [57] < value [49, 48] := by
  constructor
  · decide +kernel
  · decide

/-! ## The output file -/

/-- **C41**, full statement for the sorter: it writes the edge lines, ordered by timestamp value. -/
def C41Statement : Prop :=
  ∀ (files : String → Option (List Line)) (name : String) (file : List Line), files name = some file →
    ∀ (q : Nat), 0 < q → ∀ (as : List Act) (s : St), run q (scanned file) start as = some s → finished q s = true →
    ∀ (tsPos : Nat), tsPos < 5 → (∀ l ∈ file, ∃ ts, Tokens l ts ∧ ts.length ≤ 5) →
    ∃ files' out, mainSort files name tsPos (result q s) = .ok files' ∧ files' (name ++ ".sorted") = some out ∧ out.Perm (edgeLines file) ∧
      out.Pairwise (fun a b => ∀ ta tb, Tokens a ta → Tokens b tb → value (tsOf tsPos ta) ≤ value (tsOf tsPos tb))

/-- The sorter never succeeds when there is a line to write: it opens its output for reading. -/
theorem C41_no_output (files : String → Option (List Line)) (name : String) (tsPos : Nat) (ls : List Line) (h : ls ≠ []) :
    ∀ files', mainSort files name tsPos ls ≠ .ok files' := by
  intro files' hm
  unfold mainSort at hm
  cases hs : sortLines tsPos ls with
  | none => rw [hs] at hm; cases hm
  | some out =>
    rw [hs] at hm
    have hne : out ≠ [] := by
      rintro rfl
      unfold sortLines at hs
      split at hs
      · injection hs with hs; exact h hs
      · split at hs
        · injection hs with hs
          have := (stableSort_perm (fun a b => (less tsPos b a).getD false == false) ls).length_eq
          rw [hs] at this
          exact h (List.length_eq_zero_iff.1 this.symm)
        · cases hs
    unfold writeOut at hm
    simp only at hm
    cases hf : files (name ++ ".sorted") with
    | none => rw [hf] at hm; cases hm
    | some _ =>
      rw [hf] at hm
      cases out with
      | nil => exact hne rfl
      | cons _ _ => cases hm

theorem C41_false : ¬ C41Statement := by
  intro h
  have e1 : (run 1 [[49]] start [.read 0, .close, .recv 0, .finish 0]).map (fun s => (finished 1 s, result 1 s)) = some (true, [[49]]) := by
    decide +kernel
  obtain ⟨s, h1, h2⟩ := Option.map_eq_some_iff.1 e1
  injection h2 with h3 h4
  obtain ⟨files', out, h5, -⟩ := h (fun _ => some [[49]]) "g" [[49]] rfl 1 (by decide) [.read 0, .close, .recv 0, .finish 0] s h1 h3 2 (by decide) (by
    intro l hl
    rw [List.mem_singleton] at hl
    subst hl
    exact ⟨[[49]], Tokens.cons [] [49] [] [] (by simp) (by simp) (by simp [Verif.Props.Io.IsSpace]) (by simp) (Tokens.none [] (by simp)), by simp⟩)
  rw [h4] at h5
  exact C41_no_output _ _ _ _ (by simp) _ h5

/-! ## Concrete cases -/

example : (run 2 (scanned [[35, 65], [66], [67]]) start [.read 0, .read 1, .read 1, .read 0, .read 0, .read 1, .close, .close, .recv 0, .recv 1, .finish 0, .finish 1]).map
    (fun s => (finished 2 s, result 2 s)) = some (true, [[66], [67]]) := by decide +kernel

example : sortLines 2 [[49, 32, 50, 32, 57], [49, 32, 50], [49, 32, 50, 32, 51]] = some [[49, 32, 50], [49, 32, 50, 32, 51], [49, 32, 50, 32, 57]] := by decide +kernel

example : Digits [49, 57] ∧ value [49, 57] = 19 := ⟨by intro d hd; simp at hd; rcases hd with rfl | rfl <;> decide, by decide⟩

end Verif.Props.EdgeTools
