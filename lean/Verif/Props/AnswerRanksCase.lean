import Verif.Props.AnswerRanks
import Verif.Props.AnswerCase

/-!
# C87: the full statement, and cases

The file of the line "0 1" and 19 lines "0 2", read by a dynamic run with one thread that takes the lines in batches of
15, 2 and 3 and is at rest in between. The first batch passes 17/20 of rank 1 on in parts of 17/300, the second lowers the
parts to 1/20: what vertex 1 is told is exactly the threshold, 1/150, below zero, and a notification is not sent; nor is
it with the third batch (`C33`). No race happens, and nothing is deleted. Vertex 1 ends 17/1200 of inflow off, more than
twice the threshold.
-/

namespace Verif.Props.Answer

open Verif Verif.Built Verif.Props.Io
open Verif.Engine hiding plain
open Verif.Async (Alg Edge)
open Verif.Loader (Ev Ops emptyFields)
open Verif.Pipeline (Params fromRaw)
open Verif.Props.Loader (Reads IsStream unitOps plain IsComment isStream_emitAll loader_eq)
open Verif.Props.EndToEnd (oneThread noTime taken)
open Verif.Props.Engine Verif.Props.Converge
open Verif.PageRank (PR alg cfg pagerank damping epsilon)

/-- **C87**, with or without the races on closing queues: when the threads have left their loops, every vertex named in
the file is in the graph, and the ranks solve the equations of the file up to twice the threshold (times `1 - d`) per
vertex. The damping factor and the threshold are those of the code. -/
def RanksRight (races : Prop) : Prop :=
  ∀ (E D : Type) (ops : Ops E) (c : Loader.Cfg) (p : Params E) (tm : E → UInt64 × UInt64) (o : Enact.Opts) (file : List (List UInt8))
    (evs stream : List (Ev E)) (s : Pipeline.St E) (S : Nat → Enact.Th E), Loaded races ops c p tm o file evs stream s S →
  ∀ (f : Nat → E → D) (T : Nat) (own : Nat → Nat) (max : Nat) (es0 : Nat → List (Edge D)) (xs0 : List (Async.Act D)) (r0 r : Engine.St PR ℚ Unit D) (xs : List (Act D)),
    Ran pagerank (cfg T own) max p s (graphOf f p s S) es0 xs0 r0 r xs → Finished (cfg T own) r →
  ∀ x : UInt32 → ℚ, (∀ u i, fromRaw p s u = some i → x u = (r.alg.prop (pack i)).mass) →
  ∀ u, InFile evs u → (∃ i, fromRaw p s u = some i) ∧ |x u - ((1 - damping) + arriving damping (arrows c evs) x u)| ≤ (1 - damping) * (2 * epsilon)

/-- **C87**, full statement. -/
def C87Statement : Prop := RanksRight True

/-! ## Runs that can be computed -/

section
variable {P M N E : Type} [DecidableEq N]

/-- Given steps, and in between turns of thread 0. -/
def play (a : Alg P M N E) (c : Async.Cfg M N) (max : Nat) : Engine.St P M N E → List (Option (Act E)) → Option (List (Act E) × Engine.St P M N E)
  | s, [] => some ([], s)
  | s, x :: l => (step a c max s (x.getD (turn a c max s 0))).bind fun s' => (play a c max s' l).map fun r => (x.getD (turn a c max s 0) :: r.1, r.2)

theorem play_run {a : Alg P M N E} {c : Async.Cfg M N} {max : Nat} : ∀ {l : List (Option (Act E))} {s : Engine.St P M N E} {r : List (Act E) × Engine.St P M N E},
    play a c max s l = some r → Engine.run a c max s r.1 = some r.2
  | [], s, r, h => by simp only [play, Option.some.injEq] at h; subst h; rfl
  | x :: l, s, r, h => by
    simp only [play] at h
    obtain ⟨s', h1, h2⟩ := Option.bind_eq_some_iff.1 h
    obtain ⟨r', h3, rfl⟩ := Option.map_eq_some_iff.1 h2
    simp only [Engine.run]
    rw [h1]
    exact play_run h3

theorem turn_topo (a : Alg P M N E) (c : Async.Cfg M N) (max : Nat) (s : Engine.St P M N E) (t : Nat) : topos [turn a c max s t] = [] := by
  have h : ∀ y, turn a c max s t ≠ .topo y := by
    intro y
    unfold turn next
    repeat' split
    all_goals simp
  cases hx : turn a c max s t with
  | topo y => exact absurd hx (h y)
  | _ => rfl

/-- The topology events of such a run are the given ones. -/
theorem play_topos {a : Alg P M N E} {c : Async.Cfg M N} {max : Nat} : ∀ {l : List (Option (Act E))} {s : Engine.St P M N E} {r : List (Act E) × Engine.St P M N E},
    play a c max s l = some r → topos r.1 = topos (l.filterMap id)
  | [], s, r, h => by simp only [play, Option.some.injEq] at h; subst h; rfl
  | x :: l, s, r, h => by
    simp only [play] at h
    obtain ⟨s', h1, h2⟩ := Option.bind_eq_some_iff.1 h
    obtain ⟨r', h3, rfl⟩ := Option.map_eq_some_iff.1 h2
    dsimp only
    rw [topos_cons, play_topos h3]
    cases x with
    | none => rw [Option.getD_none, turn_topo]; rfl
    | some y => exact (topos_cons y _).symm

end

/-! ## The file -/

/-- "0 1", "0 2" -/
def line01 : List UInt8 := [48, 32, 49]
def line02 : List UInt8 := [48, 32, 50]

theorem tokens01 : Tokens line01 [[48], [49]] :=
  Tokens.cons [] [48] [32, 49] [[49]] (by simp) (by simp) (by simp [IsSpace]) (by simp [IsSpace])
    (Tokens.cons [32] [49] [] [] (by simp [IsSpace]) (by simp) (by simp [IsSpace]) (by simp) (Tokens.none [] (by simp)))

theorem tokens02 : Tokens line02 [[48], [50]] :=
  Tokens.cons [] [48] [32, 50] [[50]] (by simp) (by simp) (by simp [IsSpace]) (by simp [IsSpace])
    (Tokens.cons [32] [50] [] [] (by simp [IsSpace]) (by simp) (by simp [IsSpace]) (by simp) (Tokens.none [] (by simp)))

def lines20 : List (List UInt8) := line01 :: List.replicate 19 line02
def evs20 : List (Ev Unit) := ⟨.add, 0, 0, 1, ()⟩ :: List.replicate 19 ⟨.add, 0, 0, 2, ()⟩
def stream20 : List (Ev Unit) := Loader.emitAll unitOps plain 0 evs20

theorem reads02 : ∀ n k, Reads unitOps plain k (List.replicate n line02) (List.replicate n ⟨.add, 0, 0, 2, ()⟩)
  | 0, k => Reads.nil k
  | n + 1, k => Reads.edge k line02 _ _ _ (by simp [IsComment, line02])
      ⟨[48], [50], [], tokens02, by simp, ⟨by simp [plain], by simp [plain]⟩, rfl, by decide, (), by simp [plain, unitOps], rfl, rfl⟩ (reads02 n (k + 1))

theorem reads20 : Reads unitOps plain 0 lines20 evs20 :=
  Reads.edge 0 line01 _ _ _ (by simp [IsComment, line01])
    ⟨[48], [49], [], tokens01, by simp, ⟨by simp [plain], by simp [plain]⟩, rfl, by decide, (), by simp [plain, unitOps], rfl, rfl⟩ (reads02 19 1)

/-- The graph of the file; vertex 1 has number 0, vertex 0 number 1, vertex 2 number 2. -/
def star : List (Edge Unit) := ⟨0, ()⟩ :: List.replicate 19 ⟨2, ()⟩
def graph20 (v : Nat) : List (Edge Unit) := if v = 1 then star else []

def shows20 : Option Bool := (Pipeline.run oneThread stream20 (Pipeline.start oneThread) (acts 20)).bind fun s =>
  (Enact.enactAll Enact.exOpts (fun _ => false) (Enact.start 1 32 (Enact.exAdd 0 0 0)) [taken noTime s 0]).map fun S =>
    (match s.rem with | .stopped => true | _ => false) && decide (s.topoN 0 = (s.topo 0).length) && decide ((taken noTime s 0).length ≤ 32) && decide ((s.th 0).verts.length = 3) &&
    decide (fromRaw oneThread s 0 = some (0, 1)) && decide (fromRaw oneThread s 1 = some (0, 0)) && decide (fromRaw oneThread s 2 = some (0, 2)) &&
    (List.range 3).all fun v => decide ((S.verts v).map (fun e => pack e.didx) = (graph20 v).map fun e => e.dst)

theorem shows20_true : shows20 = some true := by decide +kernel

def loads20 : List Loader.Act := List.replicate 20 (.put 0) ++ [.close 0] ++ List.replicate 20 .emit ++ [.look, .check]

theorem built20 : ∃ s S, Loaded False unitOps plain oneThread noTime Enact.exOpts lines20 evs20 stream20 s S ∧ fromRaw oneThread s 0 = some (0, 1) ∧ fromRaw oneThread s 1 = some (0, 0) ∧
    fromRaw oneThread s 2 = some (0, 2) ∧ graphOf (fun _ _ => ()) oneThread s S = graph20 ∧ ∀ u i, fromRaw oneThread s u = some i → u = 0 ∧ i = (0, 1) ∨ u = 1 ∧ i = (0, 0) ∨ u = 2 ∧ i = (0, 2) := by
  have hrun : ∃ l, Loader.run unitOps plain 1 (fun _ => evs20) Loader.start loads20 = some l ∧
      (l.done = true ∧ l.taken l.turn = l.sent l.turn) ∧ l.out = stream20 := ⟨_, rfl, by decide +kernel, by decide +kernel⟩
  obtain ⟨l, h1, ⟨h2, h3⟩, h4⟩ := hrun
  obtain ⟨s, hs, hn⟩ := Option.bind_eq_some_iff.1 shows20_true
  obtain ⟨S, hS, hn⟩ := Option.map_eq_some_iff.1 hn
  simp only [Bool.and_eq_true, decide_eq_true_eq] at hn
  obtain ⟨⟨⟨⟨⟨⟨⟨a1, a2⟩, a3⟩, a4⟩, a5⟩, a6⟩, a7⟩, a8⟩ := hn
  have a1 : s.rem = .stopped := by
    revert a1
    cases s.rem <;> simp
  have hg : graphOf (fun _ _ => ()) oneThread s (fun _ => S) = graph20 := by
    funext v
    by_cases hv : v < 3
    · have := of_decide_eq_true (List.all_eq_true.1 a8 v (List.mem_range.2 hv))
      have e1 : graphOf (fun _ _ => ()) oneThread s (fun _ => S) v = ((S.verts v).map (fun e => pack e.didx)).map fun a => ⟨a, ()⟩ := by
        unfold graphOf
        rw [show v / 2 ^ 27 = 0 by omega, show v % 2 ^ 27 = v by omega, if_pos ⟨by decide, by omega⟩, List.map_map]
        rfl
      rw [e1, this, List.map_map]
      exact List.map_id _
    · have h5 : graph20 v = [] := by
        unfold graph20
        rw [if_neg (by omega)]
      rw [h5]
      unfold graphOf
      rw [if_neg]
      rintro ⟨b1, b2⟩
      have b1 : v / 2 ^ 27 < 1 := b1
      have : v / 2 ^ 27 = 0 := by omega
      rw [this] at b2
      omega
  refine ⟨s, fun _ => S, ⟨by decide, reads20, isStream_emitAll unitOps plain evs20, rfl, by decide, fun t ht => ?_, ?_⟩, a5, a6, a7, hg, fun u i hu => ?_⟩
  · obtain rfl : t = 0 := by have : t < 1 := ht; omega
    omega
  · refine ⟨⟨1, fun _ => evs20, _, l, acts 20, by decide, ?_, h1, h2, fun _ => ⟨h3, ?_⟩, by rw [h4]; exact hs⟩, a1, fun t ht => ?_, fun t ht => ?_⟩
    · intro i hi
      obtain rfl : i = 0 := by omega
      exact loader_eq unitOps plain 1 0 reads20 emptyFields (by simp [emptyFields])
    · unfold acts
      simp
    · obtain rfl : t = 0 := by have : t < 1 := ht; omega
      exact a2
    · obtain rfl : t = 0 := by have : t < 1 := ht; omega
      exact ⟨fun _ => false, 1, 32, Enact.exAdd 0 0 0, [taken noTime s 0], by simp, by simpa using a3, hS⟩
  · obtain ⟨b1, b2⟩ := (Props.Pipeline.C45_one_id oneThread _ _ s hs u i).1 hu
    have b3 : i.1 = 0 := by rw [b2]; exact Nat.mod_one _
    obtain ⟨v, h5, -⟩ := Option.map_eq_some_iff.1 b1
    have := (List.getElem?_eq_some_iff.1 h5).1
    rw [b3, a4] at this
    have c0 := ((Props.Pipeline.C45_one_id oneThread _ _ s hs 0 _).1 a5).1
    have c1 := ((Props.Pipeline.C45_one_id oneThread _ _ s hs 1 _).1 a6).1
    have c2 := ((Props.Pipeline.C45_one_id oneThread _ _ s hs 2 _).1 a7).1
    obtain ⟨i1, i2⟩ := i
    dsimp only at b3 this
    subst b3
    obtain rfl | rfl | rfl : i2 = 0 ∨ i2 = 1 ∨ i2 = 2 := by omega
    · rw [c1] at b1; injection b1 with b1
      exact .inr (.inl ⟨b1.symm, rfl⟩)
    · rw [c0] at b1; injection b1 with b1
      exact .inl ⟨b1.symm, rfl⟩
    · rw [c2] at b1; injection b1 with b1
      exact .inr (.inr ⟨b1.symm, rfl⟩)

/-! ## The run -/

def kR : Async.Cfg ℚ Unit := cfg 1 fun _ => 0

/-- Before a dynamic run: no vertices, nothing outstanding, the streams are open. -/
def dyn0 (D : Type) : Engine.St PR ℚ Unit D :=
  { begin0 kR (Async.start pagerank fun _ => []) [] with term := { (begin0 kR (Async.start (pagerank (E := D)) fun _ => []) []).term with closed := fun _ => false } }

theorem dyn0_start (D : Type) : Start kR 1024 (dyn0 D) := by
  have h := begin_start kR 1024 (fun _ => Nat.zero_lt_one) (by decide) (Async.start (pagerank (E := D)) fun _ => []) [] (fun _ => rfl) fun v => List.Perm.refl _
  exact ⟨⟨h.term.pc, h.term.buff, h.term.full, h.term.data, h.term.view, h.term.votes, h.term.cand, h.term.rd, h.term.mark, h.term.inst, h.term.ptime, h.term.balance⟩,
    h.task, h.hand, h.buff, h.queue, h.own, h.pend⟩

def go {D : Type} (k : Nat) : List (Option (Act D)) := List.replicate k none

def batch {D : Type} (n : Nat) : Option (Act D) := some (.loop (.events 0 n))
def born {D : Type} (v : Nat) : Option (Act D) := some (.topo (.init 0 v))
def more {D : Type} (v : Nat) (es : List (Edge D)) : Option (Act D) := some (.topo (.add 0 v es))

/-- The lines in batches of 15, 2 and 3. -/
def script20 : List (Option (Act Unit)) :=
  [batch 15, born 0] ++ go 2 ++ [born 1] ++ go 2 ++ [born 2] ++ go 2 ++ [more 1 (star.take 15)] ++ go 38 ++
  [batch 2, more 1 ((star.drop 15).take 2)] ++ go 20 ++ [batch 3, more 1 (star.drop 17)] ++ go 36 ++ [some (.loop (.close 0))] ++ go 45

theorem play20 : ((play pagerank kR 1024 (dyn0 Unit) script20).any fun r => decide (r.2.term.pc 0 = .done) && (List.range 3).all (fun v => r.2.alg.inited v) &&
    decide ((r.2.alg.prop 0).mass = 317 / 2000) && decide ((r.2.alg.prop 1).mass = 3 / 20)) = true := by decide +kernel

theorem topos20 : topos (script20.filterMap id) =
    [.init 0 0, .init 0 1, .init 0 2, .add 0 1 (star.take 15), .add 0 1 ((star.drop 15).take 2), .add 0 1 (star.drop 17)] := rfl

theorem appended20 (v : Nat) : appended (topos (script20.filterMap id)) v = graph20 v := by
  rw [topos20]
  unfold graph20
  by_cases hv : v = 1
  · subst hv; rfl
  · rw [if_neg hv]
    simp [appended, Ne.symm hv]

/-- **C87** fails without any race: mailboxes that hold exactly the threshold. -/
theorem C87_threshold_false : ¬ RanksRight False := by
  intro h
  obtain ⟨s, S, L, a0, a1, a2, hg, hid⟩ := built20
  obtain ⟨⟨xs, r⟩, hr, hc⟩ := Option.any_eq_true _ _ |>.1 play20
  simp only [Bool.and_eq_true, decide_eq_true_eq] at hc
  obtain ⟨⟨⟨c1, c2⟩, c3⟩, c4⟩ := hc
  have hin : ∀ v, v < 3 → r.alg.inited v = true := fun v hv => List.all_eq_true.1 c2 v (List.mem_range.2 hv)
  have R : Ran pagerank kR 1024 oneThread s (graphOf (fun _ _ => ()) oneThread s S) (fun _ => []) [] (dyn0 Unit) r xs := by
    refine ⟨by decide, fun _ => Nat.zero_lt_one, rfl, dyn0_start Unit, play_run hr, fun t v b hm => (List.not_mem_nil hm).elim, fun t v b hm => ?_, fun v => ?_, fun u i hu => ?_⟩
    · have h2 : Async.Act.del t v b ∈ topos xs := List.mem_filterMap.2 ⟨_, hm, rfl⟩
      rw [play_topos hr, topos20] at h2
      simp at h2
    · rw [List.nil_append, List.nil_append, play_topos hr, hg]
      exact appended20 v
    · rcases hid u i hu with ⟨-, rfl⟩ | ⟨-, rfl⟩ | ⟨-, rfl⟩
      · exact hin 1 (by decide)
      · exact hin 0 (by decide)
      · exact hin 2 (by decide)
  have hf : Finished kR r := fun t ht => by
    obtain rfl : t = 0 := by have : t < 1 := ht; omega
    exact c1
  let x : UInt32 → ℚ := fun u => (r.alg.prop (pack ((fromRaw oneThread s u).getD (0, 0)))).mass
  have h1 := (h Unit Unit unitOps plain oneThread noTime Enact.exOpts lines20 evs20 stream20 s S L (fun _ _ => ()) 1 (fun _ => 0) 1024 (fun _ => []) [] (dyn0 Unit) r xs R hf x
    (fun u i hu => by simp only [x, hu, Option.getD_some]) 1 ⟨_, List.mem_cons_self, .inr rfl⟩).2
  have x0 : x 0 = 3 / 20 := by simp only [x, a0]; exact c4
  have x1 : x 1 = 317 / 2000 := by simp only [x, a1]; exact c3
  have e : arriving damping (arrows plain evs20) x 1 = damping * x 0 / 20 := by
    have e1 : arrows plain evs20 = (0, 1) :: List.replicate 19 (0, 2) := by decide
    have e2 : leaving ((0, 1) :: List.replicate 19 (0, 2)) 0 = 20 := by decide
    unfold arriving
    rw [e1, List.map_cons, List.map_replicate, List.sum_cons, if_pos rfl, if_neg (by decide), List.sum_replicate, smul_zero, add_zero, e2]
    norm_num
  rw [e, x0, x1] at h1
  revert h1
  decide +kernel

theorem Loaded.weaken {E : Type} {ops : Ops E} {c : Loader.Cfg} {p : Params E} {tm : E → UInt64 × UInt64} {o : Enact.Opts} {file : List (List UInt8)}
    {evs stream : List (Ev E)} {s : Pipeline.St E} {S : Nat → Enact.Th E} {races : Prop} (L : Loaded False ops c p tm o file evs stream s S) :
    Loaded races ops c p tm o file evs stream s S := by
  obtain ⟨n, qs, as, l, bs, h1, h2, h3, h4, h5, h6⟩ := L.complete.stages
  exact ⟨L.threads, L.reads, L.emitted, L.window, L.length, L.verts, ⟨n, qs, as, l, bs, h1, h2, h3, h4, fun _ => h5 id, h6⟩, L.complete.stopped, L.complete.drained, L.complete.enacted⟩

/-- **C87** fails. -/
theorem C87_statement_false : ¬ C87Statement := fun h => C87_threshold_false fun E D ops c p tm o file evs stream s S L => h E D ops c p tm o file evs stream s S L.weaken

/-! ## A file on which the ranks are right

The file "1 2", "2 3" of `Verif/Props/AnswerCase.lean`, static and dynamic. -/

/-- `P` in all states of a run. -/
def passes {D : Type} (P : Engine.St PR ℚ Unit D → Bool) (max : Nat) : Engine.St PR ℚ Unit D → List (Act D) → Bool
  | s, [] => P s
  | s, x :: xs => P s && match step pagerank kR max s x with
    | some s' => passes P max s' xs
    | none => true

theorem passes_prefix {D : Type} {P : Engine.St PR ℚ Unit D → Bool} {max : Nat} : ∀ {xs : List (Act D)} {s : Engine.St PR ℚ Unit D}, passes P max s xs = true →
    ∀ ys zs q, xs = ys ++ zs → Engine.run pagerank kR max s ys = some q → P q = true
  | xs, s, h, [], zs, q, he, hq => by
    simp only [Engine.run, Option.some.injEq] at hq
    subst hq
    cases xs with
    | nil => exact h
    | cons x xs => rw [passes, Bool.and_eq_true] at h; exact h.1
  | [], s, h, y :: ys, zs, q, he, hq => by cases he
  | x :: xs, s, h, y :: ys, zs, q, he, hq => by
    rw [List.cons_append] at he
    injection he with e1 e2
    subst e1
    rw [passes, Bool.and_eq_true] at h
    simp only [Engine.run] at hq
    obtain ⟨s', h1, h2⟩ := Option.bind_eq_some_iff.1 hq
    rw [h1] at h
    exact passes_prefix h.2 ys zs q e2 h2

def script2 : List (Option (Act ℚ)) :=
  [batch 2, born 0] ++ go 2 ++ [born 1] ++ go 2 ++ [born 2] ++ go 2 ++ [more 1 [⟨0, 1⟩]] ++ go 6 ++ [more 0 [⟨2, 1⟩]] ++ go 21 ++ [some (.loop (.close 0))] ++ go 45

theorem topos2 : topos (script2.filterMap id) = [.init 0 0, .init 0 1, .init 0 2, .add 0 1 [⟨0, 1⟩], .add 0 0 [⟨2, 1⟩]] := rfl

theorem play2 : ((play pagerank kR 1024 (dyn0 ℚ) script2).any fun r => decide (r.2.term.pc 0 = .done) && (List.range 3).all (fun v => r.2.alg.inited v) &&
    passes (fun q => (List.range 3).all fun v => decide (|q.alg.inbox v| ≠ epsilon)) 1024 (dyn0 ℚ) r.1 &&
    decide ((r.2.alg.prop 2).mass = 3087 / 8000)) = true := by decide +kernel

theorem below_of_topos {D : Type} {n : Nat} {xs ys : List (Act D)} (h : ∀ y ∈ topos (xs ++ ys), y.below n = true) {zs : List (Async.Act D)} (hz : changes zs = topos xs) :
    ∀ y ∈ zs, y.below n = true := by
  intro y hy
  by_cases ht : (topoThread y).isSome = true
  · have h1 : y ∈ changes zs := List.mem_filter.2 ⟨hy, ht⟩
    rw [hz] at h1
    refine h y ?_
    unfold topos at h1 ⊢
    rw [List.filterMap_append]
    exact List.mem_append_left _ h1
  · cases y <;> first | rfl | exact absurd rfl ht

/-- The hypotheses of `C87_ledger_partial`, `C87_ranks_partial` and `C87_error_partial` are met in a dynamic run, and the
ranks are the exact ones: 3 has 3087/8000. -/
example : ∃ (s : Pipeline.St Unit) (S : Nat → Enact.Th Unit) (r : Engine.St PR ℚ Unit ℚ) (xs : List (Act ℚ)), Loaded False unitOps plain oneThread noTime Enact.exOpts lines evs2 two s S ∧
    Ran pagerank kR 1024 oneThread s (graphOf (fun _ _ => (1 : ℚ)) oneThread s S) (fun _ => []) [] (dyn0 ℚ) r xs ∧ Finished kR r ∧
    NeverAt damping epsilon 1 (fun _ => 0) 1024 (fun _ => []) [] (dyn0 ℚ) xs ∧ ∃ i, fromRaw oneThread s 3 = some i ∧ (r.alg.prop (pack i)).mass = 3087 / 8000 := by
  have hrun : ∃ l, Loader.run unitOps plain 1 (fun _ => evs2) Loader.start [.put 0, .put 0, .close 0, .emit, .emit, .look, .check] = some l ∧
      (l.done = true ∧ l.taken l.turn = l.sent l.turn) ∧ l.out = two.take 2 := ⟨_, rfl, by decide, by decide⟩
  obtain ⟨l, h1, ⟨h2, h3⟩, h4⟩ := hrun
  obtain ⟨s, S, L, a1, a2, a3, a4, a5⟩ := built False 2 shows2 _ l h1 h2 (fun _ => h3) h4
  obtain ⟨⟨xs, r⟩, hr, hc⟩ := Option.any_eq_true _ _ |>.1 play2
  simp only [Bool.and_eq_true, decide_eq_true_eq] at hc
  obtain ⟨⟨⟨c1, c2⟩, c3⟩, c4⟩ := hc
  refine ⟨s, S, r, xs, L, ⟨by decide, fun _ => Nat.zero_lt_one, rfl, dyn0_start ℚ, play_run hr, fun t v b hm => (List.not_mem_nil hm).elim, fun t v b hm => ?_, fun v => ?_, fun u i hu => ?_⟩,
    fun t ht => ?_, ⟨fun ys zs q he hq => ?_, fun ys zs q he hq v => ?_⟩, (0, 2), by rw [a3]; rfl, c4⟩
  · have h2 : Async.Act.del t v b ∈ topos xs := List.mem_filterMap.2 ⟨_, hm, rfl⟩
    rw [play_topos hr, topos2] at h2
    simp at h2
  · rw [List.nil_append, List.nil_append, play_topos hr, a4, topos2]
    unfold graph2
    by_cases hv : v = 1
    · subst hv; rfl
    · by_cases hv' : v = 0
      · subst hv'; rfl
      · rw [if_neg hv, if_neg (by omega)]
        simp [appended, Ne.symm hv, Ne.symm hv']
  · exact List.all_eq_true.1 c2 _ (List.mem_range.2 (a5 u i hu))
  · obtain rfl : t = 0 := by have : t < 1 := ht; omega
    exact c1
  · obtain ⟨rfl, -⟩ := List.append_eq_nil_iff.1 he.symm
    simp only [Async.run, Option.some.injEq] at hq
    subst hq
    intro v
    change |(0 : ℚ)| ≠ epsilon
    decide +kernel
  · by_cases hv : v < 3
    · exact of_decide_eq_true (List.all_eq_true.1 (passes_prefix c3 ys zs q he hq) v (List.mem_range.2 hv))
    · obtain ⟨-, -, ws, hw, hch⟩ := proj hq
      have hb : ∀ y ∈ ws, y.below 3 = true := by
        refine below_of_topos (xs := ys) (ys := zs) (fun y hy => ?_) hch
        rw [← he, play_topos hr, topos2] at hy
        simp only [List.mem_cons, List.not_mem_nil, or_false] at hy
        rcases hy with rfl | rfl | rfl | rfl | rfl <;> rfl
      have := PageRank.inbox_above (PageRank.alg_local damping epsilon 3) (fun _ => rfl) ws _ _ hb (Async.supp_start _ 3) (fun _ _ => rfl) hw v (by omega)
      rw [this]
      change |(0 : ℚ)| ≠ epsilon
      decide +kernel

/-- `SendInitialMail` in a static run. -/
def mailR : List (Async.Act ℚ) := [.init 0 0] ++ List.replicate 5 (.go 0) ++ [.init 0 1] ++ List.replicate 5 (.go 0) ++ [.init 0 2]

theorem smoothR : (Async.run pagerank kR (Async.start pagerank (graph2 2)) mailR).map (fun s =>
    isIdle (s.task 0) && (List.range 3).all (fun v => decide (s.pend v = [(2, ()), (0, ())].filterMap fun x => if x.1 = v then some x.2 else none) && s.inited v) &&
    smooth pagerank kR 1024 (begin0 kR s [(2, ()), (0, ())]) ((List.range 100).map fun i => [0].getD (i % [0].length) 0)) = some true := by decide +kernel

/-- The hypotheses of `C87_returns_partial` are met in a static run. -/
example : ∃ (s : Pipeline.St Unit) (S : Nat → Enact.Th Unit) (e : Exec pagerank kR 1024), Loaded False unitOps plain oneThread noTime Enact.exOpts lines evs2 two s S ∧
    Runs oneThread s (graphOf (fun _ _ => (1 : ℚ)) oneThread s S) (graphOf (fun _ _ => (1 : ℚ)) oneThread s S) mailR e 0 := by
  have hrun : ∃ l, Loader.run unitOps plain 1 (fun _ => evs2) Loader.start [.put 0, .put 0, .close 0, .emit, .emit, .look, .check] = some l ∧
      (l.done = true ∧ l.taken l.turn = l.sent l.turn) ∧ l.out = two.take 2 := ⟨_, rfl, by decide, by decide⟩
  obtain ⟨l, h1, ⟨h2, h3⟩, h4⟩ := hrun
  obtain ⟨s, S, L, a1, a2, a3, a4, a5⟩ := built False 2 shows2 _ l h1 h2 (fun _ => h3) h4
  obtain ⟨r, hr, h⟩ := Option.map_eq_some_iff.1 smoothR
  simp only [Bool.and_eq_true] at h
  obtain ⟨⟨h1, h2⟩, h4⟩ := h
  have h3 : ∀ v, v < 3 → r.pend v = ([(2, ()), (0, ())].filterMap fun x => if x.1 = v then some x.2 else none) ∧ r.inited v = true := by
    intro v hv
    have := List.all_eq_true.1 h2 v (List.mem_range.2 hv)
    simp only [Bool.and_eq_true] at this
    exact ⟨of_decide_eq_true this.1, this.2⟩
  have hsup : Async.Supp 3 r := by
    refine Async.supp_run (PageRank.alg_local damping epsilon 3) (xs := mailR) (by decide) (Async.supp_loaded _ 3 (graph2 2) ?_ ?_) hr
    · intro v hv
      unfold graph2
      rw [if_neg (by omega), if_neg (by omega)]
    · intro v e he
      unfold graph2 at he
      split at he
      · rcases List.mem_singleton.1 he with rfl; decide
      · split at he
        · rcases List.mem_singleton.1 he with rfl; decide
        · cases he
  obtain ⟨e, e1, e2, e3, e4, e5, e6⟩ := exists_exec pagerank kR 1024 (fun v => Nat.zero_lt_one) (by decide) (graph2 2) mailR r hr hsup [(2, ()), (0, ())] [0]
    (fun t ht => by have : t < 1 := ht; obtain rfl : t = 0 := by omega
                    simp) 100
    (fun t ht => by have : t < 1 := ht; obtain rfl : t = 0 := by omega
                    exact h1) (fun v hv => (h3 v hv).1) (by decide) h4
  refine ⟨s, S, e, L, ?_⟩
  rw [a4]
  refine ⟨by decide, fun v => Nat.zero_lt_one, by rw [e1]; exact hr, e2, e3, e4, fun t _ => e5 t, fun i y _ => e6 i y, ?_, fun i t v b => e6 i _, ?_, ?_⟩
  · intro t v b hm
    simp [mailR] at hm
  · intro v
    have : appended (mailR ++ topos ((List.range 0).map e.act)) v = [] := by simp [appended, mailR, topos]
    rw [this, List.append_nil]
  · intro u i hu
    rw [e1]
    exact (h3 _ (a5 u i hu)).2

/-- The exact ranks of that file (`C87_exact`, `C87_error_partial`). -/
example : FileRanks damping (arrows plain evs2) fun u => if u = 1 then 3 / 20 else if u = 2 then 111 / 400 else 3087 / 8000 := by
  intro u hu
  have hu : u = 1 ∨ u = 2 ∨ u = 3 := by
    have : named (arrows plain evs2) = {1, 2, 3} := by decide +kernel
    rw [this] at hu
    simpa using hu
  rcases hu with rfl | rfl | rfl <;> decide +kernel

end Verif.Props.Answer
