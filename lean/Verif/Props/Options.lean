import Verif.Options
import Verif.Props.Capacity
import Verif.Props.Loader

/-!
# C80 — a run does what the command line asked for
-/

namespace Verif.Props.Options
open Verif Verif.Options

/-- What the usage text promises for given flags, as a relation between the flags and the run:
threads up to the maximum of the build, loaders, columns counted from one, days as seconds, and
queues of at least the size asked for, by less than twice. -/
structure AsAsked (f : Flags) (o : Opts) : Prop where
  threads : (threads o : Int) = min f.t 32
  loaders : (loaders o : Int) = f.tg
  weight : (cfg o).wPos = if f.pw = 0 then none else some (f.pw - 1).toNat
  timestamp : (cfg o).tPos = if f.pt = 0 then none else some (f.pt - 1).toNat
  queue : ∃ k, queueCap o = 2 ^ k ∧ 2 ^ (14 + f.m.toNat) * (32 / Options.threads o) ≤ 2 ^ k ∧
    2 ^ k < 2 * (2 ^ (14 + f.m.toNat) * (32 / Options.threads o))
  series : o.logTimeseries = true ↔ 0 < f.de ∨ 0 < f.dt
  byEdges : o.logTimeseries = true → (o.timeseriesEdgeCount = true ↔ 0 < f.de)
  interval : o.logTimeseries = true →
    (o.timeSeriesInterval : Int) = if 0 < f.de then f.de else 86400 * f.dt
  window : (o.insertDeleteOnExpire : Int) = 86400 * f.w
  poll : o.pollingRate = f.poll
  refine : o.asyncContinuationTime = f.refine

/-- Flags nobody would call senseless: nothing negative. -/
structure NonNeg (f : Flags) : Prop where
  m : 0 ≤ f.m
  de : 0 ≤ f.de
  dt : 0 ≤ f.dt
  pt : 0 ≤ f.pt
  pw : 0 ≤ f.pw
  w : 0 ≤ f.w
  refine : 0 ≤ f.refine

/-- Full statement of **C80**: every command line that is accepted, and has no negative number,
gives a run as asked for. -/
def C80Statement : Prop :=
  ∀ f o, f.Ints → NonNeg f → flagsToOptions f = .ok o → AsAsked f o

/-- The ranges in which the conversions keep the value. -/
structure Fits (f : Flags) : Prop where
  m : f.m ≤ 44
  dt : f.dt < 2 ^ 47
  pt : f.pt ≤ 127
  pw : f.pw ≤ 127
  w : f.w < 2 ^ 47
  poll : f.poll < 2 ^ 32
  refine : f.refine < 2 ^ 31
  t : f.t < 2 ^ 32
  tg : f.tg < 2 ^ 8

theorem ok_iff (f : Flags) (o : Opts) (h : flagsToOptions f = .ok o) :
    f.g ≠ "" ∧ ((f.s || f.sprev) && (f.d || decide (0 < f.dr) || decide (0 < f.de) || decide (0 < f.dt))) = false ∧
    0 < f.t ∧ 0 < f.tg := by
  unfold flagsToOptions at h
  split at h
  · cases h
  · dsimp only at h
    split at h
    · cases h
    · split at h
      · cases h
      · split at h
        · cases h
        · rename_i h1 h2 h3 h4
          exact ⟨h1, by simpa using h2, by omega, by omega⟩

/-- The number of threads is between 1 and the length of the array of threads, and there is a
loader, whatever the flags. -/
theorem C80_threads_in_bounds (o : Opts) : 1 ≤ threads o ∧ threads o ≤ threadMax ∧ 1 ≤ loaders o :=
  ⟨(threads_le o).1, (threads_le o).2, loaders_pos o⟩

/-- Which command lines are accepted: a graph is named, thread counts are positive, and no
synchronous strategy is asked for together with a dynamic one. -/
theorem C80_accepted (f : Flags) : (∃ o, flagsToOptions f = .ok o) ↔
    f.g ≠ "" ∧ 0 < f.t ∧ 0 < f.tg ∧
    ¬ ((f.s = true ∨ f.sprev = true) ∧ (f.d = true ∨ 0 < f.dr ∨ 0 < f.de ∨ 0 < f.dt)) := by
  constructor
  · rintro ⟨o, h⟩
    obtain ⟨h1, h2, h3, h4⟩ := ok_iff f o h
    refine ⟨h1, h3, h4, ?_⟩
    rintro ⟨ha, hb⟩
    have e1 : (f.s || f.sprev) = true := by simpa using ha
    have e2 : (f.d || decide (0 < f.dr) || decide (0 < f.de) || decide (0 < f.dt)) = true := by
      simp only [Bool.or_eq_true, decide_eq_true_eq]
      rcases hb with h | h | h | h <;> simp [h]
    rw [e1, e2] at h2
    cases h2
  · rintro ⟨h1, h3, h4, h2⟩
    unfold flagsToOptions
    rw [if_neg h1]
    dsimp only
    rw [if_neg, if_neg (by omega), if_neg (by omega)]
    · exact ⟨_, rfl⟩
    · intro hc
      apply h2
      simpa [or_assoc] using hc

/-- A command line without a graph is answered with the usage, and any other one is accepted or aborts. -/
theorem C80_usage (f : Flags) : flagsToOptions f = .usage ↔ f.g = "" := by
  constructor
  · intro h
    by_contra hc
    unfold flagsToOptions at h
    rw [if_neg hc] at h
    dsimp only at h
    repeat (split at h; · cases h)
    cases h
  · intro h
    unfold flagsToOptions
    rw [if_pos h]

/-- The switches of an accepted command line are taken over one by one. -/
theorem C80_switches (f : Flags) (o : Opts) (h : flagsToOptions f = .ok o) :
    o.name = f.g ∧ o.undirected = f.u ∧ o.transpose = f.tr ∧ o.writeVertexProps = f.p ∧ o.checkCorrectness = f.c ∧
    o.oracleCompare = f.o ∧ o.oracleCompareSync = f.osync ∧ o.syncPreviousOnly = f.sprev ∧ o.targetRate = f.dr := by
  obtain ⟨h1, h2, h3, h4⟩ := ok_iff f o h
  unfold flagsToOptions at h
  rw [if_neg h1] at h
  dsimp only at h
  rw [if_neg (by rw [h2]; simp), if_neg (by omega), if_neg (by omega)] at h
  cases h
  exact ⟨rfl, rfl, rfl, rfl, rfl, rfl, rfl, rfl, rfl⟩

/-- Which strategy runs, for every accepted command line: the dynamic one if any of its flags is
set, otherwise the synchronous ones if asked for, otherwise the asynchronous one. -/
theorem C80_mode (f : Flags) (o : Opts) (h : flagsToOptions f = .ok o) :
    (mode o = .dynamic ↔ f.d = true ∨ 0 < f.dr ∨ 0 < f.de ∨ 0 < f.dt) ∧
    (mode o = .syncPrevOnly ↔ f.sprev = true) ∧
    (mode o = .sync ↔ f.s = true ∧ f.sprev = false) ∧
    (mode o = .async ↔ f.s = false ∧ f.sprev = false ∧ f.d = false ∧ ¬ 0 < f.dr ∧ ¬ 0 < f.de ∧ ¬ 0 < f.dt) := by
  obtain ⟨h1, h2, h3, h4⟩ := ok_iff f o h
  unfold flagsToOptions at h
  rw [if_neg h1] at h
  dsimp only at h
  rw [if_neg (by rw [h2]; simp), if_neg (by omega), if_neg (by omega)] at h
  cases h
  unfold mode
  dsimp only
  by_cases a : 0 < f.dr <;> by_cases b : 0 < f.de <;> by_cases c : 0 < f.dt <;>
    simp only [a, b, c, decide_true, decide_false] at h2 ⊢ <;>
    generalize f.s = x at h2 ⊢ <;> generalize f.sprev = y at h2 ⊢ <;> generalize f.d = z at h2 ⊢ <;>
    cases x <;> cases y <;> cases z <;> simp at h2 ⊢

/-- **C80**, what holds: within the ranges of the types of the options, a run is as asked for.
Missing for the full property: larger numbers, which are cut without notice; the theorems below
give one for every field. -/
theorem C80_as_asked_partial (f : Flags) (o : Opts) (hn : NonNeg f) (hi : f.Ints) (hf : Fits f)
    (h : flagsToOptions f = .ok o) : AsAsked f o := by
  obtain ⟨h1, h2, h3, h4⟩ := ok_iff f o h
  unfold flagsToOptions at h
  rw [if_neg h1] at h
  dsimp only at h
  rw [if_neg (by rw [h2]; simp), if_neg (by omega), if_neg (by omega)] at h
  cases h
  have ⟨m0, de0, dt0, pt0, pw0, w0, r0⟩ := hn
  have ⟨m1, dt1, pt1, pw1, w1, poll1, r1, t1, tg1⟩ := hf
  have ⟨_, ⟨_, de2⟩, _, _, _, _, _, _, _, _, _⟩ := hi
  have et : toUnsigned 32 f.t = f.t.toNat := toUnsigned_of (by omega) (by omega)
  have col : ∀ x : Int, 0 ≤ x → x ≤ 127 → column (toSigned 8 x) = if x = 0 then none else some (x - 1).toNat := by
    intro x hx0 hx1
    unfold column
    rw [toSigned_8 (x := x) (by omega) (by omega), toSigned_8 (x := x - 1) (by omega) (by omega)]
    by_cases hz : x = 0
    · rw [if_pos hz, if_neg (by omega)]
    · rw [if_neg hz, if_pos (by omega)]
  have ser : (0 < if 0 < f.de then toUnsigned 64 f.de else days f.dt) ↔ 0 < f.de ∨ 0 < f.dt := by
    split
    · rename_i hd
      rw [toUnsigned_of (by omega) (by omega)]; omega
    · rename_i hd
      rw [days_of dt0 dt1]; omega
  constructor
  · unfold Options.threads threadMax
    dsimp only
    rw [et]
    rw [if_neg (by omega)]
    split <;> omega
  · unfold Options.loaders
    dsimp only
    rw [toUnsigned_of (by omega) (by omega), if_neg (by omega)]
    omega
  · exact col f.pw pw0 pw1
  · exact col f.pt pt0 pt1
  · generalize ho : ({ name := f.g, .. } : Opts) = o
    have em : o.queueMultiplier = f.m.toNat := by
      rw [← ho]; exact toUnsigned_of (by omega) (by omega)
    obtain ⟨q0, q1⟩ := threads_le o
    have hT : 1 ≤ threadMax / threads o ∧ threadMax / threads o ≤ 32 :=
      ⟨(Nat.one_le_div_iff (by omega)).2 q1, Nat.div_le_self _ _⟩
    have hs : queueSize o = 2 ^ (14 + f.m.toNat) * (threadMax / threads o) := by
      have hb : (2 : Nat) ^ (14 + f.m.toNat) ≤ 2 ^ 58 := Nat.pow_le_pow_right (by omega) (by omega)
      have hb' : 2 ^ (14 + f.m.toNat) * (threadMax / threads o) ≤ 2 ^ 58 * 32 :=
        Nat.mul_le_mul hb hT.2
      have e0 : baseSize * 2 ^ f.m.toNat = 2 ^ (14 + f.m.toNat) := by
        rw [Nat.pow_add]; rfl
      unfold queueSize
      rw [em]
      dsimp only
      split
      · rw [e0, Nat.mod_eq_of_lt (a := 2 ^ (14 + f.m.toNat)) (by omega), Nat.mod_eq_of_lt (by omega)]
      · rename_i hz
        have : f.m.toNat = 0 := by omega
        rw [this] at hb' ⊢
        rw [Nat.mod_eq_of_lt]
        · rfl
        · have : baseSize = 2 ^ (14 + 0) := rfl
          rw [this]; omega
    have hb : (2 : Nat) ^ (14 + f.m.toNat) * (threadMax / threads o) ≤ 2 ^ 58 * 32 :=
      Nat.mul_le_mul (Nat.pow_le_pow_right (by omega) (by omega)) hT.2
    have hp : 0 < (2 : Nat) ^ (14 + f.m.toNat) * (threadMax / threads o) :=
      Nat.mul_pos (Nat.two_pow_pos _) (by omega)
    have hu : (UInt64.ofNat (queueSize o)).toNat = 2 ^ (14 + f.m.toNat) * (threadMax / threads o) := by
      rw [UInt64.toNat_ofNat', hs, Nat.mod_eq_of_lt (by omega)]
    obtain ⟨⟨k, hk⟩, hge, hleast⟩ := C08.C08_roundUpPow_least (UInt64.ofNat (queueSize o))
      (by rw [hu]; omega) (by rw [hu]; omega)
    rw [hu] at hge hleast
    refine ⟨k, hk, ?_, ?_⟩
    · rw [hk] at hge; exact hge
    · rw [hk] at hleast
      change 2 ^ k < 2 * (2 ^ (14 + f.m.toNat) * (threadMax / threads o))
      rcases k with _ | k
      · simp; omega
      · have : ¬ 2 ^ (14 + f.m.toNat) * (threadMax / threads o) ≤ 2 ^ k := by
          intro hle
          have := hleast k hle
          have := Nat.pow_lt_pow_right (a := 2) (by omega) (Nat.lt_succ_self k)
          omega
        rw [Nat.pow_succ]; omega
  · simp only [decide_eq_true_eq]; exact ser
  · intro _; simp
  · intro _
    dsimp only
    split
    · rw [toUnsigned_of (by omega) (by omega)]; omega
    · rw [days_of dt0 dt1]; omega
  · dsimp only
    rw [days_of w0 w1]; omega
  · exact Nat.mod_eq_of_lt poll1
  · exact toSigned_32 (by omega) (by omega)

/-- The flags with their defaults (`graph/graph-options.go:50-88`) on a machine with 8 cores. -/
def defaults : Flags where
  g := "graph.txt"
  m := 8
  s := false
  sprev := false
  d := false
  de := 0
  dt := 0
  dr := 0
  pt := 0
  pw := 0
  w := 0
  poll := 500
  refine := 0
  u := false
  tr := false
  o := false
  osync := false
  c := false
  p := false
  debug := 0
  t := 8
  tg := 2

/-- What can be seen of a run. -/
def shown : Parsed → Option (Nat × Nat × Nat × Option Nat × Option Nat)
  | .ok o => some (threads o, loaders o, queueCap o, (cfg o).wPos, (cfg o).tPos)
  | _ => none

/-- ... its strategy, -/
def strategy : Parsed → Option Mode
  | .ok o => some (mode o)
  | _ => none

/-- ... and its time series and window. -/
def times : Parsed → Option (Bool × Bool × Nat × Nat)
  | .ok o => some (o.dynamic, o.logTimeseries, o.timeSeriesInterval, o.insertDeleteOnExpire)
  | _ => none

/-- The hypotheses hold for the defaults, and for a dynamic run over timestamps in the second
column, with a query every 30 days and a window of a year. -/
example : ∃ o, flagsToOptions defaults = .ok o ∧ AsAsked defaults o := by
  obtain ⟨o, h⟩ := (C80_accepted defaults).2 ⟨by decide, by decide, by decide, by simp [defaults]⟩
  exact ⟨o, h, C80_as_asked_partial _ o (by constructor <;> decide) (by constructor <;> decide)
    (by constructor <;> decide) h⟩

example : ∃ o, flagsToOptions { defaults with pt := 2, pw := 1, dt := 30, w := 365, t := 6 } = .ok o ∧
    AsAsked { defaults with pt := 2, pw := 1, dt := 30, w := 365, t := 6 } o := by
  obtain ⟨o, h⟩ := (C80_accepted { defaults with pt := 2, pw := 1, dt := 30, w := 365, t := 6 }).2
    ⟨by decide, by decide, by decide, by simp [defaults]⟩
  exact ⟨o, h, C80_as_asked_partial _ o (by constructor <;> decide) (by constructor <;> decide)
    (by constructor <;> decide) h⟩

example : shown (flagsToOptions defaults) = some (8, 2, 2 ^ 24, none, none) := by decide +kernel
example : shown (flagsToOptions { defaults with pt := 2, pw := 1, dt := 30, w := 365, t := 6 }) =
    some (6, 2, 2 ^ 25, some 0, some 1) := by decide +kernel

example : strategy (flagsToOptions defaults) = some .async := by decide +kernel
example : strategy (flagsToOptions { defaults with de := 1000, dt := 30 }) = some .dynamic := by decide +kernel
example : strategy (flagsToOptions { defaults with s := true, sprev := true }) = some .syncPrevOnly := by decide +kernel
example : strategy (flagsToOptions { defaults with s := true, dr := 1 / 2 }) = none := by decide +kernel

/-- Large numbers are cut: 2^32 + 1 threads are one thread (while 2^32 - 1 are 32). -/
theorem C80_threads_cut : (shown (flagsToOptions { defaults with t := 2 ^ 32 + 1 })).map (·.1) = some 1 ∧
    (shown (flagsToOptions { defaults with t := 2 ^ 32 - 1 })).map (·.1) = some 32 := by decide +kernel

/-- 256 loaders are one, 300 are 44. -/
theorem C80_loaders_cut : (shown (flagsToOptions { defaults with tg := 256 })).map (·.2.1) = some 1 ∧
    (shown (flagsToOptions { defaults with tg := 300 })).map (·.2.1) = some 44 := by decide +kernel

/-- With `-m 50` the notification queues have no slot; `-m 256` gives the smallest queues. -/
theorem C80_queue_cut : (shown (flagsToOptions { defaults with m := 50 })).map (·.2.2.1) = some 0 ∧
    (shown (flagsToOptions { defaults with m := 256 })).map (·.2.2.1) = some (2 ^ 16) := by decide +kernel

/-- `-pt 256` reads no timestamps, `-pt 257` those of the first column, and `-pt -128` column 127. -/
theorem C80_columns_cut :
    (shown (flagsToOptions { defaults with pt := 256 })).map (·.2.2.2.2) = some none ∧
    (shown (flagsToOptions { defaults with pt := 257 })).map (·.2.2.2.2) = some (some 0) ∧
    (shown (flagsToOptions { defaults with pt := -128 })).map (·.2.2.2.2) = some (some 127) := by decide +kernel

/-- A number of days can wrap to no time series in a run that is dynamic because of it; and a
negative number of days asks for a time series in a run that is not dynamic, and for a window of
more than 500 billion years. -/
theorem C80_days_cut :
    times (flagsToOptions { defaults with dt := 2 ^ 57 }) = some (true, false, 0, 0) ∧
    times (flagsToOptions { defaults with dt := -1 }) = some (false, true, 2 ^ 64 - 86400, 0) ∧
    times (flagsToOptions { defaults with w := -1 }) = some (false, false, 0, 2 ^ 64 - 86400) := by decide +kernel

/-- The full statement does not hold: 300 loaders are asked for, 44 are used. -/
theorem C80_statement_false : ¬ C80Statement := by
  intro h
  obtain ⟨o, ho⟩ := (C80_accepted { defaults with tg := 300 }).2 ⟨by decide, by decide, by decide, by simp [defaults]⟩
  have h1 := (h _ o (by constructor <;> decide) (by constructor <;> decide) ho).loaders
  have h2 := C80_loaders_cut.2
  rw [ho] at h2
  simp only [shown, Option.map_some, Option.some.injEq] at h2
  rw [h2] at h1
  revert h1
  decide

/-- With the sizes a run gives them, the notification queues deliver all that is put into them
(C46 for the capacities that occur). -/
theorem C80_queues_deliver {α : Type} (z : α) (f : Flags) (o : Opts) (hn : NonNeg f) (hi : f.Ints) (hf : Fits f)
    (h : flagsToOptions f = .ok o) (sched : List (Mpsc.Act α)) (s : Mpsc.St α)
    (hr : Mpsc.run (Mpsc.init z (queueCap o)) sched = some s)
    (hp : ∀ t, s.ppc t = .idle) (hc : s.cpc = .idle)
    (e : Nat × α) (he : s.tickets[s.gotLog.length]? = some e) :
    ∃ s', Mpsc.run s [.accept, .cStep, .cStep, .cStep] = some s' ∧ s'.gotLog = s.gotLog ++ [e.2] := by
  obtain ⟨k, hk, hge, _⟩ := (C80_as_asked_partial f o hn hi hf h).queue
  have hk1 : 1 ≤ k := by
    rcases k with _ | k
    · exfalso
      obtain ⟨q0, q1⟩ := threads_le o
      have h1 := (Nat.one_le_div_iff (by omega : 0 < Options.threads o)).2 q1
      have h2 : 2 ^ 14 ≤ 2 ^ (14 + f.m.toNat) := Nat.pow_le_pow_right (by omega) (Nat.le_add_right _ _)
      have h3 : 2 ^ 14 * 1 ≤ 2 ^ (14 + f.m.toNat) * (32 / Options.threads o) := Nat.mul_le_mul h2 h1
      have h4 := Nat.le_trans h3 hge
      revert h4
      decide
    · omega
  rw [hk] at hr
  obtain ⟨s', h1, h2, _⟩ := Props.Mpsc.C03_accept_succeeds z k hk1 sched s hr hp hc e he
  exact ⟨s', h1, h2⟩

/-- With the defaults: two producers have put, one item was taken, and the next can be. -/
example (o : Opts) (h : flagsToOptions defaults = .ok o) :
    ∃ s', Mpsc.run ((Mpsc.run (Mpsc.init 0 (queueCap o))
      [.put 1 11, .put 2 21, .pStep 2, .pStep 2, .pStep 2, .pStep 2, .pStep 1, .pStep 1, .pStep 1, .pStep 1, .accept, .cStep, .cStep, .cStep]).getD
        (Mpsc.init 0 0)) [.accept, .cStep, .cStep, .cStep] = some s' ∧ s'.gotLog = [21, 11] := by
  have hc : queueCap o = 2 ^ 24 := by
    have h2 : (shown (flagsToOptions defaults)).map (·.2.2.1) = some (2 ^ 24) := by decide +kernel
    rw [h] at h2
    simpa only [shown, Option.map_some, Option.some.injEq] using h2
  have := C80_queues_deliver 0 defaults o (by constructor <;> decide) (by constructor <;> decide)
    (by constructor <;> decide) h [.put 1 11, .put 2 21, .pStep 2, .pStep 2, .pStep 2, .pStep 2, .pStep 1, .pStep 1, .pStep 1, .pStep 1,
      .accept, .cStep, .cStep, .cStep] _ (by rw [hc]; rfl)
    (by intro t; by_cases h1 : t = 1 <;> by_cases h2 : t = 2 <;> simp [upd, Mpsc.init, h1, h2]) rfl (1, 11) rfl
  rw [hc]
  exact this

/-- The loaders of a run emit the stream of the file (C21), with the columns asked for. -/
theorem C80_stream {E : Type} (ops : Loader.Ops E) (f : Flags) (o : Opts) (hn : NonNeg f) (hi : f.Ints) (hf : Fits f)
    (h : flagsToOptions f = .ok o) (c : Loader.Cfg)
    (hw : c.wPos = if f.pw = 0 then none else some (f.pw - 1).toNat)
    (ht : c.tPos = if f.pt = 0 then none else some (f.pt - 1).toNat)
    (htr : c.transpose = f.tr) (hu : c.undirected = f.u) (hl : c.logicalTime = false)
    (file : List (List UInt8)) (evs stream : List (Loader.Ev E))
    (hread : Props.Loader.Reads ops c 0 file evs) (hst : Props.Loader.IsStream ops c evs stream)
    (qs : Nat → List (Loader.Ev E)) (hq : Props.Loader.FromFile ops (cfg o) (loaders o) file qs)
    (as : List Loader.Act) (s : Loader.St E)
    (hr : Loader.run ops (cfg o) (loaders o) qs Loader.start as = some s) : s.out <+: stream := by
  have ha := C80_as_asked_partial f o hn hi hf h
  have hc : cfg o = c := by
    have e1 := ha.weight
    have e2 := ha.timestamp
    rw [← hw] at e1
    rw [← ht] at e2
    have e3 : (cfg o).transpose = f.tr ∧ (cfg o).undirected = f.u := by
      obtain ⟨h1, h2, h3, h4⟩ := ok_iff f o h
      unfold flagsToOptions at h
      rw [if_neg h1] at h
      dsimp only at h
      rw [if_neg (by rw [h2]; simp), if_neg (by omega), if_neg (by omega)] at h
      cases h
      exact ⟨rfl, rfl⟩
    cases c
    unfold cfg at *
    simp_all
  rw [hc] at hq hr
  exact Props.Loader.C21_in_order ops c file evs stream hread hst (loaders o) (loaders_pos o) qs hq as s hr

/-- With the defaults: the edge "1 2" has arrived from the first of two loaders. -/
example (o : Opts) (h : flagsToOptions defaults = .ok o) (as : List Loader.Act) (s : Loader.St Unit)
    (hr : Loader.run Props.Loader.unitOps (cfg o) (loaders o) (fun i => if i = 0 then [⟨.add, 0, 1, 2, ()⟩] else [])
      Loader.start as = some s) : s.out <+: [⟨.add, 0, 1, 2, ()⟩] := by
  have hc : (shown (flagsToOptions defaults)).map (fun x => (x.2.1, x.2.2.2)) = some (2, none, none) := by decide +kernel
  have hd : (match flagsToOptions defaults with | .ok o => some (o.transpose, o.undirected) | _ => none) =
    some (false, false) := by decide +kernel
  rw [h] at hc hd
  simp only [shown, Option.map_some, Option.some.injEq, Prod.mk.injEq] at hc hd
  have hcfg : cfg o = Props.Loader.plain := by
    obtain ⟨_, e1, e2⟩ := hc
    obtain ⟨e3, e4⟩ := hd
    unfold cfg Props.Loader.plain at *
    simp_all
  refine C80_stream Props.Loader.unitOps defaults o (by constructor <;> decide) (by constructor <;> decide)
    (by constructor <;> decide) h Props.Loader.plain rfl rfl rfl rfl rfl _ _ _ Props.Loader.reads12
    (Props.Loader.isStream_emitAll _ _ _) _ ?_ as s hr
  rw [hc.1, hcfg]
  intro i hi
  rw [Loader.loaded, Props.Loader.loader_eq _ _ _ _ Props.Loader.reads12 _ (by simp [Loader.emptyFields])]
  rcases (by omega : i = 0 ∨ i = 1) with rfl | rfl <;> rfl

end Verif.Props.Options
