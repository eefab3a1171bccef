import Mathlib.Data.Rat.Defs
import Verif.RoundUp
import Verif.Loader

/-!
# From the command line to a run

`graph/graph-options.go` turns flags into options with Go's truncating conversions;
`graph/graph.go` `Init`, `graph/stream.go` `LoadGraphStream` and `graph/algorithm.go` `Run` turn
the options into a number of threads and loaders, sizes of queues, columns, and a strategy.

Not modelled: logging, profiling, the pauses (`graph-options.go:121-125`), names of files, and
whether memory suffices for a queue of the computed size.
-/

namespace Verif.Options

/-- `THREAD_MAX` (`graph/graph.go:26`). -/
def threadMax : Nat := 32

/-- `BASE_SIZE` (`graph/graph.go:33`). -/
def baseSize : Nat := 4096 * 4

/-- The conversion of an `int` to an unsigned type of `k` bits. -/
def toUnsigned (k : Nat) (x : Int) : Nat := (x % 2 ^ k).toNat

/-- The conversion of an `int` to a signed type of `k` bits. -/
def toSigned (k : Nat) (x : Int) : Int := x.bmod (2 ^ k)

/-- The flags (`graph/graph-options.go:50-88`), as parsed by package `flag`; integers are 64 bits
wide (`Flags.Ints`). Left out: `-profile`, `-pprof`, `-nc`, `-tquery`. -/
structure Flags where
  g : String
  m : Int
  s : Bool
  sprev : Bool
  d : Bool
  de : Int
  dt : Int
  dr : ℚ
  pt : Int
  pw : Int
  w : Int
  poll : Nat
  refine : Int
  u : Bool
  tr : Bool
  o : Bool
  osync : Bool
  c : Bool
  p : Bool
  debug : Int
  t : Int
  tg : Int

/-- The values package `flag` can deliver: `Int` and `Uint` flags are parsed with 64 bits, and
others are rejected. -/
structure Flags.Ints (f : Flags) : Prop where
  m : -2 ^ 63 ≤ f.m ∧ f.m < 2 ^ 63
  de : -2 ^ 63 ≤ f.de ∧ f.de < 2 ^ 63
  dt : -2 ^ 63 ≤ f.dt ∧ f.dt < 2 ^ 63
  pt : -2 ^ 63 ≤ f.pt ∧ f.pt < 2 ^ 63
  pw : -2 ^ 63 ≤ f.pw ∧ f.pw < 2 ^ 63
  w : -2 ^ 63 ≤ f.w ∧ f.w < 2 ^ 63
  poll : f.poll < 2 ^ 64
  refine : -2 ^ 63 ≤ f.refine ∧ f.refine < 2 ^ 63
  debug : -2 ^ 63 ≤ f.debug ∧ f.debug < 2 ^ 63
  t : -2 ^ 63 ≤ f.t ∧ f.t < 2 ^ 63
  tg : -2 ^ 63 ≤ f.tg ∧ f.tg < 2 ^ 63

/-- `GraphOptions` (`graph/graph-options.go:14-45`), the fields set from flags; the types of
`NumThreads`, `LoadThreads`, `TimestampPos`, `WeightPos`, `QueueMultiplier`, `DebugLevel`,
`PollingRate`, `AsyncContinuationTime`, `TimeSeriesInterval`, `InsertDeleteOnExpire` show as the
ranges of the conversions in `flagsToOptions`. -/
structure Opts where
  name : String
  numThreads : Nat
  dynamic : Bool
  sync : Bool
  queueMultiplier : Nat
  undirected : Bool
  transpose : Bool
  writeVertexProps : Bool
  targetRate : ℚ
  checkCorrectness : Bool
  debugLevel : Nat
  logTimeseries : Bool
  timeseriesEdgeCount : Bool
  timeSeriesInterval : Nat
  insertDeleteOnExpire : Nat
  asyncContinuationTime : Int
  oracleCompare : Bool
  syncPreviousOnly : Bool
  oracleCompareSync : Bool
  pollingRate : Nat
  loadThreads : Nat
  timestampPos : Int
  weightPos : Int

/-- How `FlagsToOptions` ends. -/
inductive Parsed where
  | usage
  | panics
  | ok (o : Opts)

/-- Seconds of a number of days in `uint64` (`graph/graph-options.go:107, 111`). -/
def days (x : Int) : Nat := 24 * 60 * 60 * toUnsigned 64 x % 2 ^ 64

/-- `FlagsToOptions` (`graph/graph-options.go:90-166`). -/
def flagsToOptions (f : Flags) : Parsed :=
  if f.g = "" then .usage else
  let dynamic := f.d || decide (0 < f.dr) || decide (0 < f.de) || decide (0 < f.dt)
  let useSync := f.s || f.sprev
  if useSync && dynamic then .panics else
  let tsInterval := if 0 < f.de then toUnsigned 64 f.de else days f.dt
  let deleteOnExpire := days f.w
  if f.t ≤ 0 then .panics else
  if f.tg ≤ 0 then .panics else
  .ok {
    name := f.g
    numThreads := toUnsigned 32 f.t
    dynamic := dynamic
    sync := useSync
    queueMultiplier := toUnsigned 8 f.m
    undirected := f.u
    transpose := f.tr
    writeVertexProps := f.p
    targetRate := f.dr
    checkCorrectness := f.c
    debugLevel := toUnsigned 8 f.debug
    logTimeseries := decide (0 < tsInterval)
    timeseriesEdgeCount := decide (0 < f.de)
    timeSeriesInterval := tsInterval
    insertDeleteOnExpire := deleteOnExpire
    asyncContinuationTime := toSigned 32 f.refine
    oracleCompare := f.o
    syncPreviousOnly := f.sprev
    oracleCompareSync := f.osync
    pollingRate := f.poll % 2 ^ 32
    loadThreads := toUnsigned 8 f.tg
    timestampPos := toSigned 8 f.pt
    weightPos := toSigned 8 f.pw }

/-- `Init`: `g.NumThreads` (`graph/graph.go:112-118`). -/
def threads (o : Opts) : Nat :=
  if o.numThreads = 0 then 1 else if threadMax < o.numThreads then threadMax else o.numThreads

/-- `Init`: `g.Options.LoadThreads` (`graph/graph.go:120-122`). -/
def loaders (o : Opts) : Nat := if o.loadThreads = 0 then 1 else o.loadThreads

/-- `Init`: the size asked for each notification queue (`graph/graph.go:126-129, 141`).
`notifQueueSize` is an `int`, `1 << m` wraps at 64 bits; as the product is converted to `uint64`
in the end, all of it is arithmetic modulo `2 ^ 64`. -/
def queueSize (o : Opts) : Nat :=
  let size := if 0 < o.queueMultiplier then baseSize * 2 ^ o.queueMultiplier % 2 ^ 64 else baseSize
  size * (threadMax / threads o) % 2 ^ 64

/-- The number of slots of a notification queue (`utils/ring-buffer.go:204-205`). -/
def queueCap (o : Opts) : Nat := (RoundUp.roundUpPow (UInt64.ofNat (queueSize o))).toNat

/-- `int32(pos - 1)`, with `pos - 1` in `int8`; a negative position is not read
(`graph/stream.go:258, 317`, `graph/graph-edge.go:68-75`). -/
def column (pos : Int) : Option Nat :=
  if 0 ≤ toSigned 8 (pos - 1) then some (toSigned 8 (pos - 1)).toNat else none

/-- What the loaders are given (`graph/stream.go:317`); logical time is not a flag. -/
def cfg (o : Opts) : Loader.Cfg where
  wPos := column o.weightPos
  tPos := column o.timestampPos
  transpose := o.transpose
  undirected := o.undirected
  logicalTime := false

/-- The strategies of `Run`. -/
inductive Mode where
  | dynamic | syncPrevOnly | sync | async
  deriving DecidableEq

/-- `Run` as called by `Launch` (`graph/algorithm.go:105-117, 211`). -/
def mode (o : Opts) : Mode :=
  if o.dynamic then .dynamic
  else if o.sync && o.syncPreviousOnly then .syncPrevOnly
  else if o.sync then .sync
  else .async

/-! ## Conversions within range -/

theorem toUnsigned_of {k : Nat} {x : Int} (h0 : 0 ≤ x) (h : x < 2 ^ k) : toUnsigned k x = x.toNat := by
  unfold toUnsigned
  rw [Int.emod_eq_of_lt h0 h]

theorem toUnsigned_lt (k : Nat) (x : Int) : toUnsigned k x < 2 ^ k := by
  unfold toUnsigned
  have h1 : (0 : Int) < 2 ^ k := by exact_mod_cast Nat.two_pow_pos k
  have h2 := Int.emod_lt_of_pos x h1
  have h3 := Int.emod_nonneg x (Int.ne_of_gt h1)
  have : ((x % 2 ^ k).toNat : Int) < (2 ^ k : Nat) := by
    rw [Int.toNat_of_nonneg h3]; push_cast; exact h2
  exact_mod_cast this

theorem toSigned_8 {x : Int} (h0 : -128 ≤ x) (h : x < 128) : toSigned 8 x = x := by
  unfold toSigned Int.bmod
  dsimp only
  split <;> omega

theorem toSigned_32 {x : Int} (h0 : -2 ^ 31 ≤ x) (h : x < 2 ^ 31) : toSigned 32 x = x := by
  unfold toSigned Int.bmod
  dsimp only
  split <;> omega

theorem days_of {x : Int} (h0 : 0 ≤ x) (h : x < 2 ^ 47) : days x = 86400 * x.toNat := by
  unfold days
  rw [toUnsigned_of h0 (by omega)]
  omega

theorem threads_le (o : Opts) : 1 ≤ threads o ∧ threads o ≤ threadMax := by
  unfold threads threadMax
  split
  · omega
  · split <;> omega

theorem loaders_pos (o : Opts) : 1 ≤ loaders o := by
  unfold loaders
  split <;> omega

end Verif.Options
