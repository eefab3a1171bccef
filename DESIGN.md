# Design

Subject: the Go sources under `/repo` (ScottSallinen/lollipop). This file says, per
property of `properties.jsonl`, what is modelled and how it is to be proved, what is trusted,
and where model and code disagree or the code violates the property.

## Trusted base

* Lean 4.33.0's kernel, and the axioms `propext`, `Classical.choice`, `Quot.sound`. No other
  axiom, no `sorry`, no `native_decide`/`bv_decide`. Each property file ends with
  `#print axioms`-style checks run during development (see "Axioms" below).
* The hand translation from Go to Lean: each Lean definition cites file and lines. No
  translation tool is involved. What is lost in it is listed below.
* Go's memory model for `sync/atomic`: all atomic operations are modelled as sequentially
  consistent single steps. Plain writes that are published by a later atomic store are
  modelled as happening at or before that store.

### Modelled vs not modelled

| part | modelled | not modelled |
|---|---|---|
| `utils/ring-buffer.go` | SPSC, MPSC, Growable; each atomic load/store/CAS is a step | cache-line padding, `runtime.Gosched`, retry counters |
| `utils/deque.go` | block layout, ring, push/pop | pooling/GC effects |
| `utils/bitmap.go`, `atomics.go`, `priority-queue.go`, `helpers.go`, `sorting.go`, `rbo.go`, `io.go`, `stopwatch.go` | the functions named in the properties | logging, formatting, memory statistics, float rounding |
| `graph/graph-vertex.go`, `graph-edge.go`, `stream*.go` | ids, packing, loader/emitter/remitter order, remit, grouping, enact, expiry, delete injection | flags parsing, file opening, logging, performance counters |
| `graph/run-*.go`, `algorithm.go`, `termination.go` | notification protocol, message loop, vote protocol | target-rate throttling, sleeping, debug output |
| `cmd/lp-sssp, lp-cc, lp-pagerank, lp-colouring, lp-tc, lp-temporal-paths` | the algorithm callbacks | visualisation/time-series printing |

64-bit positions of queues are modelled as natural numbers (2^64 puts never happen); where
wrap-around of unsigned arithmetic matters for a result (space check, event packing, ids,
parsing) it is modelled explicitly (`UInt64`/`UInt32`/`BitVec` or `% 2^k`). Floating point is modelled by
an ordered field / linear order where stated; rounding is not modelled.

## Per property plan

Each property gets theorem(s) in a `Verif/Props/*.lean`-style file, kept apart from the model
and from helper lemmas, with an `example` that instantiates its hypotheses non-trivially.

* **C01** State machine of producer and consumer program counters over ring array and the two
  counters; each atomic op one step. Prove by invariant: received is a prefix of put.
* **C02** Same machine plus `Close`. Expected violated: `GetSlow` loads `enqueue`, then loads
  `status`; a put+Close between them loses the item. Prove the negation with a concrete run and
  a `_partial` theorem (if the closed status was set before the emptiness load, nothing is lost).
* **C03** State machine with an arbitrary (function-indexed) set of producers; ticket + per-slot
  sequence number. Invariant on slot positions; ghost log of tickets.
* **C04** State machine with a chain of buffers. With an atomic receive: full FIFO refinement.
  With the receive split in its two loads: negation witness (growth between the loads).
* **C05** Arithmetic over `UInt64` + monotonicity of the consumer counter in the C01 machine;
  invariant that remit keeps in-use < size. Negation for a completely full buffer (underflow).
* **C06** Function-by-function model of the block ring; refinement to `List`.
* **C07** Model of one receive/process loop; invariant `processed ++ deque ++ queue = arrivals`.
* **C08** Bit-smearing on naturals/BitVec 64; proof by bit-level lemma.
* **C09** Words as naturals/UInt64; membership spec. `Grow` violates the claim (off by one):
  negation and partial.
* **C10** Array heap; permutation and min theorem.
* **C11** Loop invariant.
* **C12** Model as insertion-stable sort spec on (value,index): the Go library's `sort.Stable`
  is trusted to be a stable sort; we prove the wrapper's swap keeps values and indexes aligned.
* **C13** Bounded heap; result theorem or negation (n=0; index off by one).
* **C14** Incremental overlap equals intersection size.
* **C15** Negation (`[1,2,3]`) and partial for what does hold.
* **C16** Byte loops; round-trip with decimal printing; token-split spec.
* **C17** Reader with nondeterministic chunk sizes; invariant on buffer contents.
* **C18, C19** BitVec/Nat div-mod arithmetic.
* **C20** List of lists flattening.
* **C21, C22** Loader i gets lines = i mod n; emitter round robin; equality with filtered file.
* **C23, C45** Fold over a stream; per-thread map.
* **C24, C25** The pending arrays and edge array with in-place edits; refinement to sequential
  spec.
* **C26** Fold with expiry queue; partial for all-add batches, negation for mixed batches.
* **C27** For every oracle of random choices: permutation theorem.
* **C28** Load/CAS step machine with arbitrary threads.
* **C29, C30** Step machine of senders and owner for one vertex.
* **C31, C32, C36, C43** Asynchronous fixpoint with arbitrary schedule; invariants + fixpoint
  uniqueness.
* **C33** Exact rational arithmetic; invariant over every operation.
* **C34** Priorities/colour invariants.
* **C35, C56** Step machine of the vote protocol, one shared-memory access per step, any number
  of threads, senders and receivers abstract. Invariants on clocks, votes and views. Both are
  violated by the order of two stores; negation by a two-thread run, partial theorems for
  executions in which no thread reads the vote array between these stores. C56 with a ranking
  argument: six passes of each thread suffice.
* **C37, C61** The windows are computed from the mailbox by a pure function: C37 is about that
  function (negation by witness, partial for deposits in order of time), C61 about whole runs of
  the `Async` machine with edges that end in place. Invariant: every slot of a mailbox holds the
  current offer of its edge, or the edge's mail is on its way.
* **C62** Convergence of the least-label algorithms: a label is always the value of a path without
  repetition, of which there are finitely many; ranks of labels plus outstanding work (program
  steps, notifications) give a potential that every step lowers (`Verif/Work.lean` is generic in
  the algorithm).
* **C63** Product of the vote protocol and the `Async` machine (`Verif/Engine.lean`): the queues of the one
  carry the notifications of the other; every run projects to a run of each. Protocol part by ordering the
  threads by the time of their last report (`Verif/TerminateAll.lean`).
* **C64** Infinite fair executions of the product machine: C62 stops the algorithm, measures on the loops show
  that nothing is left over, then C56. Negation by the schedule of C35 with shortest paths attached.
* **C65** The simulation of C36 with counts: each step of a synchronous run is matched by a step of the asynchronous
  run, or lowers a measure that such a step raises by a bounded amount; a barrier that starts a further iteration is
  paid for by a counted notification (`Verif/SyncLive.lean`). C62 bounds the asynchronous run from its start
  (`Verif/MinLabelInit.lean`). That a run which is not stopped can go on comes from C58 or from queues larger than
  the bound.
* **C66** A potential: mail, withheld inflow, initial mail not yet sent and posts a task will still make, in absolute
  value. It never grows while the graph stays as it is (the share of each edge is the amount divided by the number of
  edges), and a visit that passes anything on absorbs more than `(1-d) ε` of it; other visits post nothing
  (`Verif/PageRankConv.lean`). Composed with the generic step count (`Verif/Work.lean`, `Verif/WorkInit.lean`), with
  C64 for returning, and with the simulation of C65 for synchronous runs. The exact ranks exist because the linear map
  of the equations is injective on a finite-dimensional space. For the synchronous residual an invariant of its own
  (`Verif/PageRankSync.lean`): mailboxes over the threshold belong to vertices that are active or about to be.
* **C67** News goes only to vertices of lower priority. A generic bound for such algorithms (`Verif/Downhill.lean`): a
  notification of a vertex of rank `i` is worth `(2B+2)^i` further ones if visits post at most `B` times. Composed as
  C66. Negation for self loops: two neighbours and a self loop, a schedule that leads back to the same state and is
  repeated (`Verif/Pump.lean`).
* **C68** `MailMerge` with its atomic accesses as separate posts (`Verif/ColouringWait.lean`). Ghost list per vertex of
  the accesses it still has to make (`rest`); a counter equals the number of prior neighbours whose `sub` is in such a
  list, and a vertex is notified only when that is zero, when all colours it depends on are stored. Existence and
  uniqueness of the sequential colouring by well-founded recursion on priority. Steps: each post shortens a list.
  Synchronous runs by C36 and the simulation of C65. Whole executions that meet the hypotheses of the theorems on
  returning are built by `Verif/Props/EngineCase.lean`.
* **C69** Same machine as C38. A measure over vertices (edges still to arrive, initial notification, notices on their way,
  each with the number of notices it can cause at most) falls with every step; a state in which no step is possible is
  `Done`, so C38 gives the count. Partial for the same reason as C38: ids from 2^31 - 1 on (`C69_false`).
* **C70** `Verif/ColouringMsg.lean`: a machine of its own, with a queue per vertex taken in order of arrival. Invariant:
  for each edge, the entry of the target once everything on its way has arrived is the colour of the source
  (`seen`); no entry of a neighbour with priority equals the own colour. Measure: only notes with priority make a
  vertex give up its colour, weighted by rank. With wait counts: the count is the number of entries still magic.
  Negations: a self loop (invariant of all runs), in-edges and out-edges in different orders (concrete run).
* **C71** `Verif/Compare.lean`: `ResultCompare` as a function on lists with Go's integer arithmetic and index panics;
  the order statistics are stated by counting (how many distances are larger or smaller), not by sorting.
* **C72** `Verif/BackOff.lean`: the waiting loops against an arbitrary sequence of poll results. The count at each turn is
  computed in closed form, which gives the exact number of idle turns that are survived.
* **C73** `Verif/SuperStep.lean`: the termination machine extended by the modes of a thread at the barrier and two token
  counters. Invariants: tokens are waiting threads; a released thread has vote 0 and nobody has counted it, so no check
  can return true before all have left the previous meeting; a callback that sends restarts the termination invariants.
* **C74** `Verif/Props/Series.lean`, on the machine of `Verif/Query.lean`: the log, the query being finished and the query in
  hand are together the queries asked so far. Without `OnFinish` the entry is made before the remitter goes on.
* **C75** `Verif/Table.lean`: the list of ten, columns by first occurrence, lines filled through the index; `findTopN` and
  its specification are those of C13. The rates keep three arrays; the invariant says of which queries they are.
* **C76** `Verif/Stats.lean`: folds per thread; closed forms over the concatenation of all threads' vertices, which are
  invariant under permutation.
* **C77** `Verif/OracleCopy.lean`: memory with addresses of buckets and arrays; the copy gets fresh addresses, so writes through
  the oracle do not reach the graph. `Verif/OracleRace.lean`: save, finish, compare and put back vertex by vertex,
  interleaved with graph threads and the reader of a query. The event index passed to `OnFinish`: `C77_latest_partial`.
* **C78** `Verif/Check.lean`: the six `OnCheckCorrectness`. `Verif/Props/Check.lean`, `CheckPaths.lean`, `CheckRank.lean`: on results of completed
  runs via C21, C22, C36, C38, C55, C61; on arbitrary results what passing implies. For temporal paths a further
  invariant: all windows last, if all edges do.
* **C79** `Verif/TempPathsConv.lean`: a measure on top of `Verif/Work.lean`, which goes down with every mail that is news: for each edge,
  whether its entry differs from what the windows of its source offer and whether these differ from what its mailbox would
  give, with weights that grow with the number of edges starting later. `Verif/Props/TempPathsConv.lean`, and in the engine
  `Verif/Props/TempPathsEngine.lean` (C63, C64).
* **C80** `Verif/Options.lean`: flags, `FlagsToOptions` with its truncating conversions, the part of `Init` that sizes
  things, the columns given to the loaders, the choice of strategy. `Verif/Props/Options.lean`: `AsAsked` relates flags and
  run without the conversions; one theorem per conversion that cuts; composition with C03/C46 (queues) and C21 (stream).
* **C81** `Verif/Built.lean`: the stages from file to edge lists as one relation (`Complete`), the resulting edge lists as a
  graph for the engine (`graphOf`), and the equations between graph and lines of the file. `Verif/Props/Answer.lean`: walks,
  connection and neighbours in terms of lines of the file; composition of C21, C45, C52, C54 with C63, C64, C67. Static and
  dynamic runs are one statement (`Ran.graph`: the graph at the start and the edges appended are together those of the
  events). `Verif/Props/AnswerCase.lean`: concrete runs for each theorem and the schedule that loses a line.
* **C82** `Verif/EnactAny.lean`: what applying batches means with any options (expiry, time ranges). `Verif/GraphStats.lean`:
  the counters and the report. `Verif/Props/GraphStats.lean`: the in-degrees counted on conversion are those of the edge
  lists (by C23, C45, C52 and `enactAll_any`); counters modulo 2^32.
* **C83** `Verif/Buckets.lean`: one owner appends to the slice of buckets, the words of the slice (array, length) and the
  new slot are written in any order; other threads read them one at a time. `Verif/Props/Buckets.lean`: every array that can be
  read agrees on the buckets that existed when the reader learnt its id.
* **C84** `Verif/ResultFile.lean`: the bytes written, the name of the file. `Verif/Props/ResultFile.lean`: the file is read
  back (lines by `IsLines` of C15, number before the first comma by `toInt` of C16) and compared with the vertices named in
  the input and the answers of C81; for that, no vertex is made that is not named in the input. How a property is printed is a
  parameter, except for components (`&{n}`).
* **C85** `Verif/Launch.lean`: `LaunchGraphExecution`, the flags, what `NewVertex` and `SendInitialMail` give, `blankAlg`.
  `Verif/Props/Launch.lean`: both against `promised`, the priorities written down in `graph.go:52-53`; for loading, the engine of
  C63 runs `blankAlg`: what it leaves is the state in which C29-C34, C63 and C81 begin.
* **C86** `Verif/Asks.lean`: the counters of the remitter, with 64-bit words. `Verif/Props/Asks.lean`: invariants over the events passed
  on; undirected streams by the specification of C22; the pipeline by C52; the wrong components in the machine of C32.
* **C87** `Verif/Props/AnswerRanks.lean`: the equations of the lines of a file; sums over edge lists of the graph regrouped as sums over lines;
  C33, C63, C66 and `Loaded`/`Ran` of C81. `Verif/Props/AnswerRanksCase.lean`: a dynamic run computed step by step.
* **C88** `Verif/SameGraph.lean` (`CheckGraphStructureEquality`, test events), `Verif/Props/SameGraph.lean`: the check as a statement about
  raw ids (counting: an injection between sets of the same size); a run has exactly the vertices named in its stream (induction over steps)
  and as many edges as adds less deletes (C24, `enactAll_any`). `Verif/Props/SameGraphCase.lean`: the race, cases.
* **C89** `Verif/Props/AnswerTimes.lean`: C81 for temporal paths. The edges of a run per vertex are those of the stream (C54), so the
  hypothesis `TimeOrdered` of C61/C63/C64/C79 follows from the order of the file and the numbering of in-edges (C23); `Reach` in the
  graph is `FileReach` in the file. Logical time is covered. `Verif/Props/AnswerTimesCase.lean`: the race, a case.
* **C90** `Verif/EdgeProps.lean` (`WithTimestamp`, `TimeRangeEdge`, the loop of `strconv.ParseUint`), `Verif/Props/EdgeProps.lean`:
  the loop on digits by induction, overflow included; tokens of a line are unique (C16). Negation: `2 3 1.5`.
* **C91** `Verif/Weights.lean` (`WithWeight`, `strconv.ParseFloat(s, 32)`: `readFloat`, `special`, rounding to 24 bits with ties to even),
  `Verif/Props/Weights.lean`: a grammar of decimal numbers and its values, independent of the reader; the reader on it; rounding is
  monotone, exact on numbers of 24 bits, and close; "inf", "infinity" and "nan" in any letters (`C91_infinity`, `C91_nan`). `Verif/Props/AnswerWeights.lean`: walks along the numbers written and walks along the
  weights read, with C81. Case: `1 2 0.1`, `2 3 3`.
* **C92** `Verif/Pace.lean` (`Remitter` 135-144: one turn for each event, the delays and the readings of the stopwatch are inputs),
  `Verif/Props/Pace.lean`: events passed on against time since the start. Invariant: count within the larger of the rate and 100 per
  second, target within the rate.
* **C93** `Verif/Props/AnswerSync.lean`: C81 for the synchronous variants (C36, C65) and for messages (C43, C63). The synchronous model
  numbers the vertices from 0; `Numbered` relates any numbering to the graph of the file, walks and components are carried along it.
  Cases and the negation in `Verif/Props/AnswerSyncCase.lean`. Ranks and colours (C66, C67, C87) in `AnswerSyncRanks.lean`: sums over
  the numbers are reindexed, edges with positions are a permutation of the renumbered stream; cases in `AnswerSyncRanksCase.lean`.
* **C94** `Verif/IndexQueue.lean` (`PriorityQueueSf`, `utils/sorting.go` 98-143; container/heap with comparisons that can panic),
  `Verif/Props/IndexQueue.lean`: without panics the routines are those of C10; specification by a bag of positions. Negation and an
  exact account of `Insert`.
* **C95** `Verif/MsgPathConv.lean`, `Verif/Props/MsgPathConv.lean`: as C62 for `sssp-msg.go`. The measure pays for sends (there is no
  limit on notifications outstanding) from the values a vertex can still take, its deferred improvement and the program left.
  With it C64 (`C64_messages_partial`) and C93 (`C93_messages_return_partial`) for messages.
* **C96** `Verif/Timers.lean`: the machine of C59 with the stopwatch of C39 and a clock; ghost clocks for the time in and outside
  queries. Invariant: `AlgTimer` is paused exactly in the stretches that do not count. Negation for `AllowAsyncVertexProps`.
* **C97** `Verif/QuerySteps.lean`: the machine of C59 with the second case of the termination check (`run-dynamic.go` 277); the
  same machine if the topology is never blocked alone, a thread that aborts otherwise.
* **C98** `Verif/EnactRange.lean`: the time-range branch of the topology model of C25. `rangeRule` handles changes one at a time; a run
  of deletes with its kept index is shown to do the same. The window follows from an invariant on the queue of expiries.
* **C99** `Verif/PullLoop.lean`: the topology part of the loop of `ConvergeDynamicThread` with the buffer, `pullUpToBase` and the signals; the
  queue is a list whose `Accept` may fail once after a growth. Invariant by fields; for leaving, a strategy with a decreasing measure.
* **C100** `Verif/Props/AnswerGreedy.lean`: C68 and C70 for a file. The stream of undirected mode is a list of pairs of edges in both directions; counting
  along it shows that out- and in-edges are numbered in step, which is the hypothesis `Aligned` of C70. `AnswerGreedyCase.lean` has the case "1 2" and the negation of the full statement.
* **C101** `Verif/Props/AnswerTriangles.lean`: C38, C69 and the check of C78 for a file. Triangle counting has a machine with its own account of arriving edges;
  both number the arrows of the doubled lines, so the out-edges agree. For the violation: a run that goes on as long as it can (C69 bounds it) on a complete graph.
* **C102** `Verif/Assume.lean`: `CheckAssumptions` and `InjectExpired` for an edge type given by its methods. `Verif/Props/Assume.lean`: against "what is put in can be read again".
* **C38** Invariant per pair of adjacent edges on the `Async` machine; each triangle is counted by
  exactly one of its closing events. Negation for ids from 2^31-1 on.
* **C39-C42, C44** Small machines / folds. C42 together with C59 and C60 on one machine of the
  query protocol (commands, acknowledgements, the two-epoch response). A look at a topology queue may miss its events once
  after the queue has grown (`grow`, `miss`); such a look is followed by a report, not by a vote (`votes`). The guard `votes` is not in the code: it is
  proved (`C59_vote_empty`, `Verif/Looks.lean`) for the two rings of the queue, the loop and the view of the check; the machines are not joined.
* **C46, C47** Negations at the edge of the capacity range, and the range in which they hold.
* **C48** The machine of C04.
* **C49** The deque model without `Init`.
* **C50, C51** The parsing functions of C16/C17 with the per-loader scratch fields.
* **C52, C53** The pipeline machine (emitter, threads, remitter with bounded queues); C53 by a
  measure on the states.
* **C54** Composition of loader/pipeline (C21, C52) with enactment (C24, C25). For streams of additions `C54_adds_any`
  needs no window and at most 2^32 events, and allows time ranges and timestamps out of order.
* **C55** `OnFinish` as a fold over the final state of C33.
* **C57, C58** The machines of C29/C36 with bounded notification queues.

## Static and dynamic runs

The `Async` machine starts from an arbitrary edge function, so it covers both runs over a graph that was
loaded before (`algorithm.go:184-199` loads with a blank algorithm and then sends the initial mail) and
runs where edges arrive while the algorithm is running; mixed runs as well.

## Axioms

Every theorem named in `MANIFEST.json` was checked with `#print axioms`: only `propext`, `Classical.choice`
and `Quot.sound` occur. `vcheck` repeats that check on the committed tree.

## Findings (model or code)

Places where the code does not do what its users would expect. Where a theorem shows it, its name is given.

Queues and containers
* Close races (`C02_statement_false`, `C02_mpsc_close_race`): a receive that finds the queue empty loads the
  closed flag afterwards; an item put and a `Close` between the two loads are taken for "closed and empty".
  The loaders and the emitter inherit this: the last edge can be lost (`C21_statement_false`). So does
  `checkToRemit` (stream.go:112), which ignores the result and passes on an all-zero event, that is an edge
  0 -> 0 (`C52_statement_false`).
* Growth race of `GrowableRingBuff` (`C04_grow_race_loses_items`): a receive that loaded the old buffer as
  empty and then sees the new one moves on although the old one has been filled meanwhile.
* Capacity 1 of the MPSC queue overwrites items (`C03_capacity_one_false`).
* `EnqCheckRange` underflows on a full queue (`C05_unrestricted_false`).
* `Bitmap.Grow` is off by one at multiples of 64 (`C09_grow_statement_false`).
* The zero value of the deque is not usable, contrary to its comment (`C49_zero_value_false`).
* `FindTopN` panics for 0 (`C13_zero`); `Median` of an even number of values and `Percentile` 100 are
  wrong / out of range (`C15_*`); RBO of empty lists is 0/0 (`C14_empty_not_a_number`).

Input
* Raw ids of 2^32 and more wrap in the default id type (`C16_toInt_decimal_mod`).
* A blank line panics (`C51_blank_line_panics`).
* A line with missing columns reuses the columns of the line the same loader parsed before
  (`C50_statement_false`).
* Edge list tools: the output file is opened read-only, so nothing is written (`C41_no_output`); timestamps
  are compared as strings (`C41_by_value_false`); the order of equal timestamps depends on the number of
  threads (`C41_order_false`); a line over 64 KiB silently ends the input (`C41_overlong_false`);
  `-t 0` panics.

Topology
* Deletes among parallel edges: the search starts where the previous delete of the batch found its edge, so a
  later parallel edge can be removed (`C25_false`), the result depends on batch boundaries
  (`C54_batches_matter`), and generator and graph can disagree about edge properties (`C27_properties_false`).
* Sliding window: expired edges are deleted after the later additions of the batch (`C26_false`), explicit
  deletes make it panic (`C26_explicit_delete_panics`, `C26_deleted_twice_panics`) or keep an edge beyond its
  window (`C26_explicit_delete_shifts`), and what expires depends
  on the number of threads (`C26_threads`).

Running
* Vote protocol: the view is stored before the own vote is cleared (termination.go 44-45); a delay between
  the two stores allows a false termination (`C35_false`) and a hang (`C35_hangs`, `C56_false`, `C64_false`).
  It never makes the run return too early: for that all threads would have to leave (`C63_all`). The arrays
  are also accessed without synchronisation, which is outside of the model.
* A thread whose own queue is full waits for itself (`C57_stuck`, `C57_false`).
* `ConvergeSync`: `Accept` may come before the notification is in the queue; the notification stays over, and
  with tight capacity the run blocks (`C58_stuck`). Activity values of 2 and more are dropped.
* Queries with `OnFinish` read the live graph after `RESUME` (`C59_false`).

Algorithms
* PageRank: a mailbox that holds exactly the threshold never notifies again (`C33_residual_false`); the final
  pass divides by zero if all vertices are sinks, for a single vertex, and if no sink receives anything
  (`C55_false`), and it ignores what is left in the mailboxes.
* Colouring: with a self loop a run need not end (`C67_selfloop_false`): the vertex notifies itself of each new
  colour, and dodges a neighbour that dodges it at the same time. After deletions a colour can exceed the degree
  (`C34_degree_deletions_false`); the header of the `NbrScratch` slice is read without the lock (outside of the model).
* Colouring with `-WaitCount`: a vertex counts its out-neighbours but is told by its in-neighbours, so on a graph that
  is not undirected it can wait for ever (`C68_directed_false`).
* Message-passing colouring: with a self loop a run never ends (`C70_selfloop_false`): the vertex takes its own note for
  that of a neighbour with priority. `BaseVertexMailbox` labels entries by out-edge, but notes come by in-edge; with
  `-WaitCount`, where the orders differ, a vertex waits for ever (`C70_wait_false`).
* Triangle counting loses triangles from id 2^31 - 1 on (`C38_false`).
* Temporal paths: the array of a heap is iterated as if it were sorted; input that is not in order of time
  aborts (`C37_false`, `C61_needs_order`).
* `ResultCompare` panics for one vertex, and when all values are ignored (PageRank with all masses zero)
  (`C71_panics_iff`). Its unsigned differences wrap around (`C71_unsigned_false`), and the two middle values are averaged
  for odd lengths instead of even ones (`C71_median_false`).
* `BackOff` panics after about 200 s without progress: a pause of that length in the input stream, or another thread busy
  for that long, ends the process (`C72_queue_false`, `C72_idle_false`, `C72_dynamic_false`).
* **C74**: nobody waits for `QueryFinishConcurrent`. With `OnFinish`, `Launch` may return before the last query is in the
  series, and `Run` normalises the properties in place while `OnFinish` of that query reads them.
* **C75**: with fewer than ten vertices, `res` keeps pairs `{0, 0}` (`timeseries.go:62`): there is a column for vertex 0 even
  if it does not exist, and if it does, its mass is overwritten with 0 and not shown.
* **C76**: `pctOfActiveIsCurrentVisitable` divides all vertices that can be visited now by the active ones and can exceed
  100; `numActiveAndVisitable` is computed and not used. `wZMin` is `MaxUint64` if all starts are 0. `minStart` and `minEnd` are
  not reset between windows, so with `printAll` the minima of later windows are those of all windows so far. The first line
  of the colouring's snapshots says 0 colours; the other file has a column name `colourCount` and no such column.
* `lp-pagerank/main.go:40`: `oracleFile := …` shadows the package variable that `OnOracleCompare` writes to
  (`correctness.go:141`), which stays nil: `results/oracleComp.csv` has only its header. (Not modelled.)
* **C77**: `CompareToOracle` at a query with `AllowAsyncVertexProps` (set by PageRank) and `NoConvergeForQuery`: the threads were only
  asked to stop the topology, and what they do between saving and restoring the properties is lost
  (`C77_live_false`). Also in the other modes: the query was handed to `QueryFinishConcurrent` before the comparison, which reads the
  properties of the graph while these are finished for the comparison (`C77_read_false`).
* **C78**: the checks of results accept wrong results and reject right ones. Shortest paths: values that are too small pass
  (`C78_sssp_false`); two sources with initial values 0 and 5 one edge of weight 1 apart panic (`C78_sources_false`). Components: two
  components with the same label pass; a vertex without edges whose raw id is 2^32-1 panics (`C78_cc_alarm`). Colouring: neighbours of the
  same colour are only a log line unless the edge has a reverse edge (`C78_colour_false`); the number of colours logged counts
  unused ones, so the ratio logged beside it is always 1 (`C78_colours_false`, `C78_ratio`). Triangles: sums are 32 bits per
  thread (`C78_tc_false`). PageRank: panics on ranks that are not numbers (`C78_pagerank_false`), accepts any that sum to one. Temporal
  paths: missing windows pass (`C78_paths_false`), an edge that ends before it starts panics (`C78_paths_needs`).
* C80: numbers on the command line are converted without a check: `-tg 300` loads with 44 threads, `-tg 256` with one,
  `-t 4294967297` runs one thread, `-m 50` makes notification queues of capacity 0, `-pt 257` reads timestamps from the first
  column, `-dt -1` starts a time series in a run that is not dynamic (`C80_*_cut`).
* C81: a complete run on the file "1 2", "2 3" can end, without any error, without vertex 3 (`C81_statement_false`; the race
  of C02).
* C82: with time ranges the report counts ended edges in all degrees but not in the number of edges (`C82_false`).
* **C84 names of result files** (`C84_names_false`, `C84_base_false`): `PathlessName` drops the directories and all but one
  part before the last dot. Results for `a/test.txt` and `b/test.txt`, or `a.b.txt` and `b.txt`, go to one file; the second run
  overwrites the first. Synchronous and asynchronous static runs also share their file.
* **C85 zero mail** (`C85_nothing`, `C85_no_source`): in a dynamic run without initial mails, notes or values, `NewVertex` merges the
  zero value of the mail type into every new vertex (the variable of a failed type assertion). For SSSP with an empty map of
  sources that is distance 0 everywhere; the static run gives nothing. `C85_mails_dropped`, `C85_modes_differ`: an algorithm with `InitAllNote`
  loses its `InitMails`, and one with `InitAllMail` given `InitNotes` gets notes in dynamic and mail in static runs.
* **C86 half an edge** (`C86_half`, `C86_components_false`): in undirected mode with a time series by timestamp, the event that reaches the
  target is always the first of the two events of a line, so every query is asked before the second: each snapshot has one edge
  without its reverse. For the line `7 3` the snapshot says that 7 and 3 are in different components. Also with an odd number of
  events. `C86_false`: of several events at time t the query named t includes only the first. `C86_adds_false`: deletions
  count as added edges.
* **C87 exactly the threshold, with additions only** (`C87_threshold_false`): the file `0 1` and 19 times `0 2`, read in batches of 15, 2
  and 3 lines. The second batch lowers what vertex 1 gets by 17/20 (1/15 - 1/17) = 1/150, exactly the threshold: not announced; what the
  third batch takes away is not announced either. No race, no deletion. (Exact arithmetic; with float64 it depends on rounding.)
* **C88 nil dereference in the structure check** (`C88_statement_false`): after the race of C52 the graph of `5 7` has the vertices 7 and 0;
  the counts agree with another run, and the check reads `OutEdges` of a nil pointer instead of reporting the vertex.
* **C90 dropped parse errors** (`C90_statement_false`): `e.Ts, _ = strconv.ParseUint(...)`: a timestamp such as `1.5` or `-3` is silently
  taken as time 0, a number from 2^64 on as 2^64 - 1 (which temporal paths take for "no path", C89).
* **C91 weights in single precision** (`C91_statement_false`): `strconv.ParseFloat(fields[wPos], 32)` into a `float64`: `0.1` becomes
  13421773/134217728, 16777217 becomes 16777216; `abc` becomes 0 (a free edge), `1e39` infinity, without a message.
* **C92 rates below 100 events per second** (`C92_low_rates`, `C92_statement_false`): `sleepTime := extra / targetRate * time.Nanosecond`
  is in seconds but is slept as nanoseconds; what is left is the minimum of ten milliseconds. With `-dr 10` a hundred events go by in
  the first second.
* **C94 inserted values are lost** (`C94_insert`, `C94_statement_false`): `PriorityQueueSf.Push` (`utils/sorting.go` 134) appends `len(pq.Index)-1`, evaluated before the append, instead of the position of
  the new value (`len(pq.Input)-1`): an inserted value is not queued, another position is queued twice; on an empty queue -1 is
  queued and the next comparison panics (C94).
* `AlgTimeIncludeQuery` (`-tquery`) has no effect with `AllowAsyncVertexProps`, which PageRank always sets: `queries.go` 84 notes
  the time at which the query was taken up (C96).
* An algorithm with `OnSuperStepConverged`, `NoConvergeForQuery` and `AllowAsyncVertexProps` aborts at a query during which it comes
  to rest: `checkTerm` is true for blocked topology (`run-dynamic.go` 277) and 301-304 panics (C97).
* `TimeRange`: the fast path of a delete ends the first edge that has not ended without comparing its start (`C98_false`), so that
  the edge hit depends on edges to other vertices (`C98_depends`); a delete in a file carries no end time, so it ends nothing while
  the algorithm is told that it did (`C98_file_deletes`).
* `TOP_SYNC` (`CompareToOracle` with `syncWithQuery`, not used in the repository): acknowledged too early if the queue has just grown
  (`C99_sync_false`), never if the queue is closed first (`C99_sync_lost`); the sender then waits for ever.
* C101: a file with 3000 vertices any two of which are joined has 4495501000 triangles; a run on one thread logs 200533704 and passes its check
  (`C101_wraps`).
* C102: a sliding window without a timestamp column (`-w` without `-pt`) passes `CheckAssumptions`; with edges that have no timestamp every added edge is
  deleted in the same batch (`C102_window_takes_all`, `C102_window_empties`), with edges that have one nothing is ever deleted (`C102_window_idle`); the log has
  a warning about a 0 timestamp.




## Wrong programs

`seeded/LOG.jsonl` has one line per attempt to break a definition.

* `survived`: everything built with the edit.
* `invalid`: the edited definition was not accepted by Lean, so that no theorem was tested. One attempt; it was
  repeated with a valid edit.
* A failed proof shows that the proof depends on what was edited. It does not show that the claim is false of the
  edited program; `note` says so where the claim is believed to hold still.
* A build stops at the first file that fails, so that `theorems_failed` names the first failures and not all of them.
* The early rounds did not write surviving attempts to the log. Five attempts were missing and were run again:
  three of them survive the safety invariants of the termination protocol (`Verif/TerminateInv3.lean`), two are
  rejected.
* Where only a concrete case had failed, the attempt was repeated with the cases removed ("cases removed").
  `Pipeline.step remPut` (query one event late) is rejected by the theorems of C44. Two attempts survived all general
  theorems: `Sync.loop` (activity is not reset: a synchronous run never ends, and C36 is about runs that have ended)
  and `Term.goStep ready` (does not wait for votes of 2). The first led to C65, which rejects it; the second still
  survives.
