{"id": "C01", "title": "Single-producer queue delivers every item once, in order", "statement": "With one producer (PutFast/PutSlow/Offer) and one consumer (Accept/GetFast/GetSlow) on a RingBuffSPSC, the sequence of values returned by successful receives is always a prefix of the sequence of values whose put succeeded: nothing is lost, duplicated, reordered or overwritten, and a receive on a queue that holds an item and is not raced succeeds.", "quantifier": "every capacity that Init accepts, every sequence of puts and receives, every interleaving of the individual atomic loads/stores of the two threads", "why_tests_cant": "a race that overwrites an unread slot needs one particular interleaving out of unboundedly many; unit tests exercise a handful of schedules", "anchors": ["utils/ring-buffer.go: RingBuffSPSC.Init/Accept/GetFast/GetSlow/Offer/PutFast/PutSlow"]}
{"id": "C02", "title": "A consumer told 'closed' has seen every item", "statement": "When the producer of a RingBuffSPSC finishes its puts and then calls Close, and the consumer's GetSlow reports closed, then the consumer has already been handed every item that was put.", "quantifier": "every interleaving of the producer's puts and Close with the consumer's GetFast/GetSlow loads", "why_tests_cant": "the failure (if any) needs the put+Close to land between two adjacent loads of the consumer; stress tests almost never hit the window", "anchors": ["utils/ring-buffer.go: RingBuffSPSC.Close/GetSlow", "utils/ring-buffer.go: RingBuffMPSC.GetSlow"]}
{"id": "C03", "title": "Multi-producer queue: exactly once, per-producer order, no overwrite", "statement": "With any number of producers using PutFastMP/PutSlowMP/OfferMP and one consumer on a RingBuffMPSC, every value is delivered at most once, each producer's values are delivered in the order it put them, no unread value is overwritten, and when all producers are idle and the queue is drained every put value has been delivered.", "quantifier": "every number of producers, every program of each producer, every interleaving at the granularity of single atomic operations, every capacity of at least two", "why_tests_cant": "unbounded number of threads and schedules", "anchors": ["utils/ring-buffer.go: RingBuffMPSC.PutFastMP/PutSlowMP/OfferMP/Accept/GetFast/GetSlow"]}
{"id": "C04", "title": "Growing queue keeps FIFO order across growth", "statement": "With one producer and one consumer on a GrowableRingBuff, values are received in exactly the order they were put, none lost or duplicated, through any number of growths.", "quantifier": "every starting size, every growth limit, every sequence of puts and receives, every interleaving", "why_tests_cant": "growth happens only under a full buffer; loss needs a growth to land inside a receive", "anchors": ["utils/ring-buffer.go: GrowableRingBuff.PutFast/PutSlow/growWithStart/Accept/GetFast/GetSlow"]}
{"id": "C05", "title": "A space check is a promise", "statement": "In the topology remit path (ask a RingBuffSPSC for its remaining room r, then offer at most r items, repeat) no offer ever fails and the reported room never wraps around, regardless of what the consumer does meanwhile.", "quantifier": "every buffer state reachable through the remit protocol, every concurrent consumer action", "why_tests_cant": "the reported number is an unsigned difference that is stale as soon as it is read; needs all states and schedules", "anchors": ["utils/ring-buffer.go: RingBuffSPSC.EnqCheckRange/Offer", "graph/stream-enact-events.go: checkToRemit"]}
{"id": "C06", "title": "The deque behaves as a double-ended list", "statement": "Any sequence of PushBack/FastPushBack+SlowPushBack/PushFront/PopFront/TryPopFront+UpdatePopFront/PopBack/Front/Back/Len operations on a Deque returns exactly what the same sequence returns on a plain list; popping an empty deque reports empty.", "quantifier": "every finite sequence of operations, every item type", "why_tests_cant": "block boundaries, growth of the node ring and its reuse produce unboundedly many internal layouts", "anchors": ["utils/deque.go: Deque.*"]}
{"id": "C07", "title": "Back-pressure never loses or reorders a notification", "statement": "Whatever mixture of direct queue reads and overflow into the local back-pressure deque a graph thread performs, the messages it processes are exactly the messages taken from its inbound queue, in order.", "quantifier": "every inbound sequence, every pattern of arrivals between loop iterations, every queue capacity", "why_tests_cant": "the switch between the two stores depends on timing", "anchors": ["graph/run-async.go: ReceiveMessages, ProcessMessages"]}
{"id": "C08", "title": "Requested capacities are rounded up to the least power of two", "statement": "RoundUpPow(i) is a power of two, is at least i, and is less than 2*i, for 1 <= i <= 2^63.", "quantifier": "every 64-bit input in range", "why_tests_cant": "2^63 inputs", "anchors": ["utils/helpers.go: RoundUpPow"]}
{"id": "C09", "title": "Bitmap is a set of bits", "statement": "After any sequence of Set/QuickSet(within range)/Zeroes operations a bit is reported set iff it was set after the last clear; FirstUnused returns the smallest index not in the set; Grow(idx) makes bit idx addressable.", "quantifier": "every operation sequence and every index", "why_tests_cant": "unbounded sequences; word-boundary indices", "anchors": ["utils/bitmap.go: Bitmap.Set/QuickSet/Zeroes/Grow/FirstUnused"]}
{"id": "C10", "title": "Priority queue pops in priority order", "statement": "Pushing any items and popping returns them as a permutation of what was pushed, each pop returning a minimum (by Less) of the current content; Fix/Update after changing one element restores this.", "quantifier": "every strict weak order, every sequence of Init/Push/Pop/Fix", "why_tests_cant": "unbounded histories", "anchors": ["utils/priority-queue.go: PQ.Init/Push/Pop/Fix/up/down"]}
{"id": "C11", "title": "Binary search returns the partition point", "statement": "BinarySearchIdxFunc returns the smallest index at which the comparison stops being negative, and reports found exactly when an element comparing equal exists at it.", "quantifier": "every sorted slice and target", "why_tests_cant": "unbounded inputs", "anchors": ["utils/priority-queue.go: BinarySearchIdxFunc"]}
{"id": "C12", "title": "Index sort is a stable permutation", "statement": "SortGiveIndexes returns a permutation of the indexes that lists the elements in order, ties in original order.", "quantifier": "every slice", "why_tests_cant": "unbounded inputs", "anchors": ["utils/sorting.go: SortGiveIndexesLargestFirst/SmallestFirst"]}
{"id": "C13", "title": "Top-N selection is exact", "statement": "FindTopNInArray(a, n) returns the min(n, len a) largest elements, largest first, each with its own correct index.", "quantifier": "every slice and every n including 0 and n > len", "why_tests_cant": "unbounded inputs; result depends on internal heap layouts", "anchors": ["utils/sorting.go: FindTopNInArray, PriorityQueueSf"]}
{"id": "C14", "title": "Rank overlap counts the common prefix members", "statement": "While feeding two duplicate-free rankings to the RBO calculator, the overlap used at depth d is exactly the number of items common to the two length-d prefixes, and depth/short/long accounting matches list lengths.", "quantifier": "every pair of duplicate-free rankings, every prefix", "why_tests_cant": "incremental algorithm over all histories", "anchors": ["utils/rbo.go: Update/EndShort/UpdateUneven/CalculateRBO"]}
{"id": "C15", "title": "Percentile and median report an order statistic", "statement": "Median(a) is the middle element for odd length (mean of the two middle for even length), and Percentile(a,p) is defined for every 0 <= p <= 100 on a non-empty slice.", "quantifier": "every non-empty slice", "why_tests_cant": "unbounded inputs", "anchors": ["utils/helpers.go: Median/Percentile"]}
{"id": "C16", "title": "Decimal parsing inverts printing", "statement": "Parsing the decimal text of any 32-bit vertex id yields that id, and field splitting of a line yields exactly its whitespace separated tokens, in order.", "quantifier": "every id < 2^32, every line of at most five fields, every whitespace layout", "why_tests_cant": "unbounded inputs", "anchors": ["utils/io.go: ToInt/ToIntStr/FastFields", "graph/stream-parse.go: EdgeParser/RawType"]}
{"id": "C17", "title": "Line scanning is independent of read chunking", "statement": "The sequence of lines delivered by FastFileLines is the newline split of the file content, independent of how many bytes each Read returns, provided every line is shorter than half the buffer.", "quantifier": "every file content, every chunking of reads, every buffer size", "why_tests_cant": "the refill/shift logic depends on where reads stop", "anchors": ["utils/io.go: FastFileLines.Scan", "graph/stream.go: EdgeEnqueueToEmitter"]}
{"id": "C18", "title": "Internal ids are unique and decode to their owner", "statement": "An internal id assembled from a thread number and a local offset decodes back to both; distinct (thread, offset) pairs give distinct ids; same-thread test is exact; bucket addressing is a bijection.", "quantifier": "every thread < 32 and every offset < 2^27", "why_tests_cant": "2^32 ids", "anchors": ["graph/graph-vertex.go: InternalExpand/SameTidx/idxToBucket", "graph/stream-enact-events.go: NewVertex", "graph/graph.go: THREAD_*"]}
{"id": "C19", "title": "Event word packs type and index losslessly", "statement": "Packing an event type and an event index into a 64-bit word and unpacking gives both back for every index below 2^62.", "quantifier": "every type (2 bits) and index", "why_tests_cant": "2^64 words", "anchors": ["graph/stream.go: TopologyEvent.TypeAndEventIdx, EventType/EventIdx/ThreadOrderDst"]}
{"id": "C20", "title": "Vertex enumeration visits each vertex exactly once with dense ordinals", "statement": "NodeForEachVertex and NodeParallelFor present every vertex exactly once with ordinals 0..|V|-1 in order, each with the internal id that decodes to it.", "quantifier": "every distribution of vertices over threads", "why_tests_cant": "unbounded graphs", "anchors": ["graph/graph-vertex.go: NodeForEachVertex/NodeParallelFor/NodeVertexCount"]}
{"id": "C21", "title": "Edges enter the graph in file order for any number of loader threads", "statement": "For any number of loader threads, the emitter hands out the non-comment edges of the file in file order, each exactly once; logical times, when used, equal the position in the emitted stream.", "quantifier": "every file, every loader count, every relative speed of loaders", "why_tests_cant": "loaders race with each other and with the emitter", "anchors": ["graph/stream.go: EdgeEnqueueToEmitter/Emitter"]}
{"id": "C22", "title": "Undirected input yields mirrored event pairs", "statement": "With the undirected option each input edge produces the edge and its reverse, adjacent in the stream, with consecutive event indexes, same type and property.", "quantifier": "every input stream", "why_tests_cant": "stream-wide statement", "anchors": ["graph/stream.go: Emitter"]}
{"id": "C23", "title": "In-edge positions are unique and dense per destination", "statement": "The position given to each added edge by its destination equals the number of edges added to that destination before it; deletes consume no position.", "quantifier": "every stream, every batching of the remit loop", "why_tests_cant": "depends on batch boundaries and stream history", "anchors": ["graph/stream-enact-events.go: checkToRemit"]}
{"id": "C24", "title": "Grouping a batch by source preserves each source's event order", "statement": "When a thread takes a batch of topology events and groups it per source vertex, each vertex gets exactly its own events in stream order, and no event is lost or seen twice.", "quantifier": "every batch, every pattern of repeated sources, every sequence of batches", "why_tests_cant": "state is carried in per-vertex indexes from one batch to the next", "anchors": ["graph/stream-enact-events.go: checkInsertPending, EnactTopologyEvents"]}
{"id": "C25", "title": "Applying batched adds and deletes equals applying them one at a time", "statement": "After any batches of add/delete events for a vertex, its edge list equals the one from the simple rule 'append on add; on delete remove the earliest edge to that target', whatever the batch boundaries and whichever internal removal path is used; a delete of a missing edge aborts.", "quantifier": "every history of events, every batching", "why_tests_cant": "three removal strategies with flags sorted in place; boundary cases depend on history", "anchors": ["graph/stream-enact-events.go: EnactTopologyEvents"]}
{"id": "C26", "title": "Sliding-window expiry removes exactly the expired edges", "statement": "With an expiry window and timestamps in order, after an event at time t is applied the alive edges are those with timestamp + window still in the future, and each expired edge is deleted exactly once, ordered before the later adds.", "quantifier": "every stream with non-decreasing timestamps, every window, every batching", "why_tests_cant": "state carried across batches in a queue with computed offsets", "anchors": ["graph/stream-enact-events.go: InjectExpired"]}
{"id": "C27", "title": "Delete-injection keeps the final structure", "statement": "The test-stream generator that randomly interleaves deletes and re-adds always yields a stream whose deletes are valid and whose final multigraph equals the original list of adds.", "quantifier": "every edge list and every outcome of the random choices", "why_tests_cant": "random choices", "anchors": ["graph/stream-enact-events.go: InjectDeletesRetainFinalStructure"]}
{"id": "C28", "title": "Atomic min/max/add are linearizable", "statement": "Concurrent AtomicMin/Max/Add calls on one cell leave the min/max/sum of all contributions, no contribution lost, and each call returns the value it replaced.", "quantifier": "every number of threads, every interleaving of load and compare-and-swap steps", "why_tests_cant": "lost updates need specific interleavings", "anchors": ["utils/atomics.go: AtomicMinUint32/AtomicMaxUint64/AtomicMinFloat64/AtomicAddFloat64/AtomicAddFloat64U"]}
{"id": "C29", "title": "A unique notification is never lost", "statement": "If a sender deposits new information in a vertex's mailbox and notifies it (unique notification), then a visit of that vertex that observes this deposit happens after it; at any moment at most one unique notification per vertex is outstanding.", "quantifier": "every number of senders, every interleaving of deposit, flag test, enqueue, flag clear, and mailbox read", "why_tests_cant": "lost wake-ups need specific interleavings", "anchors": ["graph/algorithm.go: UniqueNotification/EnsureSend", "graph/run-async.go: ProcessMessages"]}
{"id": "C30", "title": "Active notification counter equals outstanding notifications", "statement": "With active notifications, the per-vertex activity counter always equals the number of notifications sent but not yet retrieved; the value passed with the visit is the number still outstanding after it.", "quantifier": "every interleaving of senders and the owner", "why_tests_cant": "unbounded schedules", "anchors": ["graph/algorithm.go: ActiveNotification", "graph/run-async.go: ProcessMessages"]}
{"id": "C31", "title": "Shortest paths are exact at quiescence", "statement": "For non-negative weights, when no notification is outstanding, every vertex holds exactly its shortest-path distance from the source in the current graph (EMPTY if unreachable), for asynchronous execution with edges added at any time.", "quantifier": "every graph, every order of edge additions, every schedule of visits and message arrivals", "why_tests_cant": "all schedules of an asynchronous fixpoint computation", "anchors": ["cmd/lp-sssp/sssp.go", "graph/run-async.go", "graph/run-dynamic.go"]}
{"id": "C32", "title": "Connected components are exact at quiescence", "statement": "When no notification is outstanding on an undirected graph, every vertex's label is the minimum raw id in its component.", "quantifier": "every graph, every order of additions, every schedule", "why_tests_cant": "all schedules", "anchors": ["cmd/lp-cc/cc.go"]}
{"id": "C33", "title": "PageRank mass accounting is history independent", "statement": "After any history of edge adds, deletes, mail deliveries and visits, each vertex's received-plus-pending flow equals what the current edges and the current masses prescribe; so at convergence the ranks solve the PageRank equations of the final graph up to the residual threshold.", "quantifier": "every history (exact arithmetic)", "why_tests_cant": "unbounded histories of add/del corrections", "anchors": ["cmd/lp-pagerank/pagerank.go: MailMerge/MailRetrieve/OnUpdateVertex/OnEdgeAdd/OnEdgeDel/OnFinish"]}
{"id": "C34", "title": "Graph colouring is proper at quiescence", "statement": "When no notification is outstanding, neighbouring vertices have different colours and no colour exceeds the vertex degree.", "quantifier": "every graph, every history of additions, every schedule", "why_tests_cant": "all schedules", "anchors": ["cmd/lp-colouring/colouring.go"]}
{"id": "C35", "title": "Termination is declared only when nothing is in flight", "statement": "A graph thread declares the asynchronous computation finished only if every notification sent has been processed and no thread can create another.", "quantifier": "every number of threads, every interleaving of voting, sending and receiving", "why_tests_cant": "false termination needs particular schedules", "anchors": ["graph/termination.go: CheckTermination/EnsureCompleteness"]}
{"id": "C36", "title": "Synchronous and asynchronous execution agree", "statement": "The synchronous (superstep) strategy terminates only when no vertex is active and reaches the same result as the asynchronous one for shortest paths and components.", "quantifier": "every graph and every order of vertex visits in a superstep", "why_tests_cant": "all schedules", "anchors": ["graph/run-sync.go: ConvergeSync/ConvergeSyncPrevOnly"]}
{"id": "C37", "title": "Temporal paths mailbox windows are retrieved without a panic", "statement": "Retrieving the pending time windows of a vertex never aborts for any order in which neighbours deposited windows.", "quantifier": "every sequence of deposited windows", "why_tests_cant": "depends on heap layout", "anchors": ["cmd/lp-temporal-paths/temporal-paths.go: MailMerge/MailRetrieve"]}
{"id": "C38", "title": "Triangles are counted exactly once", "statement": "After any undirected stream of distinct edges has been processed, the sum of the leader counters equals the number of triangles.", "quantifier": "every stream, every schedule", "why_tests_cant": "all schedules", "anchors": ["cmd/lp-tc/tc.go"]}
{"id": "C39", "title": "Stopwatch excludes paused time", "statement": "Elapsed is the sum of the running intervals since Start; pauses (also nested repeated pauses) are not counted.", "quantifier": "every sequence of Start/Pause/UnPause/Elapsed at non-decreasing clock readings", "why_tests_cant": "unbounded sequences", "anchors": ["utils/stopwatch.go: Watch"]}
{"id": "C40", "title": "Shuffle and random removal lose nothing", "statement": "Shuffle returns a permutation of its input and RemoveRandomElement removes exactly one occurrence and returns it, for every outcome of the random source.", "quantifier": "every slice, every random outcome", "why_tests_cant": "random outcomes", "anchors": ["utils/helpers.go: Shuffle/RemoveRandomElement"]}
{"id": "C41", "title": "Edge list tools keep every edge line", "statement": "The edge-list sorter outputs a permutation of the non-comment input lines for every loader thread count; sorting is by timestamp value.", "quantifier": "every file, every thread count", "why_tests_cant": "all inputs", "anchors": ["cmd/lp-edgelist-tools/main.go: LoadLineList/Less"]}
{"id": "C42", "title": "Commands and acknowledgements form a barrier", "statement": "After broadcasting a command and awaiting acknowledgements, every graph thread has performed that command and no later command was started.", "quantifier": "every number of threads, every interleaving", "why_tests_cant": "schedules", "anchors": ["graph/graph.go: Broadcast/AwaitAck/ExecuteQuery", "graph/run-dynamic.go: checkCommandsDynamic"]}
{"id": "C43", "title": "Message-passing shortest paths agree with the mailbox version", "statement": "The pure message-passing variant of SSSP (active notifications carrying distances) yields exact distances at quiescence.", "quantifier": "every graph, every schedule", "why_tests_cant": "schedules; defers work while more messages are outstanding", "anchors": ["cmd/lp-sssp/sssp-msg.go"]}
{"id": "C44", "title": "Queries are issued at exact event positions", "statement": "With a query interval of k events the time series is taken exactly after events k, 2k, 3k..., each edge belonging to exactly one interval, for any batching of the remitter.", "quantifier": "every stream, every k >= 1, every batching", "why_tests_cant": "batch boundaries", "anchors": ["graph/stream.go: Remitter"]}
{"id": "C45", "title": "A raw vertex lives on exactly one thread and gets one internal id", "statement": "Each raw id is owned by exactly one graph thread and, however often and in whatever order it is mentioned as source or destination, is given one internal id that maps back to the raw id.", "quantifier": "every stream, every thread count 1..32", "why_tests_cant": "histories", "anchors": ["graph/stream-parse.go: Within", "graph/stream-enact-events.go: NewVertex/checkToRemit", "graph/graph-vertex.go: NodeVertexFromRaw"]}
{"id": "C46", "title": "Queues work for every requested capacity", "statement": "A RingBuffMPSC (or GrowableRingBuff) initialised with any capacity >= 1 delivers all items put into it.", "quantifier": "every capacity Init accepts, in particular 1", "why_tests_cant": "unit tests use large capacities only; the statement ranges over all capacities and schedules", "anchors": ["utils/ring-buffer.go: RingBuffMPSC.Init/PutFastMP/Accept", "utils/ring-buffer.go: GrowableRingBuff.Init"]}
{"id": "C47", "title": "The space check never over-reports", "statement": "EnqCheckRange of a RingBuffSPSC never reports more room than there are free slots, in any state reachable by puts and receives.", "quantifier": "every reachable state, every capacity", "why_tests_cant": "the wrong value appears only when the queue is exactly full", "anchors": ["utils/ring-buffer.go: RingBuffSPSC.EnqCheckRange/Offer"]}
{"id": "C48", "title": "Growing queue: order and truthful close under every interleaving", "statement": "On a GrowableRingBuff of capacity >= 2, what the consumer has received is always a prefix of what was put (no reordering, duplication or invention), blocking puts never drop an item, and when a blocking receive reports closed or IsClosed returns true, everything put has been received.", "quantifier": "every capacity >= 2, every growth limit, every interleaving of atomic steps, any number of growths", "why_tests_cant": "the claim ranges over all interleavings, including growth and close landing inside a receive", "anchors": ["utils/ring-buffer.go: GrowableRingBuff.GetSlow/IsClosed/Accept/PutSlow/growWithStart"]}
{"id": "C49", "title": "The zero value of the deque is ready to use", "statement": "A Deque that was declared but not initialised is an empty deque ready to use, as the comment on the type says: every sequence of operations returns what it returns on an empty list.", "quantifier": "every finite sequence of operations", "why_tests_cant": "the repo only ever uses initialised deques; the failing sequences are exactly those that touch the empty deque or pop", "anchors": ["utils/deque.go: Deque (67-68), Front, Back, PopFront, TryPopFront, PopBack"]}
{"id": "C50", "title": "An edge line means the same whoever loads it", "statement": "The edge (endpoints, weight, timestamp) that a line of the input produces depends only on that line, so the loaded graph does not depend on the number of loader threads.", "quantifier": "every file, every column configuration, every number of loader threads", "why_tests_cant": "the difference shows only for ragged files combined with several loaders; a test fixes one file and one thread count", "anchors": ["graph/stream.go: EdgeEnqueueToEmitter (fields kept across lines)", "utils/io.go: FastFields", "graph/stream-parse.go: EdgeParser"]}
{"id": "C51", "title": "Blank lines in the input are ignored", "statement": "Inserting a blank line anywhere in an edge list does not change the loaded graph, as for comment lines.", "quantifier": "every file, every position, every number of loader threads", "why_tests_cant": "ranges over all files and positions", "anchors": ["graph/stream.go: EdgeEnqueueToEmitter (b[0])", "utils/io.go: FastFileLines.Scan"]}
{"id": "C52", "title": "The graph threads receive the stream in its order", "statement": "The remitter passes events on in global stream order, each exactly once and otherwise unchanged, and every thread applies exactly its share in that order; no event is lost and none is invented.", "quantifier": "every stream, every number of threads, every queue capacity, every interleaving of emitter, threads and remitter", "why_tests_cant": "ranges over all interleavings; the failure needs a put and a Close between two loads of the remitter", "anchors": ["graph/stream.go: Remitter (112), Emitter", "graph/stream-enact-events.go: checkToRemit", "graph/run-dynamic.go: 181"]}
{"id": "C53", "title": "The construction pipeline never deadlocks", "statement": "With every queue of capacity at least one, from every state the emitter, the threads and the remitter can run on until the whole stream has been passed on and applied.", "quantifier": "every stream, every number of threads >= 1, all capacities >= 1, every interleaving so far", "why_tests_cant": "deadlocks of bounded queues depend on the exact fill pattern; the claim ranges over all reachable states", "anchors": ["graph/stream.go: Remitter, Emitter", "graph/stream-enact-events.go: checkToRemit, checkInsertPending"]}
{"id": "C54", "title": "The final graph is that of the stream, whatever threads, schedule and batches", "statement": "After a complete run, the out-edges of every raw vertex (destination, in-edge position, property, in order) are those of applying its events of the input stream one at a time: an add appends, a delete removes the earliest edge to its target.", "quantifier": "every stream, every number of threads, all queue capacities, every interleaving, every way of cutting the events into batches", "why_tests_cant": "composes all stages of the pipeline; the claim ranges over all interleavings and batch boundaries, which a test cannot enumerate", "anchors": ["graph/stream.go: Emitter, Remitter", "graph/stream-enact-events.go: checkToRemit, EnactTopologyEvents", "graph/run-dynamic.go: ConvergeDynamicThread"]}
{"id": "C55", "title": "PageRank's final ranks are numbers and sum to one", "statement": "When the PageRank computation has settled, the final pass that redistributes what vertices without out-edges hold gives every vertex a finite rank, and the ranks sum to one up to the error that the cut-off leaves.", "quantifier": "every stream of edge additions and deletions, every number of threads, every schedule up to quiescence", "why_tests_cant": "ranges over all graphs and schedules; the failing graphs (all out-edges deleted, one vertex, sinks that nothing points to) are not in any test input", "anchors": ["cmd/lp-pagerank/pagerank.go: OnFinish (185-282)"]}
{"id": "C56", "title": "Termination is detected once nothing is in flight", "statement": "When every notification has been processed and the topology stream has ended, every graph thread leaves its loop after finitely many of its own instructions, whatever the schedule.", "quantifier": "every number of threads, every reachable state with nothing in flight, every fair schedule", "why_tests_cant": "liveness: a test can only observe that a run has not finished yet", "anchors": ["graph/termination.go: CheckTermination", "graph/run-async.go: ConvergeAsyncThread"]}
{"id": "C57", "title": "A send never blocks for ever", "statement": "Whatever the capacity of the notification queues, an asynchronous run that still has notifications in flight can always go on: a thread that has to wait for room in a queue gets it after finitely many steps of the other threads.", "quantifier": "every graph, number of threads, queue capacity and reachable state", "why_tests_cant": "blocking depends on how full the queues are at one instant; the failing state needs more unprocessed notifications than the capacity, which tests with default sizes never reach", "anchors": ["graph/algorithm.go: EnsureSend (61-74)", "graph/graph.go: notification queue size (125-141)", "graph/run-async.go: ReceiveMessages, ProcessMessages"]}
{"id": "C58", "title": "A synchronous run does not block on its notification queues", "statement": "In synchronous execution, with room for one notification per vertex of the receiving thread, sending never blocks for ever: a run that has not stopped can always go on.", "quantifier": "every graph, number of threads and reachable state of both synchronous variants", "why_tests_cant": "needs a vertex to be visited between its activation and the arrival of its notification, and a queue that is nearly full", "anchors": ["graph/run-sync.go: ConvergeSync (16-79), ConvergeSyncPrevOnly (88-170)", "graph/algorithm.go: EnsureSend, ActiveNotification", "utils/ring-buffer.go: Accept"]}
{"id": "C59", "title": "A query reports one moment, after exactly the events before it", "statement": "With convergence for queries enabled, the graph and vertex properties reported by a time-series query are those of one moment, at which the graph consists of exactly the events that precede the query in the stream and the algorithm has converged on it; the reported edge counts belong to that moment too.", "quantifier": "every stream, every position of the queries, every number of threads, every interleaving of remitter, graph threads, LogTimeSeries and the concurrent finishing of earlier queries", "why_tests_cant": "the inconsistency needs graph threads to move on while the result of a query is still being put together; ranges over all schedules", "anchors": ["graph/queries.go: LogTimeSeries (26-145), QueryFinishConcurrent (149-166)", "graph/run-dynamic.go: checkCommandsDynamic (98-123), 272-303", "graph/graph.go: Broadcast, AwaitAck, ExecuteQuery"]}
{"id": "C60", "title": "A query can always be answered", "statement": "Whatever has happened before, a query that has been issued can still be completed and reported without further input, and the stream then goes on: the command and acknowledgement channels, the epoch and the hand-over to the finishing goroutine cannot deadlock.", "quantifier": "every stream, number of threads, kind of command and reachable state", "why_tests_cant": "deadlocks between three kinds of goroutines over bounded channels depend on exact interleavings", "anchors": ["graph/queries.go: LogTimeSeries, QueryFinishConcurrent", "graph/graph.go: Broadcast, AwaitAck, ExecuteQuery (196-214)", "graph/run-dynamic.go: 98-123, 160-303"]}
{"id": "C61", "title": "Temporal paths: windows are the times of reachability", "statement": "When a temporal-paths run over a time-ordered stream comes to rest, the times strictly inside a vertex's windows are exactly those at which a causal path from the source is at the vertex, in the graph as it then is (edge end times included, so windows are also retracted); no callback aborts; the result does not depend on the schedule or the number of threads.", "quantifier": "every graph, every time-ordered sequence of edge additions and endings, every number of threads and assignment of vertices, every interleaving, every time", "why_tests_cant": "offers overtake each other and are retracted; the merge heuristics (heap order, window start index, change detection) only go wrong for particular combinations of windows and schedules", "anchors": ["cmd/lp-temporal-paths/temporal-paths.go: MailMerge, MailRetrieve, pushWindows, OnUpdateVertex, OnEdgeAdd, OnEdgeDel", "graph/stream-enact-events.go: EnactTopologyEvents (time range)"]}
{"id": "C62", "title": "Shortest paths and components come to rest", "statement": "Once the graph stops changing, a shortest-paths run (no negative weights) or a components run has only boundedly many steps left, however its threads are scheduled; when none is left, the values are the exact distances (the smallest raw ids of the components). With a negative cycle there is no such bound.", "quantifier": "every graph, every history of additions before, every number of threads and assignment of vertices, every interleaving; any monotone inflationary edge function, so any rounding", "why_tests_cant": "that no schedule goes on for ever, or is exponentially wasteful without end, is a statement about all infinite schedules", "anchors": ["cmd/lp-sssp/sssp.go: OnUpdateVertex, OnEdgeAdd", "cmd/lp-cc/cc.go: OnUpdateVertex, OnEdgeAdd", "graph/run-async.go: ProcessMessages", "graph/algorithm.go: UniqueNotification"]}
{"id": "C63", "title": "What a run returns is final", "statement": "When the run returns (all graph threads have left their loops), every notification has been processed, the counts of sent and received notifications agree, and the vertex values are those of a state of the algorithm in which nothing is outstanding: exact distances, smallest component ids, proper colours. Until then every thread can go on.", "quantifier": "every execution of any number of threads, including those in which a thread leaves its loop too early; every algorithm, graph, history of topology events, batch size", "why_tests_cant": "an early return needs a rare interleaving of the vote protocol with the work; the claim composes the protocol, the queues and the algorithm over all interleavings", "anchors": ["graph/run-async.go: ConvergeAsync (250-269), ConvergeAsyncThread (198-243)", "graph/run-dynamic.go: ConvergeDynamicThread (160-340), 401", "graph/termination.go: CheckTermination, EnsureCompleteness"]}
{"id": "C64", "title": "A run returns, with exact results", "statement": "A shortest-paths run without negative weights, or a components run, on a graph that no longer changes returns under every fair schedule: after finitely many steps all threads have left their loops, and the values are then the exact distances (smallest raw ids).", "quantifier": "every finite graph, number of threads, assignment of vertices, batch size and fair infinite schedule", "why_tests_cant": "total correctness over infinite schedules; composes convergence of the algorithm, delivery of notifications and detection of termination", "anchors": ["graph/run-async.go: ConvergeAsync (250-269), ConvergeAsyncThread (198-243), ReceiveMessages, ProcessMessages", "graph/termination.go: CheckTermination", "cmd/lp-sssp/sssp.go", "cmd/lp-cc/cc.go"]}
{"id": "C65", "title": "A synchronous run ends", "statement": "On a loaded graph, synchronous shortest paths (weights not negative) and connected components stop after finitely many iterations whatever the schedule, and unless a notification queue fills up the run ends with the exact distances or component labels.", "quantifier": "every finite graph, number of threads, order of vertices, schedule, and both variants (ConvergeSync, ConvergeSyncPrevOnly)", "why_tests_cant": "liveness over all schedules: a test can only observe that a particular run did end", "anchors": ["graph/run-sync.go: ConvergeSync (16-50), ConvergeSyncPrevOnly (55-106)", "cmd/lp-sssp/sssp.go", "cmd/lp-cc/cc.go"]}
{"id": "C66", "title": "PageRank comes to rest near the exact ranks", "statement": "Once the graph stops changing, a PageRank run has only boundedly many steps left however its threads are scheduled, asynchronously or synchronously, whatever edges were added and deleted before; an asynchronous run then returns. When nothing is left to do, the ranks are, on average over the vertices, within twice the threshold of the exact ranks, i.e. of the one solution of the PageRank equations of the final graph.", "quantifier": "every finite graph, every history of additions and deletions, every damping factor in [0,1) and positive threshold, every number of threads, assignment of vertices and schedule, both synchronous variants", "why_tests_cant": "that no schedule goes on for ever is a statement about all infinite schedules; deletions inject negative amounts, so ranks need not move in one direction and tests cannot tell slow convergence from divergence", "anchors": ["cmd/lp-pagerank/pagerank.go: MailMerge, OnUpdateVertex (78-100), OnEdgeAdd, OnEdgeDel (105-172)", "graph/run-async.go: ConvergeAsync", "graph/run-sync.go: ConvergeSync, ConvergeSyncPrevOnly"]}
{"id": "C67", "title": "Colouring comes to rest", "statement": "Once an undirected graph stops changing, a colouring run has only boundedly many steps left however its threads are scheduled, asynchronously or synchronously, whatever edges were added and deleted before; an asynchronous run then returns. When nothing is left to do, neighbours have different colours.", "quantifier": "every finite graph, every history of additions and deletions, every number of threads, assignment of vertices and schedule, both synchronous variants", "why_tests_cant": "two neighbours that keep moving out of each other's way are a matter of the schedule, and that no schedule goes on for ever is a statement about all infinite schedules", "anchors": ["cmd/lp-colouring/colouring.go: MailMerge (90-139), MailRetrieve (141-163), OnUpdateVertex (166-182), OnEdgeAdd, OnEdgeDel (187-222)", "graph/run-async.go: ConvergeAsync", "graph/run-sync.go: ConvergeSync, ConvergeSyncPrevOnly"]}
{"id": "C68", "title": "Colouring with wait counts is the sequential greedy colouring", "statement": "With the option -WaitCount, a run on a loaded undirected graph gives every vertex exactly one colour, and it is the one of the sequential algorithm that goes through the vertices in order of priority and gives each the least colour not taken by a neighbour before it. Hence colours do not depend on the number of threads or the schedule, neighbours have different colours, and the run has only boundedly many steps.", "quantifier": "every finite undirected graph (self loops and repeated edges included), every number of threads, assignment of vertices and interleaving of the atomic accesses within MailMerge, asynchronous and both synchronous variants", "why_tests_cant": "a wake-up that is lost or sent too early depends on how the loads, subtractions and stores of several senders on one counter interleave", "anchors": ["cmd/lp-colouring/colouring.go: UseWaitCount, BaseVertexMailbox (61-83), MailMerge (90-139), OnUpdateVertex (166-182)", "graph/run-async.go: ConvergeAsync", "graph/run-sync.go: ConvergeSync, ConvergeSyncPrevOnly"]}
{"id": "C69", "title": "Triangle counting ends with the count", "statement": "A triangle-counting run has only boundedly many steps, however its threads are scheduled, and when no thread can do anything any more, all edges have arrived, every vertex has announced all its edges, nothing is on its way, and the sum of the counters is the number of triangles of the graph.", "quantifier": "every undirected input (repeated edges and self loops included), number of threads, assignment of vertices and schedule; dynamically or on a graph built first", "why_tests_cant": "each notice may cause further notices, and whether that ever ends is a matter of all schedules; a test only sees that one run ended", "anchors": ["cmd/lp-tc/tc.go"]}
{"id": "C70", "title": "Message-passing colouring ends with a colouring", "statement": "A run of the message-passing colouring on a loaded undirected graph does not panic, has only boundedly many steps, and when nothing is outstanding every vertex has a colour of at most its degree and neighbours have different colours; with -WaitCount the colours are those of the sequential greedy algorithm.", "quantifier": "every finite undirected graph (repeated edges included), number of threads, assignment of vertices and schedule", "why_tests_cant": "neighbours give way to each other depending on which notes arrive first; no test covers all orders, nor shows that it always ends", "anchors": ["cmd/lp-colouring/colouring-msg.go", "graph/run-async.go: SendInitialMail (14-104), ProcessMessages (149-176)"]}
{"id": "C71", "title": "Comparing two results", "statement": "The comparison of a result with the oracle's can be made for every graph, and reports the mean, the median and the 95th percentile of the distances between the values of the vertices; the mean is zero exactly when the results are the same.", "quantifier": "all pairs of results of equal length, all value types used (floats taken exactly, unsigned integers with wrap-around), every number of ignored vertices", "why_tests_cant": "a claim about all lists; the inputs that break it are the ones nobody compares by hand (one vertex, a value below the oracle's, an odd number of vertices)", "anchors": ["utils/helpers.go: ResultCompare (133-161)", "graph/oracle-compare.go: OracleGenericCompareValues (182-201)", "cmd/lp-pagerank/correctness.go (105)", "cmd/lp-tc/main.go", "cmd/lp-cc/main.go"]}
{"id": "C72", "title": "Waiting is patient", "statement": "A thread that waits for another one, or for the next event of the stream, goes on waiting as long as it takes: waiting never ends the process.", "quantifier": "every sequence of outcomes of the polls (any environment), every number of turns", "why_tests_cant": "the failure needs minutes of idleness of one thread, and no bounded test can show that no pause is too long", "anchors": ["utils/helpers.go: BackOff (18-28)", "utils/ring-buffer.go: PutSlow, GetSlow, PutSlowSP, PutSlowMP, GetSlowMP", "graph/run-async.go: ConvergeAsyncThread (214-225)", "graph/run-dynamic.go: ConvergeDynamicThread (307-334)"]}
{"id": "C73", "title": "Super-steps", "statement": "With an algorithm that has OnSuperStepConverged, the callback runs only when no notification is on its way or in hand anywhere and all other threads wait; what it sends is processed before it is called again; a thread leaves the run only after a call that sent nothing, and after such a call all threads leave. The meeting of the threads never deadlocks.", "quantifier": "every number of threads, every interleaving of all reads and writes of shared cells and of the channel operations, every sequence of batches sent by the callbacks; static asynchronous runs", "why_tests_cant": "the threads meet twice per super-step over two channels, and a thread that is late for one meeting can run into the next; the two checks around the callback race with resets of the shared arrays", "anchors": ["graph/superstep.go: AwaitSuperStepConvergence", "graph/run-async.go: ConvergeAsyncThread (198-243)", "graph/termination.go: CheckTermination, ResetTerminationState"]}
{"id": "C74", "title": "The time series is complete when the run returns", "statement": "When a dynamic run returns, the time series holds exactly one entry for each query that was asked, in the order of the queries.", "quantifier": "every number of threads, every stream, every sequence of queries and every interleaving of threads, logger, finisher and remitter", "why_tests_cant": "the entry of a query is appended by a goroutine that nobody waits for; whether it is in time for the final printing depends on the scheduler", "anchors": ["graph/algorithm.go: Launch (205-223)", "graph/queries.go: LogTimeSeries, QueryFinishConcurrent, QueryFinalize", "cmd/lp-pagerank/main.go: main"]}
{"id": "C75", "title": "The table of top ranks shows the top ranks", "statement": "In the time series of PageRank (with -plot), a number in the line of a query and the column of a vertex is that vertex's mass at that query, exceeded by at most nine others; a blank means its mass is 0 or at most that of ten others. With -plotdt, the cells are the change per day between the query before and the one after, where both show a number.", "quantifier": "every sequence of queries, every graph at each of them, every order of vertices", "why_tests_cant": "columns are created by first occurrence over all queries and filled through an index map; a test would need to look at every vertex in every line for many graphs", "anchors": ["cmd/lp-pagerank/timeseries.go: OnApplyTimeSeries, PrintTimeSeries", "utils/sorting.go: FindTopNInArray"]}
{"id": "C76", "title": "Statistics of queries", "statement": "The statistics of temporal paths are those of the vertices that existed at the query and do not depend on the number of threads or the distribution of vertices; percentages lie between 0 and 100. In the time series of colouring the vertices with the same and with another colour than at the query before add up to the vertices of that query, and the colours are counted.", "quantifier": "every distribution of vertices over threads, every set of windows, edges and creation times; every sequence of colourings", "why_tests_cant": "sums, maxima and medians are gathered per thread and merged; the claim is over all distributions", "anchors": ["cmd/lp-temporal-paths/timeseries.go: FunStatistics", "cmd/lp-colouring/timeseries.go: OnApplyTimeSeries, PrintTimeSeries", "utils/helpers.go: MaxSlice, MinSlice, Median"]}
{"id": "C77", "title": "Comparing with an oracle does not disturb the run", "statement": "A comparison of the graph with an oracle, at a query, between iterations or at the end, leaves the vertices, properties, mailboxes and edges of the graph as they would be without it, even though the graph is finished for the comparison. The oracle shown is the outcome of the algorithm on the same edges from the beginning, whatever the state of the graph; later comparisons with the cached oracle show the same one.", "quantifier": "every graph and distribution over threads, every state of properties and mailboxes, every algorithm (convergence and OnFinish arbitrary functions), every sequence of comparisons, every interleaving with graph threads and with the concurrent finishing of a query", "why_tests_cant": "a shared bucket or array shows only if the oracle run happens to write to it; interference needs an update between saving and restoring", "anchors": ["graph/oracle-compare.go: CompareToOracle (15-154)", "graph/graph-vertex.go: NodeCopyVertexMailboxes, NodeCopyVerticesInto, NodeCopyVertexPropsInto (211-242)", "graph/queries.go: LogTimeSeries (123-128)"]}
{"id": "C78", "title": "The check of results passes exactly on right results", "statement": "With -c, the check that follows a run passes if the run is complete, and what it logs is true of the result; and a result that passes is right: shortest distances, the least label of a component, a proper colouring, the number of triangles, ranks, times of reachability.", "quantifier": "every graph, every result (not only those of runs), every schedule of a completed run for the half about runs", "why_tests_cant": "a test checks the check on results that are right; which wrong results pass, and which right ones do not, is a question over all results", "anchors": ["cmd/lp-sssp/main.go: OnCheckCorrectness (14-67)", "cmd/lp-sssp/sssp-msg.go (92-146)", "cmd/lp-cc/main.go (11-31)", "cmd/lp-colouring/main.go (18-77)", "cmd/lp-tc/main.go (11-28)", "cmd/lp-pagerank/correctness.go (47-83)", "cmd/lp-temporal-paths/correctness.go (74-164)"]}
{"id": "C79", "title": "Temporal paths come to rest", "statement": "Once the graph stops changing, a run of temporal paths makes only finitely many more steps, whatever edges were added and ended before and however threads are scheduled; when no step is left the windows of every vertex are the times at which it can be reached. Offers that have become wrong are withdrawn, also around cycles.", "quantifier": "every graph, every history of additions and endings in order of time, every number of threads, every schedule", "why_tests_cant": "a test sees some schedules end; that none goes on for ever, with offers withdrawn and renewed around a cycle, needs an argument over all schedules", "anchors": ["cmd/lp-temporal-paths/temporal-paths.go: MailMerge, MailRetrieve, pushWindows, OnUpdateVertex, OnEdgeAdd, OnEdgeDel (79-410)", "graph/run-async.go (110-190)", "graph/stream-enact-events.go (350-387)"]}
{"id": "C80", "title": "A run does what the command line asked for", "statement": "A command line is accepted exactly if it names a graph, asks for at least one thread and one loader, and does not combine a synchronous with a dynamic strategy. An accepted run uses the strategy the flags name, as many threads as asked for up to the maximum of the build, as many loaders as asked for, reads weights and timestamps from the columns named, has notification queues of at least the size asked for, and queries and expires at the intervals named.", "quantifier": "every combination of flag values that package flag can deliver", "why_tests_cant": "tests build options directly with small numbers and never go through the flags; the ranges in which the conversions keep the value are sharp only over all integers", "anchors": ["graph/graph-options.go: FlagsToOptions (48-166)", "graph/graph.go: Init (111-141)", "graph/stream.go: LoadGraphStream (304-318)", "graph/algorithm.go: Run (105-117)"]}
{"id": "C81", "title": "The answer for a file", "statement": "When a run on a file has ended, the value at every vertex named in the file is determined by the lines of the file alone: for shortest paths the smallest length of a walk from the source along the edges written there (in both directions in undirected mode), infinity if there is none; for components in undirected mode the smallest number of a vertex connected with it; for colouring in undirected mode the ends of every edge have different colours. This holds for every number of loaders and threads, every schedule, every batching of events, in static and in dynamic runs; and the run does end.", "quantifier": "every file, every number of loaders and threads, every schedule of loaders, emitter, threads and remitter, every division into batches, every interleaving of the engine", "why_tests_cant": "the property spans every stage at once; tests check a few files under the schedules that happen to occur, each stage on its own", "anchors": ["graph/stream.go: EdgeEnqueueToEmitter, Emitter, Remitter (30-330)", "graph/stream-enact-events.go: EnactTopologyEvents", "graph/algorithm.go: Launch, Run (100-215)", "graph/run-async.go", "graph/termination.go: CheckTermination (31-101)", "cmd/lp-sssp/sssp.go", "cmd/lp-cc/cc.go", "cmd/lp-colouring/colouring.go"]}
{"id": "C82", "title": "The report at the end describes the graph", "statement": "The statistics printed at the end of a run are those of the graph that was built: number of vertices, largest raw id, number of edges, vertices without out-edges, largest and middle out-degree, and - if printed - vertices without in-edges, largest and middle in-degree. The lines on in-degrees are left out only if the numbers kept for them may be wrong, that is if edges have been deleted.", "quantifier": "every stream of fewer than 2^32 events, every number of threads, every schedule, every division into batches, every option", "why_tests_cant": "the in-degrees are counted by other threads than those that hold the edges, while events are passed on; tests compare no report with a graph", "anchors": ["graph/graph.go: ComputeGraphStats (258-314), InEdgesStats (318-338)", "graph/run-dynamic.go: counters (223-230)", "utils/helpers.go: Max, MaxSlice, Sum, Median (52-117)"]}
{"id": "C83", "title": "Mailboxes can be used while vertices are made", "statement": "While a graph thread makes vertices, other threads put mail into mailboxes of its vertices without a lock. No access is out of range, mail for a vertex is found in the mailbox of this vertex by the owner, nothing is lost or goes to another vertex, and a mailbox stays in its place.", "quantifier": "every interleaving of the reads of the words of the slice by any number of threads with the writes by its owner, in any order of the writes, any growth of arrays, any number of vertices and mails", "why_tests_cant": "the words of a slice are read and written one at a time; the harmful moment lasts a few instructions and occurs only when an array is full", "anchors": ["graph/graph-vertex.go: idxToBucket (50-54), NodeVertexMailbox (146-150)", "graph/stream-enact-events.go: NewVertex (15-40)", "graph/graph.go: VertexMailboxes (73: Must NOT mem move)"]}
{"id": "C84", "title": "The result file has the answer of the run", "statement": "With the option to write the vertex properties, the file written at the end has exactly one line for each vertex named in the input, with its number as in the input and the value the algorithm has found, and no other lines; results of different graphs and modes go to different files.", "quantifier": "every run of every file with any number of threads and vertices, every property whose text has no newline, every name", "why_tests_cant": "the order of the lines and the internal numbers differ from run to run, and the lines have to be joined with the answer for every input; the tests do not read the file", "anchors": ["graph/graph.go: WriteVertexProps (363-383), PathlessName (386-395)", "graph/graph-vertex.go: NodeForEachVertex (174-186), NodeVertexRawID (156-159)", "utils/io.go: CreateFile (33-39)", "graph/algorithm.go: (221-223)"]}
{"id": "C85", "title": "A run begins with the data it was given", "statement": "In static and dynamic runs each vertex of the graph is given, once, what the documentation promises for the initial mails, initial notes and the algorithm's own initial values (mails over values for all vertices, mail over notes), nothing if nothing was given; loading a graph for a static run leaves no trace but the edges: when the algorithm begins, properties, mailboxes and activity are as new and no notification is left over.", "quantifier": "every choice of maps (with any keys, also of vertices not in the graph) and of the values for all vertices, every graph, number of threads and schedule, every algorithm", "why_tests_cant": "sixteen combinations of data and two kinds of runs, each with its own code; tests use the combinations that the shipped algorithms use, mostly in one kind of run, and leftovers of loading depend on the schedule", "anchors": ["graph/algorithm.go: LaunchGraphExecution (156-168), Launch (171-201), blankAlg (286-306)", "graph/run-async.go: SendInitialMail (14-104)", "graph/stream-enact-events.go: NewVertex (42-83)", "graph/graph.go: (49-53)"]}
{"id": "C86", "title": "A query of the time series is about the moment it is named after", "statement": "In a time series by timestamp the query named t is asked when exactly the events up to time t have been passed on; the names are at least the interval apart and no stretch of the stream longer than the interval is without a query. By number of events, queries are asked after every k added edges. In undirected mode a query sees both directions of an edge or none.", "quantifier": "every stream of events with any timestamps (also equal and out of order), every interval, every schedule of the pipeline, directed and undirected", "why_tests_cant": "which event triggers a query depends on all earlier timestamps, and what is wrong shows only in the snapshot between two events; the tests do not run time series", "anchors": ["graph/stream.go: Remitter (84-161), Emitter (205-225)", "graph/graph-options.go: (28-29, 42, 101-104)", "graph/graph.go: ExecuteQuery (208-214)"]}
{"id": "C87", "title": "The ranks for a file", "statement": "When a run of PageRank on a file has ended, every vertex named in the file has a rank, and the ranks solve the equations of the file: the own share and, for every line that leads to the vertex, an equal part of the damped rank at its other end; up to twice the threshold per vertex. These equations have exactly one solution, and the ranks are within twice the threshold of it on average. This holds for every number of loaders and threads, every schedule, every batching of events, in static and in dynamic runs; and the run does end.", "quantifier": "every file (with repeated lines and lines from a vertex to itself), every number of loaders and threads, every schedule of loaders, emitter, threads and remitter, every division into batches, every interleaving of the engine", "why_tests_cant": "the property spans every stage at once; the tests use small files and random events under the schedules that happen to occur, and mostly compare a run with another run of the same code", "anchors": ["graph/stream.go: EdgeEnqueueToEmitter, Emitter, Remitter (30-330)", "graph/stream-enact-events.go: EnactTopologyEvents", "graph/run-async.go", "graph/run-dynamic.go", "graph/termination.go: CheckTermination (31-101)", "cmd/lp-pagerank/pagerank.go: (13-172)"]}
{"id": "C88", "title": "Graphs of the same events pass the structure check", "statement": "CheckGraphStructureEquality returns exactly if both graphs have the same raw ids with the same numbers of out-edges and panics otherwise. The graphs of two complete runs on the same events pass it, whatever the order of the events, the numbers of threads, the schedules and the batches; in particular a file and a shuffled list of test events with the same edges.", "quantifier": "every two streams of adds and deletes that are permutations of each other, every number of threads on each side, all queue capacities, every interleaving, every division into batches", "why_tests_cant": "the tests rely on it to compare runs: whether it can fail for graphs of the same events, or pass for others, is a statement about all pairs of runs", "anchors": ["graph/graph.go: CheckGraphStructureEquality (397-420)", "graph/algorithm.go: DynamicGraphExecutionFromTestEvents (226-266)", "graph/stream.go: StreamRemitOnly, SendAdd, SendDel (335-367)", "graph/graph-vertex.go: NodeVertexFromRaw, NodeVertexCount, NodeForEachVertex"]}
{"id": "C89", "title": "The windows of reachability for a file", "statement": "After a run of temporal paths on a file of edges with timestamps in order, every vertex named in the file is in the graph, and its windows contain exactly the times at which one can be there when starting at the source: along lines of the file, each taken strictly after the one before it (in undirected mode in both directions).", "quantifier": "every file in order of time with timestamps below 2^64-1 (or any file with logical time), directed or undirected, every number of loaders and threads, all schedules of loading and of the run, static and dynamic, every division into batches", "why_tests_cant": "the result is compared with a sequential algorithm for one file and the schedules that happen; the claim composes loading, numbering, appending and an asynchronous algorithm under all schedules", "anchors": ["cmd/lp-temporal-paths/temporal-paths.go", "cmd/lp-temporal-paths/main.go", "graph/stream.go: EdgeEnqueueToEmitter, StreamFromFile", "graph/stream-enact-events.go: EnactTopologyEvents", "graph/graph-edge.go: TimeRangeEdge"]}
{"id": "C90", "title": "Timestamps are read as they are written", "statement": "The timestamp of an edge is the decimal number in the timestamp column of its line; a file with something else in that column is not taken for data.", "quantifier": "every file, every position of the column, every token", "why_tests_cant": "a test has a few files with proper numbers; the claim is about all tokens, and dropping the error of a parser cannot be seen from files that have none", "anchors": ["graph/graph-edge.go: WithTimestamp.ParseProperty (97-101), TimeRangeEdge.ParseProperty (184-188)", "graph/stream.go: EdgeEnqueueToEmitter (279-291)"]}
{"id": "C91", "title": "Weights are read as they are written", "statement": "The weight of an edge is the number in the weight column of its line, and 1 without such a column; shortest paths of a file are the smallest sums of the numbers written in it.", "quantifier": "every file, every position of the column, every token, all runs on the file", "why_tests_cant": "a test has a few files with small whole numbers as weights; the claim is about all numbers, and what a reader with 24 bits and without errors does to the others cannot be seen there", "anchors": ["graph/graph-edge.go: WithWeight.ParseProperty (68-72)", "graph/stream.go: EdgeEnqueueToEmitter (279-291)", "cmd/lp-sssp/sssp.go"]}
{"id": "C92", "title": "A stream with a target rate is no faster than that", "statement": "With a target rate (-dr), no more events are passed on than the rate allows for the time since the start; nothing is held back that the rate allows.", "quantifier": "every rate, every run of the remitter: all delays of events, queries and sleeps, all readings of the stopwatch that do not run ahead of the time", "why_tests_cant": "a test would have to measure time; the claim is about the sum of all sleeps and delays of a run, and which rates are kept depends on a constant that no test mentions", "anchors": ["graph/stream.go: REMITTER_MIN_SLEEP_TIME_NANO (24)", "graph/stream.go: Remitter (135-144)", "graph/graph-options.go: TargetRate (39, 59)"]}
{"id": "C93", "title": "The answer for a file does not depend on how the algorithm is run", "statement": "The synchronous modes give the shortest paths, the components, the ranks up to the threshold and a proper colouring of the file, as the asynchronous mode does (C81, C87), and so does the variant of shortest paths by messages; with enough room in the queues a synchronous run ends.", "quantifier": "every file, every schedule of loaders, threads and callbacks, every numbering of the vertices, both synchronous variants, static and dynamic runs by messages", "why_tests_cant": "a test compares one run of each mode on a few graphs; the claim is about all interleavings within an iteration, all iterations and all files", "anchors": ["graph/run-sync.go: ConvergeSync", "graph/run-sync.go: ConvergeSyncPrevOnly", "cmd/lp-sssp/sssp.go", "cmd/lp-sssp/sssp-msg.go", "cmd/lp-cc/cc.go"]}
{"id": "C94", "title": "The priority queue of indexes returns the position of a least value", "statement": "After any calls of Init, Insert, Extract, Peek and Replace with sizes and positions in range, no call panics, Extract and Peek return the position of a value than which no queued value is less, Extract removes just that position, and Insert queues the value it is given.", "quantifier": "all values and orders, every sequence of calls, every length", "why_tests_cant": "the order of calls and the ties between values are unlimited; no test inserts into the queue", "anchors": ["utils/sorting.go: PriorityQueueSf.Init", "utils/sorting.go: PriorityQueueSf.Insert", "utils/sorting.go: PriorityQueueSf.Extract", "utils/sorting.go: PriorityQueueSf.Peek", "utils/sorting.go: PriorityQueueSf.Replace", "utils/sorting.go: PriorityQueueSf.Push"]}
{"id": "C95", "title": "Shortest paths by messages come to rest", "statement": "Once the graph stops changing, a run of shortest paths by messages without negative weights has only boundedly many steps left, however its threads are scheduled and in whatever order notifications are taken, although every improvement notifies every neighbour; when none is left, the values are the exact distances. With a negative cycle there is no such bound.", "quantifier": "every graph, every history of additions before, every number of threads and assignment of vertices, every interleaving and order of notifications; any edge function that does not lower labels, so any rounding", "why_tests_cant": "that no schedule goes on for ever is a statement about all infinite schedules; the variant has no UniqueNotification to limit the notifications outstanding", "anchors": ["cmd/lp-sssp/sssp-msg.go: OnUpdateVertex", "cmd/lp-sssp/sssp-msg.go: OnEdgeAdd", "graph/algorithm.go: ActiveNotification", "graph/run-async.go: ProcessMessages"]}
{"id": "C96", "title": "Times are those of the algorithm", "statement": "In a dynamic run with a time series no call on the two stopwatches panics; the termination time reported is the time since the start without the stretches in which queries were being answered; the AlgTimeSinceLast of each query is the time outside these stretches since the previous query was noted, with AlgTimeIncludeQuery including the time in which its threads came to the query.", "quantifier": "all options of queries and comparisons, every number of threads, stream and interleaving, every clock that does not run backwards", "why_tests_cant": "the stopwatches are paused and resumed by different goroutines; that no pause meets another holds only because of the order the commands and acknowledgements impose", "anchors": ["graph/queries.go: LogTimeSeries", "graph/algorithm.go: Run", "graph/oracle-compare.go: CompareToOracle", "utils/stopwatch.go: Pause", "utils/stopwatch.go: UnPause"]}
{"id": "C97", "title": "Queries of algorithms with super-steps", "statement": "For algorithms that declare OnSuperStepConverged queries are answered as for others: in no mode does a thread abort, and the barrier, the moment a query describes and the possibility of answering it (C42, C59, C60) are as without super-steps.", "quantifier": "every number of threads, stream, interleaving and way of answering queries", "why_tests_cant": "whether the algorithm comes to rest while a query is being answered depends on the schedule; no test has super-steps", "anchors": ["graph/run-dynamic.go: ConvergeDynamicThread", "graph/superstep.go: AwaitSuperStepConvergence", "graph/queries.go: LogTimeSeries"]}
{"id": "C98", "title": "Edges with an end time", "statement": "With TimeRange a delete gives its end time to the first edge with its target and start that has not ended, whatever the batches, and aborts if there is none; nothing else about the edges changes and none is removed. With a sliding window every edge ends a window after its start exactly if that time has passed. The algorithm is told of each ended edge once, in order.", "quantifier": "all streams, divisions into batches, targets, starts and ends, every number of events per batch", "why_tests_cant": "the search keeps an index within a run of deletes and has a fast path; which edge is hit depends on the other edges of the vertex and on the runs a batch is cut into", "anchors": ["graph/stream-enact-events.go: EnactTopologyEvents", "graph/graph-edge.go: ParseProperty", "cmd/lp-temporal-paths/main.go: main"]}
{"id": "C99", "title": "Every event is enacted once, in batches that fit", "statement": "In a dynamic run what a thread hands to EnactTopologyEvents is exactly what was put in its topology queue, each event once, in order, in batches that fit in its buffer, also when the buffer and the queue grow; it signals doneEvents and doneRemit exactly once, after the last event, and leaves only after both; when the input has ended it can always leave. TOP_SYNC is acknowledged when, and only when, the events put before it are in the graph.", "quantifier": "every stream, queue size, number of edges, order of commands and interleaving of the thread with remitter and emitter", "why_tests_cant": "the loop has four ways out of an iteration, and which is taken when the end of the queue is seen depends on the batch, the options and the schedule; a queue that grows reports that it is empty once", "anchors": ["graph/run-dynamic.go: ConvergeDynamicThread", "graph/graph.go: Init", "graph/oracle-compare.go: CompareToOracle"]}
{"id": "C100", "title": "Colouring a file is greedy colouring in a fixed order", "statement": "In undirected mode the colouring of a file gives every vertex the least colour not used by the vertices joined to it in the file that come before it (by position in its thread, then by thread), also with several edges between two vertices; by mail the run returns with these colours; by messages, on files without self-loops, the steps of every run are bounded, no run panics, a colour once given is the final one, and a run at rest has these colours, or without waiting a proper colouring. What the message algorithm relies on holds for every loaded file: the i-th out-edge of a vertex leads to where its i-th in-edge comes from, with the positions paired.", "quantifier": "every file, number of loaders and threads, interleaving of loading, and every fair execution or message schedule of the algorithm", "why_tests_cant": "that out- and in-edges are numbered in step depends on every stage from the emitter to the insertion in two threads; whether an edge waits is decided by a position read from another vertex; a test sees few schedules", "anchors": ["cmd/lp-colouring/colouring.go: UseWaitCount, BaseVertexMailbox (61-83), MailMerge (90-139), OnUpdateVertex (166-182)", "cmd/lp-colouring/colouring-msg.go", "graph/stream.go: EdgeEnqueueToEmitter, Emitter, Remitter (30-330)", "graph/stream-enact-events.go: EnactTopologyEvents"]}
{"id": "C101", "title": "The number of triangles logged for a file", "statement": "For every file in undirected mode the number in the log at the end is the number of sets of three vertices any two of which are joined by a line of the file, whatever repeated lines and self-loops it has, on any number of threads, while the graph grows or after it; the steps of every run are bounded and a run at its end passes the check. The edges the algorithm sees at a vertex are those of the loaded graph, in order and with their positions.", "quantifier": "every file with raw ids below 2^31-1 and fewer than 2^32 triangles, and every schedule of loading and of the algorithm", "why_tests_cant": "whether a triangle is counted once depends on the order in which its edges arrive at three vertices; graphs with 2^32 triangles are not in tests", "anchors": ["cmd/lp-tc/tc.go", "cmd/lp-tc/main.go: OnCheckCorrectness (11-28)", "graph/stream.go: EdgeEnqueueToEmitter, Emitter, Remitter (30-330)", "graph/stream-enact-events.go: EnactTopologyEvents"]}
{"id": "C102", "title": "Options that need times are refused for edges without them", "statement": "A run that reads or counts timestamps, uses a sliding window or time ranges goes ahead exactly if its edge type stores every time it is given; otherwise it stops before anything is loaded.", "quantifier": "every edge type, given by its four methods about times, and every combination of the options", "why_tests_cant": "the check tries one number per method; whether this settles it for all numbers, and whether every option that needs times asks for it, no run with particular options shows", "anchors": ["graph/algorithm.go: CheckAssumptions (269-284)", "graph/graph-edge.go: edge types (79-188)", "graph/stream-enact-events.go: InjectExpired (121-185)", "graph/graph-options.go: InsertDeleteOnExpire (43)"]}
