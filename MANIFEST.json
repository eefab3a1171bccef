{
 "claims": [
  {
   "property": "C01",
   "status": "proved",
   "theorems": [
    "Verif.Props.Spsc.C01_fifo",
    "Verif.Props.Spsc.C01_blocking_put_never_drops",
    "Verif.Props.Spsc.C01_accept_succeeds",
    "Verif.Props.Spsc.C01_accept_empty",
    "Verif.Props.Spsc.C01_offer_iff_room"
   ],
   "note": "step machine at atomic-operation granularity; positions as naturals"
  },
  {
   "property": "C02",
   "status": "partial",
   "theorems": [
    "Verif.Props.Spsc.C02_statement_false",
    "Verif.Props.Spsc.C02_closed_is_final_partial",
    "Verif.Props.Mpsc.C02_mpsc_close_race"
   ],
   "note": "violated: put+Close between the two loads of GetSlow loses the item; partial theorem when Close precedes the emptiness load"
  },
  {
   "property": "C03",
   "status": "proved",
   "theorems": [
    "Verif.Props.Mpsc.C03_delivery",
    "Verif.Props.Mpsc.C03_blocking_put_never_drops",
    "Verif.Props.Mpsc.C03_accept_succeeds",
    "Verif.Props.Mpsc.C03_drained_means_complete"
   ],
   "note": "capacity >= 2"
  },
  {
   "property": "C04",
   "status": "partial",
   "theorems": [
    "Verif.Props.Growable.C04_deliverable_false",
    "Verif.Props.Growable.C04_grow_race_loses_items",
    "Verif.Props.Growable.C04_deliverable_partial"
   ],
   "note": "violated: a growth announced between the two loads of a receive strands the items of the old buffer for ever; partial theorem for all schedules without that race"
  },
  {
   "property": "C05",
   "status": "proved",
   "theorems": [
    "Verif.Props.Spsc.C05_remit_offers_never_fail",
    "Verif.Props.Spsc.C05_space_check_exact"
   ],
   "note": ""
  },
  {
   "property": "C06",
   "status": "proved",
   "theorems": [
    "Verif.Props.Deque.C06_deque_is_list",
    "Verif.Props.Deque.C06_queue_roundtrip",
    "Verif.Props.Deque.C06_stack_roundtrip"
   ],
   "note": "pointer-level model of the node ring"
  },
  {
   "property": "C07",
   "status": "proved",
   "theorems": [
    "Verif.Props.Receive.C07_processed_is_prefix",
    "Verif.Props.Receive.C07_all_processed",
    "Verif.Props.Receive.C07_empty_batch"
   ],
   "note": "uses the pointer-level deque; queue order from C03"
  },
  {
   "property": "C08",
   "status": "proved",
   "theorems": [
    "Verif.Props.C08.C08_roundUpPow_least",
    "Verif.Props.C08.C08_roundUpPow_out_of_range"
   ],
   "note": ""
  },
  {
   "property": "C09",
   "status": "partial",
   "theorems": [
    "Verif.Props.Bitmap.C09_never_panics",
    "Verif.Props.Bitmap.C09_bits_exact",
    "Verif.Props.Bitmap.C09_firstUnused_least",
    "Verif.Props.Bitmap.C09_set_makes_addressable",
    "Verif.Props.Bitmap.C09_grow_statement_false",
    "Verif.Props.Bitmap.C09_grow_partial"
   ],
   "note": "Grow off by one at multiples of 64 (bitmap.go:46); everything else proved"
  },
  {
   "property": "C10",
   "status": "proved",
   "theorems": [
    "Verif.Props.PQ.C10_every_call",
    "Verif.Props.PQ.C10_panics",
    "Verif.Props.PQ.C10_drain_sorted"
   ],
   "note": ""
  },
  {
   "property": "C11",
   "status": "proved",
   "theorems": [
    "Verif.Props.PQ.C11_binarySearch",
    "Verif.Props.PQ.C11_found_iff_mem"
   ],
   "note": ""
  },
  {
   "property": "C12",
   "status": "proved",
   "theorems": [
    "Verif.Props.Sorting.C12_smallest_first",
    "Verif.Props.Sorting.C12_largest_first"
   ],
   "note": "sort.Stable trusted as a stable sort"
  },
  {
   "property": "C13",
   "status": "partial",
   "theorems": [
    "Verif.Props.Sorting.C13_statement_false",
    "Verif.Props.Sorting.C13_zero",
    "Verif.Props.Sorting.C13_findTopN_partial"
   ],
   "note": "violated for topN = 0 (panic); proved for topN >= 1"
  },
  {
   "property": "C14",
   "status": "proved",
   "theorems": [
    "Verif.Props.Rbo.C14_value",
    "Verif.Props.Rbo.C14_overlap_exact",
    "Verif.Props.Rbo.C14_empty_not_a_number",
    "Verif.Props.Rbo.C14_identical",
    "Verif.Props.Rbo.C14_range",
    "Verif.Props.Rbo.C14_incremental"
   ],
   "note": "exact rationals for float64; 0/0 is none"
  },
  {
   "property": "C15",
   "status": "partial",
   "theorems": [
    "Verif.Props.Sorting.C15_median_statement_false",
    "Verif.Props.Sorting.C15_median_even_false",
    "Verif.Props.Sorting.C15_percentile_100_panics",
    "Verif.Props.Sorting.C15_percentile_between_partial",
    "Verif.Props.Sorting.C15_percentile_even"
   ],
   "note": "violated for even-length medians and percentile 100; percentile index arithmetic exact, not float64"
  },
  {
   "property": "C16",
   "status": "proved",
   "theorems": [
    "Verif.Props.Io.C16_toInt_decimal_mod",
    "Verif.Props.Io.C16_toInt_decimal",
    "Verif.Props.Io.C16_tokens_exist",
    "Verif.Props.Io.C16_fastFields",
    "Verif.Props.Io.C16_fastFields_too_many"
   ],
   "note": ""
  },
  {
   "property": "C17",
   "status": "proved",
   "theorems": [
    "Verif.Props.Io.C17_lines_exist",
    "Verif.Props.Io.C17_lines_exact",
    "Verif.Props.Io.C17_long_line_panics"
   ],
   "note": ""
  },
  {
   "property": "C18",
   "status": "proved",
   "theorems": [
    "Verif.Props.Ids.C18_id_decodes",
    "Verif.Props.Ids.C18_id_injective",
    "Verif.Props.Ids.C18_id_onto",
    "Verif.Props.Ids.C18_or_is_add",
    "Verif.Props.Ids.C18_sameTidx_iff",
    "Verif.Props.Ids.C18_bucket_bijection"
   ],
   "note": ""
  },
  {
   "property": "C19",
   "status": "proved",
   "theorems": [
    "Verif.Props.Ids.C19_stamp_roundtrip",
    "Verif.Props.Ids.C19_mirror_roundtrip",
    "Verif.Props.Ids.C19_bound_sharp"
   ],
   "note": ""
  },
  {
   "property": "C20",
   "status": "proved",
   "theorems": [
    "Verif.Props.Ids.C20_forEach_exact",
    "Verif.Props.Ids.C20_parallelFor_agrees"
   ],
   "note": ""
  },
  {
   "property": "C21",
   "status": "partial",
   "theorems": [
    "Verif.Props.Loader.C21_loader_share",
    "Verif.Props.Loader.C21_in_order",
    "Verif.Props.Loader.C21_can_finish",
    "Verif.Props.Loader.C21_logical_time",
    "Verif.Props.Loader.C21_statement_false",
    "Verif.Props.Loader.C21_complete_partial"
   ],
   "note": "order, uniqueness, totality and logical time proved for every schedule; completeness violated by the close race of C02, proved without it"
  },
  {
   "property": "C22",
   "status": "proved",
   "theorems": [
    "Verif.Props.Loader.C22_mirrored_pairs",
    "Verif.Props.Loader.C21_in_order"
   ],
   "note": ""
  },
  {
   "property": "C23",
   "status": "proved",
   "theorems": [
    "Verif.Props.Pipeline.C23_handed_out",
    "Verif.Props.Pipeline.C23_position",
    "Verif.Props.Pipeline.C23_dense",
    "Verif.Props.Pipeline.C23_counter"
   ],
   "note": "C23_handed_out for every schedule at checkToRemit; the others relate the positions to the whole stream in runs without the race of C52"
  },
  {
   "property": "C24",
   "status": "proved",
   "theorems": [
    "Verif.Enact.C24_pending",
    "Verif.Enact.C24_delivered"
   ],
   "note": "C24_pending for all options; C24_delivered without expiry (with expiry see C26)"
  },
  {
   "property": "C25",
   "status": "partial",
   "theorems": [
    "Verif.Enact.C25_false",
    "Verif.Enact.C25_partial",
    "Verif.Enact.C25_simple_partial",
    "Verif.Enact.C25_oldest_partial",
    "Verif.Enact.C25_adds",
    "Verif.Enact.C25_callbacks",
    "Verif.Enact.C25_balance"
   ],
   "note": "violated: within one batch a delete may remove a later parallel edge (fast path at deleteIdx); proved when deletes have one candidate or hit the oldest edges; callbacks and balance for all histories"
  },
  {
   "property": "C26",
   "status": "partial",
   "theorems": [
    "Verif.Enact.C26_false",
    "Verif.Enact.C26_partial",
    "Verif.Enact.C26_explicit_delete_panics",
    "Verif.Enact.C26_deleted_twice_panics",
    "Verif.Enact.C26_explicit_delete_shifts",
    "Verif.Enact.C26_threads"
   ],
   "note": "violated: expired edges are deleted after the later adds of the batch; explicit deletes panic; expiry depends on the thread partition. Proved for add streams on one thread: exactly the expired edges are deleted, once each"
  },
  {
   "property": "C27",
   "status": "partial",
   "theorems": [
    "Verif.Props.Inject.C27_structure",
    "Verif.Props.Inject.C27_numbered",
    "Verif.Props.Inject.C27_finishes",
    "Verif.Props.Inject.C27_properties_partial",
    "Verif.Props.Inject.C27_properties_false"
   ],
   "note": "proved for the endpoints of the edges, for all random choices; with edge properties it fails for parallel edges (generator and graph may delete different ones), proved without parallel edges"
  },
  {
   "property": "C28",
   "status": "proved",
   "theorems": [
    "Verif.Props.Atomics.C28_linearizable",
    "Verif.Props.Atomics.C28_retry_means_progress",
    "Verif.Props.Atomics.C28_min",
    "Verif.Props.Atomics.C28_max",
    "Verif.Props.Atomics.C28_add",
    "Verif.Props.Atomics.C28_minFloat",
    "Verif.Props.Atomics.C28_swap",
    "Verif.Props.Atomics.C28_finished"
   ],
   "note": "step machine at atomic-operation granularity; float arithmetic abstract"
  },
  {
   "property": "C29",
   "status": "proved",
   "theorems": [
    "Verif.Props.Async.C29_on_its_way",
    "Verif.Props.Async.C29_seen",
    "Verif.Props.Async.C29_enabled",
    "Verif.Props.Async.C29_unique"
   ],
   "note": "for every algorithm; step machine at atomic-operation granularity"
  },
  {
   "property": "C30",
   "status": "proved",
   "theorems": [
    "Verif.Props.Async.C30_counter",
    "Verif.Props.Async.C30_visit"
   ],
   "note": "for every algorithm"
  },
  {
   "property": "C31",
   "status": "proved",
   "theorems": [
    "Verif.Props.MinLabel.C31_exact",
    "Verif.Props.MinLabel.C31_no_source",
    "Verif.Props.MinLabel.C31_rounded"
   ],
   "note": "exact arithmetic in C31_exact (no sign assumption needed); C31_rounded for any monotone rounded addition"
  },
  {
   "property": "C32",
   "status": "proved",
   "theorems": [
    "Verif.Props.MinLabel.C32_exact",
    "Verif.Props.MinLabel.C32_same_label"
   ],
   "note": ""
  },
  {
   "property": "C33",
   "status": "partial",
   "theorems": [
    "Verif.Props.PageRank.C33_ledger",
    "Verif.Props.PageRank.C33_withheld",
    "Verif.Props.PageRank.C33_residual_partial",
    "Verif.Props.PageRank.C33_ranks_partial",
    "Verif.Props.PageRank.C33_error_partial",
    "Verif.Props.PageRank.C33_residual_false",
    "Verif.Props.PageRank.C33_ranks_false"
   ],
   "note": "violated when a mailbox holds exactly the threshold (17 out-edges, 2 deleted): its vertex is never notified again; otherwise ranks solve the equations up to the threshold; exact arithmetic"
  },
  {
   "property": "C34",
   "status": "proved",
   "theorems": [
    "Verif.Props.Colouring.C34_priority",
    "Verif.Props.Colouring.C34_proper",
    "Verif.Props.Colouring.C34_colour",
    "Verif.Props.Colouring.C34_degree",
    "Verif.Props.Colouring.C34_degree_deletions_false"
   ],
   "note": "proper after any history of additions and deletions, dynamic or loaded before; degree bound for additions (as stated; false after deletions, C34_degree_deletions_false); the scan of the neighbour colours is one step; without UseWaitCount"
  },
  {
   "property": "C35",
   "status": "partial",
   "theorems": [
    "Verif.Term.C35_partial",
    "Verif.Term.C35_false",
    "Verif.Term.C35_hangs"
   ],
   "note": "violated: the view is stored before the own vote is cleared (termination.go 44-45), a thread delayed between the two lets others count a stale vote; two threads suffice for a false termination followed by a hang. Proved for all executions in which no vote is read at that point, any number of threads"
  },
  {
   "property": "C36",
   "status": "proved",
   "theorems": [
    "Verif.Props.Sync.C36_stop",
    "Verif.Props.Sync.C36_sssp",
    "Verif.Props.Sync.C36_cc",
    "Verif.Props.Sync.C36_sssp_agree",
    "Verif.Props.Sync.C36_cc_agree"
   ],
   "note": "both synchronous variants, any algorithm with unique notifications, threads interleaving at atomic-operation granularity; simulation by an asynchronous run with one thread per vertex; claiming and filling a slot of a queue is one step"
  },
  {
   "property": "C37",
   "status": "partial",
   "theorems": [
    "Verif.Props.TempPaths.C37_false",
    "Verif.Props.TempPaths.C37_partial"
   ],
   "note": "False for arbitrary deposits: the heap array is iterated as if it were sorted, so windows [1,2), [5,6), [3,4) abort. Proved when windows at later positions start later (streams in order of time): no abort, windows ordered, disjoint, covering exactly the deposited times, changes detected."
  },
  {
   "property": "C38",
   "status": "partial",
   "theorems": [
    "Verif.Triangles.C38_partial",
    "Verif.Triangles.C38_all_sent",
    "Verif.Triangles.C38_never_over",
    "Verif.Triangles.C38_false"
   ],
   "note": "violated for id 2^31-1 (a flagged id looks discarded; larger ids collide with the flag as well); proved for ids below 2^31-1, dynamic runs and runs on a loaded graph, any threads and schedule, repeated lines and self loops included"
  },
  {
   "property": "C39",
   "status": "proved",
   "theorems": [
    "Verif.Props.Watch.C39_elapsed",
    "Verif.Props.Watch.C39_pause_returns",
    "Verif.Props.Watch.C39_bounds"
   ],
   "note": ""
  },
  {
   "property": "C40",
   "status": "proved",
   "theorems": [
    "Verif.Props.Sorting.C40_shuffle_perm",
    "Verif.Props.Sorting.C40_shuffle_total",
    "Verif.Props.Sorting.C40_remove_exact",
    "Verif.Props.Sorting.C40_remove_total"
   ],
   "note": ""
  },
  {
   "property": "C41",
   "status": "partial",
   "theorems": [
    "Verif.Props.EdgeTools.C41_load",
    "Verif.Props.EdgeTools.C41_scanned",
    "Verif.Props.EdgeTools.C41_sorted",
    "Verif.Props.EdgeTools.C41_by_value_partial",
    "Verif.Props.EdgeTools.C41_by_value_false",
    "Verif.Props.EdgeTools.C41_order_false",
    "Verif.Props.EdgeTools.C41_overlong_false",
    "Verif.Props.EdgeTools.C41_no_output",
    "Verif.Props.EdgeTools.C41_false"
   ],
   "note": "violated: the output is opened read-only so nothing is ever written; timestamps are compared as strings; order of equal timestamps depends on the thread count; an overlong line drops the rest. Proved: loading keeps exactly the edge lines for all schedules, sorting is a stable permutation by bytes, by value for timestamps of equal length"
  },
  {
   "property": "C42",
   "status": "proved",
   "theorems": [
    "Verif.Query.C42_stopped",
    "Verif.Query.C42_topology",
    "Verif.Query.C42_channels",
    "Verif.Query.C42_no_panic"
   ],
   "note": "all three commands; any number of threads; while all acknowledgements are in, no thread moves (EPOCH, BLOCK_ALL) or changes the topology (BLOCK_TOP)"
  },
  {
   "property": "C43",
   "status": "proved",
   "theorems": [
    "Verif.Props.MsgPath.C43_exact",
    "Verif.Props.MsgPath.C43_agrees",
    "Verif.Props.MsgPath.C43_nothing_deferred"
   ],
   "note": "exact arithmetic; notifications may be taken in any order"
  },
  {
   "property": "C44",
   "status": "proved",
   "theorems": [
    "Verif.Props.Pipeline.C44_positions",
    "Verif.Props.Pipeline.C44_queries"
   ],
   "note": "C44_positions for every schedule, counted on the events passed on; C44_queries against the input stream without the race of C52"
  },
  {
   "property": "C45",
   "status": "proved",
   "theorems": [
    "Verif.Props.Pipeline.C45_one_id",
    "Verif.Props.Pipeline.C45_stable",
    "Verif.Props.Pipeline.C45_owner",
    "Verif.Props.Pipeline.C45_endpoints",
    "Verif.Props.Pipeline.C45_encoded"
   ],
   "note": "C45_endpoints in runs without the race of C52, the others in every schedule"
  },
  {
   "property": "C46",
   "status": "partial",
   "theorems": [
    "Verif.Props.Mpsc.C03_capacity_one_false",
    "Verif.Props.Growable.C46_growable_capacity_one_false",
    "Verif.Props.Capacity.C46_mpsc_capacity_ge_two_partial"
   ],
   "note": "violated for capacity 1; C03 theorems cover capacity >= 2"
  },
  {
   "property": "C47",
   "status": "partial",
   "theorems": [
    "Verif.Props.Spsc.C05_unrestricted_false",
    "Verif.Props.Capacity.C47_not_full_partial"
   ],
   "note": "violated when the queue is exactly full; C05 covers the remit protocol"
  },
  {
   "property": "C48",
   "status": "proved",
   "theorems": [
    "Verif.Props.Growable.C04_fifo",
    "Verif.Props.Growable.C04_blocking_put_never_drops",
    "Verif.Props.Growable.C04_closed_is_final",
    "Verif.Props.Growable.C04_put_grows"
   ],
   "note": ""
  },
  {
   "property": "C49",
   "status": "partial",
   "theorems": [
    "Verif.Props.Deque.C49_statement_false",
    "Verif.Props.Deque.C49_zero_value_false",
    "Verif.Props.Deque.C49_zero_value_partial"
   ],
   "note": "violated: tZero is nil without Init, so reads of an empty deque and pops panic"
  },
  {
   "property": "C50",
   "status": "partial",
   "theorems": [
    "Verif.Props.Loader.C50_statement_false",
    "Verif.Props.Loader.C50_same_event_partial"
   ],
   "note": "violated for lines with missing columns (fields of the previous line are reused)"
  },
  {
   "property": "C51",
   "status": "partial",
   "theorems": [
    "Verif.Props.Loader.C51_statement_false",
    "Verif.Props.Loader.C51_blank_line_panics",
    "Verif.Props.Loader.C51_comment_ignored_partial"
   ],
   "note": "violated: a blank line panics (index out of range)"
  },
  {
   "property": "C52",
   "status": "partial",
   "theorems": [
    "Verif.Props.Pipeline.C52_statement_false",
    "Verif.Props.Pipeline.C52_race",
    "Verif.Props.Pipeline.C52_stream_order_partial",
    "Verif.Props.Pipeline.C52_complete_partial"
   ],
   "note": "violated by the close race: stream.go:112 ignores the closed result, passing on an all-zero event and losing the last one; proved for schedules without it"
  },
  {
   "property": "C53",
   "status": "proved",
   "theorems": [
    "Verif.Props.Pipeline.C53_can_finish"
   ],
   "note": "from states not inside the race window of C52"
  },
  {
   "property": "C54",
   "status": "partial",
   "theorems": [
    "Verif.Props.EndToEnd.C54_false",
    "Verif.Props.EndToEnd.C54_batches_matter",
    "Verif.Props.EndToEnd.C54_graph_partial",
    "Verif.Props.EndToEnd.C54_adds",
    "Verif.Props.EndToEnd.C54_adds_any",
    "Verif.Props.EndToEnd.C54_same_graph"
   ],
   "note": "violated: deletes among parallel edges depend on batch boundaries (C25), and the close race of C52; proved for every add-only stream (under any options without a window) and for streams whose deletes find at most one edge, in runs without the race"
  },
  {
   "property": "C55",
   "status": "partial",
   "theorems": [
    "Verif.Props.PageRankFinish.C55_redistribution_partial",
    "Verif.Props.PageRankFinish.C55_sum_partial",
    "Verif.Props.PageRankFinish.C55_no_sinks",
    "Verif.Props.PageRankFinish.C55_false"
   ],
   "note": "violated: 0/0 when all vertices are sinks, for one vertex, and when no sink receives anything; otherwise the sum is one up to twice the threshold"
  },
  {
   "property": "C56",
   "status": "partial",
   "theorems": [
    "Verif.Term.C56_partial",
    "Verif.Term.C56_eventually_partial",
    "Verif.Term.C56_false",
    "Verif.Term.go_enabled"
   ],
   "note": "violated through the same pair of stores as C35 (a thread left with an outdated view blocks the others for ever); proved for all fair executions without such a read: six passes through the loop suffice"
  },
  {
   "property": "C57",
   "status": "partial",
   "theorems": [
    "Verif.SendCapacity.C57_partial",
    "Verif.SendCapacity.C57_progress_partial",
    "Verif.SendCapacity.C57_stuck",
    "Verif.SendCapacity.C57_false"
   ],
   "note": "violated for every capacity: a thread that visits a vertex with more out-neighbours of its own than its queue has room for waits for itself (EnsureSend, \"should drain when blocked\"); proved when every queue has room for one notification per vertex of its thread"
  },
  {
   "property": "C58",
   "status": "partial",
   "theorems": [
    "Verif.Props.Sync.C58_partial",
    "Verif.Props.Sync.C58_bounded_partial",
    "Verif.Props.Sync.C58_stuck",
    "Verif.Props.Sync.C58_false"
   ],
   "note": "proved for ConvergeSyncPrevOnly; violated by ConvergeSync: Accept may come before the notification and leave it over, after which the queue is too small"
  },
  {
   "property": "C59",
   "status": "partial",
   "theorems": [
    "Verif.Query.C59_partial",
    "Verif.Query.C59_notes_partial",
    "Verif.Query.C59_block_partial",
    "Verif.Query.C59_counts",
    "Verif.Query.C59_false",
    "Verif.Looks.C59_vote_empty",
    "Verif.Looks.C59_miss_happens"
   ],
   "note": "violated for algorithms with OnFinish: QueryFinishConcurrent reads properties and edges of the live graph after RESUME. Proved without OnFinish, with all notifications sent until then taken in; the counters are right in any case. The termination check is abstract here (its own correctness is C35); that a thread votes in an epoch only with an empty queue is a guard of this machine, proved apart for the rings of the queue and the view of the check (C59_vote_empty), the two machines are not joined"
  },
  {
   "property": "C60",
   "status": "proved",
   "theorems": [
    "Verif.Query.C60",
    "Verif.Query.C60_misses",
    "Verif.Looks.C60_vote_next"
   ],
   "note": "possibility of completion from every reachable state, for all three commands, with and without OnFinish; abstract termination check as in C59"
  },
  {
   "property": "C61",
   "status": "proved",
   "theorems": [
    "Verif.Props.TempPaths.C61_windows",
    "Verif.Props.TempPaths.C61_no_panic",
    "Verif.Props.TempPaths.C61_before",
    "Verif.Props.TempPaths.C61_schedule",
    "Verif.Props.TempPaths.C61_needs_order"
   ],
   "note": "Whole asynchronous runs with edges ending in place; the variant EXTEND_TO_EDGE_END = true of the source. C61_needs_order shows the time order is needed."
  },
  {
   "property": "C62",
   "status": "proved",
   "theorems": [
    "Verif.Props.Converge.C62_bound",
    "Verif.Props.Converge.C62_sssp",
    "Verif.Props.Converge.C62_cc",
    "Verif.Props.Converge.C62_rest",
    "Verif.Props.Converge.C62_negative"
   ],
   "note": "Work left is bounded by a potential that drops with every improvement; labels are lengths of paths without repetition, so there are finitely many. C62_negative: with a cycle of negative weight there is no bound."
  },
  {
   "property": "C63",
   "status": "proved",
   "theorems": [
    "Verif.Props.Engine.C63_all",
    "Verif.Props.Engine.C63_final",
    "Verif.Props.Engine.C63_enabled",
    "Verif.Props.Engine.C63_sssp",
    "Verif.Props.Engine.C63_cc",
    "Verif.Props.Engine.C63_colouring",
    "Verif.Props.TempPathsEngine.C63_paths"
   ],
   "note": "Although C35 fails for a single thread, all threads can have left only when nothing is in flight: ordered by their last reports, the last one's sum must equal all views. Composed with the algorithm machine by projection (Verif/Engine.lean)."
  },
  {
   "property": "C64",
   "status": "partial",
   "theorems": [
    "Verif.Props.Engine.C64_partial",
    "Verif.Props.Engine.C64_sssp_partial",
    "Verif.Props.Engine.C64_cc_partial",
    "Verif.Props.Engine.C64_false",
    "Verif.Props.TempPathsEngine.C64_paths_partial",
    "Verif.Props.MsgPath.C64_messages_partial"
   ],
   "note": "violated by the schedule of C35_false on a path of five vertices: one thread leaves early and the other waits for ever. Proved for all fair executions in which no vote is read between the stores of termination.go 44-45, for any algorithm with boundedly many steps left."
  },
  {
   "property": "C65",
   "status": "proved",
   "theorems": [
    "Verif.Props.Sync.C65_bound",
    "Verif.Props.Sync.C65_sssp",
    "Verif.Props.Sync.C65_cc",
    "Verif.Props.Sync.C65_negative"
   ],
   "note": "One number bounds the steps of every run, for both variants and all queue sizes: a synchronous run is simulated by an asynchronous one (bounded by C62) and each further iteration is paid for by a notification. Where a run cannot go on it has stopped with exact results, if the queues are larger than the bound, or, for the variant that uses mail of the previous iteration, have room for the vertices of the thread (for ConvergeSync with small queues blocking is possible: C58). C65_negative: not with negative weights."
  },
  {
   "property": "C66",
   "status": "partial",
   "theorems": [
    "Verif.Props.PageRank.C66_bound",
    "Verif.Props.PageRank.C66_rest",
    "Verif.Props.PageRank.C66_exact",
    "Verif.Props.PageRank.C66_ranks_partial",
    "Verif.Props.PageRank.C66_returns_partial",
    "Verif.Props.PageRank.C66_sync",
    "Verif.Props.PageRank.C66_sync_ranks_partial"
   ],
   "note": "The bound on steps is complete (asynchronous from every reachable state, synchronous from the start): mail, withheld inflow and posts outstanding never grow in absolute value, and each visit that passes anything on absorbs more than (1-d) times the threshold. The error bound needs that no mailbox ever holds exactly the threshold (C33_ranks_false is the witness otherwise); returning needs that no vote is read between the two stores (C64_false). Exact arithmetic."
  },
  {
   "property": "C67",
   "status": "partial",
   "theorems": [
    "Verif.Props.Colouring.C67_bound",
    "Verif.Props.Colouring.C67_rest",
    "Verif.Props.Colouring.C67_returns_partial",
    "Verif.Props.Colouring.C67_sync",
    "Verif.Props.Colouring.C67_sync_proper",
    "Verif.Props.Colouring.C67_selfloop_false"
   ],
   "note": "violated by graphs with self loops: a vertex notifies itself of its own colour, so two neighbours can dodge each other for ever (C67_selfloop_false). Without self loops news only goes to lower priority, and each notification sets off a number of further ones bounded by rank and degree. Returning needs that no vote is read between the two stores (C64_false)."
  },
  {
   "property": "C68",
   "status": "proved",
   "theorems": [
    "Verif.Props.ColouringWait.C68_once",
    "Verif.Props.ColouringWait.C68_greedy",
    "Verif.Props.ColouringWait.C68_deterministic",
    "Verif.Props.ColouringWait.C68_proper",
    "Verif.Props.ColouringWait.C68_bound",
    "Verif.Props.ColouringWait.C68_rest",
    "Verif.Props.ColouringWait.C68_sync",
    "Verif.Props.ColouringWait.C68_sync_greedy",
    "Verif.Props.ColouringWait.C68_directed_false"
   ],
   "note": "MailMerge is modelled one atomic access at a time. A counter is the number of prior neighbours whose subtraction is outstanding, so that exactly one sender sees it reach zero, after all colours have been stored. Edges must come with their reverse (C68_directed_false: otherwise a vertex waits for ever). C68_returns_partial: the run returns, in executions without the race of C64_false."
  },
  {
   "property": "C69",
   "status": "partial",
   "theorems": [
    "Verif.Triangles.C69_bound",
    "Verif.Triangles.C69_done",
    "Verif.Triangles.C69_exact_partial",
    "Verif.Triangles.C69_false"
   ],
   "note": "Ending and being done are proved for all inputs. Exactness needs ids below 2^31 - 1: C69_false has a run on a triangle with id 2^31 - 1 that ends with no triangle counted."
  },
  {
   "property": "C70",
   "status": "partial",
   "theorems": [
    "Verif.Props.ColouringMsg.C70_safe",
    "Verif.Props.ColouringMsg.C70_bound",
    "Verif.Props.ColouringMsg.C70_rest",
    "Verif.Props.ColouringMsg.C70_proper",
    "Verif.Props.ColouringMsg.C70_conflict",
    "Verif.Props.ColouringMsg.C70_wait_partial",
    "Verif.Props.ColouringMsg.C70_wait_false",
    "Verif.Props.ColouringMsg.C70_selfloop_false"
   ],
   "note": "Notifications of a vertex are taken in the order of arrival. Proved for graphs without self loops; with a self loop no run ever comes to rest, whatever the schedule (C70_selfloop_false). With wait counts the colouring is the sequential one if the i-th out-edge of each vertex goes to where its i-th in-edge comes from; otherwise a vertex can wait for ever (C70_wait_false)."
  },
  {
   "property": "C71",
   "status": "partial",
   "theorems": [
    "Verif.Props.Compare.C71_panics_iff",
    "Verif.Props.Compare.C71_total_false",
    "Verif.Props.Compare.C71_average",
    "Verif.Props.Compare.C71_zero_iff",
    "Verif.Props.Compare.C71_unsigned_zero_iff",
    "Verif.Props.Compare.C71_unsigned_false",
    "Verif.Props.Compare.C71_unsigned_partial",
    "Verif.Props.Compare.C71_percentile",
    "Verif.Props.Compare.C71_median_false",
    "Verif.Props.Compare.C71_median_partial",
    "Verif.Props.Compare.C71_median_odd"
   ],
   "note": "The mean is proved, and that it is zero exactly for equal results; the percentile is an order statistic. Violated: one vertex panics (C71_total_false), as do results of which all values are ignored; unsigned differences wrap around (C71_unsigned_false); the median is the average of the two middle values for odd lengths instead of even ones (C71_median_false)."
  },
  {
   "property": "C72",
   "status": "partial",
   "theorems": [
    "Verif.Props.BackOff.C72_queue_partial",
    "Verif.Props.BackOff.C72_queue_panic",
    "Verif.Props.BackOff.C72_queue_false",
    "Verif.Props.BackOff.C72_idle_partial",
    "Verif.Props.BackOff.C72_idle_panic",
    "Verif.Props.BackOff.C72_idle_false",
    "Verif.Props.BackOff.C72_dynamic_partial",
    "Verif.Props.BackOff.C72_dynamic_panic",
    "Verif.Props.BackOff.C72_dynamic_false"
   ],
   "note": "Violated: BackOff panics once its count exceeds 2000, after some 200 s of sleep, in the queues, the asynchronous loop and the dynamic loop alike. The partial theorems give the exact bounds below which nothing happens."
  },
  {
   "property": "C73",
   "status": "proved",
   "theorems": [
    "Verif.Super.C73_callback",
    "Verif.Super.C73_end",
    "Verif.Super.C73_last",
    "Verif.Super.C73_enabled",
    "Verif.Super.C73_finish",
    "Verif.Super.C73_channels"
   ],
   "note": "On the termination machine with every shared access a step, extended by the barrier. No assumption on the interleaving: unlike in C35, the callback waits for the checks of all threads. That the callback is reached needs that all checks return true at some point, which the race of C64_false can prevent; C73_enabled only excludes a deadlock. Static runs; topology events and epochs are left out."
  },
  {
   "property": "C74",
   "status": "partial",
   "theorems": [
    "Verif.Query.C74_partial",
    "Verif.Query.C74_end_partial",
    "Verif.Query.C74_last_partial",
    "Verif.Query.C74_false"
   ],
   "note": "Proved for algorithms without OnFinish. False with OnFinish (PageRank): the run may return, normalise the ranks and print the series while the last query is still being finished; at most that one is missing."
  },
  {
   "property": "C75",
   "status": "partial",
   "theorems": [
    "Verif.Table.C75_partial",
    "Verif.Table.C75_zero",
    "Verif.Table.C75_false",
    "Verif.Table.C75_rates"
   ],
   "note": "False for the vertex with raw id 0 in a graph of fewer than ten vertices: the unused rest of the list of ten is printed as vertex 0 with mass 0 (C75_zero: it is never shown). Proved otherwise. Exact rationals instead of formatted floats."
  },
  {
   "property": "C76",
   "status": "partial",
   "theorems": [
    "Verif.Stats.C76_total",
    "Verif.Stats.C76_threads",
    "Verif.Stats.C76_counts",
    "Verif.Stats.C76_partial",
    "Verif.Stats.C76_false",
    "Verif.Stats.C76_changes",
    "Verif.Stats.C76_growing",
    "Verif.Stats.C76_colours_false"
   ],
   "note": "False for the share of active vertices that can be visited now: the numerator also counts inactive vertices (the right count is computed and not used). False for the number of colours in the first line, which is always 0. The rest is proved. The further windows are only printed and left out."
  },
  {
   "property": "C77",
   "status": "partial",
   "theorems": [
    "Verif.OracleCopy.C77_partial",
    "Verif.OracleCopy.C77_latest_partial",
    "Verif.OracleCopy.C77_again_partial",
    "Verif.OracleCopy.C77_fresh_partial",
    "Verif.OracleCopy.C77_false",
    "Verif.OracleRace.C77_blocked",
    "Verif.OracleRace.C77_read",
    "Verif.OracleRace.C77_live_false",
    "Verif.OracleRace.C77_read_false"
   ],
   "note": "Proved for algorithms that keep nothing in their edges, with the graph threads blocked. False for algorithms that write to edges (the arrays are shared with the oracle, as a comment says); false with AllowAsyncVertexProps and NoConvergeForQuery, where threads go on and their updates are overwritten when the properties are put back; and a query being finished concurrently can read finished properties."
  },
  {
   "property": "C78",
   "status": "partial",
   "theorems": [
    "Verif.Props.Check.C78_sssp_right",
    "Verif.Props.Check.C78_sssp_passed",
    "Verif.Props.Check.C78_sssp_run",
    "Verif.Props.Check.C78_sssp_false",
    "Verif.Props.Check.C78_sources_false",
    "Verif.Props.Check.C78_cc_right",
    "Verif.Props.Check.C78_cc_passed",
    "Verif.Props.Check.C78_cc_run_partial",
    "Verif.Props.Check.C78_cc_false",
    "Verif.Props.Check.C78_cc_alarm",
    "Verif.Props.Check.C78_colour_exact",
    "Verif.Props.Check.C78_colour_false",
    "Verif.Props.Check.C78_colour_report",
    "Verif.Props.Check.C78_ratio",
    "Verif.Props.Check.C78_colours_false",
    "Verif.Props.Check.C78_colour_run",
    "Verif.Props.Check.C78_tc_run_partial",
    "Verif.Props.Check.C78_tc_passed",
    "Verif.Props.Check.C78_tc_false",
    "Verif.Props.Check.C78_paths_right",
    "Verif.Props.Check.C78_paths_passed",
    "Verif.Props.Check.C78_paths_run",
    "Verif.Props.Check.C78_paths_false",
    "Verif.Props.Check.C78_paths_needs",
    "Verif.Props.Check.C78_pagerank_total",
    "Verif.Props.Check.C78_pagerank_partial",
    "Verif.Props.Check.C78_pagerank_false",
    "Verif.Props.Check.C78_ranks_false"
   ],
   "note": "For each algorithm: completed runs pass (under the hypotheses of the theorem on its results), and what passing implies is proved. Exact only for colouring of graphs where each edge has a reverse edge. False otherwise: distances that are too small, components sharing a label, any ranks with sum one, vertices without their windows pass; several sources with different initial values, the raw id 2^32-1 alone, ranks that are not numbers, edges that end before they start make the check panic on right results. Not covered: temporal paths with edges that end at the time they start."
  },
  {
   "property": "C79",
   "status": "proved",
   "theorems": [
    "Verif.Props.TempPathsConv.C79_bound",
    "Verif.Props.TempPathsConv.C79_rest"
   ],
   "note": "For streams in order of time (as C61; C61_needs_order shows the panic otherwise). The measure: edges weighted by how many start later; a changed entry can only unsettle offers along edges that start later. In the engine: C63_paths, C64_paths_partial."
  },
  {
   "property": "C80",
   "status": "partial",
   "theorems": [
    "Verif.Props.Options.C80_accepted",
    "Verif.Props.Options.C80_mode",
    "Verif.Props.Options.C80_threads_in_bounds",
    "Verif.Props.Options.C80_as_asked_partial",
    "Verif.Props.Options.C80_queues_deliver",
    "Verif.Props.Options.C80_stream",
    "Verif.Props.Options.C80_statement_false",
    "Verif.Props.Options.C80_threads_cut",
    "Verif.Props.Options.C80_loaders_cut",
    "Verif.Props.Options.C80_queue_cut",
    "Verif.Props.Options.C80_columns_cut",
    "Verif.Props.Options.C80_days_cut"
   ],
   "note": "Acceptance, strategy and bounds hold for all flags. The rest holds within the ranges of the option types; larger or negative numbers are cut without notice (300 loaders are 44, -m 50 gives queues without a slot, -pt 257 reads column 1, -dt -1 asks for a time series of a run that is not dynamic)."
  },
  {
   "property": "C81",
   "status": "partial",
   "theorems": [
    "Verif.Props.Answer.C81_paths_partial",
    "Verif.Props.Answer.C81_paths_return_partial",
    "Verif.Props.Answer.C81_components_partial",
    "Verif.Props.Answer.C81_components_return_partial",
    "Verif.Props.Answer.C81_colours_partial",
    "Verif.Props.Answer.C81_colours_return_partial",
    "Verif.Props.Answer.C81_statement_false"
   ],
   "note": "Holds in schedules without the two races on closing queues (C02/C21, C52), for edges that are only added; with termination additionally under fairness and votes not read between the two stores (C64). With the race the second line of a file of two lines can be lost and the run ends without one of its vertices."
  },
  {
   "property": "C82",
   "status": "partial",
   "theorems": [
    "Verif.Props.GraphStats.C82_report_partial",
    "Verif.Props.GraphStats.C82_false",
    "Verif.Props.GraphStats.C82_inEdges_max",
    "Verif.Props.GraphStats.C82_inEdges_false"
   ],
   "note": "All lines are right for all options, except the number of edges with time ranges: it leaves out edges that have ended, which all other lines count. The median is only as good as C15. InEdgesStats (not called anywhere) takes the median over vertices with in-edges only."
  },
  {
   "property": "C83",
   "status": "proved",
   "theorems": [
    "Verif.Props.Buckets.C83_mail",
    "Verif.Props.Buckets.C83_same_mailbox",
    "Verif.Props.Buckets.C83_stable"
   ],
   "note": "For sequentially consistent memory and words read and written in one piece; ids reach other threads only after NewVertex has returned."
  },
  {
   "property": "C84",
   "status": "partial",
   "theorems": [
    "Verif.Props.ResultFile.C84_lines",
    "Verif.Props.ResultFile.C84_vertices_partial",
    "Verif.Props.ResultFile.C84_vertices_false",
    "Verif.Props.ResultFile.C84_paths_partial",
    "Verif.Props.ResultFile.C84_components_partial",
    "Verif.Props.ResultFile.C84_named",
    "Verif.Props.ResultFile.C84_base_partial",
    "Verif.Props.ResultFile.C84_base_false",
    "Verif.Props.ResultFile.C84_kept_partial",
    "Verif.Props.ResultFile.C84_names_false"
   ],
   "note": "False in full: with the races on closing queues vertices of the input have no line, and files of the same name in different directories (or with two dots, a.b.txt and b.txt) overwrite each other. Proved: in every run one line for each vertex of the graph; without the races these are the vertices of the input with the answers of C81; names with at most one dot in the last part."
  },
  {
   "property": "C85",
   "status": "partial",
   "theorems": [
    "Verif.Props.Launch.C85_static",
    "Verif.Props.Launch.C85_dynamic_partial",
    "Verif.Props.Launch.C85_mails_first",
    "Verif.Props.Launch.C85_source",
    "Verif.Props.Launch.C85_loaded",
    "Verif.Props.Launch.C85_dynamic_false",
    "Verif.Props.Launch.C85_nothing",
    "Verif.Props.Launch.C85_mails_dropped",
    "Verif.Props.Launch.C85_modes_differ",
    "Verif.Props.Launch.C85_no_source"
   ],
   "note": "False in full for dynamic runs: with nothing given every vertex is given the zero value of the mail type (SSSP with an empty map of sources: all distances are 0), mails are dropped if the algorithm has InitAllNote, notes win over InitAllMail. Proved: static runs in full; dynamic runs with one kind of data, which covers the algorithms of the repository; loading in full."
  },
  {
   "property": "C86",
   "status": "partial",
   "theorems": [
    "Verif.Props.Asks.C86_timed",
    "Verif.Props.Asks.C86_cut_partial",
    "Verif.Props.Asks.C86_ties_partial",
    "Verif.Props.Asks.C86_false",
    "Verif.Props.Asks.C86_counted",
    "Verif.Props.Asks.C86_off",
    "Verif.Props.Asks.C86_logical",
    "Verif.Props.Asks.C86_half",
    "Verif.Props.Asks.C86_even_partial",
    "Verif.Props.Asks.C86_adds_partial",
    "Verif.Props.Asks.C86_adds_false",
    "Verif.Props.Asks.C86_stream_partial",
    "Verif.Props.Asks.C86_components_false"
   ],
   "note": "False in full: of events at one time only the first is in; in undirected mode by timestamp every query is asked between the two directions of an edge, so that connected components of the snapshot are wrong; the interval by number counts deletions too. Proved: the moments for every stream; exact cuts for distinct timestamps; symmetric graphs for even numbers of events."
  },
  {
   "property": "C87",
   "status": "partial",
   "theorems": [
    "Verif.Props.Answer.C87_exact",
    "Verif.Props.Answer.C87_ledger_partial",
    "Verif.Props.Answer.C87_ranks_partial",
    "Verif.Props.Answer.C87_error_partial",
    "Verif.Props.Answer.C87_returns_partial",
    "Verif.Props.Answer.C87_threshold_false",
    "Verif.Props.Answer.C87_statement_false"
   ],
   "note": "False in full, even without races and deletions: on a file of 20 lines read in batches of 15, 2 and 3 a mailbox holds exactly the threshold after the second batch, and the notifications after that are not sent (C33). Proved, without the races on closing queues: the ranks are exactly what the lines pass on less what is withheld; if no mailbox ever holds exactly the threshold, the equations up to twice the threshold and the distance from the exact ranks; the run ends (as C64)."
  },
  {
   "property": "C88",
   "status": "partial",
   "theorems": [
    "Verif.Props.SameGraph.C88_check",
    "Verif.Props.SameGraph.C88_same_partial",
    "Verif.Props.SameGraph.C88_degree_partial",
    "Verif.Props.SameGraph.C88_tests_partial",
    "Verif.Props.SameGraph.C88_statement_false",
    "Verif.Props.SameGraph.C88_edges_not_compared"
   ],
   "note": "False in full: after the race on closing ToRemitQueue (C52) a graph has a vertex 0 instead of the source, and the check dereferences nil. Proved: what the check decides, for all graphs with tables as in C45; without that race all graphs of the same events pass, with deletes (which of several edges they remove does not matter for the number) and with edge ends; the number of edges is that of adds less deletes. Not with expiry. The check does not see where edges lead to, as its comment says."
  },
  {
   "property": "C89",
   "status": "partial",
   "theorems": [
    "Verif.Props.AnswerTimes.C89_windows_partial",
    "Verif.Props.AnswerTimes.C89_return_partial",
    "Verif.Props.AnswerTimes.C89_range_partial",
    "Verif.Props.AnswerTimes.C89_statement_false"
   ],
   "note": "False in full: after the race at a closing loader queue (C02) lines are missing. Proved for all runs without the races, static and dynamic, any threads and schedules; also that the run returns (restricted as C64). A line at time 0 cannot be taken (the source can be left after time 0)."
  },
  {
   "property": "C90",
   "status": "partial",
   "theorems": [
    "Verif.Props.EdgeProps.C90_token",
    "Verif.Props.EdgeProps.C90_not_a_number",
    "Verif.Props.EdgeProps.C90_times_partial",
    "Verif.Props.EdgeProps.C90_stamps_partial",
    "Verif.Props.EdgeProps.C90_statement_false"
   ],
   "note": "False in full: the error of ParseUint is dropped, so that a token that is not a number becomes time 0 (or the largest number). Proved for files with decimal numbers below 2^64 in the column. ParseUint of the standard library is modelled from its source."
  },
  {
   "property": "C91",
   "status": "partial",
   "theorems": [
    "Verif.Props.Weights.C91_token",
    "Verif.Props.Weights.C91_exact",
    "Verif.Props.Weights.C91_close",
    "Verif.Props.Weights.C91_order",
    "Verif.Props.Weights.C91_large",
    "Verif.Props.Weights.C91_not_a_number",
    "Verif.Props.Weights.C91_infinity",
    "Verif.Props.Weights.C91_nan",
    "Verif.Props.Weights.C91_weights_partial",
    "Verif.Props.Weights.C91_default",
    "Verif.Props.Weights.C91_statement_false",
    "Verif.Props.AnswerWeights.C91_paths_partial",
    "Verif.Props.AnswerWeights.C91_paths_return_partial"
   ],
   "note": "False in full: numbers are rounded to float32 (0.1, 2^24+1), and the error of ParseFloat is dropped (0 for what is not a number, infinity for what is too large). Proved for decimal numbers: the nearest float32, exact up to 24 bits, one part in 2^24 otherwise, order kept; shortest paths of a file up to one part in 2^24 of the smallest sum written (sums of weights are exact in the model). Spelled-out infinities keep their sign, \"nan\" is read as not a number. Hexadecimal numbers and digit separators are left open."
  },
  {
   "property": "C92",
   "status": "partial",
   "theorems": [
    "Verif.Props.Pace.C92_rate_partial",
    "Verif.Props.Pace.C92_high_rates",
    "Verif.Props.Pace.C92_unbounded",
    "Verif.Props.Pace.C92_no_needless_sleep",
    "Verif.Props.Pace.C92_keeps_up",
    "Verif.Props.Pace.C92_low_rates",
    "Verif.Props.Pace.C92_exceeded",
    "Verif.Props.Pace.C92_statement_false"
   ],
   "note": "False in full: seconds are multiplied by time.Nanosecond (1) instead of time.Second, so a remitter that is early sleeps ten milliseconds and no more; every rate below 100 events per second gives 100 events per second. Proved: the larger of the rate and 100 per second is never exceeded (so rates from 100 on are kept), nothing is held back that the rate allows, and from 100 on a run without delays is never behind by more than the events of ten milliseconds. Floats are exact."
  },
  {
   "property": "C93",
   "status": "partial",
   "theorems": [
    "Verif.Props.AnswerSync.C93_paths_partial",
    "Verif.Props.AnswerSync.C93_components_partial",
    "Verif.Props.AnswerSync.C93_paths_return_partial",
    "Verif.Props.AnswerSync.C93_components_return_partial",
    "Verif.Props.AnswerSync.C93_ranks_partial",
    "Verif.Props.AnswerSync.C93_ranks_error_partial",
    "Verif.Props.AnswerSync.C93_ranks_return_partial",
    "Verif.Props.AnswerSync.C93_colours_partial",
    "Verif.Props.AnswerSync.C93_colours_return_partial",
    "Verif.Props.AnswerSync.C93_messages_partial",
    "Verif.Props.AnswerSync.C93_messages_return_partial",
    "Verif.Props.AnswerSync.C93_statement_false"
   ],
   "note": "False in full for the same reason as C81: a line can be lost by the races on closing queues, whatever the mode. Proved in runs without these races: values of synchronous shortest paths and components (both variants) in terms of the file, the end of these runs within a bounded number of steps if the queues are large enough, and the values of shortest paths by messages, with the end of these runs (restricted as C64); ranks (equations of the file up to twice the threshold, and the distance from the exact ranks, unless a mailbox holds exactly the threshold) and colours of the two ends of a line."
  },
  {
   "property": "C94",
   "status": "partial",
   "theorems": [
    "Verif.Props.IndexQueue.C94_queue_partial",
    "Verif.Props.IndexQueue.C94_since_init",
    "Verif.Props.IndexQueue.C94_insert",
    "Verif.Props.IndexQueue.C94_insert_twice",
    "Verif.Props.IndexQueue.C94_statement_false"
   ],
   "note": "False because of Insert: Push appends one less than the number of queued positions instead of the position of the new value, so the new value is not queued; on an empty queue the position is -1 and a second Insert panics. Proved for all other calls, also after an Init that follows Inserts; what Insert does instead is proved as well."
  },
  {
   "property": "C95",
   "status": "proved",
   "theorems": [
    "Verif.Props.MsgPath.C95_bound",
    "Verif.Props.MsgPath.C95_rest",
    "Verif.Props.MsgPath.C95_reached",
    "Verif.Props.MsgPath.C95_negative"
   ],
   "note": "A note that improves a vertex has come along a path that visits no vertex twice, so a vertex improves finitely often; it sends along its edges once for every improvement at most, and once after edges were added. C95_negative: not with negative weights."
  },
  {
   "property": "C96",
   "status": "partial",
   "theorems": [
    "Verif.Timers.C96_no_panic",
    "Verif.Timers.C96_total",
    "Verif.Timers.C96_watch",
    "Verif.Timers.C96_since_partial",
    "Verif.Timers.C96_async_partial",
    "Verif.Timers.C96_false"
   ],
   "note": "No panic and the termination time hold for all options. The times of the queries are right without AllowAsyncVertexProps; with it (PageRank) they are the times between the moments at which queries were taken up, the first counted from Init, whether or not AlgTimeIncludeQuery is set (C96_false). Termination is abstract as in C59; adjacent calls read the clock at the same time."
  },
  {
   "property": "C97",
   "status": "partial",
   "theorems": [
    "Verif.Query.C97_same_partial",
    "Verif.Query.C97_partial",
    "Verif.Query.C97_false"
   ],
   "note": "False with NoConvergeForQuery and AllowAsyncVertexProps: threads whose topology is blocked check for termination, find it, and abort (run-dynamic.go 303). Proved for the other modes: the runs are exactly those without super-steps. The meeting is one step here (C73 has its parts)."
  },
  {
   "property": "C98",
   "status": "partial",
   "theorems": [
    "Verif.Enact.C98_rule",
    "Verif.Enact.C98_one",
    "Verif.Enact.C98_partial",
    "Verif.Enact.C98_false",
    "Verif.Enact.C98_depends",
    "Verif.Enact.C98_file_deletes",
    "Verif.Enact.C98_window"
   ],
   "note": "violated: the first edge that has not ended is taken without regard to its start if it leads to the target (C98_false); deletes read from a file have no end time and end nothing (C98_file_deletes). Proved: the exact rule of the code for all histories and batches, the simple rule if no other edge to the same target with another start is running, and the sliding window for streams of adds."
  },
  {
   "property": "C99",
   "status": "partial",
   "theorems": [
    "Verif.Pull.C99_no_panic",
    "Verif.Pull.C99_order",
    "Verif.Pull.C99_signals",
    "Verif.Pull.C99_left",
    "Verif.Pull.C99_size",
    "Verif.Pull.C99_can_leave",
    "Verif.Pull.C99_sync_partial",
    "Verif.Pull.C99_sync_false",
    "Verif.Pull.C99_sync_lost"
   ],
   "note": "violated for TOP_SYNC (sent by CompareToOracle with syncWithQuery, which nobody in the repository sets): it is acknowledged when the queue has grown although events are left, and not at all when the end of the queue is seen first. Everything else is proved for every Accept that may fail after growth. C04_deliverable_partial has the queue itself."
  },
  {
   "property": "C100",
   "status": "partial",
   "theorems": [
    "Verif.Props.AnswerGreedy.C100_aligned_partial",
    "Verif.Props.AnswerGreedy.C100_greedy_partial",
    "Verif.Props.AnswerGreedy.C100_returns_partial",
    "Verif.Props.AnswerGreedy.C100_right_partial",
    "Verif.Props.AnswerGreedy.C100_messages_partial",
    "Verif.Props.AnswerGreedy.C100_proper_partial",
    "Verif.Props.AnswerGreedy.C100_statement_false"
   ],
   "note": "violated in full, because a closing queue may lose its last element (C36, C45; C100_statement_false: the line is lost and the graph is empty). Proved for every run without these two races, streams of at most 2^31-2 edges (positions are kept in 31 bits); messages: files without self-loops, on which the runs by messages never end (C70)."
  },
  {
   "property": "C101",
   "status": "partial",
   "theorems": [
    "Verif.Props.AnswerTriangles.C101_graph_partial",
    "Verif.Props.AnswerTriangles.C101_count_partial",
    "Verif.Props.AnswerTriangles.C101_wraps",
    "Verif.Props.AnswerTriangles.C101_statement_false"
   ],
   "note": "violated in full: the sum of a thread is a uint32, for 3000 vertices any two of which are joined one thread logs 200533704 instead of 4495501000 (C101_wraps); also ids from 2^31-1 on (C38_false) and lost lines (C81). Proved otherwise."
  },
  {
   "property": "C102",
   "status": "partial",
   "theorems": [
    "Verif.Assume.C102_not_refused",
    "Verif.Assume.C102_library_partial",
    "Verif.Assume.C102_short_passes",
    "Verif.Assume.C102_window_passes",
    "Verif.Assume.C102_window_takes_all",
    "Verif.Assume.C102_window_empties",
    "Verif.Assume.C102_window_idle",
    "Verif.Assume.C102_window_right",
    "Verif.Assume.C102_statement_false"
   ],
   "note": "violated: the check is not made for a window without timestamps (-w without -pt), where edges without times are all deleted in the batch that adds them (window_takes_all for the injection, window_empties for the edges of one vertex; the two are not joined to a run) and edges with unset times never are; and a type that stores only small times passes. Proved: nothing is refused wrongly, and for the types of the library without a window, or with a window and times, the check is exact"
  }
 ]
}