{
 "claims": [
  {
   "property": "C01",
   "status": "proved",
   "theorems": [
    "Verif.Buffer.C01_buffer_refines_byte_string",
    "Verif.Buffer.C01_buffer_operations_defined_iff_in_range",
    "Verif.Buffer.C01_empty_raw_append_then_move_aborts"
   ],
   "note": "Full for all operation sequences. Deviation shown: Append(char*,0) creates a zero-size block after which a move assignment aborts."
  },
  {
   "property": "C02",
   "status": "proved",
   "theorems": [
    "Verif.Buffer.C02_builder_concatenates"
   ],
   "note": "All legal builder call sequences, all block sizes."
  },
  {
   "property": "C03",
   "status": "proved",
   "theorems": [
    "Verif.Buffer.C03_flattenSlow",
    "Verif.Buffer.C03_flattenSlowUntil",
    "Verif.Buffer.C03_flattenToSlow"
   ],
   "note": "FlattenToSlow requires a non-empty buffer (FirstContiguous on an empty one is undefined)."
  },
  {
   "property": "C04",
   "status": "proved",
   "theorems": [
    "Verif.Buffer.C04_input_stream",
    "Verif.Buffer.C04_input_stream_total",
    "Verif.Buffer.C04_zero_block_stalls"
   ],
   "note": "For buffers without zero-size blocks; with one, Next stalls (C04_zero_block_stalls)."
  },
  {
   "property": "C05",
   "status": "proved",
   "theorems": [
    "Verif.Trpc.C05_header_wire_layout",
    "Verif.Trpc.C05_header_roundtrip",
    "Verif.Trpc.C05_header_decode_any"
   ],
   "note": "All header values, all block layouts."
  },
  {
   "property": "C06",
   "status": "proved",
   "theorems": [
    "Verif.Trpc.C06_request_roundtrip",
    "Verif.Trpc.C06_request_encode_total",
    "Verif.Trpc.C06_request_accepts_only_exact_split"
   ],
   "note": "Protobuf is abstract (parse inverts serialise)."
  },
  {
   "property": "C07",
   "status": "proved",
   "theorems": [
    "Verif.Trpc.C07_response_roundtrip",
    "Verif.Trpc.C07_response_encode_total",
    "Verif.Trpc.C07_response_accepts_only_exact_split"
   ],
   "note": "Protobuf is abstract (parse inverts serialise)."
  },
  {
   "property": "C08",
   "status": "proved",
   "theorems": [
    "Verif.Trpc.C08_data_roundtrip",
    "Verif.Trpc.C08_control_roundtrip",
    "Verif.Trpc.C08_control_encode_total",
    "Verif.Trpc.C08_control_kinds_not_confused"
   ],
   "note": "The DATA decoder itself does not check the kind (the dispatcher does)."
  },
  {
   "property": "C09",
   "status": "proved",
   "theorems": [
    "Verif.Trpc.C09_segmentation",
    "Verif.Trpc.C09_segmentation_independent",
    "Verif.Trpc.C09_concatenated_frames",
    "Verif.Trpc.C09_good_frame_dropped_with_garbage"
   ],
   "note": "At the level of the checker. Deviation shown: the connection drops the good frames of a read in which an error is found, so what the handler sees before a protocol error does depend on segmentation."
  },
  {
   "property": "C10",
   "status": "proved",
   "theorems": [
    "Verif.Trpc.C10_checker_frames_any_input",
    "Verif.Trpc.C10_framing_unique",
    "Verif.Trpc.C10_checked_frames_decode_safely",
    "Verif.Trpc.C10_four_gib_buffer_reports_less"
   ],
   "note": "Buffers below 4 GiB (the code truncates the size to 32 bits; the effect is shown by C10_four_gib_buffer_reports_less)."
  },
  {
   "property": "C11",
   "status": "proved",
   "theorems": [
    "Verif.Limiter.Seconds.C11_admits_first_limit",
    "Verif.Limiter.Seconds.C11_admitted_count",
    "Verif.Limiter.Seconds.C11_current_counter",
    "Verif.Limiter.Seconds.C11_stale_call_exceeds_limit"
   ],
   "note": "All interleavings of the atomic steps; C11_stale_call_exceeds_limit shows that the promptness condition is needed."
  },
  {
   "property": "C12",
   "status": "proved",
   "theorems": [
    "Verif.Limiter.Smooth.C12_admitted_iff_window_below_limit",
    "Verif.Limiter.Smooth.C12_at_most_limit_per_window",
    "Verif.Limiter.Smooth.C12_frames_pos"
   ],
   "note": "Requests and ticks interleave at call granularity; interleaving inside a call is not covered."
  },
  {
   "property": "C13",
   "status": "proved",
   "theorems": [
    "Verif.Limiter.Token.C13_refines_token_bucket",
    "Verif.Limiter.Token.C13_interval_bound",
    "Verif.Limiter.Token.C13_admits_after_one_period",
    "Verif.Limiter.Token.C13_zero_burst_halves_rate",
    "Verif.Limiter.Token.C13_excessive_rate_never_rejects"
   ],
   "note": "64-bit arithmetic modelled exactly; calls are serialised by the mutex. The last two theorems show why the quantifier excludes burst 0 and rates above 10^9."
  },
  {
   "property": "C14",
   "status": "proved",
   "theorems": [
    "Verif.Limiter.Concurrency.C14_in_flight_bounded",
    "Verif.Limiter.Concurrency.C14_decision",
    "Verif.Limiter.Concurrency.C14_skip_on_error"
   ],
   "note": "Fewer than 2^32 simultaneous contexts (the counter has 32 bits)."
  },
  {
   "property": "C15",
   "status": "proved",
   "theorems": [
    "Verif.Limiter.Retry.C15_tokens_le_max",
    "Verif.Limiter.Retry.C15_single_call",
    "Verif.Limiter.Retry.C15_sequential_is_atomic_run",
    "Verif.Limiter.Retry.C15_sequential_range",
    "Verif.Limiter.Retry.C15_gate"
   ],
   "note": "All interleavings of the atomic accesses."
  },
  {
   "property": "C16",
   "status": "proved",
   "theorems": [
    "Verif.LB.Polling.C16_full_rotation",
    "Verif.LB.Polling.C16_in_list",
    "Verif.LB.Polling.C16_update",
    "Verif.LB.Polling.C16_wrap_skews"
   ],
   "note": "C16_wrap_skews shows the effect of the 32-bit wrap excluded by the quantifier. Concurrent callers are covered in the order of their atomic increments."
  },
  {
   "property": "C17",
   "status": "proved",
   "theorems": [
    "Verif.LB.WRR.C17_exact_proportion",
    "Verif.LB.WRR.C17_every_window",
    "Verif.LB.WRR.C17_selects_positive_weight",
    "Verif.LB.WRR.C17_no_overflow",
    "Verif.LB.WRR.C17_update",
    "Verif.LB.WRR.C17_all_zero_selects_first"
   ],
   "note": "Selections one after the other (concurrent ones: C34)."
  },
  {
   "property": "C18",
   "status": "proved",
   "theorems": [
    "Verif.LB.Hash.C18_selects_owner",
    "Verif.LB.Hash.C18_owner_unique",
    "Verif.LB.Hash.C18_history_independent",
    "Verif.LB.Hash.C18_minimal_disruption",
    "Verif.LB.Hash.C18_update_moves_only_changed"
   ],
   "note": "The hash function is arbitrary."
  },
  {
   "property": "C19",
   "status": "proved",
   "theorems": [
    "Verif.Queue.Mpmc.C19_mpmc_linearizable",
    "Verif.Queue.Mpmc.C19_at_most_once",
    "Verif.Queue.Mpmc.C19_at_most_capacity",
    "Verif.Queue.Mpmc.C19_quiescent_operations_succeed",
    "Verif.Queue.Mpmc.C19_capacity",
    "Verif.Queue.Mpmc.C19_mask",
    "Verif.Queue.Mpmc.C19_capacity_one_broken"
   ],
   "note": "All interleavings over sequentially consistent memory, any number of threads. Init(0) is excluded: it gives capacity 1, for which the queue is broken (C19_capacity_one_broken)."
  },
  {
   "property": "C20",
   "status": "proved",
   "theorems": [
    "Verif.Queue.Deque.C20_unbounded_linearizable",
    "Verif.Queue.Deque.C20_unbounded_at_most_once",
    "Verif.Queue.Deque.C20_unbounded_nothing_lost"
   ],
   "note": "Any number of thieves, including array growth during steals; sequentially consistent memory."
  },
  {
   "property": "C21",
   "status": "partial",
   "theorems": [
    "Verif.Queue.Deque.C21_bounded_linearizable_partial",
    "Verif.Queue.Deque.C21_bounded_at_most_once_partial",
    "Verif.Queue.BoundedSpmc.C21_dequeue_on_new_queue_kills_it",
    "Verif.Queue.BoundedSpmc.C21_lost_race_kills_it",
    "Verif.Queue.BoundedSpmc.C21_item_handed_out_twice"
   ],
   "note": "Refuted by the code in three ways (64-bit wrap of bottom_, bottom_ not restored after a lost race). Proved: at most once and in order, for executions in which Dequeue is not called while bottom_ is 0."
  },
  {
   "property": "C22",
   "status": "proved",
   "theorems": [
    "Verif.Queue.Deque.C22_local_linearizable",
    "Verif.Queue.Deque.C22_local_at_most_once",
    "Verif.Queue.Deque.C22_local_nothing_lost",
    "Verif.Queue.Deque.C22_no_wrap"
   ],
   "note": "Any number of thieves; sequentially consistent memory."
  },
  {
   "property": "C23",
   "status": "proved",
   "theorems": [
    "Verif.Queue.RunQ.C23_linearizable",
    "Verif.Queue.RunQ.C23_check_never_fails",
    "Verif.Queue.RunQ.C23_at_most_once",
    "Verif.Queue.RunQ.C23_at_most_capacity",
    "Verif.Queue.RunQ.C23_unstealable_not_stolen",
    "Verif.Queue.RunQ.C23_quiescent",
    "Verif.Queue.RunQ.C23_capacity"
   ],
   "note": "All interleavings over sequentially consistent memory, any number of threads and any batch size. Init(0) and Init(1) are excluded (C23_capacity)."
  },
  {
   "property": "C24",
   "status": "proved",
   "theorems": [
    "Verif.Container.BQ.C24_deque",
    "Verif.Container.BQ.C24_bounded",
    "Verif.Container.BQ.C24_clear_destroys_all",
    "Verif.Container.BQ.C24_capacity_zero",
    "Verif.Container.BQ.C24_capacity_large"
   ],
   "note": "Includes object lifetimes (no slot constructed twice or destroyed twice) and 32-bit arithmetic. The last two theorems show that capacity 0 and capacities above 2^31 have to be excluded."
  },
  {
   "property": "C25",
   "status": "proved",
   "theorems": [
    "Verif.Future.Sem.C25_units_conserved",
    "Verif.Future.Sem.C25_fifo",
    "Verif.Future.Sem.C25_no_overtaking",
    "Verif.Future.Sem.C25_no_overtaking_inside",
    "Verif.Future.Sem.C39_no_lost_wakeup_partial",
    "Verif.Future.Sem.C25_after_broke",
    "Verif.Future.Sem.C25_broke_answers_all",
    "Verif.Future.Sem.C40_no_crash_partial"
   ],
   "note": "Re-entrant calls are modelled by an explicit stack of callbacks. The exceptions named in the statement are C39 and C40."
  },
  {
   "property": "C26",
   "status": "proved",
   "theorems": [
    "Verif.Future.Sem.C26_exclusion",
    "Verif.Future.Sem.C26_fifo",
    "Verif.Future.Sem.C26_no_overtaking",
    "Verif.Future.Sem.C26_no_lost_wakeup",
    "Verif.Future.Sem.C26_grants",
    "Verif.Future.Sem.C26_unlock_succeeds"
   ],
   "note": "Callbacks may lock and unlock. A request made inside a callback may become ready before earlier waiters whose units are already set aside."
  },
  {
   "property": "C27",
   "status": "proved",
   "theorems": [
    "Verif.Stream.Flow.C27_bounded",
    "Verif.Stream.Flow.C27_no_deadlock",
    "Verif.Stream.Flow.C27_write_no_deadlock",
    "Verif.Stream.Flow.C27_window_size",
    "Verif.Stream.Flow.C27_huge_message_deadlocks"
   ],
   "note": "For messages that fit into the 32-bit counter of the receiver together with a quarter of the window; C27_huge_message_deadlocks shows that this is needed. C27_write_no_deadlock is about TrpcStream::Write."
  },
  {
   "property": "C28",
   "status": "proved",
   "theorems": [
    "Verif.Transport.CallMap.C28_map",
    "Verif.Transport.CallMap.C28_at_most_once",
    "Verif.Transport.CallMap.C28_foreach_once",
    "Verif.Transport.CallMap.C28_foreach_visits",
    "Verif.Transport.CallMap.C28_foreach",
    "Verif.Transport.CallMap.C28_foreach_alone"
   ],
   "note": "Operations are atomic per shard; an iteration is interleaved with operations of other threads between the shards."
  },
  {
   "property": "C29",
   "status": "proved",
   "theorems": [
    "Verif.LB.Hash.C29_modulo_in_list",
    "Verif.LB.Hash.C29_decimal_key",
    "Verif.LB.Hash.C29_every_endpoint_reachable",
    "Verif.LB.Hash.C29_non_numeric_key_throws"
   ],
   "note": "Outside the quantifier a non-numeric hash key raises an uncaught exception (C29_non_numeric_key_throws)."
  },
  {
   "property": "C30",
   "status": "partial",
   "theorems": [
    "Verif.Buffer.C30_output_stream_partial",
    "Verif.Buffer.C30_byteCount_excludes_pending"
   ],
   "note": "Written bytes exact and ByteCount exact after a flush; missing: ByteCount() between Next and Flush is wrong in the code, the contract deviation shown by C30_byteCount_excludes_pending."
  },
  {
   "property": "C31",
   "status": "partial",
   "theorems": [
    "Verif.Trpc.C31_oversized_header_misdecodes"
   ],
   "note": "Refuted by the code: C31_oversized_header_misdecodes proves that a 65536-byte header is accepted as the default header."
  },
  {
   "property": "C32",
   "status": "partial",
   "theorems": [
    "Verif.Limiter.Token.C32_young_clock_blocks"
   ],
   "note": "Refuted by the code: after one admission the bucket rejects for centuries. The positive part is C13."
  },
  {
   "property": "C33",
   "status": "partial",
   "theorems": [
    "Verif.Limiter.Retry.C33_failure_below_zero",
    "Verif.Limiter.Retry.C33_failure_effect_partial"
   ],
   "note": "Refuted by the code (the old value is tested): the count reaches -ratio and a further failure raises it to 0."
  },
  {
   "property": "C34",
   "status": "partial",
   "theorems": [
    "Verif.LB.WRR.Race.C34_concurrent_next_breaks",
    "Verif.LB.WRR.Race.C34_serial_is_next"
   ],
   "note": "Refuted by the code: Next modifies the weights under a shared lock. Proved: calls that do not overlap behave as in C17."
  },
  {
   "property": "C35",
   "status": "partial",
   "theorems": [
    "Verif.LB.Hash.C35_known_endpoint_partial",
    "Verif.LB.Hash.C35_removed_endpoint_served",
    "Verif.LB.Hash.C35_stale_status"
   ],
   "note": "Refuted by the code in two ways; proved for all inputs: the endpoint returned was in some list of the history, and (C18) is current when names are faithful and virtual nodes distinct."
  },
  {
   "property": "C36",
   "status": "partial",
   "theorems": [
    "Verif.LB.Hash.C36_history_matters",
    "Verif.LB.Hash.C36_shared_points"
   ],
   "note": "Refuted by the code; the positive part, for distinct virtual nodes, is C18."
  },
  {
   "property": "C37",
   "status": "partial",
   "theorems": [
    "Verif.Queue.Mpmc.C37_mpsc_linearizable_partial",
    "Verif.Queue.Mpmc.C37_completed_push_not_seen",
    "Verif.Queue.Mpmc.C37_not_fifo",
    "Verif.Queue.Mpmc.C19_quiescent_operations_succeed"
   ],
   "note": "Proved: everything except the last clause. Refuted by the code: a pop reports empty although a completed push is in the queue, behind an unfinished one."
  },
  {
   "property": "C38",
   "status": "partial",
   "theorems": [
    "Verif.Queue.RunQ.C38_batch_accepted_partial",
    "Verif.Queue.RunQ.C38_exact_fit_rejected",
    "Verif.Queue.RunQ.C38_large_batch_spins",
    "Verif.Queue.RunQ.C38_large_batch_never_accepted"
   ],
   "note": "Proved: a batch is accepted if one more slot than needed is free. Refuted by the code: an exactly fitting batch is rejected, and a batch as large as the capacity spins for ever."
  },
  {
   "property": "C39",
   "status": "partial",
   "theorems": [
    "Verif.Future.Sem.C39_lost_wakeup",
    "Verif.Future.Sem.C39_no_lost_wakeup_partial"
   ],
   "note": "Refuted by the code: a unit deposited in the middle of a batch wakes nobody. Proved: no lost wake-up if callbacks signal only at the end of a batch."
  },
  {
   "property": "C40",
   "status": "partial",
   "theorems": [
    "Verif.Future.Sem.C40_wait_zero_after_broke",
    "Verif.Future.Sem.C40_served_after_broke",
    "Verif.Future.Sem.C40_nested_broke_crashes",
    "Verif.Future.Sem.C40_no_crash_partial",
    "Verif.Future.Sem.C25_after_broke"
   ],
   "note": "Refuted by the code in three ways; the positive parts are C25_after_broke and C40_no_crash_partial."
  },
  {
   "property": "C41",
   "status": "partial",
   "theorems": [
    "Verif.Stream.Flow.C41_window_grows",
    "Verif.Stream.Flow.C41_bounded_partial"
   ],
   "note": "Refuted by the code: a writer that had to wait sends without charging the window, so the window grows without limit. Proved: the bound holds as long as no writer has had to wait."
  },
  {
   "property": "C42",
   "status": "proved",
   "theorems": [
    "Verif.Transport.Connector.C42_at_most_once",
    "Verif.Transport.Connector.C42_never_lost",
    "Verif.Transport.Connector.C42_timeout_completes",
    "Verif.Transport.Connector.C42_results_justified",
    "Verif.Transport.Connector.C42_timeout_own",
    "Verif.Transport.Connector.C42_no_crash"
   ],
   "note": "Sequentially consistent interleavings; the call map operations are atomic (C28)."
  },
  {
   "property": "C43",
   "status": "partial",
   "theorems": [
    "Verif.Transport.Connector.C43_early_response_crashes",
    "Verif.Transport.Connector.C43_context_destroyed_in_use",
    "Verif.Transport.Connector.C43_stale_timer",
    "Verif.Transport.Connector.C42_at_most_once",
    "Verif.Transport.Connector.C42_no_crash"
   ],
   "note": "Refuted by the code: the response handler does not wait for the lock of the context as DispatchException does, so a response for a request that is just being made crashes the client; a reused id receives the timeout of its predecessor. The positive parts are C42_at_most_once and C42_no_crash."
  },
  {
   "property": "C44",
   "status": "proved",
   "theorems": [
    "Verif.Future.Core.C44_no_crash",
    "Verif.Future.Core.C44_called_once",
    "Verif.Future.Core.C44_called_right",
    "Verif.Future.Core.C44_got_right",
    "Verif.Future.Core.C44_unique",
    "Verif.Future.Core.C44_called_complete",
    "Verif.Future.Core.C44_read_complete",
    "Verif.Future.Core.C44_terminates",
    "Verif.Future.Core.C44_settles"
   ],
   "note": "Sequentially consistent memory; ready and failed are plain bools read without the lock, so on other hardware more may happen."
  },
  {
   "property": "C45",
   "status": "proved",
   "theorems": [
    "Verif.Future.When.C45_once",
    "Verif.Future.When.C45_all_right",
    "Verif.Future.When.C45_all_complete",
    "Verif.Future.When.C45_any_right",
    "Verif.Future.When.C45_any_complete",
    "Verif.Future.When.C45_ready_right",
    "Verif.Future.When.C45_ready_complete"
   ],
   "note": "Each callback is called at most once (C44). At least one future."
  },
  {
   "property": "C46",
   "status": "proved",
   "theorems": [
    "Verif.Future.Loop.C46_for",
    "Verif.Future.Loop.C46_times",
    "Verif.Future.Loop.C46_for_each",
    "Verif.Future.Loop.C46_for_each_times",
    "Verif.Future.Loop.C46_finish",
    "Verif.Future.Loop.C46_while",
    "Verif.Future.Loop.C46_while_step"
   ],
   "note": "The user function is abstract; the future loop code is followed step by step."
  },
  {
   "property": "C47",
   "status": "partial",
   "theorems": [
    "Verif.Future.Loop.C47_unbounded",
    "Verif.Future.Loop.C47_async_partial"
   ],
   "note": "Refuted by the code: with resolved futures and an executor that runs callbacks at once each iteration nests one level deeper. Proved: constant depth if every future is resolved later."
  },
  {
   "property": "C48",
   "status": "proved",
   "theorems": [
    "Verif.Thread.SqPool.C48_fifo",
    "Verif.Thread.SqPool.C48_accepted",
    "Verif.Thread.SqPool.C48_refused",
    "Verif.Thread.SqPool.C48_once"
   ],
   "note": "The queue itself is an atomic bounded queue (C19)."
  },
  {
   "property": "C49",
   "status": "partial",
   "theorems": [
    "Verif.Thread.SqPool.C49_lost",
    "Verif.Thread.SqPool.C49_late",
    "Verif.Thread.SqPool.C49_wakes_partial",
    "Verif.Thread.SqPool.C49_drains_partial",
    "Verif.Thread.SqPool.C49_stop_partial",
    "Verif.Thread.SqPool.C49_stop_wakes_partial"
   ],
   "note": "Refuted by the code: a worker reads the futex word only after its Pop failed, so a task pushed in between wakes nobody; AddTask racing with Stop may add a task after the workers left. Proved: a wake-up wakes a sleeping worker if there is one, an awake worker empties the queue, no worker sleeps once Stop is over, and then all tasks are run unless AddTask was between its check and its push."
  },
  {
   "property": "C50",
   "status": "proved",
   "theorems": [
    "Verif.Fiber.Timer.C50_early",
    "Verif.Fiber.Timer.C50_once",
    "Verif.Fiber.Timer.C50_removed",
    "Verif.Fiber.Timer.C50_enabled",
    "Verif.Fiber.Timer.C50_check"
   ],
   "note": "Firing is the moment at which the timer thread takes the callback under the lock of the entry; the callback itself may still be running or just about to run when RemoveTimer returns."
  },
  {
   "property": "C51",
   "status": "proved",
   "theorems": [
    "Verif.Fiber.Timer.C51_sleep",
    "Verif.Fiber.Timer.C51_stop",
    "Verif.Fiber.Timer.C51_round"
   ],
   "note": "Times below 2^63-1 ns."
  },
  {
   "property": "C52",
   "status": "proved",
   "theorems": [
    "Verif.Fiber.Sched.C52_order",
    "Verif.Fiber.Sched.C52_awake",
    "Verif.Fiber.Sched.C52_safe",
    "Verif.Fiber.Sched.C52_stop",
    "Verif.Fiber.Sched.C52_leaves"
   ],
   "note": "Sequentially consistent memory; the code uses memory_order_relaxed. The run queue is an atomic bounded queue (C23). StartFibers only in groups of at most 32 workers (C54)."
  },
  {
   "property": "C53",
   "status": "partial",
   "theorems": [
    "Verif.Fiber.Sched.C53_waits",
    "Verif.Fiber.Sched.C53_wakes_partial"
   ],
   "note": "Refuted by the code: a spinning worker that has just taken a fiber still has its bit set and is claimed for the next one, which then waits for the end of the first while another worker sleeps. Proved: with all workers running or asleep, StartFiber wakes a sleeping worker, which takes a fiber."
  },
  {
   "property": "C54",
   "status": "partial",
   "theorems": [
    "Verif.Fiber.Sched.C54_few",
    "Verif.Fiber.Sched.C54_none",
    "Verif.Fiber.Sched.C54_undefined",
    "Verif.Fiber.Sched.C54_all_partial"
   ],
   "note": "Refuted by the code: the loop clears the bit above the lowest one, each time the same, so fewer workers or none are woken; groups of more than 32 workers shift an int too far. Proved: in groups of at most 32 workers, at least as many fibers as workers wake everybody."
  },
  {
   "property": "C55",
   "status": "proved",
   "theorems": [
    "Verif.Fiber.Sync.C55_fair_mutex",
    "Verif.Fiber.Sync.C55_mutual_exclusion",
    "Verif.Fiber.Sync.C55_one_owner",
    "Verif.Fiber.Sync.C55_fifo",
    "Verif.Fiber.Sync.C55_quiet"
   ],
   "note": "The specification is a fair queue mutex (Lk in SyncSpec.lean) that the events of every run follow. Sequentially consistent memory."
  },
  {
   "property": "C56",
   "status": "proved",
   "theorems": [
    "Verif.Fiber.Sync.C56_condition_variable",
    "Verif.Fiber.Sync.C56_owns",
    "Verif.Fiber.Sync.C56_returns",
    "Verif.Fiber.Sync.C56_fifo",
    "Verif.Fiber.Sync.C56_not_lost",
    "Verif.Fiber.Sync.C56_quiet"
   ],
   "note": "The specification is Cv in SyncSpec.lean. A timer may fire at any time after it was set; C50 says when it does."
  },
  {
   "property": "C57",
   "status": "partial",
   "theorems": [
    "Verif.Fiber.Sync.C57_timed_wait_of_a_thread",
    "Verif.Fiber.Sync.C57_early_notification",
    "Verif.Fiber.Sync.C57_fibers_partial"
   ],
   "note": "Refuted by the code: a thread whose wait is over returns while the notifier still holds a pointer to the block on its stack, and the notification is used up; the futex is read after the block is in the list, so a notification in between is overwritten (harmless if the condition is changed only with the mutex owned: then the waiter saw that change before it called wait). Proved: for fibers none of this happens."
  },
  {
   "property": "C58",
   "status": "proved",
   "theorems": [
    "Verif.Filter.C58_chain",
    "Verif.Filter.C58_twice",
    "Verif.Filter.C58_twice_service"
   ],
   "note": "Filters of the service are added after the global ones, as the framework does."
  },
  {
   "property": "C59",
   "status": "proved",
   "theorems": [
    "Verif.Filter.C59_pairs",
    "Verif.Filter.C59_stops",
    "Verif.Filter.C59_one_response",
    "Verif.Filter.C59_no_response"
   ],
   "note": "The flows are transcribed as programs whose failures are answered from outside; a checker proved sound for all filters and answers is evaluated on each flow."
  },
  {
   "property": "C60",
   "status": "partial",
   "theorems": [
    "Verif.Filter.C60_http_late_partial",
    "Verif.Filter.C60_http_body_partial",
    "Verif.Filter.C60_future_partial",
    "Verif.Filter.C60_oneway_partial",
    "Verif.Filter.C60_decode_partial",
    "Verif.Filter.C60_stream_partial",
    "Verif.Filter.C60_io_partial",
    "Verif.Filter.C60_http_queues",
    "Verif.Filter.C60_http_one",
    "Verif.Filter.C60_http_async",
    "Verif.Filter.C60_http_async_one",
    "Verif.Filter.C60_rpc_rest"
   ],
   "note": "Refuted by the code: late HTTP requests and unreadable bodies get post hooks twice or without pre hooks, failed futures get none, one-way futures get them twice, the points around writing are not paired. Proved: the pairs around the queues, asynchronous HTTP streams, the message pair of two-way RPC calls, one response per request."
  },
  {
   "property": "C61",
   "status": "partial",
   "theorems": [
    "Verif.Filter.C61_sched_partial",
    "Verif.Filter.C61_stream_partial",
    "Verif.Filter.C61_http"
   ],
   "note": "Refuted by the code: REJECT at SERVER_PRE_SCHED_RECV_MSG counts only if the filter sets a status, and REJECT of a stream at SERVER_POST_RECV_MSG is ignored. Proved for filters that set a status: RPC (C59_stops) and HTTP."
  },
  {
   "property": "C62",
   "status": "proved",
   "theorems": [
    "Verif.Filter.C62_pairs",
    "Verif.Filter.C62_stops"
   ],
   "note": ""
  },
  {
   "property": "C63",
   "status": "partial",
   "theorems": [
    "Verif.Filter.C63_oneway_partial",
    "Verif.Filter.C63_stream_partial",
    "Verif.Filter.C63_oneway_inner"
   ],
   "note": "Refuted by the code: the early return of OnewayInvoke when FillRequest fails skips CLIENT_POST_RPC_INVOKE, and a rejected HTTP stream skips the post points of the filters before the rejecting one. Proved: the inner pair of one-way calls."
  },
  {
   "property": "C64",
   "status": "proved",
   "theorems": [
    "Verif.Redis.C64_blocks",
    "Verif.Redis.C64_safe",
    "Verif.Redis.C64_consumed",
    "Verif.Redis.C64_more"
   ],
   "note": "Signed overflow of numbers with too many digits is an outcome of its own (C67)."
  },
  {
   "property": "C65",
   "status": "proved",
   "theorems": [
    "Verif.Redis.C65_read",
    "Verif.Redis.C65_less",
    "Verif.Redis.C65_merged",
    "Verif.Redis.C65_merged_less",
    "Verif.Redis.C65_stream",
    "Verif.Redis.C65_stream_goes_on",
    "Verif.Redis.C65_check"
   ],
   "note": "Requires integers above -2^63 (C67). Nested at most 8 deep, 7 for merged requests."
  },
  {
   "property": "C66",
   "status": "proved",
   "theorems": [
    "Verif.Redis.C66_exact",
    "Verif.Redis.C66_resp",
    "Verif.Redis.C66_format"
   ],
   "note": "vsnprintf is a function of which only %d and %ld are assumed to print decimal numbers."
  },
  {
   "property": "C67",
   "status": "partial",
   "theorems": [
    "Verif.Redis.C67_type",
    "Verif.Redis.C67_number_partial",
    "Verif.Redis.C67_nil_partial",
    "Verif.Redis.C67_end_partial",
    "Verif.Redis.C67_count_partial",
    "Verif.Redis.C67_min_partial",
    "Verif.Redis.C67_format_end_partial",
    "Verif.Redis.C67_format_past_partial",
    "Verif.Redis.C67_format_long_partial",
    "Verif.Redis.C67_lost_partial"
   ],
   "note": "Refuted by the code: ReadLongLong returns -1 for what is no number and this is not checked, the line end of strings is skipped unseen, element counts are cut to int, the smallest integer overflows, strchr finds the terminating NUL of a format that ends in a conversion. Proved: bytes that begin no reply are refused."
  },
  {
   "property": "C68",
   "status": "proved",
   "theorems": [
    "Verif.Http.C68_rfc",
    "Verif.Http.C68_round_trip",
    "Verif.Http.C68_fits",
    "Verif.Http.C68_safe",
    "Verif.Http.C68_accepted"
   ],
   "note": ""
  },
  {
   "property": "C69",
   "status": "proved",
   "theorems": [
    "Verif.Http.C69_decode",
    "Verif.Http.C69_path",
    "Verif.Http.C69_query",
    "Verif.Http.C69_safe",
    "Verif.Http.C69_plain",
    "Verif.Http.C69_unchanged",
    "Verif.Http.C69_uint",
    "Verif.Http.C69_length"
   ],
   "note": ""
  },
  {
   "property": "C70",
   "status": "proved",
   "theorems": [
    "Verif.Http.C70_headers",
    "Verif.Http.C70_defined",
    "Verif.Http.C70_parameters",
    "Verif.Http.C70_size"
   ],
   "note": "Names that are not empty and do not begin with a colon; the rest is C71."
  },
  {
   "property": "C71",
   "status": "partial",
   "theorems": [
    "Verif.Http.C71_colon_partial",
    "Verif.Http.C71_lost_partial",
    "Verif.Http.C71_empty_partial",
    "Verif.Http.C71_parameters_partial"
   ],
   "note": "Refuted by the code: with names that begin with a colon the comparison is not a strict weak order, and an empty name is undefined behaviour. The positive part is C70."
  },
  {
   "property": "C72",
   "status": "proved",
   "theorems": [
    "Verif.Http.C72_query",
    "Verif.Http.C72_none"
   ],
   "note": ""
  },
  {
   "property": "C73",
   "status": "partial",
   "theorems": [
    "Verif.Http.C73_base64_partial",
    "Verif.Http.C73_escape_partial",
    "Verif.Http.C73_plus_partial",
    "Verif.Http.C73_length_partial"
   ],
   "note": "Refuted by the code: bytes above 127 make Base64Decode read outside of its table, UrlDecode accepts any two characters as an escape, ParseContentLength accepts blanks and signs and cuts off large numbers. The positive parts are C68 and C69."
  },
  {
   "property": "C74",
   "status": "proved",
   "theorems": [
    "Verif.Http.C74_path",
    "Verif.Http.C74_remainder",
    "Verif.Http.C74_remainder_only",
    "Verif.Http.C74_exact",
    "Verif.Http.C74_first",
    "Verif.Http.C74_none",
    "Verif.Http.C74_put",
    "Verif.Http.C74_add",
    "Verif.Http.C74_params",
    "Verif.Http.C74_normalize"
   ],
   "note": "std::regex matchers are functions of the URL."
  },
  {
   "property": "C75",
   "status": "partial",
   "theorems": [
    "Verif.Http.C75_slash_partial",
    "Verif.Http.C75_below_partial"
   ],
   "note": "Refuted by the code: the slash is removed from the path of a request but not from the registered one."
  },
  {
   "property": "C76",
   "status": "proved",
   "theorems": [
    "Verif.Http.C76_pieces",
    "Verif.Http.C76_ends",
    "Verif.Http.C76_received",
    "Verif.Http.C76_limit",
    "Verif.Http.C76_ambiguous"
   ],
   "note": "picohttpparser is not part of the repository: its two functions are parameters, with the contracts ErrExt, PhrLen, Strict and Incremental as hypotheses."
  },
  {
   "property": "C77",
   "status": "partial",
   "theorems": [
    "Verif.Http.C77_lengths_partial",
    "Verif.Http.C77_encoding_partial",
    "Verif.Http.C77_linefeeds_partial"
   ],
   "note": "Refuted by the code: the first of several Content-Length counts, the value of Transfer-Encoding is not looked at, and a head that ends with bare line feeds is accepted or refused depending on what has already arrived behind it. The positive part is C76."
  },
  {
   "property": "C78",
   "status": "proved",
   "theorems": [
    "Verif.Conn.C78_order",
    "Verif.Conn.C78_done",
    "Verif.Conn.C78_safe",
    "Verif.Conn.C78_single"
   ],
   "note": "Sequentially consistent memory; no limit of the queue; established connections."
  },
  {
   "property": "C79",
   "status": "proved",
   "theorems": [
    "Verif.Conn.C79_not_stranded",
    "Verif.Conn.C79_wakes",
    "Verif.Conn.C79_spin"
   ],
   "note": ""
  },
  {
   "property": "C80",
   "status": "proved",
   "theorems": [
    "Verif.Conn.C80_destroyed",
    "Verif.Conn.C80_stopped",
    "Verif.Conn.C80_left"
   ],
   "note": ""
  },
  {
   "property": "C81",
   "status": "proved",
   "theorems": [
    "Verif.Conn.C81_stays_open",
    "Verif.Conn.C81_all_written"
   ],
   "note": ""
  },
  {
   "property": "C82",
   "status": "partial",
   "theorems": [
    "Verif.Conn.C82_empty_message_partial",
    "Verif.Conn.C82_destroy_outside_partial",
    "Verif.Conn.C82_lost_wakeup_partial",
    "Verif.Conn.C82_wakeup"
   ],
   "note": "Refuted by the code: FlushWritingBuffer takes \"nothing written and not emptied\" for a closed socket, which is also the result for an empty message when another one is appended meanwhile; size_ and stop_token_ change without the mutex of the condition variable; head_ is left dangling when the queue is drained (OnCleanup hides this by calling Stop). Proved: a sender that already sleeps is woken. The positive parts are C80 and C81."
  },
  {
   "property": "C83",
   "status": "proved",
   "theorems": [
    "Verif.Conn.Cleanup.C83_once",
    "Verif.Conn.Cleanup.C83_alone",
    "Verif.Conn.Cleanup.C83_closed",
    "Verif.Conn.Cleanup.C83_safe",
    "Verif.Conn.Cleanup.C83_complete"
   ],
   "note": "Callers of Kill and Send hold references. Sequentially consistent memory."
  },
  {
   "property": "C84",
   "status": "partial",
   "theorems": [
    "Verif.Conn.Cleanup.C84_keep_running_partial",
    "Verif.Conn.Cleanup.C84_join_partial",
    "Verif.Conn.Cleanup.C84_join_one"
   ],
   "note": "Refuted by the code: the tasks that reset a counter after kLeaving hold no reference, and notify_one wakes only one of several callers of Join. Proved: a single caller of Join returns; the rest is C83."
  },
  {
   "property": "C85",
   "status": "proved",
   "theorems": [
    "Verif.Conn.Handshake.C85_safe",
    "Verif.Conn.Handshake.C85_not_stranded",
    "Verif.Conn.Handshake.C85_events",
    "Verif.Conn.Handshake.C85_read_handshake",
    "Verif.Conn.Handshake.C85_no_handshake"
   ],
   "note": "The queue is reduced to whether it is empty; the events take effect at once (C78, C79 have the details)."
  },
  {
   "property": "C86",
   "status": "partial",
   "theorems": [
    "Verif.Conn.Handshake.C86_forgotten_partial",
    "Verif.Conn.Handshake.C86_nothing_to_write_partial",
    "Verif.Conn.Handshake.C86_two_writers_partial"
   ],
   "note": "Refuted by the code: OnWritable falls through to FlushWritingBuffer whether or not someone waits, and StartHandshaking does not restart a write that waits (needs a sender between Established and StartHandshaking; the connector groups publish a connection only afterwards). The positive part is C85."
  },
  {
   "property": "C87",
   "status": "proved",
   "theorems": [
    "Verif.Stream.C87_alone",
    "Verif.Stream.C87_order",
    "Verif.Stream.C87_quiet",
    "Verif.Stream.C87_stops"
   ],
   "note": "Creating a fiber does not fail (TRPC_ASSERT otherwise)."
  },
  {
   "property": "C88",
   "status": "proved",
   "theorems": [
    "Verif.Stream.Trpc.C88_order",
    "Verif.Stream.Trpc.C88_eof",
    "Verif.Stream.Trpc.C88_complete",
    "Verif.Stream.Trpc.C88_reset_ends",
    "Verif.Stream.Trpc.C88_cut"
   ],
   "note": "One stream of a connection; the server stream exists from the start. Flow control is C27."
  },
  {
   "property": "C89",
   "status": "proved",
   "theorems": [
    "Verif.Stream.Trpc.C89_legal",
    "Verif.Stream.Trpc.C89_no_crash",
    "Verif.Stream.Trpc.C89_told",
    "Verif.Stream.Trpc.C89_agreed"
   ],
   "note": "Encoding the frame of SendReset does not fail."
  },
  {
   "property": "C90",
   "status": "partial",
   "theorems": [
    "Verif.Stream.Trpc.C90_write_partial",
    "Verif.Stream.Trpc.C90_write_accepted",
    "Verif.Stream.Trpc.C90_race_partial",
    "Verif.Stream.Trpc.C90_read_partial",
    "Verif.Stream.Trpc.C90_silent_partial"
   ],
   "note": "Refuted by the code: Write ignores the result of PushSendMessage; a message that waits to be sent when the orderly CLOSE of the server is handled makes CheckState reset the stream and replace the result; Read returns the latest status also with a message; HandleReset returns an error and nothing else. Proved: before Stop a Write that returns success has accepted the message. The positive parts are C88 and C89."
  },
  {
   "property": "C91",
   "status": "partial",
   "theorems": [
    "Verif.Stream.Locks.C91_no_deadlock",
    "Verif.Stream.Locks.C91_stop_partial"
   ],
   "note": "Refuted by the code: FiberStreamJobScheduler::Stop on an idle stream calls RemoveStream under stream_mutex_, TrpcStreamHandler::Stop pushes under mutex_. Proved: without such calls there is no deadlock."
  },
  {
   "property": "C92",
   "status": "proved",
   "theorems": [
    "Verif.Transport.Wheel.C92_fires",
    "Verif.Transport.Wheel.C92_none_missed",
    "Verif.Transport.Wheel.C92_found",
    "Verif.Transport.Wheel.C92_popped",
    "Verif.Transport.Wheel.C92_safe"
   ],
   "note": "Times are natural numbers; timeouts below 2^28 ms from the last round (the rest is C93)."
  },
  {
   "property": "C93",
   "status": "partial",
   "theorems": [
    "Verif.Transport.Wheel.C93_far_partial",
    "Verif.Transport.Wheel.C93_late_partial",
    "Verif.Transport.Wheel.C93_pop_partial"
   ],
   "note": "Refuted by the code: AddTimerNode converts the difference of times to int, a push from a handler for a time that has come is filed in the slot that was just emptied, and DoTimeout keeps a pointer to the next node. The positive part is C92."
  },
  {
   "property": "C94",
   "status": "proved",
   "theorems": [
    "Verif.Transport.Pool.C94_own_answer",
    "Verif.Transport.Pool.C94_once",
    "Verif.Transport.Pool.C94_single",
    "Verif.Transport.Pool.C94_checks",
    "Verif.Transport.Pool.C94_none_lost"
   ],
   "note": "One reactor thread per group; request ids differ; no one-way requests on fixed connections (C95), no streams, no backup requests."
  },
  {
   "property": "C95",
   "status": "partial",
   "theorems": [
    "Verif.Transport.Pool.C95_starves_partial",
    "Verif.Transport.Pool.C95_last_answer_partial",
    "Verif.Transport.Pool.C95_lost_number_partial",
    "Verif.Transport.Pool.C95_shared_partial",
    "Verif.Transport.Pool.C95_ordinary_partial",
    "Verif.Transport.Pool.C95_freed_partial"
   ],
   "note": "Refuted by the code: only an answer starts a waiting request, HandleMessage sends it before the connection is found not reusable, a send queue that is full leaves the number out, closing a fixed connection frees its number while it is held, and SendOnly on a fixed connection queues the request that its caller releases. The positive part is C94."
  },
  {
   "property": "C96",
   "status": "proved",
   "theorems": [
    "Verif.Reactor.Timers.C96_fires",
    "Verif.Reactor.Timers.C96_skips",
    "Verif.Reactor.Timers.C96_none_missed",
    "Verif.Reactor.Timers.C96_sleep",
    "Verif.Reactor.Timers.C96_ends"
   ],
   "note": "Executors add no timers before the present time (the rest is C97); times are natural numbers."
  },
  {
   "property": "C97",
   "status": "partial",
   "theorems": [
    "Verif.Reactor.Timers.C97_past_partial",
    "Verif.Reactor.Timers.C97_overdue_partial",
    "Verif.Reactor.Timers.C97_paused_partial"
   ],
   "note": "Refuted by the code: RunExpiredTimers pops the top of the heap after the executor returned, whichever timer that is; NextExpiration minus now is unsigned; a paused timer without interval is removed when it is due. The positive part is C96."
  },
  {
   "property": "C98",
   "status": "proved",
   "theorems": [
    "Verif.Reactor.Tasks.C98_order",
    "Verif.Reactor.Tasks.C98_full",
    "Verif.Reactor.Tasks.C98_turns",
    "Verif.Reactor.Tasks.C98_batch",
    "Verif.Reactor.Tasks.C98_next",
    "Verif.Reactor.Tasks.C98_done",
    "Verif.Reactor.Tasks.C98_last",
    "Verif.Reactor.Tasks.C98_wakes",
    "Verif.Reactor.Tasks.C98_notifier"
   ],
   "note": "Sequential consistency; the queue is that of C37; other events, timers and AsyncIO only as returns of epoll_wait."
  },
  {
   "property": "C99",
   "status": "partial",
   "theorems": [
    "Verif.Reactor.Tasks.C99_late_partial",
    "Verif.Reactor.Tasks.C99_half_partial",
    "Verif.Reactor.Tasks.C99_inner_partial"
   ],
   "note": "Refuted by the code: SubmitTask does not look at stopped_, Pop fails if an earlier Push is half done, and the last HandleTask takes the inner tasks only at its beginning. The positive part is C98_last with C98_done."
  },
  {
   "property": "C100",
   "status": "proved",
   "theorems": [
    "Verif.Reactor.Conn.C100_wire",
    "Verif.Reactor.Conn.C100_reports",
    "Verif.Reactor.Conn.C100_prompt",
    "Verif.Reactor.Conn.C100_event",
    "Verif.Reactor.Conn.C100_send",
    "Verif.Reactor.Conn.C100_safe",
    "Verif.Reactor.Conn.C100_read",
    "Verif.Reactor.Conn.C100_read_open"
   ],
   "note": "Plain IoHandler (no TLS); handlers do not call back into the connection except NotifySendMessage; edge-triggered epoll as described in the model; Send is not called on a closed connection, messages have no empty blocks (C101)."
  },
  {
   "property": "C101",
   "status": "partial",
   "theorems": [
    "Verif.Reactor.Conn.C101_closed_partial",
    "Verif.Reactor.Conn.C101_twice_partial",
    "Verif.Reactor.Conn.C101_empty_partial",
    "Verif.Reactor.Conn.C101_blocks_partial",
    "Verif.Reactor.Conn.C101_lost_partial"
   ],
   "note": "Refuted by the code: Send does not test for a closed connection; the connect timer reports the messages and HandleClose reports them again; the loop that reports runs only while bytes are left; empty blocks are counted more than once; ReadIoData closes the connection when it meets the end of the stream, whatever it has read before. The positive part is C100."
  },
  {
   "property": "C102",
   "status": "proved",
   "theorems": [
    "Verif.Transport.Complex.C102_once",
    "Verif.Transport.Complex.C102_waits",
    "Verif.Transport.Complex.C102_deadline",
    "Verif.Transport.Complex.C102_answer",
    "Verif.Transport.Complex.C102_sound"
   ],
   "note": "One thread of the reactor; the queue of time-outs is the map of C92, connections are those of C100 (they take a message or report ids). C102_once and, without backup requests, C102_waits also hold on UDP."
  },
  {
   "property": "C103",
   "status": "partial",
   "theorems": [
    "Verif.Transport.Complex.C103_udp_partial",
    "Verif.Transport.Complex.C103_peer_partial",
    "Verif.Transport.Complex.C103_backup_partial",
    "Verif.Transport.Complex.C103_udp_backup_partial",
    "Verif.Transport.Complex.C103_wrap_partial",
    "Verif.Transport.Complex.C103_disconnect_partial"
   ],
   "note": "Refuted by the code: UDP uses the result of Pop without a test; the queue is keyed by the id alone; a failing backup connection reports the shared id; the UDP connector ignores kExisted; the time-out of the context is lowered by the delay once per message without a test; Disconnect compares by find. The positive part is C102."
  },
  {
   "property": "C104",
   "status": "proved",
   "theorems": [
    "Verif.Overload.C104_shift",
    "Verif.Overload.C104_moves",
    "Verif.Overload.C104_thresholds",
    "Verif.Overload.C104_update",
    "Verif.Overload.C104_request",
    "Verif.Overload.C104_monotone"
   ],
   "note": "Doubles are rationals. Reads without the lock see the state before or after an update."
  },
  {
   "property": "C105",
   "status": "partial",
   "theorems": [
    "Verif.Overload.C105_set_partial",
    "Verif.Overload.C105_overflow_partial",
    "Verif.Overload.C105_blackout_partial"
   ],
   "note": "Refuted by the code: minimum and maximum are swapped in DefaultSet*Priority, so 255 is always sent; only refused requests and successful calls let a window expire, so that failing calls fill a histogram until its check ends the process; both thresholds can reach the top. The positive part is C104."
  },
  {
   "property": "C106",
   "status": "proved",
   "theorems": [
    "Verif.Overload.C106_ema",
    "Verif.Overload.C106_prob",
    "Verif.Overload.C106_request",
    "Verif.Overload.C106_tokens",
    "Verif.Overload.C106_debt"
   ],
   "note": "Doubles are rationals."
  },
  {
   "property": "C107",
   "status": "partial",
   "theorems": [
    "Verif.Overload.C107_interval_partial",
    "Verif.Overload.C107_unpaired_partial",
    "Verif.Overload.C107_buffer_partial"
   ],
   "note": "Refuted by the code: an interval of 0 loops for ever under the lock; requests refused by the throttler get no OnResponse; the buffer of 30 holds 31. The positive part is C106."
  },
  {
   "property": "C108",
   "status": "proved",
   "theorems": [
    "Verif.Overload.C108_max",
    "Verif.Overload.C108_ema",
    "Verif.Overload.C108_update",
    "Verif.Overload.C108_count",
    "Verif.Overload.C108_bound",
    "Verif.Overload.C108_minimum"
   ],
   "note": "Doubles are rationals. Requests and updates interleave at single atomic operations; that updates store only limits of at least the minimum (storeMax) is C108_update."
  },
  {
   "property": "C109",
   "status": "partial",
   "theorems": [
    "Verif.Overload.C109_first_partial",
    "Verif.Overload.C109_off_by_one_partial",
    "Verif.Overload.C109_report_partial"
   ],
   "note": "Refuted by the code: the first update stores the strategy before the limit, so that limit 0 is seen; the check is > instead of >=; with reports and no expected delay an element of an empty vector is read. The positive part is C108."
  },
  {
   "property": "C110",
   "status": "proved",
   "theorems": [
    "Verif.Sync.Shared.C110_exclusive",
    "Verif.Sync.Shared.C110_checks",
    "Verif.Sync.Shared.C110_progress",
    "Verif.Sync.Shared.C110_writers_first"
   ],
   "note": "Sequentially consistent memory."
  },
  {
   "property": "C111",
   "status": "partial",
   "theorems": [
    "Verif.Sync.Shared.C111_starve_partial",
    "Verif.Sync.Shared.C111_late_partial"
   ],
   "note": "Refuted by the code: a cycle of states in which a reader waits while another takes its grant; a leaving reader locks wakeup_lock_ after the writer it made room for has released the mutex. The positive part is C110."
  },
  {
   "property": "C112",
   "status": "proved",
   "theorems": [
    "Verif.Sync.Blocking.C112_fifo",
    "Verif.Sync.Blocking.C112_capacity",
    "Verif.Sync.Blocking.C112_rest",
    "Verif.Sync.Blocking.C112_awake",
    "Verif.Sync.Blocking.C112_flow"
   ],
   "note": "Bytes of NoncontiguousBuffer are a list (C01)."
  },
  {
   "property": "C113",
   "status": "partial",
   "theorems": [
    "Verif.Sync.Blocking.C113_big_partial",
    "Verif.Sync.Blocking.C113_stop_partial",
    "Verif.Sync.Blocking.C113_stop_two_partial",
    "Verif.Sync.Blocking.C113_capacity_partial",
    "Verif.Sync.Blocking.C113_two_partial"
   ],
   "note": "Refuted by the code: a Cut of more than the capacity and AppendAlways wait for each other; AppendAlways does not notice Stop; Stop wakes up one waiter only; SetCapacity notifies without the lock; the notification goes to an appender whose bytes do not fit. The positive part is C112."
  },
  {
   "property": "C114",
   "status": "proved",
   "theorems": [
    "Verif.Sync.SeqLock.C114_snapshot",
    "Verif.Sync.SeqLock.C114_open",
    "Verif.Sync.SeqLock.C114_closed"
   ],
   "note": "Sequentially consistent memory; the data races of plain loads and stores are not modelled."
  },
  {
   "property": "C115",
   "status": "partial",
   "theorems": [
    "Verif.Sync.SeqLock.C115_odd_partial",
    "Verif.Sync.SeqLock.C115_torn_partial",
    "Verif.Sync.SeqLock.C115_wrap_partial"
   ],
   "note": "Refuted by the code: sequence has no initialiser; if it is odd, readers start only while a writer is at work, and torn reads are accepted; the number repeats after 2^31 writes. The positive part is C114."
  },
  {
   "property": "C116",
   "status": "proved",
   "theorems": [
    "Verif.HttpStream.C116_size",
    "Verif.HttpStream.C116_body",
    "Verif.HttpStream.C116_ends"
   ],
   "note": "The text of the header is not modelled (C40)."
  },
  {
   "property": "C117",
   "status": "partial",
   "theorems": [
    "Verif.HttpStream.C117_empty_partial",
    "Verif.HttpStream.C117_empty_all_partial",
    "Verif.HttpStream.C117_after_done_partial",
    "Verif.HttpStream.C117_early_done_partial"
   ],
   "note": "Refuted by the code: Write of an empty item sends the last chunk; Write after WriteDone is sent; WriteDone before the header succeeds, and the chunked body is never ended afterwards. The positive part is C116."
  },
  {
   "property": "C118",
   "status": "proved",
   "theorems": [
    "Verif.HttpStream.Read.C118_prefix",
    "Verif.HttpStream.Read.C118_end",
    "Verif.HttpStream.Read.C118_short",
    "Verif.HttpStream.Read.C118_broken",
    "Verif.HttpStream.Read.C118_whole"
   ],
   "note": "Loads and stores of state_ are atomic steps; lost updates of its bits are not modelled."
  },
  {
   "property": "C119",
   "status": "partial",
   "theorems": [
    "Verif.Sync.Blocking.C119_leak_partial",
    "Verif.Sync.Blocking.C119_end_partial"
   ],
   "note": "Refuted by the code for every such body that comes in one piece, in fibers: the handler waits for one byte more than the buffer can hold until its time is over, and AppendAlways sleeps for ever."
  },
  {
   "property": "C120",
   "status": "proved",
   "theorems": [
    "Verif.Pool.Global.C120_once",
    "Verif.Pool.Global.C120_apart",
    "Verif.Pool.Global.C120_kept",
    "Verif.Pool.Global.C120_bound",
    "Verif.Pool.Global.C120_system",
    "Verif.Pool.Global.C120_safe"
   ],
   "note": "A critical section is one step. Calls after the pool of the thread was destroyed are not modelled. The limit is in blocks (threshold divided by block size)."
  },
  {
   "property": "C121",
   "status": "partial",
   "theorems": [
    "Verif.Pool.Global.C121_threads_partial",
    "Verif.Pool.Global.C121_small_partial"
   ],
   "note": "Refuted by the code: for every limit by threads that end, each with a free block; for limits up to 480 blocks by a single thread. The positive part is C120_safe."
  },
  {
   "property": "C122",
   "status": "proved",
   "theorems": [
    "Verif.Pool.Shared.C122_once",
    "Verif.Pool.Shared.C122_apart",
    "Verif.Pool.Shared.C122_kept",
    "Verif.Pool.Shared.C122_reuse",
    "Verif.Pool.Shared.C122_bound",
    "Verif.Pool.Shared.C122_running",
    "Verif.Pool.Shared.C122_exit",
    "Verif.Pool.Shared.C122_noleak",
    "Verif.Pool.Shared.C122_safe"
   ],
   "note": "Linked lists are lists. Calls after the pool of the thread was destroyed are not modelled."
  },
  {
   "property": "C123",
   "status": "partial",
   "theorems": [
    "Verif.Pool.Shared.C123_lost_partial",
    "Verif.Pool.Shared.C123_table_partial",
    "Verif.Pool.Shared.C123_exit_partial",
    "Verif.Pool.Shared.C123_threads_partial",
    "Verif.Pool.Shared.C123_limit_partial",
    "Verif.Pool.Shared.C123_oom_partial"
   ],
   "note": "Refuted by the code in each part. The positive part is C122."
  },
  {
   "property": "C124",
   "status": "proved",
   "theorems": [
    "Verif.Transport.Pipeline.C124_once",
    "Verif.Transport.Pipeline.C124_waits",
    "Verif.Transport.Pipeline.C124_cleaned",
    "Verif.Transport.Pipeline.C124_own",
    "Verif.Transport.Pipeline.C124_capacity"
   ],
   "note": "The queue of ids is a FIFO queue with a capacity, the call map a set (C28); the order of writing is that of C78."
  },
  {
   "property": "C125",
   "status": "partial",
   "theorems": [
    "Verif.Transport.Pipeline.C125_closing_partial",
    "Verif.Transport.Pipeline.C125_late_partial",
    "Verif.Transport.Pipeline.C125_oneway_partial",
    "Verif.Transport.Pipeline.C125_capacity_partial"
   ],
   "note": "Refuted by the code in each part. The positive part is C124."
  },
  {
   "property": "C126",
   "status": "proved",
   "theorems": [
    "Verif.Transport.FiberPool.C126_own",
    "Verif.Transport.FiberPool.C126_once",
    "Verif.Transport.FiberPool.C126_exclusive",
    "Verif.Transport.FiberPool.C126_clean",
    "Verif.Transport.FiberPool.C126_waits",
    "Verif.Transport.FiberPool.C126_shard",
    "Verif.Transport.FiberPool.C126_total"
   ],
   "note": "A critical section is one step. Streams are left out."
  },
  {
   "property": "C127",
   "status": "partial",
   "theorems": [
    "Verif.Transport.FiberPool.C127_count_partial",
    "Verif.Transport.FiberPool.C127_shrinks_partial",
    "Verif.Transport.FiberPool.C127_dead_partial",
    "Verif.Transport.FiberPool.C127_oneway_partial"
   ],
   "note": "Refuted by the code: the count is not reduced for connections that are found unusable. The positive part is C126."
  },
  {
   "property": "C128",
   "status": "proved",
   "theorems": [
    "Verif.Transport.FiberUdpPool.C128_own",
    "Verif.Transport.FiberUdpPool.C128_once",
    "Verif.Transport.FiberUdpPool.C128_clean"
   ],
   "note": "One entry of the pool: the queue of ids gives it to one call at a time."
  },
  {
   "property": "C129",
   "status": "partial",
   "theorems": [
    "Verif.Transport.FiberUdpPool.C129_timer_partial",
    "Verif.Transport.FiberUdpPool.C129_forever_partial",
    "Verif.Transport.FiberUdpPool.C129_dup_partial"
   ],
   "note": "Refuted by the code in each part. The positive part is C128."
  },
  {
   "property": "C130",
   "status": "proved",
   "theorems": [
    "Verif.Http.Url.C130_safe",
    "Verif.Http.Url.C130_exact",
    "Verif.Http.Url.C130_found",
    "Verif.Http.Url.C130_port"
   ],
   "note": "The text is followed by NUL, as that of a std::string is. Lossless is up to delimiters that have nothing behind them."
  },
  {
   "property": "C131",
   "status": "partial",
   "theorems": [
    "Verif.Http.Url.C131_view_partial",
    "Verif.Http.Url.C131_read_partial",
    "Verif.Http.Url.C131_lines_partial",
    "Verif.Http.Url.C131_fragment_partial",
    "Verif.Http.Url.C131_root_partial",
    "Verif.Http.Url.C131_at_partial",
    "Verif.Http.Url.C131_port_partial"
   ],
   "note": "Refuted by the code in each part. The positive part is C130."
  },
  {
   "property": "C132",
   "status": "proved",
   "theorems": [
    "Verif.Http.Client.C132_received",
    "Verif.Http.Client.C132_pieces",
    "Verif.Http.Client.C132_limit",
    "Verif.Http.Client.C132_limit_idle",
    "Verif.Http.Client.C132_ambiguous",
    "Verif.Http.Client.C132_reusable"
   ],
   "note": "picohttpparser is a parameter; what is assumed of it is in the theorems, as in C76."
  },
  {
   "property": "C133",
   "status": "partial",
   "theorems": [
    "Verif.Http.Client.C133_interim_partial",
    "Verif.Http.Client.C133_close_partial",
    "Verif.Http.Client.C133_waits_partial",
    "Verif.Http.Client.C133_stale_partial",
    "Verif.Http.Client.C133_lengths_partial",
    "Verif.Http.Client.C133_encoding_partial",
    "Verif.Http.Client.C133_options_partial"
   ],
   "note": "Refuted by the code in each part. The positive part is C132."
  },
  {
   "property": "C134",
   "status": "proved",
   "theorems": [
    "Verif.Http.Message.C134_request",
    "Verif.Http.Message.C134_response",
    "Verif.Http.Message.C134_size",
    "Verif.Http.Message.C134_delivered"
   ],
   "note": "That picohttpparser reads the head as the reader of the specification does is a hypothesis of C134_delivered."
  },
  {
   "property": "C135",
   "status": "partial",
   "theorems": [
    "Verif.Http.Message.C135_value_partial",
    "Verif.Http.Message.C135_split_partial",
    "Verif.Http.Message.C135_framing_partial",
    "Verif.Http.Message.C135_stale_partial"
   ],
   "note": "Refuted by the code in each part. The positive part is C134."
  },
  {
   "property": "C136",
   "status": "proved",
   "theorems": [
    "Verif.Sync.Hazptr.C136_safe",
    "Verif.Sync.Hazptr.C136_once",
    "Verif.Sync.Hazptr.C136_exclusive",
    "Verif.Sync.Hazptr.C136_reclaimed"
   ],
   "note": "Sequentially consistent interleavings; that the asymmetric barriers give them is assumed."
  },
  {
   "property": "C137",
   "status": "partial",
   "theorems": [
    "Verif.Sync.Hazptr.C137_assign_partial",
    "Verif.Sync.Hazptr.C137_leak_partial",
    "Verif.Sync.Hazptr.C137_forever_partial"
   ],
   "note": "Refuted by the code in both parts. The positive part, for assignments within a domain, is C136."
  },
  {
   "property": "C138",
   "status": "proved",
   "theorems": [
    "Verif.Sync.HashMap.C138_get",
    "Verif.Sync.HashMap.C138_write",
    "Verif.Sync.HashMap.C138_content",
    "Verif.Sync.HashMap.C138_writers",
    "Verif.Sync.HashMap.C138_single",
    "Verif.Sync.HashMap.C138_size",
    "Verif.Sync.HashMap.C138_sizes",
    "Verif.Sync.HashMap.C138_alone"
   ],
   "note": "Sequentially consistent interleavings; the hypothesis on mutexes is discharged by C138_sizes. Reclaim and GetAllItems are not modelled."
  },
  {
   "property": "C139",
   "status": "partial",
   "theorems": [
    "Verif.Sync.HashMap.C139_free_partial",
    "Verif.Sync.HashMap.C139_mutexes_partial",
    "Verif.Sync.HashMap.C139_more_partial",
    "Verif.Sync.HashMap.C139_size_partial",
    "Verif.Sync.HashMap.C139_round_partial"
   ],
   "note": "Refuted by the code in all four parts. The positive parts are C138."
  },
  {
   "property": "C140",
   "status": "proved",
   "theorems": [
    "Verif.Runtime.Periphery.C140_once",
    "Verif.Runtime.Periphery.C140_time",
    "Verif.Runtime.Periphery.C140_stop",
    "Verif.Runtime.Periphery.C140_join",
    "Verif.Runtime.Periphery.C140_kept",
    "Verif.Runtime.Periphery.C140_done",
    "Verif.Runtime.Periphery.C140_runs",
    "Verif.Runtime.Periphery.C140_safe",
    "Verif.Runtime.Periphery.C140_freed",
    "Verif.Runtime.Periphery.C140_ref"
   ],
   "note": "One task; others only keep workers busy."
  },
  {
   "property": "C141",
   "status": "partial",
   "theorems": [
    "Verif.Runtime.Periphery.C141_stopped_partial",
    "Verif.Runtime.Periphery.C141_shutdown_partial",
    "Verif.Runtime.Periphery.C141_join_partial",
    "Verif.Runtime.Periphery.C141_false_partial",
    "Verif.Runtime.Periphery.C141_leak_partial"
   ],
   "note": "Refuted by the code in all parts. The positive parts are C140."
  },
  {
   "property": "C142",
   "status": "proved",
   "theorems": [
    "Verif.Sync.Notifier.C142_parked",
    "Verif.Sync.Notifier.C142_all",
    "Verif.Sync.Notifier.C142_quiet",
    "Verif.Sync.Notifier.C142_wakes",
    "Verif.Sync.Notifier.C142_one",
    "Verif.Sync.Notifier.C142_turn",
    "Verif.Sync.Notifier.C142_safe"
   ],
   "note": "Assumes that no thread is overtaken by 2^31 changes of the 32-bit counter."
  },
  {
   "property": "C143",
   "status": "proved",
   "theorems": [
    "Verif.Text.Helper.C143_split",
    "Verif.Text.Helper.C143_char",
    "Verif.Text.Helper.C143_ends",
    "Verif.Text.Helper.C143_join",
    "Verif.Text.Helper.C143_round",
    "Verif.Text.Helper.C143_replace",
    "Verif.Text.Helper.C143_trim",
    "Verif.Text.Helper.C143_case",
    "Verif.Text.Helper.C143_iequals",
    "Verif.Text.Helper.C143_unsigned",
    "Verif.Text.Helper.C143_chars",
    "Verif.Text.Helper.C143_sound",
    "Verif.Text.Helper.C143_signed"
   ],
   "note": ""
  },
  {
   "property": "C144",
   "status": "partial",
   "theorems": [
    "Verif.Text.Helper.C144_trim_partial",
    "Verif.Text.Helper.C144_case_partial",
    "Verif.Text.Helper.C144_negative_partial",
    "Verif.Text.Helper.C144_zero_partial",
    "Verif.Text.Helper.C144_errno_partial",
    "Verif.Text.Helper.C144_split_partial",
    "Verif.Text.Helper.C144_join_partial"
   ],
   "note": "Refuted: the theorems say for which strings the functions are undefined or give a wrong result."
  },
  {
   "property": "C145",
   "status": "proved",
   "theorems": [
    "Verif.Tvar.Cell.C145_total",
    "Verif.Tvar.Cell.C145_read",
    "Verif.Tvar.Cell.C145_value",
    "Verif.Tvar.Cell.C145_reset",
    "Verif.Tvar.Cell.C145_gone"
   ],
   "note": "Integers without bound."
  },
  {
   "property": "C146",
   "status": "partial",
   "theorems": [
    "Verif.Tvar.Cell.C146_init_partial",
    "Verif.Tvar.Cell.C146_wrong_partial",
    "Verif.Tvar.Cell.C146_back_partial",
    "Verif.Tvar.Cell.C146_reset_partial"
   ],
   "note": "Refuted by runs of the model; C146_init_partial gives the value that is returned instead."
  },
  {
   "property": "C147",
   "status": "proved",
   "theorems": [
    "Verif.Tvar.Packed.C147_update",
    "Verif.Tvar.Packed.C147_empty",
    "Verif.Tvar.Packed.C147_clamp",
    "Verif.Tvar.Packed.C147_sum"
   ],
   "note": ""
  },
  {
   "property": "C148",
   "status": "proved",
   "theorems": [
    "Verif.Tvar.Window.C148_window",
    "Verif.Tvar.Window.C148_added",
    "Verif.Tvar.Window.C148_size"
   ],
   "note": ""
  },
  {
   "property": "C149",
   "status": "proved",
   "theorems": [
    "Verif.Tvar.Series.C149_series",
    "Verif.Tvar.Series.C149_minutes"
   ],
   "note": ""
  },
  {
   "property": "C150",
   "status": "partial",
   "theorems": [
    "Verif.Tvar.Series.C150_unlock_partial",
    "Verif.Tvar.Series.C150_both_partial",
    "Verif.Tvar.Series.C150_race_partial"
   ],
   "note": "Refuted: every call is undefined."
  },
  {
   "property": "C151",
   "status": "proved",
   "theorems": [
    "Verif.Tvar.Percentile.C151_index",
    "Verif.Tvar.Percentile.C151_defined",
    "Verif.Tvar.Percentile.C151_merge",
    "Verif.Tvar.Percentile.C151_conserved",
    "Verif.Tvar.Percentile.C151_result"
   ],
   "note": "Random draws are arbitrary functions."
  },
  {
   "property": "C152",
   "status": "partial",
   "theorems": [
    "Verif.Tvar.Percentile.C152_index_partial",
    "Verif.Tvar.Percentile.C152_twice_partial"
   ],
   "note": "Refuted; C151_conserved says what is counted twice."
  },
  {
   "property": "C153",
   "status": "proved",
   "theorems": [
    "Verif.Tvar.Percentile.C153_exact",
    "Verif.Tvar.Percentile.C153_near",
    "Verif.Tvar.Percentile.C153_empty",
    "Verif.Tvar.Percentile.C153_total",
    "Verif.Tvar.Percentile.rank_spec"
   ],
   "note": "The ratio is a quotient of natural numbers."
  },
  {
   "property": "C154",
   "status": "partial",
   "theorems": [
    "Verif.Tvar.Percentile.C154_sorted_partial",
    "Verif.Tvar.Percentile.C154_dropped_partial"
   ],
   "note": "Refuted by runs of the model."
  },
  {
   "property": "C155",
   "status": "proved",
   "theorems": [
    "Verif.Tvar.Group.C155_get",
    "Verif.Tvar.Group.C155_dump",
    "Verif.Tvar.Group.C155_root",
    "Verif.Tvar.Group.C155_sound",
    "Verif.Tvar.Group.C155_add",
    "Verif.Tvar.Group.C155_keep",
    "Verif.Tvar.Group.C155_create",
    "Verif.Tvar.Group.C155_bad",
    "Verif.Tvar.Group.C155_handles",
    "Verif.Tvar.Group.C155_held",
    "Verif.Tvar.Group.C155_written",
    "Verif.Tvar.Group.C155_url",
    "Verif.Tvar.Group.C155_web"
   ],
   "note": "Calls are atomic. Paths are stated by lists of names."
  },
  {
   "property": "C156",
   "status": "partial",
   "theorems": [
    "Verif.Tvar.Group.C156_empty_partial",
    "Verif.Tvar.Group.C156_unreachable_partial",
    "Verif.Tvar.Group.C156_group_partial",
    "Verif.Tvar.Group.C156_url_partial"
   ],
   "note": "Refuted by runs of the model."
  },
  {
   "property": "C157",
   "status": "proved",
   "theorems": [
    "Verif.Pool.Objects.C157_once",
    "Verif.Pool.Objects.C157_apart",
    "Verif.Pool.Objects.C157_kept",
    "Verif.Pool.Objects.C157_bound",
    "Verif.Pool.Objects.C157_system",
    "Verif.Pool.Objects.C157_safe",
    "Verif.Pool.Objects.C157_full"
   ],
   "note": "Critical sections are atomic."
  },
  {
   "property": "C158",
   "status": "proved",
   "theorems": [
    "Verif.Pool.ObjectsShared.C158_once",
    "Verif.Pool.ObjectsShared.C158_apart",
    "Verif.Pool.ObjectsShared.C158_kept",
    "Verif.Pool.ObjectsShared.C158_owner",
    "Verif.Pool.ObjectsShared.C158_freed",
    "Verif.Pool.ObjectsShared.C158_twice",
    "Verif.Pool.ObjectsShared.C158_end",
    "Verif.Pool.ObjectsShared.C158_bound",
    "Verif.Pool.ObjectsShared.C158_refill",
    "Verif.Pool.ObjectsShared.C158_safe"
   ],
   "note": "Sequentially consistent memory; the limit of the number of objects is left out."
  },
  {
   "property": "C159",
   "status": "partial",
   "theorems": [
    "Verif.Pool.ObjectsShared.C159_late_partial",
    "Verif.Pool.ObjectsShared.C159_null_partial"
   ],
   "note": "Refuted: an object given back after its thread has ended uses a destroyed pool; without memory New follows a null pointer."
  },
  {
   "property": "C160",
   "status": "proved",
   "theorems": [
    "Verif.Http.Cookie.C160_read",
    "Verif.Http.Cookie.C160_empty",
    "Verif.Http.Cookie.C160_back"
   ],
   "note": "Numbers and dates are assumed to be read as they are written (Env.Ok)."
  },
  {
   "property": "C161",
   "status": "partial",
   "theorems": [
    "Verif.Http.Cookie.C161_lax_partial",
    "Verif.Http.Cookie.C161_expires_partial",
    "Verif.Http.Cookie.C161_inject_partial"
   ],
   "note": "Refuted: SameSite=Lax is followed by SameSite=Strict; expires is compared with the steady clock; a semicolon in a value sets attributes."
  },
  {
   "property": "C162",
   "status": "proved",
   "theorems": [
    "Verif.Container.Dlist.C162_init",
    "Verif.Container.Dlist.C162_linked",
    "Verif.Container.Dlist.C162_pushFront",
    "Verif.Container.Dlist.C162_pushBack",
    "Verif.Container.Dlist.C162_popFront",
    "Verif.Container.Dlist.C162_popBack",
    "Verif.Container.Dlist.C162_erase",
    "Verif.Container.Dlist.C162_splice",
    "Verif.Container.Dlist.C162_swap",
    "Verif.Container.Dlist.C162_iter"
   ],
   "note": "Debug checks are preconditions; erase is for entries of this list or of none."
  },
  {
   "property": "C163",
   "status": "proved",
   "theorems": [
    "Verif.Container.Slist.C163_init",
    "Verif.Container.Slist.C163_pushFront",
    "Verif.Container.Slist.C163_pushBack",
    "Verif.Container.Slist.C163_popFront",
    "Verif.Container.Slist.C163_swap",
    "Verif.Container.Slist.C163_splice",
    "Verif.Container.Slist.C163_iter"
   ],
   "note": "Splicing a list into itself is excluded."
  },
  {
   "property": "C164",
   "status": "proved",
   "theorems": [
    "Verif.Container.IndexAlloc.C164_fresh",
    "Verif.Container.IndexAlloc.C164_small",
    "Verif.Container.IndexAlloc.C164_reuse"
   ],
   "note": "A call is one step, as it holds the lock; freeing twice is excluded (an example shows what it does)."
  },
  {
   "property": "C165",
   "status": "proved",
   "theorems": [
    "Verif.Thread.BindCore.C165_parse",
    "Verif.Thread.BindCore.C165_group",
    "Verif.Thread.BindCore.C165_turn",
    "Verif.Thread.BindCore.C165_member"
   ],
   "note": "The configuration is given by its pieces; splitting and parsing numbers are verified separately (Text)."
  },
  {
   "property": "C166",
   "status": "partial",
   "theorems": [
    "Verif.Thread.BindCore.C166_abort_partial",
    "Verif.Thread.BindCore.C166_forever_partial"
   ],
   "note": "Violated; the theorems say how."
  },
  {
   "property": "C167",
   "status": "proved",
   "theorems": [
    "Verif.Container.Erased.C167_deleted",
    "Verif.Container.Erased.C167_one",
    "Verif.Container.Erased.C167_none_lost",
    "Verif.Container.Erased.C167_move"
   ],
   "note": "Each pointer is given to one constructor only, and is not null."
  },
  {
   "property": "C168",
   "status": "proved",
   "theorems": [
    "Verif.Container.FixedPool.C168_full",
    "Verif.Container.FixedPool.C168_apart",
    "Verif.Container.FixedPool.C168_free",
    "Verif.Container.FixedPool.C168_zero"
   ],
   "note": "Sizes fit in 32 bits; of a block only the first word is modelled."
  },
  {
   "property": "C169",
   "status": "partial",
   "theorems": [
    "Verif.Container.FixedPool.C169_behind_partial"
   ],
   "note": "Violated; all other addresses outside are refused (C168_free)."
  }
 ]
}