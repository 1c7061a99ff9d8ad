# Design

Formal model (Lean 4.33.0) of selected parts of trpc-cpp (`/repo`), and machine-checked proofs of the properties listed
in `properties.jsonl`.

## Trusted base

* The Lean kernel. Every theorem listed in `MANIFEST.json` depends at most on the three standard axioms `propext`,
  `Classical.choice`, `Quot.sound` (see "Axioms" below). There are no own axioms, no unfinished proofs and no use of
  compiled evaluation.
* The hand translation of C++ into Lean definitions. Every definition cites the file and the lines it translates, and
  says where it simplifies. The model is not extracted from the C++.
* The statements in the `Spec`/`Props` files, which are what a reader has to read.

Conventions of the translation

* C++ undefined behaviour, a failing `TRPC_CHECK`/`TRPC_ASSERT` (always on) and a failing `TRPC_DCHECK` (debug only) are
  a distinct outcome (`none` / an `ub`, `crash` or `abort` constructor).
* Fixed width integers are modelled as such (`UInt32`, `UInt64`, `BitVec`, or `Nat` modulo `2^w`) whenever wrap-around
  can influence the result. Sizes bounded by memory (`size_t` lengths of in-memory buffers) are `Nat`.
* Concurrency is modelled by interleavings of atomic steps over a sequentially consistent memory. Weak memory orderings
  (the `memory_order_*` arguments) are not modelled. A critical section of one mutex is one step when everything it
  touches is protected by that mutex.
* Time is an input of the model.
* A property the code violates is kept as a property of its own; its theorems are the counterexample (an execution of
  the model, which is a schedule or input of the code) and the strongest true part. Its status is `partial`.

## Layout

`lean/Verif/<Area>/<X>Model.lean` code model, `<X>Spec.lean` independent specification (when not inside `Props`),
`<X>Lemmas.lean` helpers, `<X>Props.lean` the property theorems (named after the property) and their non-vacuity
examples. `lean/Verif/Common` has the general notion of linearizability. `seeded/LOG.jsonl` is the log of mutation
experiments.

## Plan per property

| id | what is modelled | how it is proved |
|----|------------------|------------------|
| C01 | block list with (data,start,size) blocks, Skip/SkipSlow/Cut/Append/Clear/copy | refinement to `List UInt8` operations, induction on blocks and on operation lists |
| C02 | builder with current block and used count | refinement invariant: flushed ++ current block prefix = concatenation of writes |
| C03 | FlattenSlow, FlattenSlowUntil, FlattenToSlow | equality with `take`; shortest prefix specification for the delimiter |
| C04 | input stream state machine | invariant: consumed ++ rest = original |
| C05 | byte level encode/decode of the fixed header | `BitVec`/`UInt` round trip for all fields |
| C06 | request encode/decode over an abstract protobuf header codec that round-trips | round trip under size bounds |
| C07 | response encode/decode | same |
| C08 | the four stream frames | same, plus cross-kind rejection |
| C09 | checker loop over the byte stream | segmentation independence by induction over chunks |
| C10 | checker loop | loop invariant |
| C11 | seconds limiter bucket ring, atomic steps | invariant over interleavings; counterexample for stale calls |
| C12 | hit queue ring and smooth limiter | invariant relating the ring to the history of frames |
| C13 | token bucket | potential argument over histories |
| C14 | filter + in-flight counter | invariant |
| C15 | retry limiter, atomic steps | invariant |
| C16 | polling balancer | permutation of a full cycle; counterexample at the 32-bit wrap |
| C17 | smooth weighted round robin | cycle theorem by a potential/uniqueness argument |
| C18 | ring as sorted map of hash to endpoint | minimal disruption under collision-freedom |
| C19 | Vyukov MPMC queue, any number of threads | inductive invariant over atomic steps, linearisation to a FIFO |
| C20 | Chase-Lev deque with growing arrays | inductive invariant, linearisation |
| C21 | bounded Chase-Lev deque | counterexample schedules + theorem for the safe uses |
| C22 | LocalQueue | inductive invariant, linearisation |
| C23 | RunQueue | inductive invariant, linearisation |
| C24 | ring buffer | refinement to a list |
| C25 | semaphore with re-entrant signals | invariant over call trees |
| C26 | rwlock over semaphore | invariant |
| C27 | send/receive controllers and two channels | invariant and progress theorem |
| C28 | sharded map | refinement to a partial map; linear ForEach argument |
| C29 | modulo hash | arithmetic |
| C30 | output stream state machine | invariant: written = flushed ++ pending; counterexample for ByteCount |
| C31 | encoders with header sizes above 16 bits | counterexample: the decoder accepts a different message |
| C32 | token bucket, clock below one burst | counterexample and the true part |
| C33 | retry limiter lower bound | counterexample schedule and bound |
| C34 | SWRR `Next` under a shared lock, atomic steps | counterexample schedule |
| C35 | consistent hash, histories of updates | membership invariant; counterexamples for collisions and changed status |
| C36 | consistent hash, two histories ending in the same list | counterexamples |
| C37 | MPSC pop of a non-empty queue | counterexample schedule |
| C38 | RunQueue PushBatch | acceptance theorem for one spare slot; counterexamples for the exact fit and large batches |
| C39 | semaphore, re-entrant wake-up | counterexample call tree |
| C40 | semaphore after Broke | counterexample call trees |
| C41 | stream writer after waiting | growth theorem; bound that does hold |
| C42 | FiberTcpConnComplexConnector: call, response, timer, sweep as interleaved steps | counting invariant: in map + owners + completions = active |
| C44 | futures: three program counters per future (setter, consumer, continuation), any number of futures | local invariant per future plus a global one: which promise is carried by whom; trace semantics `Resolves`; termination measure |
| C45 | the callbacks of the combinators as interleaved steps | counting invariants |
| C46 | the loops as state machines | refinement to the ideal sequence of calls |
| C47 | nesting depth of the loops | growth theorem |
| C43 | the same with unexpected ids | counterexample schedules |
| C48 | Single-queue thread pool | Workers and callers as interleaved steps of the code; trace order by induction (entered = ran ++ queue). |
| C49 | Single-queue thread pool, no lost task | Refuted for every number of workers by an explicit schedule; partial positive statements. |
| C50 | Timers: when they fire | Two invariants over all interleavings: where each timer is (queues, list being moved, heap), and key = due time; heap algorithms of libstdc++ with keys changed in place. |
| C51 | Timers: the thread wakes in time | Invariant that every timer in a queue is covered by next_expires_at_, by a pending reap, or by its enabler; termination measure for a round. |
| C52 | Fiber scheduler v1, no stranded fiber | Invariant over all interleavings: a waiting worker has its bit set, or a waker in flight, or a positive counter; a ready fiber has a searching thread or a worker that will look. Termination of a stopped worker by following the code. |
| C53 | Fiber scheduler v1, work conservation | Refuted by an explicit schedule; positive statement for the settled state. |
| C54 | Fiber scheduler v1, StartFibers | Refuted by explicit schedules and for all groups above 32; positive statement from the invariant of C52. |
| C55 | Fiber mutex | Refinement: an invariant relates every reachable state to a fair queue mutex; every step of the code is a step of it or none. Deadlock freedom from the same invariant (ghost wakers: who still owes a wake-up to whom). |
| C56 | Fiber condition variable | Refinement to a queue of waiting threads; the same invariant covers the timers and the pointers to wait blocks. |
| C57 | Condition variable of threads | Refuted by explicit schedules; positive statement for fibers from C55 and C56. |
| C58 | Filter chains | Invariants of adding (both lists hold the same filters in opposite orders) and of the loops; arithmetic of the indices. |
| C59 | RPC services and filters | Flows as programs in a free monad; an abstract checker over phases per pair, proved sound for all filters, answers and outcomes; evaluated in the kernel on each flow. |
| C60 | All servers and filters | Refuted by concrete runs; the rest by the checker of C59. |
| C61 | Rejected requests | Refuted by concrete runs; HTTP by the checker. |
| C62 | Clients and filters | Checker of C59. |
| C63 | One-way and stream clients | Refuted by concrete runs; the rest by the checker. |
| C64 | Redis reader | The machine with its stack of tasks is shown to compute a recursive parser (Machine.lean) on the concatenated blocks; the parser is monotone. |
| C65 | Redis replies | Parser inverts the encoding of the specification (structural induction on values); induction over the stream with the NonContiguousBuffer model of C1. |
| C66 | Redis requests | Parser of C64 as the witness of injectivity; induction over the words of the format. |
| C67 | Malformed redis data | Refuted by evaluation. |
| C68 | Base64 | Recursive specification over groups of three; the loops compute it; the tables by kernel evaluation over all bytes. |
| C69 | Percent-encoding, numbers | Induction over the text; facts about single bytes for all 256 of them. |
| C70 | Field maps | Invariant: the list is sorted and its restriction to a name is the specified list; one lemma per operation. |
| C71 | Odd names | Refuted by evaluation. |
| C72 | Query parameters | Induction over the parameters with C69 and C70. |
| C73 | Decoding of wrong text | Refuted by evaluation. |
| C74 | Routes | Characterisation of the matchers, induction over the rules. |
| C75 | Final slashes | Refuted for all tables. |
| C76 | HTTP server checker | What is looked at grows with the data (`cut_mono`), a complete head or body is the same with more data; induction over the remaining bytes, then over the pieces. |
| C77 | Ambiguous requests | Refuted by evaluation, the last for every parser that accepts such a head. |
| C78 | Sending on a fiber connection | Invariant with the position `a` of the consumer and the owner of the queue as ghosts: the list is a chain from `a`, the owner is in `FlushTo` or in the event machinery, and the wire is the prefix that `a`, the offset and the place in `FlushTo` determine. Every step of every thread keeps it. |
| C79 | No stranded message | The same invariant: owner of the queue = restart counter of write events. |
| C80 | Freeing the queue | Induction over the chain that the invariant gives. |
| C81 | Sending keeps a connection open | Second invariant: every node has bytes left, and the place in `FlushTo` remembers that something was written. |
| C82 | Edges of the queue | Refuted by explicit schedules. |
| C83 | Cleanup of a fiber connection | One inductive invariant over counters, fibers, tasks, checkers and the cleanup: whoever may still find all counters at zero keeps the connection alive; every step of every party keeps it. |
| C84 | Edges of the cleanup | Refuted by explicit schedules; one waiter by an invariant. |
| C85 | Handshakes and the queue | Invariant: before the end exactly one event is asked for and the owner of the queue is the sender or `pending_restart_writes`; afterwards the sender or the write event. |
| C86 | Ends of handshakes | Refuted by explicit schedules. |
| C87 | Stream job scheduler | Inductive invariant over queues, flags and the place of the fiber; termination by a lexicographic measure that pushes after Stop do not raise. |
| C88 | Delivery of streams | Invariants of one end for all handlers (`Reach.lift`), joined over the frames on the wire; C87 for order and completeness. |
| C89 | Protocol of streams | Invariant relating the state of an end to the frames it has sent; one lemma per handler. |
| C90 | Results of stream calls | Refuted by explicit runs of both ends. |
| C91 | Stream locks | Lock ranks: threads that take locks in order can always go on, and each step shortens what is left; the refutation is a state in which two threads stay where they are for ever. |
| C92 | Timing wheel | Invariant: a node of level n lies in the slot that the digits of its time select, above the present digit (`Filed`); cascading moves it down when the carries come; ghost log of pushes, pops and fires. |
| C93 | Edges of the wheel | Refuted by evaluation; the first two for all times. |
| C94 | TCP connection pool | Invariant: a function from requests to places (`Located`), `out` of a connection is what the send queue holds for it; a second invariant for plain events relates free numbers and the send queue. |
| C95 | Edges of the pool | Refuted by explicit runs. |
| C96 | Timers of the default reactor | Heap invariant over an index function, `view` computes from a ghost log when a timer is due; termination by a lexicographic measure. |
| C97 | Edges of the timers | Refuted by explicit runs. |
| C98 | Tasks of the default reactor | One invariant over the log, the queues and the place of the reactor; the events of a call of `HandleTask` are compared with the table of looks. |
| C99 | Tasks and Stop | Refuted by explicit schedules and an invariant of a reactor that is over. |
| C100 | TCP connections of the default reactor | Invariant: the messages taken are those written, then the queue with a part of its first message gone (`Split`); the number of blocks left is `send_msgs_size - index`; `need_direct_write_` implies an empty queue, its negation an armed event. |
| C101 | Edges of TCP connections | Refuted: three for all states, two by explicit runs. |
| C102 | Multiplexed connections | Invariant with a list of messages that were sent and have neither a place in the queue nor a result; it is empty on TCP; due times are tied to the ghosts `sent` and `late`. |
| C103 | Peers of multiplexed connections | Refuted: two for all states, four by explicit runs. |
| C104 | Priorities under overload | A histogram is its list of counters; `pos` maps a threshold to the number of samples below it; the two loops move `pos` by a given number. Invariant of the adapter: thresholds in order, all histograms full (every counter at least 1). |
| C105 | Priorities as set | Refuted: one for all priorities, one by induction over failing calls, one by an explicit run. |
| C106 | Client throttler | Induction over the loop of the moving sum; field arithmetic for the probability; invariant of the token machine. |
| C107 | Client throttler, configurations | Refuted: two for all inputs, one by a run. |
| C108 | High percentile limiter | Sums over the program counters of all requests; the bound over runs with a strategy in effect; a fold invariant for the worst measure. |
| C109 | High percentile limiter, from the start | Refuted by runs and one for all inputs. |
| C110 | Shared mutex of fibers | Counting invariant: sums over program counters tie quota, pending and granted readers and both locks together; case analysis over all steps; progress by contradiction from the sums. |
| C111 | Shared mutex: fairness, destruction | Refuted: a cycle of states; a run. |
| C112 | Blocking buffer of fibers | FIFO by a ghost history; a decreasing measure for rest; invariant "a sleeper that could go on has a notification under way" for one appender and one cutter. |
| C113 | Blocking buffer: sleep without reason | Refuted by runs that end in a state where no step is possible. |
| C114 | Sequence lock | Ghost count of increments; number = start + count mod 2^32; values read agree with the data as long as the count is unchanged. |
| C115 | Sequence lock, created anyhow | Refuted: for all runs from an odd number; a run; a run with 2^31 writes by induction. |
| C116 | Body of a streamed HTTP response | Induction over the digits of a chunk size; an invariant ties what is on the wire to the items written; a decoder after RFC 7230 is run on it by induction over the items. |
| C117 | Writer of an HTTP stream, called anyhow | Refuted: by evaluation; for all states after the header. |
| C118 | Reader of an HTTP stream | Invariant: received = returned ++ lost ++ held ++ buffered; case analysis over all steps. |
| C119 | Request body above the limit | Refuted for all runs: invariant over the machine of C112. |
| C120 | Buffer pool (default) | Invariant: for each block, the number of times it is handed out, in free lists, in the rest of a BlockList and in the rest of the last chunk adds up to one; full free lists have 32 different blocks, so they are few. |
| C121 | Vector of free lists | Refuted: runs built by induction, for every limit. |
| C122 | Buffer pool (shared-nothing) | Invariant: for each block of a chunk, times handed out plus times in lists of threads is one; without blocks of other threads the 32 free blocks of a chunk are its own (pigeonhole). |
| C123 | Buffer pool (shared-nothing), blocks of other threads | Refuted: runs built by induction over allocations and threads. |
| C124 | Pipelined connection (fiber) | Invariant: while answers are received, the queue of ids is what is answered, at the server and being written, in order. |
| C125 | Pipelined connection that is closed | Refuted: runs, for every capacity. |
| C126 | TCP connection pool (fiber) | Invariant for each connection: in one stack and quiet; or with one call, and only the answer to its request may come; or closed and without context. |
| C127 | Count of the TCP pool | Invariant: the count is the number of connections plus all that were ever found unusable; so pooled plus unusable never exceeds the limit. A run that reaches the limit, by induction. |
| C128 | UDP pool (fiber) | Invariant over the place of the call that has the entry. |
| C129 | Timers of the UDP pool | Refuted: runs. |
| C130 | URL parser | Exact: the result for every text; the other direction by computing the parser on the rendered parts. |
| C131 | URLs that should be refused | Refuted, for all paths, queries and users. |
| C132 | Checker of HTTP responses | Splitting lemma: a check of two pieces is a check of the first and then of the second; induction over pieces and calls. |
| C133 | Responses of unknown length | Refuted: runs, for all heads and bodies. |
| C134 | HTTP messages on the wire | A small reader (lines, three parts, fields) as specification; it inverts the serializer, by induction over the fields. The head has the mark CR LF CR LF only at its end, so the theorem on the client checker applies. |
| C135 | Injection and framing | Refuted: for all values with an end of line, all lengths, all contents. |
| C136 | Hazard pointers | Step relation with single accesses; invariants on the objects (where each retired object is), the entries (who has them) and between them (an object with a reclaimer that some Hazptr keeps is still ahead in its scan or among the kept ones). |
| C137 | Assigned hazard pointers, entries of ended threads | Refuted: a run to a use after free; by induction, n threads leave n entries that are active for ever. |
| C138 | Concurrent hash map | Step relation with single accesses of readers; one invariant on memory (lists of buckets as paths, retired nodes keep their successor), on readers (the part of the path ahead explains a value seen since the call) and writers; a second invariant that ties the counter to a list of keys. |
| C139 | Concurrent hash map: hazards, mutexes, Clear, capacity | Refuted: runs for each pair of keys in a bucket, for each number of mutexes above that of buckets, for each key after Clear; the loop of RoundUpPowerOf2 by induction. |
| C140 | Periphery scheduler | Step relation for one task, any number of workers, its owner and the end of the scheduler; an invariant on where the task is (time, flags), and one that accounts for all references. |
| C141 | Periphery scheduler: finished tasks, end of the scheduler | Refuted by runs, for all intervals and numbers of workers where they do not matter. |
| C142 | Notifier of schedulers | Step relation on the 64-bit word, the stack, and the waiters; ghost tickets, lists of the waiters and versions of the predicate; one invariant. That a notifier finishes alone is by induction on the list it has taken. |
| C143 | String helpers | Functions on byte lists. The relation `Cut` says how a string is cut; it is shown to be functional, the loops of `Split` and `Replace` are related to it by induction. `scan` is what `strtoull` reads. |
| C144 | String helpers, limits | The inputs of which the model is undefined or wrong. |
| C145 | Per-thread variables | Step relation with the registry of threads, the exit of a thread in two steps, and the holder of the mutex; conservation of the sum as an invariant, bounds of what a reader has and will have read as another. |
| C146 | Per-thread variables, limits | Runs of the same model. |
| C147 | Packed recorder | `UInt64` operations as in the code; rewritten to quotients and remainders, the rest is linear arithmetic; induction on the sequence. |
| C148 | Windows | The queue is a suffix of the history that is long enough, by induction on the history from its end. |
| C149 | Series | A ring holds the end of a list; the values for the next ring are the blocks of the list; four levels. |
| C150 | Mutex of a series | Step relation of the mutex. |
| C151 | Percentile variables | Samples are part of the values as a multiset, for any draw; step relation with the two places where a writer has no mutex; the values are counted as a multiset, by an invariant. |
| C152 | Percentile variables, limits | Runs of the same model. |
| C153 | Percentiles of a window | The loop stops in the interval of the rank; within it, the sorted list; a share of the samples for one of at most 1022 buckets. |
| C154 | Percentiles, limits | A window of 1023 samples with draws that drop all; two merges with a sort between them. |
| C155 | Tree of exposed variables | Checked paths are lists of names joined by slashes; the lowest group is the longest prefix of groups; invariant over calls: prefixes of groups are groups, no name is both, one handle for each variable. |
| C156 | Tree of exposed variables, limits | Runs of the same model. |
| C157 | Object pool | As C120: every slot is counted once over users, lists of threads, lists of the pool and blocks. |
| C158 | Shared-nothing object pool | Every slot is counted once over users, pending calls and the three lists of its thread; a chunk as long as the list of its free slots has none outside (pigeonhole). |
| C159 | Shared-nothing object pool after the end | Continue any run to the crash. |
| C160 | Cookies | The text is a first part and parts glued with "; "; reading splits it again. Setting a field copies one part of the cookie, so the order does not matter. |
| C161 | Cookies: refutations | Same splitting, for Lax and for a value with a semicolon. |
| C162 | Doubly linked list | Each list is a path in both directions from its head to itself; paths are cut and joined, and a frame lemma keeps the others. |
| C163 | Singly linked list | Each list is a chain that ends with a null pointer; a lemma puts a chain at the end of another. |
| C164 | Index allocation | Invariant: indices in use and recycled ones are distinct, below `current_`, and as many as it; it is the peak. |
| C165 | Binding to processors | A part adds what it names; sorted lists are compared as sets; the counter is the number of calls. |
| C166 | Bad processor configurations | Refuted: abort; a loop with 32-bit arithmetic that never ends. |
| C167 | Type-erased pointers | Invariant: each pointer is held by one object, deleted once or leaked; objects are renamed, or drop what they hold. |
| C168 | Fixed-size pool | Invariant: the chain of free blocks and the held ones are together all blocks; writes to held ones leave the chain. |
| C169 | Addresses behind the fixed-size pool | Refuted: the comparison is `>` instead of `>=`. |

## What is modelled and what is not

Paths are below `/repo/trpc`. Everything not listed is not modelled.

| model | code | left out |
|-------|------|----------|
| Buffer | `util/buffer/noncontiguous_buffer.{h,cc}`, `zero_copy_stream.{h,cc}` | `noncontiguous_buffer_view.h`, memory pools, reference counts, `Find` of the view |
| Trpc | `codec/trpc/trpc_protocol.{h,cc}`, `trpc_proto_checker.cc` | protobuf (an abstract round-tripping codec), the codec classes above the protocol structs, compression |
| Limiter/Seconds | `overload_control/flow_control/seconds_limiter.{h,cc}` | reporting; counter overflow |
| Limiter/Smooth | `overload_control/flow_control/{hit_queue,smooth_limiter}.{h,cc}` | interleaving inside a call; counter overflow |
| Limiter/Token | `overload_control/token_bucket_limiter/token_bucket_overload_controller.{h,cc}` | reporting |
| Limiter/Concurrency | `overload_control/concurrency_limiter/concurrency_limiter_server_filter.cc`, `runtime/common/stats/server_stats.h`, `server/server_context.cc` | the rest of the context |
| Limiter/Retry | `filter/retry/retry_limit_client_filter.cc` | `int` overflow |
| LB | `naming/common/util/loadbalance/{polling,weighted_round_robin,hash}` | null arguments; the hash functions themselves (any function) |
| Queue/Mpmc | `util/queue/bounded_mpmc_queue.h`, `bounded_mpsc_queue.h`, `util/algorithm/power_of_two.cc` | memory orderings, position wrap after 2^63 pushes |
| Queue/Deque | `util/queue/unbounded_spmc_queue.h`, `bounded_spmc_queue.h`, `runtime/threadmodel/fiber/detail/scheduling/v2/local_queue.{h,cc}` | the same |
| Queue/RunQueue | `runtime/threadmodel/fiber/detail/scheduling/v1/run_queue.{h,cc}` | the same |
| Container | `util/container/bounded_queue.h` | allocation failure |
| Future/Semaphore, RWLock | `future/async_lock/{semaphore,rwlock}.h` | calls from a wrong thread, destruction inside a callback |
| Future/Core | `future/future.h` | reference counts, `Wait`, an executor that drops a task, user code that sets a promise twice |
| Future/When, Future/Loop | `future/future_utility.h` | `BlockingGet`, ownership of the loop state, no futures at all |
| Stream | `stream/trpc/trpc_stream_flow_controller.h`, the flow-control parts of `trpc_stream.cc` | stream errors, timeouts, states |
| Transport/CallMap | `transport/client/fiber/common/sharded_call_map.h`, `util/algorithm/hash.cc` | iteration order |
| Transport/Connector | `transport/client/fiber/conn_complex/fiber_tcp_conn_complex_connector.cc`: SaveCallContext, MessageHandleFunction, DispatchException, DispatchResponse, OnTimeout, ClearReqMsg | sending, connection establishment, object pool |
| Thread/SqPool | `util/thread/sq_thread_pool.cc`, `util/thread/futex_notifier.h` | Start, Join, core binding; the queue is atomic (C19) |
| Fiber/Heap | `std::priority_queue` (libstdc++ `push_heap`, `pop_heap`) as used by `timer_worker.cc` | other standard libraries |
| Fiber/Timer | `runtime/threadmodel/fiber/detail/timer_worker.cc` | reference counts, `DetachTimer`, thread creation and affinity |
| Fiber/Sched | `runtime/threadmodel/fiber/detail/scheduling/v1/scheduling_impl.cc` | fiber objects and context switches, order of victims when stealing, statistics; run queue atomic (C23) |
| Fiber/Sync | `runtime/threadmodel/fiber/detail/waitable.{h,cc}` (Waitable, AsyncWaker, Mutex, ConditionVariable), `Suspend` and `Resume` of `scheduling/v1/scheduling_impl.cc`, `util/thread/futex_notifier.h` | several condition variables per mutex, Event, timers as such (C50), order of the run queue (C52), `time_point::max()` as a limit of 292 years for threads |
| Filter | `filter/{server,client}_filter_controller.cc`; of the flows what runs filters, calls the user or sends: `server/service_adapter.cc`, `server/service_impl.cc`, `server/rpc/*_method_handler.h`, `server/async_rpc/*`, `server/http_service.cc`, `server/http/http_async_stream_service.cc`, `server/server_context.cc`, `client/*_service_proxy*`, `client/http/http_stream_proxy.cc` | exceptions thrown by filters, filters that answer later, HTTP handlers that call SetResponse(false), contexts used for a second call after a rejection, filters at service level whose points are not paired |
| Redis | `client/redis/{reader,formatter}.cc`, `codec/redis/{redis_protocol,redis_proto_checker}.cc` | `vsnprintf` (a parameter), memory exhaustion, request-side checker |
| Http | `util/http/{base64.h,util.h,util.cc,field_map.h,routes.*,match_rule.h,matcher.cc}`, `util/http/request.cc` (query parameters), `UrlDecode`, `codec/http/http_server_proto_checker_impl.cc` | picohttpparser (parameters with contracts), `std::regex`, fiber mode of the checker |
| Conn/Writes, Destroy, Cases | `runtime/iomodel/reactor/fiber/writing_buffer_list.cc`; `Send`, `OnWritable`, `FlushWritingBuffer` of `fiber_tcp_connection.cc`; write events and `Kill` of `fiber_connection.cc` | handshakes, the limit of the queue (except in C82), how many blocks and bytes one `Writev` gets (arbitrary), `PreSendMessage` and pipelines |
| Conn/Cleanup | `runtime/iomodel/reactor/fiber/fiber_connection.cc`: event counters, fibers of events, `Kill`, `QueueCleanupCallbackCheck`, `WaitForCleanup`; mutex of `Send` and `OnCleanup` in `fiber_tcp_connection.cc` | what the callbacks do (arbitrary results), arming of events (Conn/Writes) |
| Conn/Handshake | `DoHandshake`, `StartHandshaking` and the parts of `Send`, `OnReadable`, `OnWritable` around them in `fiber_tcp_connection.cc` | handlers (arbitrary answers), the queue (only empty or not), the delay of arming events |
| Stream/Sched | `stream/fiber_stream_job_scheduler.cc` | failure to create a fiber, the 1 ms polling of `Join` |
| Stream/Trpc | `stream/common_stream.cc`, `stream/trpc/trpc_stream.cc`, `trpc_client_stream.cc`, `trpc_server_stream.cc` (fiber mode), pushes of `trpc_stream_handler.cc` | non-fiber mode, filters, the window of flow control (Stream/FlowControl), timeouts of `Read`, creating the server stream, ids of streams |
| Stream/Locks | lock operations of `trpc_stream_handler.cc` and `fiber_stream_job_scheduler.cc` | everything else; branches are chosen when a thread starts |
| Transport/Wheel | `transport/client/future/common/timingwheel.h`, `timingwheel_timeout_queue.h`, `conn_pool/shared_send_queue.cc` | intrusive lists (as lists), the hash map (a function) |
| Transport/Pool | `transport/client/future/conn_pool/{conn_pool.h,future_tcp_conn_pool_connector_group.cc,future_tcp_conn_pool_connector.cc,future_conn_pool_connection_handler.cc,future_conn_pool_message_timeout_handler.cc}` | streams, backup requests, UDP, `Stop`/`Destroy`, idle timeouts as such (a lost connection) |
| Reactor/Timers | `runtime/iomodel/reactor/default/timer_queue.cc`, the sleep of `reactor_impl.cc` | memory of timers, ids as addresses (numbers) |
| Reactor/Tasks | `runtime/iomodel/reactor/default/reactor_impl.cc`: tasks, `TrySleep`, `Run`; `common/eventfd_notifier.cc`, `common/epoll_poller.cc` | events of other files, AsyncIO |
| Reactor/Conn | `runtime/iomodel/reactor/default/tcp_connection.cc`: `Send`, `HandleWriteEvent`, `PreCheckOnWrite`, `HandleClose`, the connect timer, `ReadIoData` | TLS handshakes, `Established` for clients whose `connect` ends at once, timestamps, what handlers do |
| Transport/Complex | `transport/client/future/conn_complex/`: time-out handler, connection handlers, TCP and UDP connectors; `DispatchResponse`/`DispatchException`; the loop of `SendBackupRequest`; `Disconnect` | idle connections, re-connection, streams, rpcz; the checker and the codec (C19, C20, C100) |
| Overload/Priority | `overload_control/common/`: `Histogram`, `PriorityAdapter`, `Window` (as an event), `request_priority.cc` | reports; the unlocked read of `CurrentTotal` (a data race on non-atomics is not modelled); configuration parsing |
| Overload/Throttle | `overload_control/throttler/`: `ThrottlerEma`, `Throttler`, the token bucket of `ThrottlerPriorityImpl`, the calls of controller and filter | reports, the map of controllers per service, configuration parsing |
| Overload/HighPct | `overload_control/high_percentile/`: `MaxInEveryN`, `HighAvgEMA`, `HighPercentilePriorityImpl` | `HighAvg` (its per-sample maximum is an input), reports; `succeeded_` and `costs_ms_` are never initialised (the first window is arbitrary) and are inputs |
| Sync/SharedMutex | `coroutine/fiber_shared_mutex.cc`, `.h` | memory orders weaker than sequential consistency; `FiberMutex` and `FiberConditionVariable` are used as specified (C55, C56) |
| Sync/Blocking | `coroutine/fiber_blocking_noncontiguous_buffer.h` | clock; `ByteSize()` and `Capacity()` without the lock; `FiberBlockingBoundedQueue` (the same code with items, but `Stop` without the lock) is not modelled |
| Sync/SeqLock | `coroutine/fiber_seqlock.h`, `.cc` | data races of plain loads and stores |
| HttpStream/Write | `stream/http/http_stream.cc` (`HttpWriteStream`), `stream/http/common.cc:18-47` | text of the header; `HttpClientStream` (same code, by reading) |
| HttpStream/Read | `stream/http/http_stream.h` (`HttpReadStream`), `stream/http/http_stream.cc:44-80` | mode without fibers; lost updates of `state_`; `HttpClientStream` |
| Pool/Global | `util/buffer/memory_pool/global_memory_pool.cc` | statistics; `PrewarmMemPool` (allocates and gives back); use after the thread-local pool is destroyed |
| Pool/Shared | `util/buffer/memory_pool/shared_nothing_memory_pool.{h,cc}` | statistics; use after the thread-local pool is destroyed |
| Transport/Pipeline | `transport/client/fiber/pipeline/fiber_tcp_pipeline_connector{,_group}.cc`, `PreSendMessage` in `writing_buffer_list.cc` | several answers to one request (`GetPipelineCount`), backup requests, filters, reconnecting |
| Transport/FiberPool | `transport/client/fiber/conn_pool/fiber_tcp_conn_pool_connector{,_group}.cc` | short connections, streams, backup requests (same steps), filters |
| Transport/FiberUdpPool | `transport/client/fiber/conn_pool/fiber_udp_io_pool_connector{,_group}.cc` | the queue of ids; connectors without entry (used once); backup requests |
| Http/Url | `util/http/url.{h,cc}` | the texts of errors; `Username`, `Password`; `std::stoi` on digits is a number below 2^31 or an exception |
| Http/Client | `codec/http/http_client_proto_checker_impl.cc`, what the connections do around it | streams (`HttpClientStreamResponse`); picohttpparser is a parameter |
| Http/Message | `util/http/request.cc`, `response.cc` (serialization, status table), `content.h`, `content.cc` | the buffers are byte lists; the string and the buffer variant of a function are one; streams |
| Sync/Hazptr | `util/hazptr/entry.h`, `entry_cache.h`, `entry_cache.cc`, `hazptr.h`, `hazptr_domain.h`, `hazptr_domain.cc`, `hazptr_object.h` | memory orders, barriers; the timer is a thread; deleters; destruction of domains |
| Sync/HashMap | `util/concurrency/detail/lightly_concurrent_hashmap_impl.h` | `Reclaim`, `GetAllItems`; memory orders; reuse of addresses; a writer walks its list in one step per node under the mutex |
| Runtime/Periphery | `runtime/common/periphery_task_scheduler.{h,cc}` | other tasks; order of the queue between tasks; `clean_cb_`; the destruction of the scheduler object; overflow of times |
| Sync/Notifier | `util/thread/predicate_notifier.h` | `NotifyN`; destructor; the word is written with quotients and remainders; sequential consistency is assumed; the counter must not advance by 2^31 during a call |
| Text/Helper | `util/string/string_helper.{h,cc}` | floating point numbers, `bool`, other bases; `Format`; the locale is "C" |
| Tvar/Cell | `tvar/common/write_mostly.h`, `atomic_type.h`, `basic_ops/{reducer,recorder}.h`, `util/thread/thread_local.h`, `internal/object_array.h` | Miner and Maxer (other operations); overflow; destruction of the variable; memory orders |
| Tvar/Packed | `tvar/basic_ops/recorder.h` (CompressedIntAvgTraits) |  |
| Tvar/Window | `tvar/common/sampler.h` (ReducerSampler), `compound_ops/window.h` | PerSecond; the collector thread; the queue is a list (see Container) |
| Tvar/Series | `tvar/common/series.h` | the rounding of `InplaceDivide` is any function |
| Tvar/Percentile | `tvar/common/percentile.{h,cc}`, `fast_rand.h`, `op_util.h` (GlobalValue), `write_mostly.h` (Reset), `compound_ops/latency_recorder.cc` (LatencyPercentile) | the generator of random numbers (any draws); floating point; counters of 32 bits; `GetValue` of the variable (not used) |
| Tvar/Group | `tvar/common/tvar_group.{h,cc}`, `admin/stats_handler.cc` (VarHandler) | `Dump` beyond which group, the way into the JSON value of a variable, history values; interleavings within a call (each group has a lock) |
| Pool/Objects | `util/object_pool/global.h` | statistics; calls after the pool of a thread is destroyed; constructors and destructors of objects |
| Pool/ObjectsShared | `util/object_pool/shared_nothing.h` | the limit; statistics; at most 1024 threads; weak memory order |
| Http/Cookie | `util/http/http_cookie.{h,cc}` | bounds of numbers; `std::to_string`, `stoi` and dates are parameters |
| Container/Dlist | `util/internal/doubly_linked_list.h` | Casts between entries and objects |
| Container/Slist | `util/internal/singly_linked_list.h` | Casts between entries and objects; debug checks |
| Container/IndexAlloc | `util/internal/index_alloc.{h,cc}` | Size of `size_t` |
| Thread/BindCore | `util/thread/thread_helper.cc`, `util/bind_core_manager.cc` | Splitting and parsing (see Text); system calls; the second manager, which is the same |
| Container/Erased | `util/erased_ptr.h` | Types of pointers; exceptions in deleters |
| Container/FixedPool | `util/container/fixed_arena_allocator.h` (`FixedMemoryPool`) | `FixedArenaAllocator`; contents of blocks after the first word; overflow of sizes |

## Findings

Behaviour of the code that contradicts what a user would expect, each with a theorem.

* **C01** appending an empty raw block makes an empty block, which breaks the invariants of the block list.
* **C04** a zero-size block stalls the zero-copy stream.
* **C30** `ByteCount` of the output stream does not include the bytes handed out by `Next` until the flush.
* **C09** when one read contains good frames followed by garbage, the good frames are dropped with it.
* **C10** packet sizes are truncated to 32 bits at 4 GiB.
* **C31** a header longer than 65535 bytes is encoded with a truncated length and decoded as something else.
* **C11** a call delayed between reading the clock and counting resets the bucket of a newer second.
* **C13** burst 0 halves the rate; a rate above 10^9 makes the token cost 0, so nothing is ever rejected.
* **C32** with a clock below one burst the unsigned subtraction wraps and the bucket rejects for centuries.
* **C33** a failure can take the retry token count below zero, and a further failure then raises it.
* **C16** the round-robin order skips at the wrap of the 32-bit counter.
* **C34** SWRR updates its weights under a shared lock: two callers can lose updates.
* **C35/C36** virtual nodes that collide are shared or removed with the wrong endpoint (a removed endpoint is still served, the result depends on the history); an update with a changed status keeps the old one.
* **C29** a non-numeric hash key throws out of `stoull`.
* **C19** `Init(0)` yields capacity 1, for which the MPMC queue does not work; `RoundUpPowerOf2` above 2^63 does not end.
* **C37** MPSC pop reports empty on a non-empty queue.
* **C21** the bounded SPMC queue: 64-bit wrap of `bottom_ - 1` on an empty queue, `bottom_` not restored after a lost race.
* **C23/C38** run queue: `Init(0)`/`Init(1)`, an exactly fitting batch is rejected, a batch of at least the capacity spins for ever, size 0 reported when full.
* **C24** bounded queue: capacity 0 and capacity above 2^31.
* **C39/C40** the async semaphore loses a wake-up when signalled from a callback; serves waiters after `Broke`, crashes on a nested `Broke`.
* **C41** a stream writer that had to wait sends without being charged, so the window grows.
* **C27** the 32-bit count of consumed bytes wraps; then the sender is never released.
* **C44** `ready` and `failed` are plain bools written before and read outside the lock (`ChainFuture`, `IsReady`): a data race in C++, harmless only with strong memory ordering.
* **C46** `DoForEach` without parameter increments an iterator that is already at the end.
* **C47** `DoUntil`, `DoFor`, `DoForEach`, `Repeat` nest one level of calls per iteration when the futures are already resolved and callbacks run inline: stack overflow.
* **C43** a response that arrives between the insertion of a call and the creation of its timer crashes the client (for UDP the sender of the response can be anyone); a reused id receives the timeout of its predecessor.
* **C49** `SQThreadPool::Run` reads the futex state after `Pop` failed: a task added in between is not run until another task wakes the worker. `AddTask` checks for stop and pushes in two steps, so a task can be accepted after all workers have left.
* **C50** `FireTimers` changes the key of a periodic timer while it is in the priority queue, which `std::priority_queue` does not allow; proved harmless for the algorithms of libstdc++. The callback may still start just after `RemoveTimer` returned.
* **C53** `SpinningAcquireFiber`: between taking a fiber and clearing its bit, a spinner can be claimed for another fiber, which then waits although workers sleep. The same happens to a worker that took a fiber after `Wait` before its bit is cleared.
* **C54** `WakeUpWorkers`: `1 << __builtin_ffsll(mask)` is off by one (clears the bit above the lowest, each round the same one), `while (n--)` leaves n at 2^64-1 for a retry, and `1 << i` is an `int` shift, undefined in groups of more than 32 workers.
* **C57** `WaitUntilFromPthread`: a notifier that took the block from the list still writes to `wb->futex` after a timed out wait has returned (use of a dead stack block); the wait returns `false` although it used up a notification. `GetState` comes after `AddWaiter`, so a notification in between is missed.
* **C60** HTTP: the timeout branch of `HttpService::Handle` runs SERVER_POST_RPC_INVOKE and SERVER_PRE_SEND_MSG itself and again in `SendResponse`; `HandleError` runs them for a request whose pre points were never run. A failed future skips SERVER_POST_RPC_INVOKE; a one-way call of an asynchronous method runs SERVER_PRE_SEND_MSG twice; a filter that rejects with DECODE_ERROR deprives those before it of SERVER_POST_RPC_INVOKE; streams to unknown methods skip SERVER_PRE_SEND_MSG; SERVER_PRE_IO_SEND_MSG is never run but SERVER_POST_IO_SEND_MSG is.
* **C61** `ServiceAdapter` treats a REJECT at SERVER_PRE_SCHED_RECV_MSG as an error only if the status is one: otherwise the request is processed in the receiving thread. `HandleTransportStreamMessage` ignores the result of SERVER_POST_RECV_MSG.
* **C63** `OnewayInvoke` of the RPC and redis proxies returns without CLIENT_POST_RPC_INVOKE if the request cannot be serialized; `GetAsyncStreamReaderWriter` returns without the post points of the pair that was rejected.
* **C67** Redis: ":1x" is delivered as the integer -1, "$x" as nil, ":" as 0; the two bytes after a bulk string are not looked at; "*4294967296" is an empty array; ":-9223372036854775808" is a signed overflow. `FormatCommand`: a format that ends inside of a conversion ("%5") takes an argument that is not there and then reads behind the terminating NUL; conversions of 14 characters and more take an argument but are not carried out. If one reply of a pipeline is bad, the good ones that came with it are dropped.
* **C71** `CaseInsensitiveLess` compares by the length of the first name if one begins with a colon, which is no order; `front()` of an empty name. A folded header line gives an empty name.
* **C73** `Base64Decode` converts a signed `char` to `size_t`, so bytes above 127 index far outside of the table; `UrlDecode` turns `%zz` into `S`; `ParseContentLength` accepts ` +5`.
* **C75** `HttpService` removes the final slash of the path of a request; a handler registered for `/a/` is never found.
* **C77** Two Content-Length headers with different values are accepted; any Transfer-Encoding counts as chunked. If a head ends with LF LF the length check covers what follows it, so that data are accepted or refused depending on how they arrive.
* **C82** `FlushWritingBuffer`: an empty message and another appended while it is taken from the queue give "0 bytes, not emptied", which closes the connection. `FlushTo` and `Stop` change `size_` and `stop_token_` without `mutex_`: a sender between its test and its sleep misses the notification and fails with a timeout. `~WritingBufferList` outside of a fiber follows the dangling `head_` of a drained queue (class level; a connection always calls `Stop` in `OnCleanup`). The capacity is a soft limit: several senders may pass the test together.
* **C84** `HandleReadEvent`/`HandleWriteEvent` submit the task that resets the counter with a bare `this` (fiber_connection.cc:103, 142). With `IsReactorKeepRunning` the cleanup fiber may destroy the connection between the two lines of this task. `cleanup_task` calls `notify_one`, so of two callers of `Join` one sleeps forever.
* **C86** `OnWritable` after a handshake that ends there calls `FlushWritingBuffer` unconditionally: with an empty queue `TRPC_ASSERT(current)` in `FlushTo` aborts, and with a sender just behind `Append` two threads flush at once. `StartHandshaking` ignores `pending_restart_writes`: what was sent before it is never written.
* **C90** `CommonStream::Write` ignores the result of `PushSendMessage`: after the server closed the stream the client drops messages and reports success. Data that wait when the CLOSE of the server arrives make the client send a RESET and report an unknown error instead of the result. `Read` returns the error of a later event with a message that arrived before. A frame of type 6 ends a stream without `OnError`; its reader waits for ever (for the time-out).
* **C91** `TrpcStreamHandler::Stop` pushes to the streams under `mutex_`; `FiberStreamJobScheduler::Stop` of an idle stream calls `RemoveStream` under `stream_mutex_`. A `Finish` or `Start` that times out while the connection closes can deadlock with it.
* **C93** `TimingWheel::AddTimerNode` computes `int idx = expire - last`: timeouts of 2^31 ms and more (but below 2^32) fire at once. A handler that pushes a request which is due waits 1024 ms for it. A handler that pops the next request of the list makes `DoTimeout` use a freed node.
* **C95** Connection pool: a timeout or a close frees a connection but starts no waiting request, which then waits for its own timeout while all connections are free. `HandleMessage` sends the next request on a connection and then closes it if the answer said so. A connection that refuses a request because its queue is full keeps its number until it closes. The number of a lost fixed connection is given to others while its holder goes on using it. `SendOnly` on a fixed connection puts the request into the send queue, and `FutureTransport::SendOnly` then releases it.
* **C97** `TimerQueue::RunExpiredTimers` calls the executor of the top of the heap and then pops the top: if the executor added a timer for an earlier time, that one is dropped without a call and the old one fires twice. A timer that is overdue makes the sleep computed unsigned, hence 5 ms. A one-shot timer that is due while paused is lost.
* **C99** `ReactorImpl`: tasks accepted around `Stop` may never run (no test of `stopped_`; a half-done push hides finished ones behind it; inner tasks submitted by the last tasks are not looked at).
* **C101** Default `TcpConnection`: `Send` on a closed connection returns 0 and forgets the message. The connect timer calls `NotifyMessageFailed` for each message, `HandleClose` calls it again. A message without bytes is reported only with a later one. Sixteen empty blocks in a row end the write loop early, with bytes left and no event. If the last `read` fills its block and the next one returns 0, everything read in this event is dropped: a response followed by a close of the peer is lost if its end falls on a block boundary.
* **C103** Multiplexed connections of the future transport: a UDP response that is late, repeated or made up dereferences a null pointer. Responses are matched by id only, whichever peer sends them. If the connection of a backup request fails, it reports the id of the call and the first request fails too. On UDP a backup request whose call still waits gets no result. `SendBackupRequest` subtracts the delay from the shared time-out once per backup message, so it wraps around if the delay is more than half of it. `Disconnect("10.0.0.1")` also closes 10.0.0.15.
* **C105** Overload control: `DefaultSetServerPriority`/`DefaultSetClientPriority` compute `max(min(p, 0), 255)`, so every request is sent with priority 255. If calls pass and then fail, no window expires and `Histogram::Sample` aborts the process after less than 2^31 of them. Both thresholds can reach max_priority + 1, and then requests of the highest priority are refused for their priority too.
* **C107** Client throttler: `interval` 0 hangs the first call at a later time, with the spin lock held. Requests that the throttler refuses get no `OnResponse`, so they are not counted as throttled. The buffer of 30 tokens holds 31.
* **C109** High percentile limiter: before the first limit is stored the strategy is in effect with limit 0, so that the second of two requests is refused. With limit n, n + 1 requests run. With both expected delays 0 and reports on, `*max_element` of an empty vector is read. `succeeded_` and `costs_ms_` are read uninitialised.
* **C111** `FiberSharedMutex`: a reader can be overtaken for ever (the comment in the code admits it). A leaving reader locks `wakeup_lock_` after its last decrement: a writer that gets the mutex by `try_lock`-like timing, releases and destroys it leaves the reader with a destroyed mutex.
* **C113** `FiberBlockingNoncontiguousBuffer`: a `Cut` of more bytes than the capacity never returns while the other side uses `AppendAlways` (HTTP streams: `Read(max_bytes)` with a body and `max_bytes` above the capacity, and `ReadAll` until its time is over). `AppendAlways` sleeps on after `Stop`. `Stop` wakes up one waiter. `SetCapacity` can come between test and sleep.
* **C115** `FiberSeqLock`: `sequence` is never initialised.
* **C117** `HttpWriteStream::Write` of an empty buffer sends `0\r\n\r\n`: later chunks are read as the next response on the connection. `Write` after `WriteDone` does the same. `WriteDone` before the header succeeds and leaves the chunked body without an end. `HttpClientStream::Write` has the first two as well (by reading).
* **C119** A chunked request body longer than `max_packet_size`: `AppendToRequest` asks for one byte more than the buffer can hold, so it learns nothing until the request times out (408 in place of 413), and the fiber that reads the connection sleeps in `AppendAlways` for ever, `Stop` notwithstanding. One such request per connection leaks a fiber and a connection.
* **C121** `PushFreeBlockList` writes `free_block_vec[free_num++]` without a check; the vector has two entries for each 32 blocks of the limit. A thread that ends pushes its list however short it is, so threads that each give back one block and end overflow it. A chunk has 1024 blocks whatever the limit, so with a limit of 480 blocks or less a single thread that gives back what it allocated overflows it.
* **C123** `GetSharedNothingMemPool(cpu_id)` ignores `cpu_id` and returns the pool of the calling thread. So a block given back by another thread goes to that thread: a thread that only allocates gets none back, the pool reaches its limit with all blocks free, and each further block comes from the system. The blocks keep their `chunk_id`, which is an index into the table of the thread that made them: with more than 200 chunks the assertion in `GetBlockChunk` aborts (or, for an index equal to the size, memory outside of the vector is used), and when a thread ends, 31 of its blocks and one of another thread count as a complete chunk, which is freed with a block in use.
* **C123** Further: `GetCpuId` aborts for the 1025th thread that ever uses the pool, even if all others are gone; the size of the pool has 32 bits, so with a threshold of 4 GiB or more there is no limit; `Allocate` writes `cpu_id` through a null pointer if the system has no memory.
* **C125** `ClearReqMsg` dequeues ids in a fiber of its own while `MessageHandleFunction` still runs (the connection is stopped only afterwards): with ids 1, 2 in the queue it takes 1, the answer to 1 then takes 2, and caller 2 gets the answer to request 1. A caller that passed `IsHealthy()` before, and sends after the queue is emptied, gets the answer to a request that has failed already. Every call that fails, and every idle timeout, closes the connection this way.
* **C125** One-way requests get no entry in the queue: a server that answers them (Redis does) shifts all answers by one. `NotifyPipelineSendMsg` asserts that the id fits into the queue (16384 by default): one more request in flight aborts the process.
* **C127** `GetOrCreate` takes unhealthy and idle connectors out of the pool and closes them without `long_conn_num_.fetch_sub`, although they were counted. Each one takes a place of the limit for ever; after `max_conn_num` of them (64 by default: a server restart is enough, or idle connections over a day) `Reclaim` keeps no connection any more, and every request opens and closes a connection of its own.
* **C129** `DispatchException(request_id, …)` of the UDP pool calls `TryGetCallContext()` without the id: a timer that fires just when its call is answered ends the next call on that socket with a timeout. `SaveCallContext` enables the timer before it stores the context: a timer that fires in between is lost, and the call never ends if the datagram is lost. Duplicated answers go to the next caller, since answers are not matched with requests.
* **C131** `ParseQuery` does not look at the end of the view: parsing a `std::string_view` that is not followed by NUL takes the bytes behind it for the query, or reads outside; `*p` is read at the end everywhere. CR and LF are accepted everywhere and are put on the request line by the client (request splitting, if the URL comes from outside). `RequestUri` includes the fragment, and is not "/..." for a URL without path. `x@y@z` has host `y@z` here and `z` elsewhere. `UrlParser::IntegerPort` is cut to 16 bits: port 65616 is port 80, no port is 65535.
* **C133** `100 Continue` (and 103) is given to the caller as the response, and the real one stays in the buffer and is given to the next caller on that connection. A response without `Content-Length` and `Transfer-Encoding` (HTTP/1.0 servers, `Connection: close`) is given to the caller with an empty body, and the body stays in the buffer. `304`/`204` with a `Content-Length` waits for a body that does not come. Nothing checks that the buffer is empty when a pooled connection is used again, so anything left over answers the next call.
* **C133** `SetCurrentContextExt` (the method, for HEAD) is called after `Writev`, in another fiber than the one that reads: the response to a HEAD can be read as one with a body (the call times out), and the response to the request after a HEAD as one without (its body answers the next call). `context_ext_` is also a data race.
* **C133** The first of two different `Content-Length` headers counts; every `Transfer-Encoding` counts as chunked; `Connection: close, x` counts as reusable.
* **C135** Values of fields and the reason are written as they are: an end of line in them starts another field or another message (response splitting). `TrpcOverHttpServerCodec` sends the error message of the application this way (`trpc-error-msg`), which often has parts of the request in it.
* **C135** A `Content-Length` set by the program is sent whatever the content is; `Transfer-Encoding: chunked` set on a plain response sends the content without chunks; `SetNonContiguousBufferContent` and `Write` after `SetContent` or `GetContent` (which caches) have no effect on what is sent.
* **C137** `Hazptr::operator=` takes over the entry but not `from_`: a default-domain Hazptr that is assigned from one of another domain puts a foreign entry into the cache of its thread, and the next Hazptr of this thread keeps objects with an entry that the reclaimer of the default domain does not look at: use after free.
* **C137** `~EntryCacheSlow` releases the entries up to its own `current`, which is never updated after the fast cache was initialized from it: the entries that a thread has cached when it ends (up to 8) stay active for ever, in memory and in each later scan.
* **C139** `LightlyConcurrentHashMap::Get` walks the list with one Hazptr: it exposes the next node, which gives up the present one, and then reads `node->next` of the present one again to check. If that was erased and reclaimed in between, this is a use after free. It can happen whenever two keys share a bucket; `FiberConnectorGroupManager` and `ServiceProxyManager` use this map.
* **C139** With more mutexes than buckets, keys of one bucket have different mutexes: two insertions race and one is lost.
* **C139** `LightlyConcurrentHashMap::Clear` sets the size to 0 after it unlocked the buckets: a key inserted meanwhile is not counted, and after its removal `Size` is 2^64-1.
* **C139** `RoundUpPowerOf2` does not end for arguments above 2^63.
* **C141** `GetTaskPtr` adopts the reference of the id and drops it if the count is 1, that is, if the task has finished: `StopTask` then destroys the task and returns false, and the `JoinTask` that is to follow according to its comment accesses freed memory.
* **C141** `PeripheryTaskScheduler::Join` drops a second reference of each task in the queue, also if it belongs to a `JoinTask` that sleeps (up to 100 ms, `Stop` does not wake it): use after free and double free at the end of a program.
* **C141** `JoinTask` returns false for a task that has finished, and true for one that runs if the scheduler was stopped.
* **C141** Tasks that are not periodic are never destroyed unless their id is given to `DetachTask`, `RemoveTask` or `JoinTask`, against the comment that nothing needs to be done.
* **C144** `TryParse<uint64_t>("-1")` is 2^64-1 and `TryParse<uint8_t>("-18446744073709551615")` is 1, since `strtoull` negates; `Content-Length` of streams is parsed this way (stream/http/common/stream.cc:306). `errno` is not reset before `strtoull`. `Trim("")` reads `front()` of an empty string; `IEquals` indexes its table with a negative `char`. `JoinImpl` adds up sizes in an `int`.
* **C146** `Counter(init)` and `Gauge(init)` pass the initial value as the identity of every thread-local buffer, so `GetValue` returns init times (1 + number of threads that have written) plus the updates. A thread that exits is deregistered (object_array.h:194) before its buffer is merged (write_mostly.h:138): a `GetValue` in between misses its part. `Modify<OpAdd>` is `Load` and `Store` (atomic_type.h:110-112), which undoes a concurrent `Reset`.
* **C150** `GetSeries` (series.h:101-106) calls `mutex_.unlock()` while a `std::scoped_lock` holds the mutex; the destructor unlocks it again.
* **C152** `Log2` (percentile.cc:41-43) computes `-y` for `y = INT_MIN`. `AddLatency` (percentile.cc:73-78) merges a full interval under the mutex of the variable, releases it, and clears the interval after it has taken its own mutex again (op_util.h:126-129): a `Reset` in between finds it in both places.
* **C154** `CombineOf` (percentile.h:332-334) rounds the share of each bucket down to 0 with some probability; with more than 1022 buckets that may be all of them, and `GetSampleAt` of an interval without samples returns 0. `Merge` and `Add32` do not reset `sorted_` (percentile.h:69-72).
* **C156** `CHECK_ABSOLUTE_PATH` accepts an empty path, `FindOrCreate` then calls `substr(1)` of it (tvar_group.cc:165-170). `Add` accepts an empty name, which `TryGet` takes for a dump (tvar_group.cc:185-187). Nodes are never erased. `NormalizePath` calls `back()` of an empty string for `GET /cmds/var` (stats_handler.cc:159, admin_service.cc:63). The constructor checks its parameter after it has been moved from (tvar_group.cc:201-203), so that this check says nothing.
* **C159** `object_pool::shared_nothing::Delete` of an object whose thread has ended uses `all_cpus[cpu_id]`, which still points to the destroyed pool (and the memory with objects still handed out is never given back); `New` writes `slot->cpu_id` without checking that there is an object.
* **C161** `AppendSameSite` has no `break` after `Lax`: `; SameSite=Lax; SameSite=Strict` is written, and browsers take the last one. `expires` is turned into an age with `GetSteadyMilliSeconds` and not the time of day, so the age is wrong by decades. Values are not escaped.
* **C166** `ParseBindCoreConfig` (thread_helper.cc:113-121): a malformed part aborts the program instead of returning false; a range that ends with 4294967295 never ends (`i <= *end` for a `uint32_t`); the message of a range with a bad end uses an empty optional.
* **C169** `FixedMemoryPool::Deallocate` (fixed_arena_allocator.h:87) tests `prelease > end` instead of `>=`: memory of `std::allocator` right behind the pool is taken into the pool, written to, and handed out again.

## Axioms

`#print axioms` of every theorem of `MANIFEST.json`.

* no axioms:
  `Buffer.C01_empty_raw_append_then_move_aborts`, `Stream.Flow.C27_huge_message_deadlocks`,
  `Limiter.Retry.C33_failure_below_zero`, `Future.Sem.C39_lost_wakeup`, `Future.Sem.C40_served_after_broke`,
  `Future.Sem.C40_nested_broke_crashes`, `Http.C71_colon_partial`, `Http.C71_lost_partial`,
  `Http.C71_parameters_partial`, `Http.C74_add`, `Transport.Wheel.C93_pop_partial`, `Reactor.Conn.C100_read_open`,
  `Reactor.Conn.C101_twice_partial`, `Overload.C107_unpaired_partial`, `Http.Client.C132_limit_idle`,
  `Http.Message.C134_size`, `Http.Message.C135_stale_partial`, `Tvar.Series.C150_both_partial`,
  `Tvar.Series.C150_race_partial`, `Pool.ObjectsShared.C159_null_partial`, `Container.Dlist.C162_init`,
  `Container.Slist.C163_init`
* `propext`:
  `Limiter.Token.C13_zero_burst_halves_rate`, `LB.Polling.C16_wrap_skews`, `Container.BQ.C24_capacity_zero`,
  `LB.Hash.C29_decimal_key`, `Transport.Connector.C43_early_response_crashes`,
  `Transport.Connector.C43_context_destroyed_in_use`, `Transport.Connector.C43_stale_timer`, `Future.Loop.C46_while`,
  `Future.Loop.C46_while_step`, `Thread.SqPool.C49_drains_partial`, `Redis.C67_format_end_partial`,
  `Redis.C67_format_past_partial`, `Redis.C67_format_long_partial`, `Http.C69_decode`, `Http.C69_path`,
  `Http.C69_plain`, `Http.C70_defined`, `Http.C73_base64_partial`, `Http.C73_escape_partial`,
  `Http.C73_plus_partial`, `Http.C73_length_partial`, `Http.C74_exact`, `Http.C74_first`, `Http.C74_none`,
  `Http.C77_lengths_partial`, `Http.C77_encoding_partial`, `Conn.C82_empty_message_partial`,
  `Conn.C82_destroy_outside_partial`, `Conn.C82_lost_wakeup_partial`, `Conn.C82_wakeup`,
  `Conn.Cleanup.C84_keep_running_partial`, `Conn.Cleanup.C84_join_partial`, `Conn.Cleanup.C84_join_one`,
  `Conn.Handshake.C85_read_handshake`, `Conn.Handshake.C86_nothing_to_write_partial`,
  `Conn.Handshake.C86_two_writers_partial`, `Stream.Trpc.C90_write_partial`, `Stream.Trpc.C90_write_accepted`,
  `Stream.Trpc.C90_race_partial`, `Stream.Trpc.C90_read_partial`, `Reactor.Tasks.C99_late_partial`,
  `Reactor.Tasks.C99_half_partial`, `Reactor.Tasks.C99_inner_partial`, `Reactor.Conn.C101_empty_partial`,
  `Reactor.Conn.C101_blocks_partial`, `Transport.Complex.C103_udp_partial`, `Overload.C109_first_partial`,
  `Overload.C109_off_by_one_partial`, `Sync.Shared.C111_starve_partial`, `Sync.Shared.C111_late_partial`,
  `Sync.Blocking.C112_fifo`, `HttpStream.C117_empty_partial`, `HttpStream.C117_empty_all_partial`,
  `HttpStream.C117_after_done_partial`, `HttpStream.C117_early_done_partial`, `HttpStream.Read.C118_short`,
  `HttpStream.Read.C118_broken`, `Pool.Shared.C123_oom_partial`, `Transport.FiberUdpPool.C129_dup_partial`,
  `Http.Client.C133_lengths_partial`, `Http.Client.C133_encoding_partial`, `Sync.Hazptr.C137_assign_partial`,
  `Sync.HashMap.C139_free_partial`, `Sync.HashMap.C139_mutexes_partial`, `Runtime.Periphery.C141_join_partial`,
  `Runtime.Periphery.C141_false_partial`, `Text.Helper.C143_chars`, `Text.Helper.C144_case_partial`,
  `Text.Helper.C144_zero_partial`, `Tvar.Cell.C146_wrong_partial`, `Tvar.Cell.C146_back_partial`,
  `Tvar.Percentile.C152_index_partial`, `Tvar.Group.C156_url_partial`, `Thread.BindCore.C165_member`
* `Quot.sound`, `propext`:
  `Buffer.C02_builder_concatenates`, `Buffer.C03_flattenToSlow`, `Buffer.C04_zero_block_stalls`,
  `Trpc.C05_header_wire_layout`, `Trpc.C06_request_encode_total`, `Trpc.C07_response_encode_total`,
  `Trpc.C10_framing_unique`, `Trpc.C10_four_gib_buffer_reports_less`, `Limiter.Seconds.C11_stale_call_exceeds_limit`,
  `Limiter.Smooth.C12_admitted_iff_window_below_limit`, `Limiter.Smooth.C12_frames_pos`,
  `Limiter.Token.C13_refines_token_bucket`, `Limiter.Token.C13_interval_bound`,
  `Limiter.Token.C13_excessive_rate_never_rejects`, `Limiter.Retry.C15_tokens_le_max`,
  `Limiter.Retry.C15_single_call`, `Limiter.Retry.C15_sequential_is_atomic_run`,
  `Limiter.Retry.C15_sequential_range`, `Limiter.Retry.C15_gate`, `LB.Polling.C16_full_rotation`,
  `LB.Polling.C16_in_list`, `LB.WRR.C17_all_zero_selects_first`, `Queue.Mpmc.C19_capacity_one_broken`,
  `Queue.BoundedSpmc.C21_dequeue_on_new_queue_kills_it`, `Queue.BoundedSpmc.C21_lost_race_kills_it`,
  `Queue.BoundedSpmc.C21_item_handed_out_twice`, `Container.BQ.C24_bounded`, `Container.BQ.C24_capacity_large`,
  `Future.Sem.C26_exclusion`, `Future.Sem.C26_fifo`, `Future.Sem.C26_no_overtaking`, `Future.Sem.C26_no_lost_wakeup`,
  `Future.Sem.C26_grants`, `Future.Sem.C26_unlock_succeeds`, `Stream.Flow.C27_window_size`,
  `LB.Hash.C29_modulo_in_list`, `LB.Hash.C29_every_endpoint_reachable`, `LB.Hash.C29_non_numeric_key_throws`,
  `Buffer.C30_output_stream_partial`, `Buffer.C30_byteCount_excludes_pending`,
  `Limiter.Token.C32_young_clock_blocks`, `Limiter.Retry.C33_failure_effect_partial`,
  `LB.WRR.Race.C34_concurrent_next_breaks`, `Queue.Mpmc.C37_completed_push_not_seen`, `Queue.Mpmc.C37_not_fifo`,
  `Queue.RunQ.C38_large_batch_never_accepted`, `Future.Sem.C40_wait_zero_after_broke`,
  `Stream.Flow.C41_window_grows`, `Stream.Flow.C41_bounded_partial`, `Future.Loop.C46_for_each`,
  `Future.Loop.C46_for_each_times`, `Future.Loop.C46_finish`, `Future.Loop.C47_async_partial`,
  `Thread.SqPool.C48_fifo`, `Thread.SqPool.C48_once`, `Thread.SqPool.C49_wakes_partial`, `Fiber.Sched.C52_order`,
  `Fiber.Sched.C53_waits`, `Fiber.Sched.C54_few`, `Fiber.Sched.C54_none`, `Fiber.Sched.C54_undefined`,
  `Fiber.Sync.C57_timed_wait_of_a_thread`, `Fiber.Sync.C57_early_notification`, `Filter.C60_http_body_partial`,
  `Redis.C66_resp`, `Redis.C66_format`, `Http.C68_accepted`, `Http.C69_query`, `Http.C69_safe`, `Http.C69_unchanged`,
  `Http.C70_size`, `Http.C72_none`, `Http.C74_normalize`, `Http.C76_pieces`, `Http.C76_ends`, `Http.C76_received`,
  `Http.C76_limit`, `Http.C76_ambiguous`, `Http.C77_linefeeds_partial`, `Stream.C87_alone`, `Stream.C87_order`,
  `Stream.C87_quiet`, `Stream.C87_stops`, `Stream.Trpc.C88_order`, `Stream.Trpc.C88_eof`, `Stream.Trpc.C88_complete`,
  `Stream.Trpc.C88_reset_ends`, `Stream.Trpc.C88_cut`, `Stream.Trpc.C89_legal`, `Stream.Trpc.C89_no_crash`,
  `Stream.Trpc.C89_told`, `Stream.Trpc.C89_agreed`, `Stream.Trpc.C90_silent_partial`,
  `Stream.Locks.C91_stop_partial`, `Transport.Wheel.C93_far_partial`, `Transport.Wheel.C93_late_partial`,
  `Transport.Pool.C95_starves_partial`, `Transport.Pool.C95_last_answer_partial`,
  `Transport.Pool.C95_lost_number_partial`, `Transport.Pool.C95_shared_partial`,
  `Transport.Pool.C95_ordinary_partial`, `Transport.Pool.C95_freed_partial`, `Reactor.Timers.C97_past_partial`,
  `Reactor.Timers.C97_overdue_partial`, `Reactor.Timers.C97_paused_partial`, `Reactor.Tasks.C98_order`,
  `Reactor.Tasks.C98_full`, `Reactor.Tasks.C98_batch`, `Reactor.Tasks.C98_next`, `Reactor.Tasks.C98_done`,
  `Reactor.Tasks.C98_last`, `Reactor.Tasks.C98_wakes`, `Reactor.Tasks.C98_notifier`, `Reactor.Conn.C100_wire`,
  `Reactor.Conn.C100_reports`, `Reactor.Conn.C100_prompt`, `Reactor.Conn.C100_event`, `Reactor.Conn.C100_send`,
  `Reactor.Conn.C100_safe`, `Reactor.Conn.C100_read`, `Reactor.Conn.C101_closed_partial`,
  `Reactor.Conn.C101_lost_partial`, `Transport.Complex.C103_backup_partial`,
  `Transport.Complex.C103_udp_backup_partial`, `Transport.Complex.C103_wrap_partial`, `Overload.C105_set_partial`,
  `Overload.C106_tokens`, `Overload.C106_debt`, `Overload.C107_buffer_partial`, `Overload.C108_max`,
  `Overload.C108_count`, `Overload.C108_bound`, `Overload.C108_minimum`, `Sync.Blocking.C112_capacity`,
  `Sync.Blocking.C112_rest`, `Sync.Blocking.C113_big_partial`, `Sync.Blocking.C113_stop_partial`,
  `Sync.Blocking.C113_stop_two_partial`, `Sync.Blocking.C113_capacity_partial`, `Sync.Blocking.C113_two_partial`,
  `Sync.SeqLock.C114_snapshot`, `Sync.SeqLock.C114_open`, `Sync.SeqLock.C114_closed`,
  `Sync.SeqLock.C115_odd_partial`, `Sync.SeqLock.C115_torn_partial`, `Sync.SeqLock.C115_wrap_partial`,
  `Sync.Blocking.C119_leak_partial`, `Sync.Blocking.C119_end_partial`, `Pool.Shared.C122_bound`,
  `Pool.Shared.C123_exit_partial`, `Pool.Shared.C123_threads_partial`, `Transport.Pipeline.C124_own`,
  `Transport.Pipeline.C124_capacity`, `Transport.Pipeline.C125_closing_partial`,
  `Transport.Pipeline.C125_late_partial`, `Transport.Pipeline.C125_oneway_partial`,
  `Transport.Pipeline.C125_capacity_partial`, `Transport.FiberPool.C126_own`, `Transport.FiberPool.C126_once`,
  `Transport.FiberPool.C126_exclusive`, `Transport.FiberPool.C126_clean`, `Transport.FiberPool.C126_waits`,
  `Transport.FiberPool.C126_shard`, `Transport.FiberPool.C126_total`, `Transport.FiberPool.C127_count_partial`,
  `Transport.FiberPool.C127_shrinks_partial`, `Transport.FiberPool.C127_dead_partial`,
  `Transport.FiberPool.C127_oneway_partial`, `Transport.FiberUdpPool.C128_own`, `Transport.FiberUdpPool.C128_once`,
  `Transport.FiberUdpPool.C128_clean`, `Transport.FiberUdpPool.C129_timer_partial`,
  `Transport.FiberUdpPool.C129_forever_partial`, `Http.Url.C130_safe`, `Http.Url.C130_port`,
  `Http.Url.C131_view_partial`, `Http.Url.C131_read_partial`, `Http.Url.C131_at_partial`,
  `Http.Client.C132_received`, `Http.Client.C132_pieces`, `Http.Client.C132_limit`, `Http.Client.C132_ambiguous`,
  `Http.Client.C132_reusable`, `Http.Client.C133_interim_partial`, `Http.Client.C133_close_partial`,
  `Http.Client.C133_waits_partial`, `Http.Client.C133_stale_partial`, `Http.Client.C133_options_partial`,
  `Http.Message.C134_request`, `Http.Message.C135_value_partial`, `Sync.Hazptr.C136_safe`, `Sync.Hazptr.C136_once`,
  `Sync.Hazptr.C136_exclusive`, `Sync.Hazptr.C136_reclaimed`, `Sync.Hazptr.C137_leak_partial`,
  `Sync.Hazptr.C137_forever_partial`, `Sync.HashMap.C138_get`, `Sync.HashMap.C138_write`,
  `Sync.HashMap.C138_content`, `Sync.HashMap.C138_writers`, `Sync.HashMap.C138_single`, `Sync.HashMap.C138_alone`,
  `Sync.HashMap.C139_size_partial`, `Runtime.Periphery.C141_shutdown_partial`, `Text.Helper.C143_split`,
  `Text.Helper.C143_char`, `Text.Helper.C143_ends`, `Text.Helper.C143_join`, `Text.Helper.C143_round`,
  `Text.Helper.C143_replace`, `Text.Helper.C143_sound`, `Text.Helper.C144_split_partial`,
  `Text.Helper.C144_join_partial`, `Tvar.Cell.C146_reset_partial`, `Tvar.Packed.C147_empty`,
  `Tvar.Percentile.C151_defined`, `Tvar.Percentile.C154_sorted_partial`, `Tvar.Group.C155_root`,
  `Tvar.Group.C155_written`, `Tvar.Group.C155_url`, `Tvar.Group.C156_empty_partial`, `Pool.ObjectsShared.C158_bound`,
  `Container.Dlist.C162_linked`, `Container.Dlist.C162_iter`, `Container.Slist.C163_iter`,
  `Thread.BindCore.C165_turn`
* `Classical.choice`, `Quot.sound`, `propext`:
  `Buffer.C01_buffer_refines_byte_string`, `Buffer.C01_buffer_operations_defined_iff_in_range`,
  `Buffer.C03_flattenSlow`, `Buffer.C03_flattenSlowUntil`, `Buffer.C04_input_stream`,
  `Buffer.C04_input_stream_total`, `Trpc.C05_header_roundtrip`, `Trpc.C05_header_decode_any`,
  `Trpc.C06_request_roundtrip`, `Trpc.C06_request_accepts_only_exact_split`, `Trpc.C07_response_roundtrip`,
  `Trpc.C07_response_accepts_only_exact_split`, `Trpc.C08_data_roundtrip`, `Trpc.C08_control_roundtrip`,
  `Trpc.C08_control_encode_total`, `Trpc.C08_control_kinds_not_confused`, `Trpc.C09_segmentation`,
  `Trpc.C09_segmentation_independent`, `Trpc.C09_concatenated_frames`, `Trpc.C09_good_frame_dropped_with_garbage`,
  `Trpc.C10_checker_frames_any_input`, `Trpc.C10_checked_frames_decode_safely`,
  `Limiter.Seconds.C11_admits_first_limit`, `Limiter.Seconds.C11_admitted_count`,
  `Limiter.Seconds.C11_current_counter`, `Limiter.Smooth.C12_at_most_limit_per_window`,
  `Limiter.Token.C13_admits_after_one_period`, `Limiter.Concurrency.C14_in_flight_bounded`,
  `Limiter.Concurrency.C14_decision`, `Limiter.Concurrency.C14_skip_on_error`, `LB.Polling.C16_update`,
  `LB.WRR.C17_exact_proportion`, `LB.WRR.C17_every_window`, `LB.WRR.C17_selects_positive_weight`,
  `LB.WRR.C17_no_overflow`, `LB.WRR.C17_update`, `LB.Hash.C18_selects_owner`, `LB.Hash.C18_owner_unique`,
  `LB.Hash.C18_history_independent`, `LB.Hash.C18_minimal_disruption`, `LB.Hash.C18_update_moves_only_changed`,
  `Queue.Mpmc.C19_mpmc_linearizable`, `Queue.Mpmc.C19_at_most_once`, `Queue.Mpmc.C19_at_most_capacity`,
  `Queue.Mpmc.C19_quiescent_operations_succeed`, `Queue.Mpmc.C19_capacity`, `Queue.Mpmc.C19_mask`,
  `Queue.Deque.C20_unbounded_linearizable`, `Queue.Deque.C20_unbounded_at_most_once`,
  `Queue.Deque.C20_unbounded_nothing_lost`, `Queue.Deque.C21_bounded_linearizable_partial`,
  `Queue.Deque.C21_bounded_at_most_once_partial`, `Queue.Deque.C22_local_linearizable`,
  `Queue.Deque.C22_local_at_most_once`, `Queue.Deque.C22_local_nothing_lost`, `Queue.Deque.C22_no_wrap`,
  `Queue.RunQ.C23_linearizable`, `Queue.RunQ.C23_check_never_fails`, `Queue.RunQ.C23_at_most_once`,
  `Queue.RunQ.C23_at_most_capacity`, `Queue.RunQ.C23_unstealable_not_stolen`, `Queue.RunQ.C23_quiescent`,
  `Queue.RunQ.C23_capacity`, `Container.BQ.C24_deque`, `Container.BQ.C24_clear_destroys_all`,
  `Future.Sem.C25_units_conserved`, `Future.Sem.C25_fifo`, `Future.Sem.C25_no_overtaking`,
  `Future.Sem.C25_no_overtaking_inside`, `Future.Sem.C39_no_lost_wakeup_partial`, `Future.Sem.C25_after_broke`,
  `Future.Sem.C25_broke_answers_all`, `Future.Sem.C40_no_crash_partial`, `Stream.Flow.C27_bounded`,
  `Stream.Flow.C27_no_deadlock`, `Stream.Flow.C27_write_no_deadlock`, `Transport.CallMap.C28_map`,
  `Transport.CallMap.C28_at_most_once`, `Transport.CallMap.C28_foreach_once`, `Transport.CallMap.C28_foreach_visits`,
  `Transport.CallMap.C28_foreach`, `Transport.CallMap.C28_foreach_alone`, `Trpc.C31_oversized_header_misdecodes`,
  `LB.WRR.Race.C34_serial_is_next`, `LB.Hash.C35_known_endpoint_partial`, `LB.Hash.C35_removed_endpoint_served`,
  `LB.Hash.C35_stale_status`, `LB.Hash.C36_history_matters`, `LB.Hash.C36_shared_points`,
  `Queue.Mpmc.C37_mpsc_linearizable_partial`, `Queue.RunQ.C38_batch_accepted_partial`,
  `Queue.RunQ.C38_exact_fit_rejected`, `Queue.RunQ.C38_large_batch_spins`, `Transport.Connector.C42_at_most_once`,
  `Transport.Connector.C42_never_lost`, `Transport.Connector.C42_timeout_completes`,
  `Transport.Connector.C42_results_justified`, `Transport.Connector.C42_timeout_own`,
  `Transport.Connector.C42_no_crash`, `Future.Core.C44_no_crash`, `Future.Core.C44_called_once`,
  `Future.Core.C44_called_right`, `Future.Core.C44_got_right`, `Future.Core.C44_unique`,
  `Future.Core.C44_called_complete`, `Future.Core.C44_read_complete`, `Future.Core.C44_terminates`,
  `Future.Core.C44_settles`, `Future.When.C45_once`, `Future.When.C45_all_right`, `Future.When.C45_all_complete`,
  `Future.When.C45_any_right`, `Future.When.C45_any_complete`, `Future.When.C45_ready_right`,
  `Future.When.C45_ready_complete`, `Future.Loop.C46_for`, `Future.Loop.C46_times`, `Future.Loop.C47_unbounded`,
  `Thread.SqPool.C48_accepted`, `Thread.SqPool.C48_refused`, `Thread.SqPool.C49_lost`, `Thread.SqPool.C49_late`,
  `Thread.SqPool.C49_stop_partial`, `Thread.SqPool.C49_stop_wakes_partial`, `Fiber.Timer.C50_early`,
  `Fiber.Timer.C50_once`, `Fiber.Timer.C50_removed`, `Fiber.Timer.C50_enabled`, `Fiber.Timer.C50_check`,
  `Fiber.Timer.C51_sleep`, `Fiber.Timer.C51_stop`, `Fiber.Timer.C51_round`, `Fiber.Sched.C52_awake`,
  `Fiber.Sched.C52_safe`, `Fiber.Sched.C52_stop`, `Fiber.Sched.C52_leaves`, `Fiber.Sched.C53_wakes_partial`,
  `Fiber.Sched.C54_all_partial`, `Fiber.Sync.C55_fair_mutex`, `Fiber.Sync.C55_mutual_exclusion`,
  `Fiber.Sync.C55_one_owner`, `Fiber.Sync.C55_fifo`, `Fiber.Sync.C55_quiet`, `Fiber.Sync.C56_condition_variable`,
  `Fiber.Sync.C56_owns`, `Fiber.Sync.C56_returns`, `Fiber.Sync.C56_fifo`, `Fiber.Sync.C56_not_lost`,
  `Fiber.Sync.C56_quiet`, `Fiber.Sync.C57_fibers_partial`, `Filter.C58_chain`, `Filter.C58_twice`,
  `Filter.C58_twice_service`, `Filter.C59_pairs`, `Filter.C59_stops`, `Filter.C59_one_response`,
  `Filter.C59_no_response`, `Filter.C60_http_late_partial`, `Filter.C60_future_partial`, `Filter.C60_oneway_partial`,
  `Filter.C60_decode_partial`, `Filter.C60_stream_partial`, `Filter.C60_io_partial`, `Filter.C60_http_queues`,
  `Filter.C60_http_one`, `Filter.C60_http_async`, `Filter.C60_http_async_one`, `Filter.C60_rpc_rest`,
  `Filter.C61_sched_partial`, `Filter.C61_stream_partial`, `Filter.C61_http`, `Filter.C62_pairs`, `Filter.C62_stops`,
  `Filter.C63_oneway_partial`, `Filter.C63_stream_partial`, `Filter.C63_oneway_inner`, `Redis.C64_blocks`,
  `Redis.C64_safe`, `Redis.C64_consumed`, `Redis.C64_more`, `Redis.C65_read`, `Redis.C65_less`, `Redis.C65_merged`,
  `Redis.C65_merged_less`, `Redis.C65_stream`, `Redis.C65_stream_goes_on`, `Redis.C65_check`, `Redis.C66_exact`,
  `Redis.C67_type`, `Redis.C67_number_partial`, `Redis.C67_nil_partial`, `Redis.C67_end_partial`,
  `Redis.C67_count_partial`, `Redis.C67_min_partial`, `Redis.C67_lost_partial`, `Http.C68_rfc`,
  `Http.C68_round_trip`, `Http.C68_fits`, `Http.C68_safe`, `Http.C69_uint`, `Http.C69_length`, `Http.C70_headers`,
  `Http.C70_parameters`, `Http.C71_empty_partial`, `Http.C72_query`, `Http.C74_path`, `Http.C74_remainder`,
  `Http.C74_remainder_only`, `Http.C74_put`, `Http.C74_params`, `Http.C75_slash_partial`, `Http.C75_below_partial`,
  `Conn.C78_order`, `Conn.C78_done`, `Conn.C78_safe`, `Conn.C78_single`, `Conn.C79_not_stranded`, `Conn.C79_wakes`,
  `Conn.C79_spin`, `Conn.C80_destroyed`, `Conn.C80_stopped`, `Conn.C80_left`, `Conn.C81_stays_open`,
  `Conn.C81_all_written`, `Conn.Cleanup.C83_once`, `Conn.Cleanup.C83_alone`, `Conn.Cleanup.C83_closed`,
  `Conn.Cleanup.C83_safe`, `Conn.Cleanup.C83_complete`, `Conn.Handshake.C85_safe`, `Conn.Handshake.C85_not_stranded`,
  `Conn.Handshake.C85_events`, `Conn.Handshake.C85_no_handshake`, `Conn.Handshake.C86_forgotten_partial`,
  `Stream.Locks.C91_no_deadlock`, `Transport.Wheel.C92_fires`, `Transport.Wheel.C92_none_missed`,
  `Transport.Wheel.C92_found`, `Transport.Wheel.C92_popped`, `Transport.Wheel.C92_safe`,
  `Transport.Pool.C94_own_answer`, `Transport.Pool.C94_once`, `Transport.Pool.C94_single`,
  `Transport.Pool.C94_checks`, `Transport.Pool.C94_none_lost`, `Reactor.Timers.C96_fires`,
  `Reactor.Timers.C96_skips`, `Reactor.Timers.C96_none_missed`, `Reactor.Timers.C96_sleep`,
  `Reactor.Timers.C96_ends`, `Reactor.Tasks.C98_turns`, `Transport.Complex.C102_once`,
  `Transport.Complex.C102_waits`, `Transport.Complex.C102_deadline`, `Transport.Complex.C102_answer`,
  `Transport.Complex.C102_sound`, `Transport.Complex.C103_peer_partial`, `Transport.Complex.C103_disconnect_partial`,
  `Overload.C104_shift`, `Overload.C104_moves`, `Overload.C104_thresholds`, `Overload.C104_update`,
  `Overload.C104_request`, `Overload.C104_monotone`, `Overload.C105_overflow_partial`,
  `Overload.C105_blackout_partial`, `Overload.C106_ema`, `Overload.C106_prob`, `Overload.C106_request`,
  `Overload.C107_interval_partial`, `Overload.C108_ema`, `Overload.C108_update`, `Overload.C109_report_partial`,
  `Sync.Shared.C110_exclusive`, `Sync.Shared.C110_checks`, `Sync.Shared.C110_progress`,
  `Sync.Shared.C110_writers_first`, `Sync.Blocking.C112_awake`, `Sync.Blocking.C112_flow`, `HttpStream.C116_size`,
  `HttpStream.C116_body`, `HttpStream.C116_ends`, `HttpStream.Read.C118_prefix`, `HttpStream.Read.C118_end`,
  `HttpStream.Read.C118_whole`, `Pool.Global.C120_once`, `Pool.Global.C120_apart`, `Pool.Global.C120_kept`,
  `Pool.Global.C120_bound`, `Pool.Global.C120_system`, `Pool.Global.C120_safe`, `Pool.Global.C121_threads_partial`,
  `Pool.Global.C121_small_partial`, `Pool.Shared.C122_once`, `Pool.Shared.C122_apart`, `Pool.Shared.C122_kept`,
  `Pool.Shared.C122_reuse`, `Pool.Shared.C122_running`, `Pool.Shared.C122_exit`, `Pool.Shared.C122_noleak`,
  `Pool.Shared.C122_safe`, `Pool.Shared.C123_lost_partial`, `Pool.Shared.C123_table_partial`,
  `Pool.Shared.C123_limit_partial`, `Transport.Pipeline.C124_once`, `Transport.Pipeline.C124_waits`,
  `Transport.Pipeline.C124_cleaned`, `Http.Url.C130_exact`, `Http.Url.C130_found`, `Http.Url.C131_lines_partial`,
  `Http.Url.C131_fragment_partial`, `Http.Url.C131_root_partial`, `Http.Url.C131_port_partial`,
  `Http.Message.C134_response`, `Http.Message.C134_delivered`, `Http.Message.C135_split_partial`,
  `Http.Message.C135_framing_partial`, `Sync.HashMap.C138_size`, `Sync.HashMap.C138_sizes`,
  `Sync.HashMap.C139_more_partial`, `Sync.HashMap.C139_round_partial`, `Runtime.Periphery.C140_once`,
  `Runtime.Periphery.C140_time`, `Runtime.Periphery.C140_stop`, `Runtime.Periphery.C140_join`,
  `Runtime.Periphery.C140_kept`, `Runtime.Periphery.C140_done`, `Runtime.Periphery.C140_runs`,
  `Runtime.Periphery.C140_safe`, `Runtime.Periphery.C140_freed`, `Runtime.Periphery.C140_ref`,
  `Runtime.Periphery.C141_stopped_partial`, `Runtime.Periphery.C141_leak_partial`, `Sync.Notifier.C142_parked`,
  `Sync.Notifier.C142_all`, `Sync.Notifier.C142_quiet`, `Sync.Notifier.C142_wakes`, `Sync.Notifier.C142_one`,
  `Sync.Notifier.C142_turn`, `Sync.Notifier.C142_safe`, `Text.Helper.C143_trim`, `Text.Helper.C143_case`,
  `Text.Helper.C143_iequals`, `Text.Helper.C143_unsigned`, `Text.Helper.C143_signed`,
  `Text.Helper.C144_trim_partial`, `Text.Helper.C144_negative_partial`, `Text.Helper.C144_errno_partial`,
  `Tvar.Cell.C145_total`, `Tvar.Cell.C145_read`, `Tvar.Cell.C145_value`, `Tvar.Cell.C145_reset`,
  `Tvar.Cell.C145_gone`, `Tvar.Cell.C146_init_partial`, `Tvar.Packed.C147_update`, `Tvar.Packed.C147_clamp`,
  `Tvar.Packed.C147_sum`, `Tvar.Window.C148_window`, `Tvar.Window.C148_added`, `Tvar.Window.C148_size`,
  `Tvar.Series.C149_series`, `Tvar.Series.C149_minutes`, `Tvar.Series.C150_unlock_partial`,
  `Tvar.Percentile.C151_index`, `Tvar.Percentile.C151_merge`, `Tvar.Percentile.C151_conserved`,
  `Tvar.Percentile.C151_result`, `Tvar.Percentile.C152_twice_partial`, `Tvar.Percentile.C153_exact`,
  `Tvar.Percentile.C153_near`, `Tvar.Percentile.C153_empty`, `Tvar.Percentile.C153_total`,
  `Tvar.Percentile.rank_spec`, `Tvar.Percentile.C154_dropped_partial`, `Tvar.Group.C155_get`, `Tvar.Group.C155_dump`,
  `Tvar.Group.C155_sound`, `Tvar.Group.C155_add`, `Tvar.Group.C155_keep`, `Tvar.Group.C155_create`,
  `Tvar.Group.C155_bad`, `Tvar.Group.C155_handles`, `Tvar.Group.C155_held`, `Tvar.Group.C155_web`,
  `Tvar.Group.C156_unreachable_partial`, `Tvar.Group.C156_group_partial`, `Pool.Objects.C157_once`,
  `Pool.Objects.C157_apart`, `Pool.Objects.C157_kept`, `Pool.Objects.C157_bound`, `Pool.Objects.C157_system`,
  `Pool.Objects.C157_safe`, `Pool.Objects.C157_full`, `Pool.ObjectsShared.C158_once`,
  `Pool.ObjectsShared.C158_apart`, `Pool.ObjectsShared.C158_kept`, `Pool.ObjectsShared.C158_owner`,
  `Pool.ObjectsShared.C158_freed`, `Pool.ObjectsShared.C158_twice`, `Pool.ObjectsShared.C158_end`,
  `Pool.ObjectsShared.C158_refill`, `Pool.ObjectsShared.C158_safe`, `Pool.ObjectsShared.C159_late_partial`,
  `Http.Cookie.C160_read`, `Http.Cookie.C160_empty`, `Http.Cookie.C160_back`, `Http.Cookie.C161_lax_partial`,
  `Http.Cookie.C161_expires_partial`, `Http.Cookie.C161_inject_partial`, `Container.Dlist.C162_pushFront`,
  `Container.Dlist.C162_pushBack`, `Container.Dlist.C162_popFront`, `Container.Dlist.C162_popBack`,
  `Container.Dlist.C162_erase`, `Container.Dlist.C162_splice`, `Container.Dlist.C162_swap`,
  `Container.Slist.C163_pushFront`, `Container.Slist.C163_pushBack`, `Container.Slist.C163_popFront`,
  `Container.Slist.C163_swap`, `Container.Slist.C163_splice`, `Container.IndexAlloc.C164_fresh`,
  `Container.IndexAlloc.C164_small`, `Container.IndexAlloc.C164_reuse`, `Thread.BindCore.C165_parse`,
  `Thread.BindCore.C165_group`, `Thread.BindCore.C166_abort_partial`, `Thread.BindCore.C166_forever_partial`,
  `Container.Erased.C167_deleted`, `Container.Erased.C167_one`, `Container.Erased.C167_none_lost`,
  `Container.Erased.C167_move`, `Container.FixedPool.C168_full`, `Container.FixedPool.C168_apart`,
  `Container.FixedPool.C168_free`, `Container.FixedPool.C168_zero`, `Container.FixedPool.C169_behind_partial`
