{"id": "C01", "title": "A non-contiguous buffer behaves as one byte string", "statement": "After any legal sequence of Append (block, raw bytes or another buffer), Cut, Skip, Clear, copy and move on a NoncontiguousBuffer, the bytes seen by walking its blocks are exactly the bytes obtained by running the same operations on a flat byte string, Cut(n) returns exactly the first n bytes and leaves exactly the rest, and ByteSize() is the length of that string. Skip or Cut past the end is a precondition violation, not a silent truncation.", "quantifier": "every initial block layout, every sequence of operations and every operand size", "why_tests_cant": "The result depends on how cut points fall relative to block boundaries; there are unboundedly many layouts and operation orders and a test fixes a handful.", "anchors": ["trpc/util/buffer/noncontiguous_buffer.h: NoncontiguousBuffer::Skip, Cut, Append, Clear", "trpc/util/buffer/noncontiguous_buffer.cc: SkipSlow, copy operations", "trpc/util/internal/singly_linked_list.h"]}
{"id": "C02", "title": "Building a buffer never loses, duplicates or reorders bytes", "statement": "Whatever mixture of Append(bytes), Append(char), Append(buffer), Reserve and direct writes followed by MarkWritten is issued to a NoncontiguousBufferBuilder, DestructiveGet() returns a buffer whose content is the concatenation, in call order, of everything written, and ByteSize() reports exactly the number of bytes written so far.", "quantifier": "every block size, every sequence of builder calls and every operand length, including lengths equal to or larger than the remaining block space", "why_tests_cant": "The boundary between the in-block fast path and the slow path moves with every previous write; tests cover a few alignments.", "anchors": ["trpc/util/buffer/noncontiguous_buffer.h: NoncontiguousBufferBuilder::Append, MarkWritten, Reserve, DestructiveGet", "trpc/util/buffer/noncontiguous_buffer.cc: InitializeNextBlock, FlushCurrentBlock, AppendSlow"]}
{"id": "C03", "title": "Flattening a buffer yields exactly its prefix", "statement": "FlattenSlow(b, n) returns the first min(n, size) bytes of b. FlattenSlowUntil(b, delim, n) returns the shortest prefix that ends with delim when such a prefix of length at most n exists (cut at n), and otherwise the first min(n, size) bytes, irrespective of how delim straddles block boundaries. FlattenToSlow copies exactly the requested number of bytes.", "quantifier": "every block layout, delimiter and limit", "why_tests_cant": "A delimiter can be split over any number of blocks at any offset; enumeration of layouts is infinite.", "anchors": ["trpc/util/buffer/noncontiguous_buffer.cc: FlattenSlow, FlattenSlowUntil, FlattenToSlowSlow", "trpc/util/buffer/noncontiguous_buffer.h: FlattenToSlow"]}
{"id": "C04", "title": "Zero-copy input stream delivers the buffer once and in order", "statement": "Reading a buffer through NoncontiguousBufferInputStream with any sequence of Next, BackUp and Skip delivers each byte of the buffer in order, ByteCount() always equals the number of bytes consumed and not backed up, and when the stream is flushed the buffer holds exactly the bytes that were not consumed.", "quantifier": "every block layout without zero-size blocks and every legal call sequence", "why_tests_cant": "Pending skips are applied lazily so correctness depends on whole call histories.", "anchors": ["trpc/util/buffer/zero_copy_stream.cc: NoncontiguousBufferInputStream"]}
{"id": "C05", "title": "tRPC fixed header round-trips and is never read past its end", "statement": "Encoding a 16-byte tRPC fixed header and decoding the produced bytes gives back every field for every field value, multi-byte fields are in network order on the wire, and decoding fewer than 16 bytes fails without reading any byte.", "quantifier": "every value of every header field and every input byte string", "why_tests_cant": "The domain is 2^128 headers; endianness and offset mistakes that swap equal bytes pass example tests.", "anchors": ["trpc/codec/trpc/trpc_protocol.cc: TrpcFixedHeader::Decode, Encode"]}
{"id": "C06", "title": "tRPC unary request frames round-trip", "statement": "For every request header message, body and attachment whose encoded sizes fit the wire fields (header below 2^16 bytes, frame below 2^32), decoding the bytes produced by encoding the request gives back the same header, body and attachment; and whatever bytes the request decoder accepts are exactly fixed header, header message, body and attachment with no byte lost or shared.", "quantifier": "every header, body and attachment", "why_tests_cant": "Field-width overflow and the header/body/attachment split points form an unbounded input space.", "anchors": ["trpc/codec/trpc/trpc_protocol.cc: TrpcRequestProtocol::ZeroCopyEncode, ZeroCopyDecode"]}
{"id": "C07", "title": "tRPC unary response frames round-trip", "statement": "For every response header, body and attachment within the wire limits, decoding the encoded response gives back the same three parts, and any accepted response splits its payload into body and attachment with no byte lost or shared.", "quantifier": "every header, body and attachment, and every accepted byte string", "why_tests_cant": "Unbounded input space; includes adversarial attachment sizes.", "anchors": ["trpc/codec/trpc/trpc_protocol.cc: TrpcResponseProtocol::ZeroCopyEncode, ZeroCopyDecode"]}
{"id": "C08", "title": "tRPC stream frames round-trip", "statement": "INIT, DATA, FEEDBACK and CLOSE stream frames decode to what was encoded (stream id, metadata and payload), and a frame of one kind is never accepted by the decoder of another control-frame kind.", "quantifier": "every frame content and every stream id", "why_tests_cant": "Cross product of kinds and contents is infinite.", "anchors": ["trpc/codec/trpc/trpc_protocol.cc: TrpcStreamFrame*, TrpcStreamInitFrameProtocol, TrpcStreamDataFrameProtocol, TrpcStreamFeedbackFrameProtocol, TrpcStreamCloseFrameProtocol"]}
{"id": "C09", "title": "TCP segmentation does not change the messages seen", "statement": "Feeding a connection's byte stream to the tRPC protocol checker in arbitrary pieces (buffering what was left over) produces the same sequence of frames as feeding it in one piece; for a stream that is a concatenation of well-formed frames it produces exactly these frames in order and keeps exactly the incomplete tail.", "quantifier": "every sequence of frames and every way of cutting the byte stream into reads", "why_tests_cant": "The number of segmentations of a stream is exponential in its length.", "anchors": ["trpc/codec/trpc/trpc_proto_checker.cc: CheckTrpcProtocolMessage"]}
{"id": "C10", "title": "Frames extracted from hostile input are in bounds and loss-free", "statement": "For any input bytes, the frames output by the tRPC protocol checker concatenated with the remaining buffer equal the input, each frame has the length announced in its header, is at least 16 bytes plus the announced header length and at most the configured maximum packet size; an input whose next frame has a wrong magic, an announced size smaller than its own header or above the maximum is reported as an error.", "quantifier": "every byte string and every maximum packet size", "why_tests_cant": "Attack inputs are arbitrary.", "anchors": ["trpc/codec/trpc/trpc_proto_checker.cc: CheckTrpcProtocolMessage"]}
{"id": "C11", "title": "Per-second limiter admits at most its limit in every second", "statement": "A SecondsLimiter with limit L admits, among requests carrying the same second, exactly the first L and rejects the rest, as long as the clock does not go backwards and no call is suspended for a whole turn of the ring of buckets; buckets reused after the ring wraps never inherit old counts.", "quantifier": "every limit, ring size, every sequence of request times and every interleaving of concurrent callers", "why_tests_cant": "Errors appear only for particular time sequences modulo ring size; with threads, for particular interleavings.", "anchors": ["trpc/overload_control/flow_control/seconds_limiter.cc: SecondsLimiter::CheckLimit"]}
{"id": "C12", "title": "Sliding-window limiter admits at most its limit in every full window", "statement": "A SmoothLimiter with limit L and N frames per second admits at most L requests in any N consecutive frames, and a request is rejected only when the current window already holds L admitted requests.", "quantifier": "every limit, frame number and every interleaving of requests and frame ticks", "why_tests_cant": "The circular frame array makes off-by-one errors visible only for some phases.", "anchors": ["trpc/overload_control/flow_control/smooth_limiter.cc: SmoothLimiter", "trpc/overload_control/flow_control/hit_queue.cc: HitQueue"]}
{"id": "C13", "title": "Token bucket bounds admitted requests over every interval", "statement": "The token bucket overload controller admits in any time interval of length T at most burst + T/one_token requests, where one_token is the configured token period, always admits a request arriving at least one token period after the last admission, and decides every request exactly like an ideal bucket of that rate and burst.", "quantifier": "every rate from 1 to 10^9, every burst from 1 on, every start time not earlier than one burst duration after the epoch of the clock, and every non-decreasing sequence of arrival times", "why_tests_cant": "Quantifies over all arrival sequences and all sub-intervals.", "anchors": ["trpc/overload_control/token_bucket_limiter/token_bucket_overload_controller.cc: BeforeSchedule"]}
{"id": "C14", "title": "Concurrency limiter conserves its in-flight count", "statement": "The server concurrency limiter filter lets at most max_concurrency admitted requests be in flight, rejects a request only if the limit is exceeded, and its decision depends only on requests not yet finished.", "quantifier": "every interleaving of request arrivals and completions", "why_tests_cant": "Counter drift shows only after long histories.", "anchors": ["trpc/overload_control/concurrency_limiter/concurrency_limiter_server_filter.cc", "trpc/overload_control/fiber_limiter/fiber_limiter_server_filter.cc"]}
{"id": "C15", "title": "Retry limiter keeps its token count in range and gates backup requests", "statement": "While no update is in progress the retry limiter's token count is at most max_tokens, successes add one token up to the maximum and failures remove ratio tokens from a non-negative count, and backup requests are suppressed exactly when the count is at most half of the maximum.", "quantifier": "every sequence of request outcomes and every interleaving of concurrent outcomes", "why_tests_cant": "Atomic add/compensate sequences overshoot only for special histories.", "anchors": ["trpc/filter/retry/retry_limit_client_filter.cc: RetryLimitClientFilter"]}
{"id": "C16", "title": "Round robin serves every endpoint equally", "statement": "With a fixed endpoint list of n endpoints, any n consecutive selections of the polling load balancer return every endpoint exactly once, including when selections are made by concurrent callers; selections never index outside the list.", "quantifier": "every list length, every starting counter value and every number of calls; n consecutive selections during which the 32-bit counter does not wrap", "why_tests_cant": "The 32-bit counter wraps only after four billion calls.", "anchors": ["trpc/naming/common/util/loadbalance/polling/polling_load_balance.cc: Next, Update"]}
{"id": "C17", "title": "Smooth weighted round robin serves endpoints exactly in proportion to weights", "statement": "With fixed weights w_1..w_n of total W>0, every W consecutive selections starting from a fresh list return endpoint i exactly w_i times, after which the selector is back in its initial state, and an endpoint of weight zero is never chosen while another has positive weight.", "quantifier": "every weight vector", "why_tests_cant": "Unbounded vectors; the guarantee is about whole cycles.", "anchors": ["trpc/naming/common/util/loadbalance/weighted_round_robin/weighted_round_robin_load_balancer.cc: Next, Update"]}
{"id": "C18", "title": "Consistent hashing only remaps keys of removed endpoints", "statement": "With consistent-hash load balancing a key is always mapped to an endpoint of the current list; after removing an endpoint, every key previously mapped to another endpoint stays where it was, and after adding an endpoint a key either stays or moves to the new endpoint; the mapping does not depend on the history of updates.", "quantifier": "every endpoint set, every key, every iteration order of the unordered containers and every sequence of endpoint list updates; endpoints whose host+port strings determine the address and whose virtual nodes have distinct hashes (see C35, C36 for the rest)", "why_tests_cant": "Hash rings have astronomically many configurations; the incremental update path depends on history.", "anchors": ["trpc/naming/common/util/loadbalance/hash/consistenthash_load_balance.cc: Update, Next"]}
{"id": "C19", "title": "The bounded MPMC queue is a linearizable FIFO", "statement": "For any number of concurrent producers and consumers of BoundedMPMCQueue every successfully pushed element is popped at most once, elements are popped in the order in which pushes took effect, no element is lost, a push fails only if the queue was full and a pop fails only if it was empty at some moment during the call, and at most capacity elements are stored.", "quantifier": "every interleaving of the atomic steps of any number of threads (sequentially consistent memory), every Init size from 1 to 2^63 - 1, fewer than 2^63 pushes", "why_tests_cant": "Races depend on the schedule.", "anchors": ["trpc/util/queue/bounded_mpmc_queue.h: Enqueue, Dequeue"]}
{"id": "C20", "title": "The unbounded work-stealing deque hands out every task exactly once", "statement": "For one owner doing Push/Pop and any number of thieves doing Steal on UnboundedSPMCQueue each pushed task is handed out at most once, and every pushed task not yet handed out is still in the queue; growing the array while thieves are running does not lose or duplicate tasks.", "quantifier": "every interleaving of atomic steps of the owner and any number of thieves (sequentially consistent memory)", "why_tests_cant": "The critical races (last element, concurrent resize) need adversarial schedules.", "anchors": ["trpc/util/queue/unbounded_spmc_queue.h: Push, Pop, Steal"]}
{"id": "C21", "title": "The bounded work-stealing deque stays usable after every race", "statement": "For one owner and any number of thieves of BoundedSPMCQueue each enqueued item is handed out at most once, Dequeue on an empty queue returns null and leaves the queue usable, and losing the race for the last item leaves the queue empty and usable.", "quantifier": "every interleaving of owner and thief steps", "why_tests_cant": "Requires a particular race outcome, or a particular call order.", "anchors": ["trpc/util/queue/bounded_spmc_queue.h: Enqueue, Dequeue, Steal"]}
{"id": "C22", "title": "The fiber work-stealing queue hands out every fiber exactly once", "statement": "For one owner doing Push/Pop and any number of thieves, the v2 scheduler's LocalQueue hands out each pushed fiber at most once and never loses one, and Push fails only when the queue holds capacity fibers.", "quantifier": "every interleaving of atomic steps (sequentially consistent memory)", "why_tests_cant": "Schedule dependent.", "anchors": ["trpc/runtime/threadmodel/fiber/detail/scheduling/v2/local_queue.cc: Push, Pop, Steal"]}
{"id": "C23", "title": "The fiber run queue is FIFO, batch pushes are atomic, and unstealable fibers are not stolen", "statement": "For any number of concurrent pushers, batch pushers, poppers and stealers the v1 RunQueue (initialised with a size of at least 2) returns each fiber at most once, in claim order, a batch occupies consecutive positions, its internal consistency check never fails, and Steal never returns a fiber pushed as unstealable.", "quantifier": "every interleaving of atomic steps of any number of threads", "why_tests_cant": "Schedule dependent.", "anchors": ["trpc/runtime/threadmodel/fiber/detail/scheduling/v1/run_queue.cc: BatchPush, PushSlow, PopIf, Steal", "trpc/runtime/threadmodel/fiber/detail/scheduling/v1/run_queue.h: Push, Pop"]}
{"id": "C24", "title": "The bounded ring queue is a double-ended queue", "statement": "container::BoundedQueue behaves as a list of at most capacity items under Push, ElimPush, PushTop, Pop, PopBottom, Clear, with Top(i)/Bottom(i) returning the i-th item from either end and null out of range; ElimPush on a full queue drops exactly the oldest item.", "quantifier": "every capacity from 1 to 2^31 and every operation sequence", "why_tests_cant": "Wrap-around positions depend on the whole history.", "anchors": ["trpc/util/container/bounded_queue.h: BoundedQueue"]}
{"id": "C25", "title": "The async semaphore conserves units, serves waiters in order and loses no wake-up", "statement": "The asynchronous Semaphore never hands out more units than it was given, serves waiters strictly in arrival order and each at most once, and never grants a request made outside callbacks while an earlier waiter is unanswered. As long as callbacks signal only at the end of a batch, the first waiter never waits while enough units are available. After Broke requests for units and deposits fail, and once Broke has returned every waiter has been answered.", "quantifier": "every sequence of Wait, TryWait, Signal and Broke on the owning thread, including re-entrant calls, with fewer than 2^64 units deposited", "why_tests_cant": "Re-entrancy patterns form arbitrary trees of calls.", "anchors": ["trpc/future/async_lock/semaphore.h: Semaphore::Wait, Signal, TryWait, Broke"]}
{"id": "C26", "title": "The async read-write lock excludes writers", "statement": "At any time the asynchronous RWLock is held either by readers only or by exactly one writer and nobody else, and a waiting writer is not overtaken by later readers.", "quantifier": "every sequence of lock and unlock operations that unlocks only what is held", "why_tests_cant": "Needs all histories.", "anchors": ["trpc/future/async_lock/rwlock.h: RWLock", "trpc/future/async_lock/semaphore.h"]}
{"id": "C27", "title": "Stream flow control bounds data in flight and cannot deadlock", "statement": "With the tRPC stream send and receive controllers on the two ends, the amount sent but not yet fed back never exceeds the window plus one message, and once the receiver has consumed everything that was sent and its feedback arrived, the sender may send again.", "quantifier": "every window size, message sizes (that fit into the 32-bit counter of the receiver together with a quarter of the window) and interleaving of sends, reads and feedback deliveries", "why_tests_cant": "Deadlock appears only for special sums of message sizes.", "anchors": ["trpc/stream/trpc/trpc_stream_flow_controller.h: TrpcStreamSendController, TrpcStreamRecvController, GetTrpcStreamWindowSize"]}
{"id": "C28", "title": "Each outstanding call context is reclaimed exactly once", "statement": "In the fiber client call map, a context inserted under an id is returned by at most one reclaim, reclaim of an absent id returns null, other ids are unaffected, and iteration visits exactly the outstanding contexts.", "quantifier": "every history of inserts, removals and iterations over all 64-bit ids", "why_tests_cant": "Depends on shard placement and arbitrary id histories.", "anchors": ["trpc/transport/client/fiber/common/sharded_call_map.h: ShardedCallMap"]}
{"id": "C29", "title": "Modulo-hash load balancing is stable and in range", "statement": "The modulo hash load balancer always returns an endpoint of the current list, equal keys map to the same endpoint while the list is unchanged, and every endpoint is reachable by some hash value.", "quantifier": "every endpoint list, every hash of the request arguments and every hash key that is the decimal text of a 64-bit number", "why_tests_cant": "All keys and list lengths.", "anchors": ["trpc/naming/common/util/loadbalance/hash/modulohash_load_balance.cc: Next"]}
{"id": "C30", "title": "Zero-copy output stream writes exactly what the serializer kept", "statement": "Writing through NoncontiguousBufferOutputStream (Next, fill a prefix, BackUp the rest, repeated) and flushing appends exactly the concatenation of the kept bytes to the builder, and ByteCount() equals the number of bytes written so far.", "quantifier": "every block size, every initial builder state and every sequence of chunk sizes", "why_tests_cant": "Chunk boundaries relative to block boundaries are unbounded.", "anchors": ["trpc/util/buffer/zero_copy_stream.cc: NoncontiguousBufferOutputStream"]}
{"id": "C31", "title": "An oversized request is never silently turned into another request", "statement": "When a request header message is too large for the 16-bit header-length field, encoding fails or the produced frame is rejected by the decoder; it is never accepted as a different header, body or attachment.", "quantifier": "every header message size", "why_tests_cant": "The header must be larger than any a test would normally build and the outcome depends on its size modulo 2^16.", "anchors": ["trpc/codec/trpc/trpc_protocol.cc: TrpcRequestProtocol::ZeroCopyEncode, ZeroCopyDecode"]}
{"id": "C32", "title": "The token bucket keeps admitting whatever the uptime of the machine", "statement": "The token bucket controller admits requests at its configured rate also when the steady clock (time since boot) has run for less than the time needed to fill the bucket.", "quantifier": "every rate, burst and clock start", "why_tests_cant": "Unit tests run on machines that have been up for long compared with the bursts they configure.", "anchors": ["trpc/overload_control/token_bucket_limiter/token_bucket_overload_controller.cc: BeforeSchedule"]}
{"id": "C33", "title": "The retry limiter's token count has a floor of zero", "statement": "The retry limiter's token count never falls below zero and a failed request never raises it.", "quantifier": "every sequence of request outcomes", "why_tests_cant": "Depends on the exact history of outcomes around the floor.", "anchors": ["trpc/filter/retry/retry_limit_client_filter.cc: RetryLimitClientFilter::operator()"]}
{"id": "C34", "title": "Concurrent weighted round robin selections keep succeeding", "statement": "While the endpoint list is not empty and has a positive weight, every selection of the smooth weighted round robin balancer returns an endpoint, also when several threads select at the same time.", "quantifier": "every interleaving of concurrent Next calls", "why_tests_cant": "The result depends on the interleaving of single loads and stores of different threads.", "anchors": ["trpc/naming/common/util/loadbalance/weighted_round_robin/weighted_round_robin_load_balancer.cc: Next"]}
{"id": "C35", "title": "Consistent hashing returns endpoints of the current list for any addresses", "statement": "With consistent-hash load balancing the endpoint returned is one of those supplied in the latest update, with the status supplied there.", "quantifier": "every sequence of endpoint list updates", "why_tests_cant": "Only particular pairs of addresses (1.1.1.1:180 and 1.1.1.11:80) and update sequences show the effect.", "anchors": ["trpc/naming/common/util/loadbalance/hash/consistenthash_load_balance.cc: Update, Next"]}
{"id": "C36", "title": "Consistent hashing does not depend on the update history for any addresses", "statement": "The endpoint selected for a key depends only on the latest endpoint list, not on the earlier ones.", "quantifier": "every sequence of endpoint list updates", "why_tests_cant": "Only particular port numbers share virtual nodes and the effect shows only for some keys after a removal.", "anchors": ["trpc/naming/common/util/loadbalance/hash/consistenthash_load_balance.cc: Update"]}
{"id": "C37", "title": "The bounded MPSC queue is a linearizable FIFO", "statement": "For any number of producers and one consumer of BoundedMPSCQueue every successfully pushed element is popped at most once, in the order in which pushes took effect, none is lost, a push fails only if the queue was full and a pop fails only if it was empty at some moment during the call.", "quantifier": "every interleaving of the atomic steps of any number of producers and one consumer (sequentially consistent memory)", "why_tests_cant": "The pop result depends on a producer being suspended between two particular instructions.", "anchors": ["trpc/util/queue/bounded_mpsc_queue.h: Enqueue, Dequeue"]}
{"id": "C38", "title": "BatchPush accepts every batch there is room for and always returns", "statement": "BatchPush of n fibers returns, and when no other operation is in progress it succeeds if and only if at least n slots of the run queue are free.", "quantifier": "every reachable state of the run queue and every batch size", "why_tests_cant": "Only batches that fit exactly, or as large as the capacity, show the difference; the latter hang instead of failing.", "anchors": ["trpc/runtime/threadmodel/fiber/detail/scheduling/v1/run_queue.cc: BatchPush"]}
{"id": "C39", "title": "A signal from a callback never leaves a satisfiable waiter waiting", "statement": "When no Semaphore call is running, the first waiter of the asynchronous Semaphore asks for more units than are available, whatever the callbacks of served waiters do.", "quantifier": "every sequence of Wait, TryWait and Signal, including re-entrant calls", "why_tests_cant": "Needs a callback that signals while other waiters of the same batch are still to be served, and nobody signalling afterwards.", "anchors": ["trpc/future/async_lock/semaphore.h: Semaphore::Signal"]}
{"id": "C40", "title": "A broken semaphore grants nothing and can be broken from anywhere", "statement": "After Broke no Wait succeeds and no waiter is served, and Broke may be called from any callback.", "quantifier": "every sequence of Wait, TryWait, Signal and Broke, including re-entrant calls", "why_tests_cant": "Shows only for requests of zero units, for Broke inside the callback of a waiter that is not the last of its batch, or for nested Broke.", "anchors": ["trpc/future/async_lock/semaphore.h: Semaphore::Wait, Signal, Broke"]}
{"id": "C41", "title": "Blocking stream writes respect the flow control window", "statement": "With TrpcStream::Write on the sending end, the amount sent but not yet fed back never exceeds the window plus one message.", "quantifier": "every window size, message sizes and interleaving of writes, waits, wake-ups, reads and feedback deliveries", "why_tests_cant": "The excess builds up over many rounds of blocking writers and depends on the order of wake-ups.", "anchors": ["trpc/stream/trpc/trpc_stream.cc: TrpcStream::Write, HandleFeedback", "trpc/stream/trpc/trpc_stream_flow_controller.h: TrpcStreamSendController"]}
{"id": "C42", "title": "Every call on a multiplexed fiber connection is completed exactly once", "statement": "With calls, responses, timeouts and closing of the connection running concurrently on a FiberTcpConnComplexConnector, the completion function of a call runs at most once; once SaveCallContext has returned, the call has been completed or its timer is armed, and that timer completes it; every result has its cause (a response with the id of the call, a timer, a closed connection); with distinct request ids and responses only to requests already sent nothing crashes.", "quantifier": "every interleaving of any number of calls, responses with any ids, timer expirations, clearing and closing", "why_tests_cant": "The outcome depends on the order in which four kinds of threads reach the map, the lock and the timer of one context.", "anchors": ["trpc/transport/client/fiber/conn_complex/fiber_tcp_conn_complex_connector.cc: SaveCallContext, MessageHandleFunction, DispatchException, DispatchResponse, OnTimeout, ClearReqMsg", "trpc/transport/client/fiber/common/sharded_call_map.h: CallMap"]}
{"id": "C43", "title": "Responses with unexpected ids are harmless", "statement": "Whatever request ids arriving responses carry and whenever they arrive, the connector neither crashes nor reports a timeout to a call whose own timer has not fired.", "quantifier": "every interleaving of calls, responses with any ids and timer expirations", "why_tests_cant": "A response has to hit the few instructions between the insertion and the initialisation of a context.", "anchors": ["trpc/transport/client/fiber/conn_complex/fiber_tcp_conn_complex_connector.cc: MessageHandleFunction, SaveCallContext, OnTimeout"]}
{"id": "C44", "title": "Promises and futures: one result, one callback, no lost wake-up", "statement": "With promises set or dropped, callbacks attached (Then) and futures returned by callbacks in any threads concurrently: a callback runs at most once, only with the result its future is due to have (set, broken promise, passed-on exception, or that of the future the previous callback returned), and a reader sees only that result; when no library call is in progress, every attached callback whose future is due a result it takes has run, every other such future is readable; library calls always return; no result is taken twice and no promise set twice by the library.", "quantifier": "every interleaving of any number of threads, promises and futures (sequentially consistent memory), any chain of callbacks", "why_tests_cant": "A lost or doubled wake-up needs SetValue and Then to meet within a few instructions; chains multiply the cases.", "anchors": ["trpc/future/future.h: FutureImpl, Future, Promise, Continuation*, ContinuationBase::ChainFuture"]}
{"id": "C45", "title": "WhenAll, WhenAny and WhenAnyWithoutException resolve once, with the right content", "statement": "For n < 2^32 input futures: the returned future is resolved at most once; WhenAll yields every result in its place once all are there; WhenAny yields the result of a future whose callback no other callback preceded entirely; WhenAnyWithoutException yields such a value, or an exception only if all failed; each is resolved as soon as its condition holds and no callback is running.", "quantifier": "every number of futures below 2^32, all results and every interleaving of the callbacks", "why_tests_cant": "The last or first callback is decided by a race between atomic counters.", "anchors": ["trpc/future/future_utility.h: WhenAll, WhenAny, WhenAnyWithoutException, WhenAllFunction"]}
{"id": "C46", "title": "Future loops run their body the right number of times in order", "statement": "DoFor(n, f) calls f with 0..n-1 and DoForEach with each element, in order, each call only after the previous future succeeded; the first failure ends the loop with the same exception; the returned future is resolved exactly at the end and nothing happens afterwards; DoWhile calls the body exactly when the condition says so.", "quantifier": "every n < 2^64, every range, every sequence of results", "why_tests_cant": "Off-by-one errors and unsigned wrap at the end of the loop depend on n and on where a failure occurs.", "anchors": ["trpc/future/future_utility.h: DoUntil, DoWhile, DoFor, DoForEach"]}
{"id": "C47", "title": "Future loops need bounded stack", "statement": "The nesting of calls in DoUntil, DoFor and DoForEach does not depend on the number of iterations.", "quantifier": "every number of iterations and every sequence of immediate and later results", "why_tests_cant": "A test with few iterations never exhausts the stack.", "anchors": ["trpc/future/future_utility.h: DoUntilState::Run"]}
{"id": "C48", "title": "The single-queue thread pool runs every task at most once, in order", "statement": "For SQThreadPool with any number of workers: tasks are started in the order in which they entered the queue, a task for which AddTask returned true did enter the queue, one for which it returned false did not and is never run, and a task added once is run at most once.", "quantifier": "every number of workers, queue capacity and interleaving of workers, AddTask and Stop (sequentially consistent memory)", "why_tests_cant": "Which worker takes a task and whether AddTask meets Stop is decided by timing.", "anchors": ["trpc/util/thread/sq_thread_pool.cc: SQThreadPool::AddTask, Run, Stop", "trpc/util/thread/futex_notifier.h: FutexNotifier"]}
{"id": "C49", "title": "The single-queue thread pool never leaves an accepted task lying", "statement": "Whenever AddTask has returned true, the task is eventually run if the workers go on: no state in which all workers sleep or have left and no call is in progress has a task in the queue.", "quantifier": "every number of workers and every interleaving of workers, AddTask and Stop", "why_tests_cant": "The task has to arrive in the few instructions between the failed Pop of a worker and its reading of the futex word.", "anchors": ["trpc/util/thread/sq_thread_pool.cc: SQThreadPool::Run, AddTask", "trpc/util/thread/futex_notifier.h: GetState, Wait, Wake, Stop"]}
{"id": "C50", "title": "Timers never fire early, too often, or after they were removed", "statement": "For TimerWorker with timers created, enabled, removed and fired concurrently: a timer created for time x with interval i fires for the k-th time (from 0) not before x + k*i, a timer without interval fires at most once, a timer fires only after it was enabled and never once RemoveTimer took effect, and the check that a timer has a callback or was removed never fails.", "quantifier": "every number of threads and timers, all times and intervals, every interleaving (sequentially consistent memory)", "why_tests_cant": "The timer thread, removers and enablers share the entry, the per-thread queues and a heap whose keys change.", "anchors": ["trpc/runtime/threadmodel/fiber/detail/timer_worker.cc: CreateTimer, EnableTimer, RemoveTimer, WorkerProc, ReapThreadLocalQueues, FireTimers, AddTimer"]}
{"id": "C51", "title": "The timer thread wakes up in time and fires everything that is due", "statement": "While the timer thread of TimerWorker sleeps and has not been notified, no enabled timer that is still to fire is due before the end of its sleep, if the call that enabled it is over; Stop notifies it; and when it begins a round and nobody interferes, after finitely many steps every timer that was due has fired as often as it was due.", "quantifier": "every number of threads and timers, all times and intervals, every interleaving (sequentially consistent memory)", "why_tests_cant": "A lost wake-up needs AddTimer to meet the reset of next_expires_at_, the emptying of the queues, and the decision to sleep.", "anchors": ["trpc/runtime/threadmodel/fiber/detail/timer_worker.cc: WorkerProc, WakeWorkerIfNeeded, AddTimer, FireTimers, Stop"]}
{"id": "C52", "title": "The fiber scheduler never sleeps on a ready fiber", "statement": "For the v1 fiber scheduler: while a fiber is ready and the scheduler is not stopped, some worker is awake or some thread is in the middle of waking one; fibers are taken in the order they became ready, each exactly once; no internal check fails and no undefined shift is done; when Stop is over no worker sleeps, and every worker that gets time to run leaves once the run queue is empty.", "quantifier": "every group of 1 to 64 workers (StartFibers only in groups of at most 32, see the property on StartFibers), every number of other threads, every interleaving (sequentially consistent memory)", "why_tests_cant": "A lost wake-up needs a push between the last look into the run queue and the sleep, combined with the claiming of bits by other threads.", "anchors": ["trpc/runtime/threadmodel/fiber/detail/scheduling/v1/scheduling_impl.cc: Schedule, AcquireFiber, SpinningAcquireFiber, WaitForFiber, WaitSlot, QueueRunnableEntity, StartFibers, Stop, WakeUpOneWorker, WakeUpWorkers"]}
{"id": "C53", "title": "The fiber scheduler lets no ready fiber wait while a worker sleeps", "statement": "For the v1 fiber scheduler: when no thread is in a call to the scheduler and each worker runs a fiber or sleeps, no fiber is ready while a worker sleeps.", "quantifier": "every group of workers and every interleaving", "why_tests_cant": "A spinning worker has to be claimed for a fiber in the few instructions after it found another one.", "anchors": ["trpc/runtime/threadmodel/fiber/detail/scheduling/v1/scheduling_impl.cc: SpinningAcquireFiber, WakeUpOneSpinningWorker, WakeUpOneDeepSleepingWorker, WaitForFiber"]}
{"id": "C54", "title": "StartFibers wakes as many workers as there are fibers", "statement": "For the v1 fiber scheduler: StartFibers with n fibers wakes n sleeping workers, or all if there are fewer.", "quantifier": "every group of 1 to 64 workers, every set of sleeping workers, every n", "why_tests_cant": "Whether enough workers wake up depends on the pattern of the sleeping ones; the fibers are run anyhow, only later.", "anchors": ["trpc/runtime/threadmodel/fiber/detail/scheduling/v1/scheduling_impl.cc: StartFibers, WakeUpWorkers"]}
{"id": "C55", "title": "The fiber mutex is a fair mutex and loses no wake-up", "statement": "For Mutex used by any mix of fibers and threads, also through ConditionVariable: at most one owns it; it is given up only by its owner; those that have to wait get it in the order in which they began to wait, and nobody overtakes them; try_lock fails only if it is owned or waited for; no check fails, no wait block is accessed after it is gone and no fiber is queued twice; and when nothing moves any more, whoever waits for the mutex waits for one that owns it and is not in a call.", "quantifier": "every number of fibers and threads below 2^32-1, every interleaving (sequentially consistent memory), every choice of the scheduler; only fibers wait with a time limit", "why_tests_cant": "The races are between the counter, the slow path lock, the scheduler lock of a fiber that is just about to suspend and the timer that wakes the same fiber.", "anchors": ["trpc/runtime/threadmodel/fiber/detail/waitable.h: Mutex::lock, try_lock", "trpc/runtime/threadmodel/fiber/detail/waitable.cc: Mutex::unlock, LockSlowFromFiber, LockSlowFromPthread", "trpc/runtime/threadmodel/fiber/detail/scheduling/v1/scheduling_impl.cc: Suspend, Resume", "trpc/util/thread/futex_notifier.h: Wait, Wake"]}
{"id": "C56", "title": "The fiber condition variable loses no notification", "statement": "For ConditionVariable used with one Mutex: wait gives the mutex up and owns it again when it returns; it returns only after a notification or a time-out, and returns false only after a time-out; notifications go to the waiting in the order in which they began to wait; a notification finds nobody only if nobody waits; and when nothing moves any more, whoever is in wait was not notified, apart from a thread that is not a fiber and was notified before it gave up the mutex.", "quantifier": "every number of fibers and threads below 2^32-1, every interleaving (sequentially consistent memory), timers firing at any time; only fibers wait with a time limit", "why_tests_cant": "Notification, time-out and the suspension of the fiber may meet at any instruction.", "anchors": ["trpc/runtime/threadmodel/fiber/detail/waitable.cc: ConditionVariable::WaitUntilFromFiber, WaitUntilFromPthread, notify_one, notify_all, AsyncWaker, Waitable"]}
{"id": "C57", "title": "Threads that are not fibers can use the condition variable as fibers do", "statement": "ConditionVariable::wait_until and wait may be called by a thread that is not a fiber: the notifier never accesses the wait block of a wait that has returned, a wait that returns false did not use up a notification, and a notification that was sent while the thread was in wait wakes it.", "quantifier": "every interleaving of a waiting thread and a notifier", "why_tests_cant": "The notification has to come between two instructions of wait, or at the moment when the time is over.", "anchors": ["trpc/runtime/threadmodel/fiber/detail/waitable.cc: ConditionVariable::WaitUntilFromPthread, notify_one, notify_all"]}
{"id": "C58", "title": "Filters run in the configured order and backwards after it", "statement": "For every list of global filters and of filters of a service: at the pre point of a pair the filters that want it are called in the configured order, global ones first, a filter of a name that is already there not again; at the post point they are called in the reverse order; if one rejects at the pre point, those after it are not called, and exactly those before it are called at the post point. Adding a filter of a known name returns false and changes nothing.", "quantifier": "every configuration of at most 128 filters whose points come in pairs, all answers of the filters, every pair of points", "why_tests_cant": "The index of the rejecting filter, the reversed lists and the unsigned subtractions have to fit together for every position and every split between global and service filters.", "anchors": ["trpc/filter/server_filter_controller.cc: AddMessageServerFilter, AddMessageGlobalFilter, RunMessageServerFilters", "trpc/filter/client_filter_controller.cc", "trpc/server/server_context.h: SetFilterExecIndex, GetFilterExecIndex"]}
{"id": "C59", "title": "RPC services keep the promises made to filters", "statement": "For a request to an RPC service whose method returns its response, or answers later with a message, or returns a future that becomes ready: each of the four pairs of points (message, invocation, both queues) is run as promised on every path (undecodable, timed out, rejected, unknown method, queue full); after a rejection the method is not called; a two-way call ends in exactly one response or a response that is given up, a one-way call in none.", "quantifier": "every configuration of filters, all their answers (a filter that rejects leaves an error status other than DECODE_ERROR), every combination of failures, fiber and thread models", "why_tests_cant": "There are dozens of error paths through five functions, each of which has to run the right post points.", "anchors": ["trpc/server/service_adapter.cc: HandleMessage, HandleFiberMessage", "trpc/server/service_impl.cc: HandleTransportMessage", "trpc/server/rpc/unary_rpc_method_handler.h", "trpc/server/rpc/rpc_method_handler.h", "trpc/server/async_rpc/async_rpc_method_handler.h", "trpc/server/server_context.cc: SendUnaryResponse", "trpc/transport/server/fiber/fiber_bind_adapter.cc: SendMsg", "trpc/transport/server/default/bind_adapter.cc: SendMsg"]}
{"id": "C60", "title": "All servers run pre and post points in pairs", "statement": "On every path of every kind of service (HTTP, HTTP streams, RPC with deferred answers and futures, RPC streams), each pair of filter points is run as promised: a filter that did not reject at the pre point is called exactly once at the post point.", "quantifier": "every configuration of filters, all their answers, every combination of failures", "why_tests_cant": "The violations are on error paths: late requests, unreadable bodies, failed futures, unknown methods.", "anchors": ["trpc/server/http_service.cc: Handle, HandleTransportMessage, HandleError", "trpc/server/http/http_async_stream_service.cc", "trpc/server/rpc/rpc_service_impl.cc: DispatchStream", "trpc/server/async_rpc/async_rpc_method_handler.h", "trpc/transport/server/common/server_connection_handler.h: MessageWriteDone"]}
{"id": "C61", "title": "A request that a filter has rejected is not processed", "statement": "After a filter has answered REJECT at any pre point of the server, the function of the user is not called for this request or stream.", "quantifier": "every configuration of filters, all their answers and statuses, every kind of service", "why_tests_cant": "The result of RunMessageServerFilters is ignored at some places and replaced by a look at the status at others.", "anchors": ["trpc/server/service_adapter.cc: HandleMessage, HandleFiberMessage", "trpc/server/service_impl.cc: HandleTransportStreamMessage", "trpc/server/http_service.cc: Handle", "trpc/server/http/http_async_stream_service.cc: DispatchStream", "trpc/server/rpc/rpc_service_impl.cc: DispatchStream"]}
{"id": "C62", "title": "Clients keep the promises made to filters", "statement": "For two-way calls, synchronous or with futures, of the RPC, redis, HTTP and other proxies, and for one-way calls of proxies that do not serialize a request: both pairs of points (invocation, message) are run as promised on every path; a request that a filter has rejected is not handed to the transport (this holds for all one-way calls and for HTTP streams too).", "quantifier": "every configuration of filters, all their answers, every combination of failures", "why_tests_cant": "Rejections, time-outs, encoding errors, transport errors and decoding errors each leave the functions at a different place.", "anchors": ["trpc/client/service_proxy.cc: UnaryInvoke, AsyncUnaryInvoke, OnewayInvoke, AsyncUnaryTransportInvoke", "trpc/client/rpc_service_proxy.h", "trpc/client/redis/redis_service_proxy.h", "trpc/client/non_rpc_service_proxy.h", "trpc/client/http/http_service_proxy.cc: InnerUnaryInvoke"]}
{"id": "C63", "title": "One-way calls and streams of clients run pre and post points in pairs", "statement": "For one-way calls of the RPC and redis proxies and for HTTP streams, each pair of filter points is run as promised on every path.", "quantifier": "every configuration of filters, all their answers, every combination of failures", "why_tests_cant": "The violations need a request that cannot be serialized, or a rejected stream.", "anchors": ["trpc/client/rpc_service_proxy.h: OnewayInvoke", "trpc/client/redis/redis_service_proxy.h: OnewayInvoke", "trpc/client/http/http_stream_proxy.cc: GetAsyncStreamReaderWriter"]}
{"id": "C64", "title": "The redis reader does not depend on how data arrive", "statement": "For Reader::GetReply on any bytes: the outcome depends on the bytes only, not on how they are cut into blocks; reading ends, with no access outside of the blocks and no failed check; a reply uses at most the bytes that are there; a reply or an error stays the same when more bytes follow.", "quantifier": "every list of blocks with any bytes, every number of merged requests", "why_tests_cant": "Numbers, line ends and strings may be cut at any byte, in any number of blocks; the tests send them in one or two.", "anchors": ["trpc/client/redis/reader.cc: GetReply, ProcessItem, ProcessLineItem, ProcessBulkItem, ProcessMultiBulkItem, ReadLine, SeekNewline, ReadLongLong, MoveToNextTask", "trpc/client/redis/reader.h"]}
{"id": "C65", "title": "Redis replies are delivered as they were sent", "statement": "Every reply nested at most 8 deep is delivered unchanged and with exactly its length, whatever follows; a part of one is never taken for a reply; replies to merged requests are delivered as one array when all are there; on a connection with pipelines, after any part of a stream of replies and however it was cut, exactly the complete replies have been delivered, in order, and the rest is kept.", "quantifier": "every reply (strings with any bytes, status lines without line end, integers above -2^63, serial numbers), every cut of the stream into pieces and blocks", "why_tests_cant": "There are infinitely many replies and cuts.", "anchors": ["trpc/client/redis/reader.cc", "trpc/codec/redis/redis_proto_checker.cc: RedisZeroCopyCheckResponse"]}
{"id": "C66", "title": "Redis requests carry their parameters and nothing else", "statement": "An encoded request is the array of its parameters in the redis protocol: two requests whose encodings agree as far as both go, whatever follows, have the same parameters. A command made from a format has the words of the format as parameters, with the arguments of %s, %b, %d, %ld in their places byte for byte, whatever they contain: no argument can add a parameter.", "quantifier": "all parameters shorter than 2^32 bytes, fewer than 2^31 of them; every format of words made of characters, %%, %s, %b, %d, %ld and spaces", "why_tests_cant": "Injection is about arguments that nobody thought of: spaces, line ends, percent signs, NUL.", "anchors": ["trpc/codec/redis/redis_protocol.cc: ZeroCopyEncode, EncodeImpl", "trpc/client/redis/formatter.cc: FormatCommand, VPrintf"]}
{"id": "C67", "title": "Malformed redis data and formats are refused", "statement": "Reader::GetReply reports an error for data that are not a reply: a number that is none, a string that does not end with a line end, more elements than can be counted. FormatCommand has no undefined behaviour for a format whose conversions are cut off or too long, and carries out every conversion.", "quantifier": "all data, all formats", "why_tests_cant": "The wrong data are accepted as other values and no test looks at them.", "anchors": ["trpc/client/redis/reader.cc: ReadLongLong, ProcessLineItem, ProcessBulkItem, ProcessMultiBulkItem", "trpc/client/redis/formatter.cc: FormatCommand", "trpc/codec/redis/redis_proto_checker.cc: RedisZeroCopyCheckResponse"]}
{"id": "C68", "title": "Base64 is that of RFC 4648 and is reversible", "statement": "http::Base64Encode gives the base64 text of RFC 4648, exactly as long as the string made for it; Base64Decode of it is the original; decoding any ASCII text ends with a result that fits or with a refusal, and reads the table inside of its bounds. A text is accepted only if its length is a multiple of four and it consists of base64 digits followed by at most two =.", "quantifier": "all byte strings", "why_tests_cant": "The tail of one or two bytes, padding and the table have many cases, and strings are unbounded.", "anchors": ["trpc/util/http/base64.h: Base64Encode, Base64Decode"]}
{"id": "C69", "title": "Percent-encoding is reversible and numbers are read correctly", "statement": "PercentDecode undoes PercentEncode and PercentEncodePath, UrlDecode undoes PercentEncode; what PercentEncode returns has only unreserved characters and %, and exactly the texts of unreserved characters of RFC 3986 are left unchanged; text without % is not changed by decoding. ParseUint accepts exactly the decimal numbers below 2^63; ParseContentLength returns the value of every decimal number below 2^63.", "quantifier": "all byte strings", "why_tests_cant": "Every byte at every place has to be encoded and decoded, also NUL and bytes above 127.", "anchors": ["trpc/util/http/util.cc: PercentEncode, PercentDecode, PercentEncodePath, InRfc3986UnreservedChars, ParseUint", "trpc/util/http/util.cc: ParseContentLength, UrlDecode"]}
{"id": "C70", "title": "Headers and parameters are maps from names to lists of values", "statement": "After any sequence of Add, Set, SetIfNotPresent and Delete a header map has, for every name, the values that were given to it in any spelling, in their order; Get returns the first and Has whether there is one. The same holds for query parameters, whose names are equal only to themselves, without SetIfNotPresent. ToString has the length that ByteSizeLong says.", "quantifier": "every sequence of operations, all values, names that are not empty and do not begin with a colon", "why_tests_cant": "Operations on equal names in different spellings interact through the order of the multimap.", "anchors": ["trpc/util/http/field_map.h", "trpc/util/http/parameter.h"]}
{"id": "C71", "title": "Every name may be used in a header map", "statement": "A header map works for every name: the comparison is a strict weak order and is defined, also for pseudo-headers such as :path and for empty names; maps of query parameters work with SetIfNotPresent.", "quantifier": "all names, all operations", "why_tests_cant": "The comparison of names has special cases that conflict only for certain triples.", "anchors": ["trpc/util/http/field_map.h: CaseInsensitiveLess, SetIfNotPresent"]}
{"id": "C72", "title": "Query parameters arrive as they were sent", "statement": "For a URL made of a path, a question mark and percent-encoded names and values, InitQueryParameters and GetQueryParameter return for every name the last value given to it, and nothing for other names; a URL without a question mark has no parameters.", "quantifier": "all paths without a question mark, all nonempty lists of names and values", "why_tests_cant": "Names, values and separators may be empty or contain any byte.", "anchors": ["trpc/util/http/request.cc: InitQueryParameters, AddQueryParameter, GetQueryParameter"]}
{"id": "C73", "title": "Decoders refuse what is not encoded", "statement": "Base64Decode, UrlDecode and ParseContentLength refuse every text that is not an encoding, without undefined behaviour.", "quantifier": "all byte strings", "why_tests_cant": "The wrong texts are accepted silently.", "anchors": ["trpc/util/http/base64.h: Base64Decode", "trpc/util/http/util.cc: UrlDecode, ParseContentLength"]}
{"id": "C74", "title": "A request goes to the handler of its path", "statement": "Routes::GetHandler returns the handler registered for exactly the method and path if there is one, otherwise that of the first rule in order of registration that matches, with the path parameters of this rule only, otherwise none. A rule of a plain path matches the path with or without a final slash and nothing else; one with a remainder matches exactly the path and what is below it, and the parameter is the remainder. NormalizeUrl removes one final slash.", "quantifier": "every table of routes, every path, methods and parameters", "why_tests_cant": "Rules, their order and paths with common beginnings are combined without limit.", "anchors": ["trpc/util/http/routes.h", "trpc/util/http/routes.cc", "trpc/util/http/match_rule.h", "trpc/util/http/matcher.cc", "trpc/util/http/util.cc: NormalizeUrl"]}
{"id": "C75", "title": "A path that is registered with a final slash is found", "statement": "A handler registered for a path that ends with a slash gets the requests for this path and, if it was registered with a remainder, for what is below it.", "quantifier": "every table of routes, every such path", "why_tests_cant": "It is the combination of NormalizeUrl with the table.", "anchors": ["trpc/util/http/routes.cc", "trpc/util/http/matcher.cc", "trpc/server/http_service.cc"]}
{"id": "C76", "title": "The HTTP server delivers requests however the data are cut", "statement": "For HttpZeroCopyCheckRequest outside of fibers: the requests delivered on a connection, and whether there is an error, depend only on the bytes received, not on how they were cut; checking ends; well-formed requests that are not too large, with a length or in chunks, are delivered each once, in order, with their bodies, and the connection is then ready for the next; nothing longer than the limit is delivered or kept; a request that has both Transfer-Encoding and Content-Length is refused.", "quantifier": "every cut of every byte sequence whose heads end with CR LF CR LF, every limit, every head parser and incremental chunk decoder", "why_tests_cant": "A head, its end mark, a body or a chunk may be cut anywhere, and several requests may come at once.", "anchors": ["trpc/codec/http/http_server_proto_checker_impl.cc"]}
{"id": "C77", "title": "A request has one framing", "statement": "The server refuses requests whose length is ambiguous: different values of Content-Length, transfer encodings other than chunked; how data are cut never decides whether they are a request.", "quantifier": "all requests", "why_tests_cant": "Such requests are not made by clients but by attackers of proxies.", "anchors": ["trpc/codec/http/http_server_proto_checker_impl.cc: ParseHeader"]}
{"id": "C78", "title": "What is sent on a fiber connection is written once and in order", "statement": "However Send by any number of threads and fibers, write events, writes that take only a part, full system buffers, errors and Kill interleave: what is written to the socket is a beginning of the concatenated messages in the order in which they entered the queue, MessageWriteDone is called once per message in this order and only when all its bytes are written, at most one thread writes at a time, no freed node is used and no check fails.", "quantifier": "every number of senders, all messages, every interleaving, every behaviour of the system", "why_tests_cant": "The queue is lock-free; ownership passes between senders, the event fiber and the reactor in orders that a test cannot force.", "anchors": ["trpc/runtime/iomodel/reactor/fiber/writing_buffer_list.cc", "trpc/runtime/iomodel/reactor/fiber/fiber_tcp_connection.cc: Send, OnWritable, FlushWritingBuffer", "trpc/runtime/iomodel/reactor/fiber/fiber_connection.cc: HandleWriteEvent, RestartWriteNow, SuppressAndClearWriteEvent, Kill"]}
{"id": "C79", "title": "No message stays in the queue of an open connection", "statement": "If nothing runs and the connection was not closed, all messages are written, or the system was asked to report when writing is possible; when it reports that, the event fiber takes over the queue and finds its first message. Who waits inside of FlushTo waits only for a sender that is about to take its next step.", "quantifier": "every number of senders, all messages, every interleaving, every behaviour of the system", "why_tests_cant": "A lost wake-up needs an append exactly between the last look at the queue and the return.", "anchors": ["trpc/runtime/iomodel/reactor/fiber/writing_buffer_list.cc", "trpc/runtime/iomodel/reactor/fiber/fiber_tcp_connection.cc: Send, OnWritable", "trpc/runtime/iomodel/reactor/fiber/fiber_connection.cc: HandleWriteEvent, RestartWriteNow, SuppressAndClearWriteEvent"]}
{"id": "C80", "title": "The queue of a connection is freed completely", "statement": "Destroying the queue of a connection in a fiber, or in any thread after Stop was called in a fiber, or in any thread while messages are left, frees each node that is left exactly once and uses none that is freed.", "quantifier": "every history of the queue", "why_tests_cant": "It depends on how much of the queue was written and which pointers are left over.", "anchors": ["trpc/runtime/iomodel/reactor/fiber/writing_buffer_list.cc: ~WritingBufferList, Stop, Append"]}
{"id": "C81", "title": "Sending does not close a connection", "statement": "If no message is empty, the system writes a part of what it is given or reports that it cannot now, and nobody closes the connection, then it stays open, and when nothing runs all messages are written or the system was asked to report when writing is possible.", "quantifier": "every number of senders, all messages that are not empty, every interleaving", "why_tests_cant": "The decision is taken from what a single pass over the queue saw while others append.", "anchors": ["trpc/runtime/iomodel/reactor/fiber/fiber_tcp_connection.cc: Send, OnWritable, FlushWritingBuffer", "trpc/runtime/iomodel/reactor/fiber/writing_buffer_list.cc"]}
{"id": "C82", "title": "The queue of a connection works at its edges", "statement": "An empty message does not close the connection; a sender that waits for space in the queue is woken when there is space or the queue is stopped; the queue may be destroyed outside of a fiber.", "quantifier": "every interleaving", "why_tests_cant": "The wrong results need an append or a flush between two particular instructions.", "anchors": ["trpc/runtime/iomodel/reactor/fiber/writing_buffer_list.cc", "trpc/runtime/iomodel/reactor/fiber/fiber_tcp_connection.cc: FlushWritingBuffer"]}
{"id": "C83", "title": "A closed connection is cleaned up once, alone, and then destroyed", "statement": "However read, write and error events, their callbacks, Kill, Send and the tasks of the reactor interleave: OnCleanup is called at most once and only after Kill; while it runs and afterwards no event callback runs; when the socket is closed no sender writes and none will; no check fails; if the cleanup runs in the reactor, or somebody else holds a reference, nothing uses the connection after it is destroyed; and when nothing runs any more after a Kill, the cleanup has been done.", "quantifier": "every interleaving, every number of events, senders and tasks, every result of the callbacks", "why_tests_cant": "Three counters, two flags and references decide together which of several fibers starts the cleanup.", "anchors": ["trpc/runtime/iomodel/reactor/fiber/fiber_connection.cc: HandleReadEvent, HandleWriteEvent, HandleCloseEvent, Kill, QueueCleanupCallbackCheck", "trpc/runtime/iomodel/reactor/fiber/fiber_tcp_connection.cc: Send, OnCleanup"]}
{"id": "C84", "title": "The end of a connection is safe in all modes and seen by all who wait for it", "statement": "A connection whose cleanup runs in a fiber of its own (reactors that keep running) is not used after it is destroyed; every caller of Join returns after the cleanup.", "quantifier": "every interleaving", "why_tests_cant": "The reactor must be slow between two instructions, or two threads must wait for the same connection.", "anchors": ["trpc/runtime/iomodel/reactor/fiber/fiber_connection.cc: HandleReadEvent, HandleWriteEvent, WaitForCleanup, QueueCleanupCallbackCheck"]}
{"id": "C85", "title": "Messages sent during a handshake are written when it ends", "statement": "For every sequence of answers of the handler: if the handshake does not end in StartHandshaking with a message already sent nor in a write event with none, then the handshake waits for exactly one event at a time, reading is on when it has ended, no check fails, at most one thread writes the queue, and messages that nobody is writing wait for the end of the handshake or for a write event. This covers handlers that end the handshake in read events, and handlers without one if nobody sends before StartHandshaking.", "quantifier": "every interleaving of a sender with events, every sequence of answers of the handler", "why_tests_cant": "A message may arrive between any two steps of the handshake.", "anchors": ["trpc/runtime/iomodel/reactor/fiber/fiber_tcp_connection.cc: StartHandshaking, DoHandshake, Send, OnReadable, OnWritable"]}
{"id": "C86", "title": "A handshake may end at any time", "statement": "Wherever the handshake ends, in StartHandshaking, a read event or a write event, and whether or not messages wait: no check fails, at most one thread writes the queue, and no message is forgotten.", "quantifier": "every interleaving of a sender with events, every sequence of answers of the handler", "why_tests_cant": "TLS ends in a write event only if the system buffer is full at its last message.", "anchors": ["trpc/runtime/iomodel/reactor/fiber/fiber_tcp_connection.cc: StartHandshaking, DoHandshake, OnWritable"]}
{"id": "C87", "title": "The messages of a stream are handled by one fiber, in order, and none is left", "statement": "However PushRecvMessage, PushSendMessage, Stop and the handlers of a fiber-mode stream interleave, for all handlers: never do two fibers handle messages of one stream; received messages, and messages to send that were not pushed to the front, are handled in the order in which they were accepted, none twice; when nothing runs and no handler failed all accepted messages were handled; after Stop the fiber ends after finitely many steps whatever others do, and then the stream is done and removed from its connection, so that Join returns; afterwards no message is handled.", "quantifier": "every interleaving, every number of messages, all handlers", "why_tests_cant": "A lost wake-up or a second fiber needs a push exactly when the fiber goes to rest or ends.", "anchors": ["trpc/stream/fiber_stream_job_scheduler.cc"]}
{"id": "C88", "title": "What is read from a trpc stream is what was written to it", "statement": "For a client and a server stream of one connection, in fiber mode: what Read returned together with what waits in the queue of the reader is a beginning of what the other end accepted from Write, with the end of file where Close was called; when Read returns the end of file it has returned all messages accepted before the Close; if nothing fails and an end stays open it gets everything; after a reset or the close of the connection a stream is done as soon as it is at rest.", "quantifier": "every interleaving of both ends, all messages, all delays of the network, all failures of encoding, sending and dispatching, close of the connection at any time", "why_tests_cant": "Two fibers, two users and the connection run independently.", "anchors": ["trpc/stream/common_stream.cc", "trpc/stream/trpc/trpc_stream.cc", "trpc/stream/trpc/trpc_client_stream.cc", "trpc/stream/trpc/trpc_server_stream.cc", "trpc/stream/trpc/trpc_stream_handler.cc: Stop, PushMessage"]}
{"id": "C89", "title": "A trpc stream keeps to the protocol whatever its peer sends", "statement": "Whatever frames arrive, decodable or not, and whatever users do: the frames that a stream sends begin with at most one INIT, no data and no orderly CLOSE follow a CLOSE or RESET and at most two closing frames are sent; a stream is open only if the server has answered INIT with success; no check fails; when a handler has failed Read no longer waits, except on a server stream that was refused and after frames of type 6.", "quantifier": "all sequences of received frames, all interleavings with users, all failures", "why_tests_cant": "A hostile peer may send any frame at any time.", "anchors": ["trpc/stream/common_stream.cc", "trpc/stream/trpc/trpc_stream.cc", "trpc/stream/trpc/trpc_client_stream.cc", "trpc/stream/trpc/trpc_server_stream.cc"]}
{"id": "C90", "title": "The results of stream calls are what happened", "statement": "A Write that returns success has accepted the message; a client whose server closed the stream with success sees success; Read returns an error status only without a message; a stream that ends tells its reader.", "quantifier": "every interleaving, all frames", "why_tests_cant": "The wrong results need a close that arrives while a message waits, or a peer that sends a frame type which is not used.", "anchors": ["trpc/stream/common_stream.cc: Write, Read", "trpc/stream/trpc/trpc_client_stream.cc: CheckState, HandleClose", "trpc/stream/trpc/trpc_stream.h: HandleReset"]}
{"id": "C91", "title": "Streams and their handler do not deadlock", "statement": "All threads that use the mutex of a trpc stream handler and the mutexes of its streams can finish.", "quantifier": "every number of streams and threads, every interleaving", "why_tests_cant": "A deadlock needs a time-out of Finish in the moment in which the connection closes.", "anchors": ["trpc/stream/trpc/trpc_stream_handler.cc: Stop, RemoveStream", "trpc/stream/fiber_stream_job_scheduler.cc: Stop, Run", "trpc/stream/trpc/trpc_client_stream.cc: Finish"]}
{"id": "C92", "title": "Every request times out in its millisecond, unless it is answered before", "statement": "For the timeout queues of the future client transport (TimingWheelTimeoutQueue, shared send queue): a timeout handler is called only for a request that was pushed and neither popped nor timed out since, with the message that was pushed, in the round of its expire time; after DoTimeout(now) every request that is left expires after now; Get and Pop find exactly the requests that were pushed last for their key and are still waiting; a popped request never times out. For timeouts below 2^28 ms counted from the last round; Pop and DoTimeout do not touch freed nodes if handlers only push.", "quantifier": "all sequences of Push, Pop and DoTimeout at any times, all timeout handlers, all keys", "why_tests_cant": "A wheel of five levels errs at the carries of its digits: the wrong millisecond is one in many millions.", "anchors": ["trpc/transport/client/future/common/timingwheel.h", "trpc/transport/client/future/common/timingwheel_timeout_queue.h", "trpc/transport/client/future/conn_pool/shared_send_queue.cc"]}
{"id": "C93", "title": "Timeouts of any length and handlers of any kind", "statement": "A timeout fires no earlier than asked, whatever its length; a request that is already due fires in the next round; a timeout handler may pop other requests.", "quantifier": "all timeouts, all handlers", "why_tests_cant": "Nobody waits for 24 days, and the request that is popped must be the next in the list.", "anchors": ["trpc/transport/client/future/common/timingwheel.h: AddTimerNode, DoTimeout"]}
{"id": "C94", "title": "Pooled TCP connections give every caller the answer to their own request, once", "statement": "For a TCP connection pool of the future client transport, with ordinary, one-way and fixed connections, for all orders of sends, answers, timeouts and lost connections: a caller gets the answer of the peer to their own request; every request gets at most one result and until then waits in exactly one queue; at most one request is unanswered on a connection; no connection number is free twice; no check fails. If there are no fixed connections and connections take what is sent, a connection number is free if and only if no request waits on it.", "quantifier": "all sequences of events, all numbers of connections, all results of connecting, sending, decoding", "why_tests_cant": "A connection that is given back too early delivers the late answer to another caller; this needs a timeout or close at the wrong moment.", "anchors": ["trpc/transport/client/future/conn_pool/conn_pool.h", "trpc/transport/client/future/conn_pool/future_tcp_conn_pool_connector_group.cc", "trpc/transport/client/future/conn_pool/future_tcp_conn_pool_connector.cc", "trpc/transport/client/future/conn_pool/future_conn_pool_connection_handler.cc", "trpc/transport/client/future/conn_pool/future_conn_pool_message_timeout_handler.cc"]}
{"id": "C95", "title": "A pool uses its connections, and a fixed connection belongs to its owner", "statement": "A waiting request is sent when a connection becomes free; a request is not sent on a connection that is about to be closed; no connection number is lost; a fixed connection carries only the requests of the one who holds it; a request is not released while the pool waits for its answer.", "quantifier": "all sequences of events", "why_tests_cant": "Needs timeouts, closes and refused sends in a certain order.", "anchors": ["trpc/transport/client/future/conn_pool/future_tcp_conn_pool_connector_group.cc: SendReqMsg, SendOnly, ReleaseConnector, DelConnector", "trpc/transport/client/future/conn_pool/future_conn_pool_connection_handler.cc: HandleMessage, SendPendingMsg", "trpc/transport/client/future/future_transport.cc: SendOnly"]}
{"id": "C96", "title": "Timers of the default reactor fire on time, in order, as often as asked", "statement": "For TimerQueue of the default reactor, with executors that add, cancel, pause and resume timers (new ones not before the present time): an executor is called only for a timer that is due, not cancelled and not paused, and no other timer was due earlier; after RunExpiredTimers(now) no timer is due at now or before; a timer with an interval is due at the multiples of it, one without once; the reactor never sleeps more than 5 ms, and not beyond the next due time if no timer is overdue; RunExpiredTimers ends if executors add only timers for later.", "quantifier": "all sequences of calls, all executors, all times", "why_tests_cant": "A heap with a wrong sift fails only for certain shapes; cancelling inside an executor needs the right timer at the top.", "anchors": ["trpc/runtime/iomodel/reactor/default/timer_queue.cc", "trpc/runtime/iomodel/reactor/default/timer_queue.h"]}
{"id": "C97", "title": "Executors may add timers for any time, and overdue or paused timers are not forgotten", "statement": "A timer that an executor adds for a time that has passed fires once and the timer of this executor does not fire again; the reactor does not sleep when a timer is overdue; a timer that is paused when it is due fires when it is resumed.", "quantifier": "all executors, all times", "why_tests_cant": "Needs an executor that adds a timer before its own time, or a clock that moves on between two calls.", "anchors": ["trpc/runtime/iomodel/reactor/default/timer_queue.cc: RunExpiredTimers, NextExpiration", "trpc/runtime/iomodel/reactor/default/reactor_impl.cc: TrySleep"]}
{"id": "C98", "title": "Tasks given to the default reactor run once, in order, without starving, and wake it up", "statement": "For any number of threads that submit tasks of four priorities and inner tasks to the default reactor: tasks of a priority run in the order of their submission, each once; a submission is refused only if the queue is full; of ten looks in a row four, three, two and one are for the four priorities, a call runs at most 500 tasks (except the last one), and the next task of every priority runs in each call; when HandleTask says nothing is left, all tasks have run that were submitted before it began; the reactor never sleeps while a submitted task waits unless the eventfd ends the sleep; the eventfd can be read whenever it is reported.", "quantifier": "all interleavings of any number of threads, all capacities of the queues", "why_tests_cant": "A lost wake-up needs a submission between the check and epoll_wait.", "anchors": ["trpc/runtime/iomodel/reactor/default/reactor_impl.cc", "trpc/runtime/iomodel/reactor/common/eventfd_notifier.cc", "trpc/runtime/iomodel/reactor/common/epoll_poller.cc"]}
{"id": "C99", "title": "Every accepted task runs before the default reactor has stopped", "statement": "A task or inner task whose submission returned true runs, also if the reactor is stopped.", "quantifier": "all interleavings", "why_tests_cant": "Needs Stop at a certain moment.", "anchors": ["trpc/runtime/iomodel/reactor/default/reactor_impl.cc: Run, HandleTask, SubmitTask, SubmitInnerTask"]}
{"id": "C100", "title": "A TCP connection of the default reactor writes what it was given, reports it, and leaves nothing behind", "statement": "For all sequences of Send, write events and closing, and all results of writev and connect: the bytes on the wire are those of the messages Send took, in order, from the first on; messages are reported as written in order and at most once, only when all their bytes are written, and at once if they have any; when the connection is closed exactly the others are reported as failed; while the connection is open and bytes are left, a write event will come; Send returns 0 only if it took the message, and -1 only if nothing changed or the message has been reported; no access to an empty queue; send_data_size_ is exact. A read event gives the checker all bytes that have arrived, in order, once, unless the connection is closed.", "quantifier": "all messages without empty blocks, all results of system calls, all orders of events", "why_tests_cant": "Short writes at each byte, EAGAIN and EINTR at each call, connections that are made or lost at each moment.", "anchors": ["trpc/runtime/iomodel/reactor/default/tcp_connection.cc"]}
{"id": "C101", "title": "Every message given to a connection is reported exactly once, and every byte received is checked", "statement": "A message that Send took is reported as written or failed, once, also if the connection was closed, if it is empty, or if the connect timer fires; empty blocks do not matter; bytes that were read before the end of the stream are given to the checker.", "quantifier": "all messages, all states, all streams", "why_tests_cant": "Needs a message of seventeen blocks with empty ones, or an answer that fills the read block exactly.", "anchors": ["trpc/runtime/iomodel/reactor/default/tcp_connection.cc: Send, DoConnect, HandleWriteEvent, ReadIoData"]}
{"id": "C102", "title": "On multiplexed TCP connections every request gets its one result, by its id and in its time", "statement": "For all orders of requests, responses, failures and time-outs on the multiplexed connections of a thread of the future transport, with and without backup requests: every message gets at most one result; until it has one it waits under its request id; the first message of a call waits until its time-out after it was sent (plus the lateness of the handler when it starts the backup requests); a response gives its result to the request that waits under its id, and does nothing if there is none; no assertion fails and no null pointer is used.", "quantifier": "all messages, calls, request ids, time-outs and delays below them, all orders of events", "why_tests_cant": "The queue is shared by all connections of a thread; responses, time-outs and failures of connections race with backup requests.", "anchors": ["trpc/transport/client/future/conn_complex/future_conn_complex_message_timeout_handler.cc", "trpc/transport/client/future/conn_complex/future_tcp_conn_complex_connector.cc", "trpc/transport/client/future/conn_complex/future_conn_complex_connection_handler.cc", "trpc/transport/client/future/common/utils.cc"]}
{"id": "C103", "title": "A request on a multiplexed connection depends on its own peer only", "statement": "A response that nobody waits for is ignored, on UDP too; a request is answered only by the peer it was sent to; it fails only if its own connection fails; every backup request gets a result; no time-out is longer than that of the call; Disconnect(ip) closes the connections to ip only.", "quantifier": "all requests, peers and addresses", "why_tests_cant": "Needs a late UDP response, the same id from another peer, or a backup peer that refuses connections.", "anchors": ["trpc/transport/client/future/conn_complex/future_udp_io_complex_connector.cc", "trpc/transport/client/future/conn_complex/future_conn_complex_connection_handler.cc: HandleMessage", "trpc/transport/client/future/future_transport.cc: SendBackupRequest", "trpc/transport/client/future/future_tcp_connector_group_manager.cc: Disconnect"]}
{"id": "C104", "title": "Under overload, thresholds of priorities follow the share of refused requests, in order and in range", "statement": "For all sequences of requests, answers of the algorithm and windows: the two thresholds of the priority adapter stay in order between 0 and max_priority + 1; every update reads only counters that exist; a threshold is moved by exactly the share of the sampled requests that it is to be moved by (up to half a request for the place it starts from) or to the end of the range, so one that is to rise rises or is at the top and one that is to sink sinks or is at the bottom; a request is refused for its priority only below the lower threshold, always if it is more than 1 below; and with the same random number never one of a higher priority than one that passes.", "quantifier": "all configurations with at least one histogram, all sequences of requests, priorities, random numbers and answers", "why_tests_cant": "The thresholds depend on the whole history of samples and random numbers.", "anchors": ["trpc/overload_control/common/histogram.cc", "trpc/overload_control/common/priority_adapter.cc", "trpc/overload_control/common/window.cc", "trpc/overload_control/common/request_priority.cc"]}
{"id": "C105", "title": "Priorities are sent as they are set, and under overload the highest still pass", "statement": "The priority that a client sets (0 to 255) is the one that the server sees. Requests that fail do not stop the adapter. Requests of the highest priority are not refused for their priority.", "quantifier": "all priorities and histories", "why_tests_cant": "The overflow needs about two thousand million failing calls; the thresholds meet at the top only after certain sequences.", "anchors": ["trpc/overload_control/common/request_priority.cc", "trpc/overload_control/common/histogram.cc: Sample", "trpc/overload_control/common/priority_adapter.cc"]}
{"id": "C106", "title": "The client throttler refuses no more than its probability, and conserves its tokens", "statement": "For all times and histories: the exponential sums decay by the factor once per interval that has ended and are 0 after the reset interval, never rise by themselves and are never negative; the probability of a refusal is at most max_throttle_probability, 0 if at most the allowed share of requests was throttled, and grows with the number of throttled requests; a request whose random number is above the maximum passes in every state. Tokens for requests that must pass are conserved by all interleavings; at most 31 are kept; a request pays back a token only if one is owed.", "quantifier": "all configurations with a positive interval, factor in [0,1], ratio at least 1 and positive padding; all times and interleavings", "why_tests_cant": "Counters are shared by all threads and updated without a lock.", "anchors": ["trpc/overload_control/throttler/throttler_ema.cc", "trpc/overload_control/throttler/throttler.cc", "trpc/overload_control/throttler/throttler_priority_impl.cc", "trpc/overload_control/throttler/throttler_client_filter.cc"]}
{"id": "C107", "title": "The client throttler ends for all configurations and counts what it refuses", "statement": "Every configuration that is accepted gives a throttler that answers. Every request that is passed to it is followed by a response. The token buffer holds as many tokens as configured.", "quantifier": "all configurations, requests and interleavings", "why_tests_cant": "An interval of 0 is accepted and hangs only at the next clock tick.", "anchors": ["trpc/overload_control/throttler/throttler_ema.cc: Advance", "trpc/overload_control/throttler/throttler_overload_controller.cc", "trpc/overload_control/throttler/throttler_priority_impl.cc"]}
{"id": "C108", "title": "The high percentile limiter counts exactly the running requests and keeps to its limits", "statement": "For all interleavings of requests and updates: the counter of concurrent requests is the number of those that run, never negative, and every one that ends is taken off; while a strategy is in effect the requests that run or have just passed are at most the limit plus those that pass the check at the same time; after the first estimate a request is refused only if more than min_max_concurrency run. An update leaves a limit of at least min_max_concurrency, an interval of 1 to 100 ms and a window of at least the minimal size; a strategy comes into effect only if a measure is above nine tenths of its expectation, goes out of effect only if all are at most half, and is the one with the worst measure. The moving averages stay between old value and sample, and the maximum of every n samples is reported after each n.", "quantifier": "all interleavings of any number of requests and updates, all measures and configurations", "why_tests_cant": "The limit, the strategy and the counter are separate atomics; only interleavings show what can be seen between two of them.", "anchors": ["trpc/overload_control/high_percentile/high_percentile_priority_impl.cc", "trpc/overload_control/high_percentile/max_in_every_n.cc", "trpc/overload_control/high_percentile/high_avg_ema.cc", "trpc/overload_control/high_percentile/high_percentile_server_filter.cc"]}
{"id": "C109", "title": "The high percentile limiter guarantees min_max_concurrency from the start and never exceeds its limit", "statement": "No request is refused while fewer than min_max_concurrency run, no more requests than the limit run if they come one after the other, and every configuration that is accepted can be updated.", "quantifier": "all interleavings and configurations", "why_tests_cant": "Needs a request between two stores of the very first update.", "anchors": ["trpc/overload_control/high_percentile/high_percentile_priority_impl.cc: OnRequest, OnWindowExpires, ShiftCost"]}
{"id": "C110", "title": "The shared mutex of fibers excludes, wakes up and lets announced writers go first", "statement": "For any number of fibers below kMaxReaders and all interleavings of lock, try_lock, unlock, lock_shared, try_lock_shared and unlock_shared: a fiber that holds the lock exclusively holds it alone; no check of the code fails; if some call has not returned and nobody holds the lock, some step is possible (no wake-up is lost); from the moment a writer has announced itself until it leaves, no reader is added to those it has to wait for.", "quantifier": "all numbers of fibers below kMaxReaders, all interleavings of atomic operations", "why_tests_cant": "Lost wake-ups and torn handovers need particular interleavings of four atomics, two mutexes and two condition variables.", "anchors": ["trpc/coroutine/fiber_shared_mutex.cc", "trpc/coroutine/fiber_shared_mutex.h"]}
{"id": "C111", "title": "A reader of the shared mutex of fibers gets it in the end and leaves it alone after it is released", "statement": "A fiber that waits for shared access gets it after finitely many turns of others. Once every holder has left, a writer that has got and released the mutex may destroy it.", "quantifier": "all interleavings", "why_tests_cant": "Needs a newcomer to take the grant of a sleeping reader each time, or a reader that is suspended between two instructions.", "anchors": ["trpc/coroutine/fiber_shared_mutex.cc: WaitForRead, WakeupReaders, WakeupWriter"]}
{"id": "C112", "title": "The blocking buffer of fibers is a FIFO of bytes within its capacity and loses no wake-up", "statement": "For any number of fibers and all interleavings of Append, AppendAlways, TryAppend, Cut, TryCut, SetCapacity and Stop, with and without time-outs: the bytes cut are exactly the bytes appended, in order, up to those still inside; bytes are added only up to the capacity unless the buffer is stopped; without new calls the buffer comes to rest after finitely many steps. With one appender and one cutter at a time (as HTTP streams use it): at rest, whoever sleeps has no room, or not enough bytes, and is not to be told of Stop, except an AppendAlways in a full buffer; AppendAlways and a Cut of not more than the capacity never wait for each other.", "quantifier": "all numbers of fibers, byte strings, capacities and interleavings", "why_tests_cant": "A lost wake-up needs a notification between a test and a sleep.", "anchors": ["trpc/coroutine/fiber_blocking_noncontiguous_buffer.h", "trpc/stream/http/http_stream.cc"]}
{"id": "C113", "title": "Nobody sleeps on in the blocking buffer of fibers without reason", "statement": "At rest nobody sleeps who has room or bytes enough, nobody sleeps in a stopped buffer, and a reader and a writer never wait for each other.", "quantifier": "all interleavings", "why_tests_cant": "The reads that hang ask for more bytes than the capacity; the others need two waiters or a change of the capacity between a test and a sleep.", "anchors": ["trpc/coroutine/fiber_blocking_noncontiguous_buffer.h: AppendAlways, SetCapacity, Stop", "trpc/stream/http/http_stream.cc"]}
{"id": "C114", "title": "A read under the sequence lock of fibers is a snapshot", "statement": "If the number of a sequence lock starts even: for all interleavings of any number of readers and writers, what a reader goes on with is one version of the data as it was between two writers, provided fewer than 2^31 writers came by meanwhile; when no writer is at work readers can start and finish; while one is at work none starts.", "quantifier": "all data, numbers of readers and interleavings", "why_tests_cant": "A torn read needs a writer between two loads.", "anchors": ["trpc/coroutine/fiber_seqlock.h", "trpc/coroutine/fiber_seqlock.cc"]}
{"id": "C115", "title": "A sequence lock of fibers works however it is created and for ever", "statement": "After FiberSeqLock s; readers can start while no writer is at work, and a read that is accepted is a snapshot, without conditions.", "quantifier": "all memory contents at creation, all interleavings", "why_tests_cant": "Memory that happens to be zero hides it.", "anchors": ["trpc/coroutine/fiber_seqlock.h: Seqcount, ReadSeqCountBlock, ReadSeqCountRetryAt"]}
{"id": "C116", "title": "The body of a streamed HTTP response is what was written", "statement": "For a handler that writes no empty item, none after WriteDone, and calls WriteDone after the header, whatever sends fail: after WriteDone the response consists of informational responses, one header and a body which a receiver, going by the header, decodes to exactly the items whose Write succeeded, in order, with nothing following; with Content-Length it has exactly that length; to HEAD it is empty. The header of a chunk is its size in hexadecimal, for all 64-bit sizes. Write always returns.", "quantifier": "all items, statuses, header fields and failures of sends", "why_tests_cant": "The sizes of chunks are unbounded and failures may come at any send.", "anchors": ["trpc/stream/http/http_stream.cc", "trpc/stream/http/common.cc: HttpChunkHeader"]}
{"id": "C117", "title": "No sequence of calls on the writer of an HTTP stream breaks the framing", "statement": "Whatever the handler calls, a chunked response has exactly one end, at its end; calls that would break it are refused.", "quantifier": "all sequences of Write, WriteDone and Close", "why_tests_cant": "The next response on the connection is the one that breaks.", "anchors": ["trpc/stream/http/http_stream.cc: Write, WriteDone, Close", "trpc/stream/http/http_client_stream.cc: Write"]}
{"id": "C118", "title": "Reads of a streamed HTTP body return what was received, and its end only at its end", "statement": "For all interleavings of the fiber that receives the body, of a breaking connection and of the handler, with any time-outs: successful reads return the received bytes in order, none twice, none left out; the end is reported only if the body was received completely and returned completely, unless the connection broke or the handler closed the stream itself; a read that returns less than it asked for is followed by the end; after the connection broke no read succeeds or reports the end; a request body read as a whole (AppendToRequest) is accepted only if it is complete and within the limit.", "quantifier": "all bodies, read sizes and interleavings", "why_tests_cant": "A truncated body taken for a complete one needs the connection to break between a cut and a test of the state.", "anchors": ["trpc/stream/http/http_stream.h: HttpReadStream", "trpc/stream/http/http_stream.cc"]}
{"id": "C119", "title": "A request body above the limit is answered and leaves nothing behind", "statement": "For a chunked request body longer than the limit: the handler learns that it is too long, and the fiber that reads the connection comes back after the stream is closed.", "quantifier": "all bodies longer than the limit, all interleavings", "why_tests_cant": "The answer comes (408 in place of 413); that a fiber is left behind cannot be seen from outside.", "anchors": ["trpc/stream/http/http_stream.cc: AppendToRequest", "trpc/coroutine/fiber_blocking_noncontiguous_buffer.h: AppendAlways", "trpc/server/http_service.cc"]}
{"id": "C120", "title": "Blocks of the buffer pool are handed out once, kept, and bounded", "statement": "For the default memory pool with any number of threads, any interleaving, and blocks given back on any thread: no block is handed out again before it was given back; a block that somebody has is in no free list; no block gets lost, not even when threads end; the pool exceeds its limit by less than one chunk (1024 blocks), and the system is asked for single blocks only at the limit. As long as no thread ends, and with a limit of at least 481 blocks, no vector is written outside of its bounds and no null pointer is followed.", "quantifier": "all limits, numbers of threads, interleavings and sequences of allocations", "why_tests_cant": "A block that is handed out twice corrupts data of another request, long after.", "anchors": ["trpc/util/buffer/memory_pool/global_memory_pool.cc"]}
{"id": "C121", "title": "The vector of free lists of the buffer pool is large enough", "statement": "Whatever the limit, and however many threads start and end: PushFreeBlockList never writes outside of its vector.", "quantifier": "all limits, all runs", "why_tests_cant": "Memory behind the vector is overwritten; nothing fails at that point.", "anchors": ["trpc/util/buffer/memory_pool/global_memory_pool.cc: PushFreeBlockList, GlobalMemPool"]}
{"id": "C122", "title": "Blocks of the pool with one pool for each thread are handed out once, kept, and bounded", "statement": "For the shared-nothing memory pool with any number of threads and any interleaving: no block is handed out again before it was given back; a block that somebody has is in no list; no block gets lost; a thread asks for more memory only if less than 24 blocks are in its pool; the pool exceeds its limit by at most one chunk for each thread (if limit and 1024 chunks fit into 32 bits); no chunk is given back while threads run. If each thread gives back its own blocks only, then also when threads end: a chunk that is given back has no block which is still handed out, and each chunk of a thread that ended is given back unless somebody has one of its blocks. If the system has memory and fewer than 1024 threads used the pool, nothing aborts as long as each thread gives back its own blocks only or no thread made 200 chunks.", "quantifier": "all limits, chunk sizes, numbers of threads, interleavings and sequences of allocations", "why_tests_cant": "Counts of free blocks per chunk and the tables of chunks depend on long histories.", "anchors": ["trpc/util/buffer/memory_pool/shared_nothing_memory_pool.cc", "trpc/util/buffer/memory_pool/shared_nothing_memory_pool.h"]}
{"id": "C123", "title": "Blocks given back by another thread are as good as any", "statement": "For the shared-nothing memory pool: a block that another thread gives back can be allocated again by the thread that made it; it never leads to an abort, and not to a chunk being given back that is still in use; any number of threads may use the pool one after the other; any limit is one; without memory, Allocate fails and does not crash.", "quantifier": "all runs", "why_tests_cant": "In a run with a few blocks and threads all goes well.", "anchors": ["trpc/util/buffer/memory_pool/shared_nothing_memory_pool.cc: GetSharedNothingMemPool, Deallocate, ~SharedNothingMemPoolImp, GetCpuId, NewBlockChunk"]}
{"id": "C124", "title": "On a pipelined connection every caller gets the answer to their own request", "statement": "For a pipelined TCP connection of the fiber client transport, with any number of callers, any interleaving of sending, receiving, timeouts and the end of the connection, and a server that answers in order: no call completes twice; a call whose context is saved has its result or can still time out; every call that waits when a connection is cleaned up gets an error. Until the connector itself begins to close the connection, and if one-way requests are not answered, every caller that gets an answer gets the one to their own request, and the check on the queue of ids only fails if as many requests as its capacity are unanswered.", "quantifier": "all interleavings, numbers of callers and capacities", "why_tests_cant": "Answers carry no id: one that is matched wrongly looks like any other.", "anchors": ["trpc/transport/client/fiber/pipeline/fiber_tcp_pipeline_connector.cc", "trpc/runtime/iomodel/reactor/fiber/writing_buffer_list.cc: FlushTo, PreSendMessage"]}
{"id": "C125", "title": "A pipelined connection that is being closed gives nobody the answer of another", "statement": "Also while the connector closes the connection after a call that failed, and if the server answers one-way requests, a caller gets no answer but their own; and no number of requests in flight ends the process.", "quantifier": "all interleavings and capacities", "why_tests_cant": "Needs an answer between two dequeues of ClearReqMsg, or as many requests as the capacity of a queue.", "anchors": ["trpc/transport/client/fiber/pipeline/fiber_tcp_pipeline_connector.cc: ClearReqMsg, SaveCallContext, NotifyPipelineSendMsg"]}
{"id": "C126", "title": "Pooled connections of the fiber transport give every caller the answer to their own request", "statement": "For a TCP connection pool of the fiber client transport, with any number of callers and shards, any interleaving of calls, answers, timeouts and lost connections, and a server that does not answer one-way requests: a caller that gets an answer gets the one to their own request; no call completes twice; no two calls have the same connection, and what a call has is not in the pool; a connection in the pool is there once, nobody waits on it, and no answer is to come on it; a call whose context is saved has its result or can still time out; a shard keeps at most one connection more than its part of the limit; all together keep at most as many as the limit, as long as there are less than 2^32 connections with it.", "quantifier": "all interleavings, limits and numbers of shards", "why_tests_cant": "Needs timeouts, closes and reuse of connections in a certain order.", "anchors": ["trpc/transport/client/fiber/conn_pool/fiber_tcp_conn_pool_connector_group.cc", "trpc/transport/client/fiber/conn_pool/fiber_tcp_conn_pool_connector.cc"]}
{"id": "C127", "title": "A pool keeps connections as long as there are less than its limit", "statement": "However many connections were closed by the peer or were idle for too long: the TCP connection pool of the fiber transport keeps a healthy connection after a call if there are less than its limit; and an answer to a one-way request does not go to another caller.", "quantifier": "all runs and limits", "why_tests_cant": "All requests succeed, only each with a connection of its own; and not before as many connections as the limit were found closed.", "anchors": ["trpc/transport/client/fiber/conn_pool/fiber_tcp_conn_pool_connector_group.cc: GetOrCreate, Reclaim"]}
{"id": "C128", "title": "Pooled UDP sockets of the fiber transport give every caller the answer to their own request", "statement": "For an entry of the UDP pool of the fiber client transport, for all orders of calls, answers, losses and timers: if the network does not duplicate answers and the server does not answer one-way requests, a caller that gets an answer gets the one to their own request; no call completes twice; between two calls nobody waits on the socket, and no answer is to come.", "quantifier": "all interleavings", "why_tests_cant": "Needs timers and answers in a certain order.", "anchors": ["trpc/transport/client/fiber/conn_pool/fiber_udp_io_pool_connector.cc", "trpc/transport/client/fiber/conn_pool/fiber_udp_io_pool_connector_group.cc"]}
{"id": "C129", "title": "A call over a pooled UDP socket ends by its answer or by its own timer", "statement": "A call ends when its answer comes or its own timer fires, and at the latest then; and an answer that the network duplicates is not given to another caller.", "quantifier": "all interleavings", "why_tests_cant": "Needs a timer that fires while the call before is being answered, or before its context is stored.", "anchors": ["trpc/transport/client/fiber/conn_pool/fiber_udp_io_pool_connector.cc: OnTimeout, DispatchException, SaveCallContext"]}
{"id": "C130", "title": "A URL is accepted and cut into its parts if and only if it is one word", "statement": "For every text that is followed by NUL: parsing it reads nothing outside of it and ends; if there is no NUL in it, it is accepted if and only if it is one word with blanks around it, and the parts found, put together again, are the word; the parts of every well formed URL are found again, whatever blanks are around it; and a port that is a number below 65536 is returned as that number.", "quantifier": "all byte strings", "why_tests_cant": "All combinations of absent and present parts, and all bytes in them.", "anchors": ["trpc/util/http/url.cc", "trpc/util/http/url.h"]}
{"id": "C131", "title": "A URL is refused unless what it gives is a host, a port and a target for the request line", "statement": "Parsing a view reads only the view; a URL with ends of lines in it is refused; the target that is put on the request line begins with a slash and has no fragment; the user information ends at the last @; and a port is a number below 65536.", "quantifier": "all byte strings", "why_tests_cant": "Needs a view that is not followed by NUL, or a URL from an attacker.", "anchors": ["trpc/util/http/url.cc: ParseQuery, ParseUrl, RequestUri", "trpc/util/http/url.h: IntegerPort"]}
{"id": "C132", "title": "Every HTTP call on a kept connection gets its own response", "statement": "For any number of HTTP/1.x calls one after the other on a connection, with responses that have a length, are in chunks, or are to a HEAD request and have no body: however the bytes of the responses are cut into pieces, every call gets the response to its request, complete and only that one, and nothing is left over. For all data that a server may send: which response a call gets does not depend on the cuts; no response, and nothing that is kept of one, is larger than the limit; a response with a length and a transfer encoding is refused; and the connection counts as reusable unless the last header Connection says close, or there is none and the version is 1.0.", "quantifier": "all responses, cuts, data and limits", "why_tests_cant": "All ways to cut a stream, in the middle of a head, of a chunk, of a mark.", "anchors": ["trpc/codec/http/http_client_proto_checker_impl.cc", "trpc/runtime/iomodel/reactor/fiber/fiber_tcp_connection.cc: ConsumeReadData"]}
{"id": "C133", "title": "A response whose length the client does not know is not taken for another one", "statement": "Interim responses are skipped; a response without a length ends with the connection; a response that by its status has no body is complete with its head; a response is read with the method of its own request; two lengths that differ, unknown transfer encodings and data behind a response are errors; and a response with the option close closes the connection.", "quantifier": "all responses and interleavings", "why_tests_cant": "Needs servers that use these parts of the protocol, or a response that comes before the client has finished sending.", "anchors": ["trpc/codec/http/http_client_proto_checker_impl.cc: ParseHeader, ParseContent, ParseHttpResponse", "trpc/runtime/iomodel/reactor/fiber/writing_buffer_list.cc: FlushTo"]}
{"id": "C134", "title": "What is serialized as an HTTP message is what the other side reads", "statement": "A reader that splits at the ends of lines, blanks and colons gets back from a serialized request its method, URI, version, fields in order and content, and from a serialized response its version, status, reason, fields and content, provided that the parts have no ends of lines (and no blanks or colons where these separate). If the program has set neither a length nor an encoding, the Content-Length of a response is the number of bytes of content that is sent, after any sequence of operations on the content; and a client of this library gets exactly that response, however it is cut into pieces.", "quantifier": "all requests, responses, sequences of operations and cuts", "why_tests_cant": "All combinations of fields, statuses, reasons and ways to give a content.", "anchors": ["trpc/util/http/request.cc: SerializeToString", "trpc/util/http/response.cc", "trpc/util/http/content.h", "trpc/util/http/content.cc", "trpc/codec/http/http_client_proto_checker_impl.cc"]}
{"id": "C135", "title": "A field that a program sets stays one field, and a message has the length that it says", "statement": "Whatever text a program gives as the value of a field, the other side reads it as the value of that field and nothing else; the Content-Length that is sent is that of the content; content that is announced as chunked is in chunks; and what was set or written last is what is sent.", "quantifier": "all texts, fields and sequences of operations", "why_tests_cant": "Needs texts with ends of lines, as an attacker may give them, or sequences of calls that mix the two kinds of content.", "anchors": ["trpc/util/http/field_map.h", "trpc/util/http/response.cc", "trpc/util/http/content.h", "trpc/codec/http/http_server_codec.cc: TrpcOverHttpServerCodec::ZeroCopyEncode"]}
{"id": "C136", "title": "What a hazard pointer keeps is not destroyed, and what is retired is destroyed once", "statement": "While a Hazptr keeps an object, the object is not destroyed, whatever other threads retire and reclaim; no object is used after it was destroyed, and none is destroyed twice. A retired object is never lost: it is at all times in the list of its domain or with exactly one thread that reclaims. Two Hazptrs never share an entry. A reclaim that is not disturbed destroys exactly those retired objects of its domain to which no active entry points. (The program retires an object once, after it is no longer reachable from any source, and uses one domain for it.)", "quantifier": "all interleavings of any number of Hazptrs, threads, domains, objects and sources", "why_tests_cant": "The races are between a load, an exposure and a second load of a reader, and a scan over all entries by a reclaimer.", "anchors": ["trpc/util/hazptr/hazptr.h", "trpc/util/hazptr/hazptr_domain.cc", "trpc/util/hazptr/entry.h", "trpc/util/hazptr/entry_cache.h", "trpc/util/hazptr/hazptr_object.h"]}
{"id": "C137", "title": "Hazard pointers may be assigned, and their entries do not accumulate", "statement": "A Hazptr protects what it keeps, also after Hazptrs were move-assigned; and the entries that a thread used are available to others after the thread has ended.", "quantifier": "all executions, all numbers of threads", "why_tests_cant": "Needs a move-assignment between domains and an unrelated later use in the same thread; the leak is invisible except for growing memory and slower scans.", "anchors": ["trpc/util/hazptr/hazptr.h: operator=", "trpc/util/hazptr/entry_cache.cc: ~EntryCacheSlow"]}
{"id": "C138", "title": "The concurrent hash map is linearizable and holds each key once", "statement": "In LightlyConcurrentHashMap, when the mutex of a key is determined by its bucket (the constructor gives this when mutex_count is at most bucket_count, below 2^63): Insert, InsertOrAssign, GetOrInsert and Erase return what the map at the moment of their effect gives, and have that effect; Get returns the value (or absence) that its key had at some moment between call and return; in memory is exactly the map, each key once, in the list of its bucket; a writer never touches a node that was retired. A Get that runs without disturbance ends with the present value. Without Clear, Size is the number of keys whenever no operation is running. When no two keys share a bucket, no Get touches a node that was destroyed.", "quantifier": "all interleavings of any number of threads, keys, buckets and mutexes", "why_tests_cant": "Readers take no lock: each position of a reader in a list meets each modification of that list.", "anchors": ["trpc/util/concurrency/detail/lightly_concurrent_hashmap_impl.h", "trpc/util/concurrency/lightly_concurrent_hashmap.h"]}
{"id": "C139", "title": "The concurrent hash map is safe for any sizes, any keys, and with Clear", "statement": "Get never touches a destroyed node, no insertion is lost for any number of mutexes and buckets, Size is the number of keys also after Clear, and the constructor ends for each capacity.", "quantifier": "all executions, all sizes", "why_tests_cant": "Needs a removal in the few instructions between two reads of a Get, or an insertion between two statements of Clear.", "anchors": ["trpc/util/concurrency/detail/lightly_concurrent_hashmap_impl.h"]}
{"id": "C140", "title": "Tasks of the periphery scheduler run in time, one at a time, and not after they were stopped", "statement": "The callback of a task submitted to PeripheryTaskScheduler does not run twice at a time, is not started before its time (the submission, then the sum of the intervals), and runs at most once if the task is not periodic. A task that is not finished is in the queue once or with exactly one worker; it finishes only when it was cancelled, or has run and is not periodic. A worker that looks at the queue when the task is due runs it. After StopTask or RemoveTask returned true the callback is not started again; after JoinTask returned true (and the scheduler was not stopped) it is not running either. If the functions are called as documented and not while the scheduler is destroyed, the task is not accessed after it was destroyed, and it is destroyed once its id was given up and no worker and no queue has it.", "quantifier": "all interleavings of any number of workers, the thread that has the id and the threads that stop the scheduler; all intervals", "why_tests_cant": "A worker may be anywhere between taking the task and pushing it again when it is stopped; the reference count is read while others change it.", "anchors": ["trpc/runtime/common/periphery_task_scheduler.cc", "trpc/runtime/common/periphery_task_scheduler.h"]}
{"id": "C141", "title": "Tasks of the periphery scheduler may be stopped and joined at any time", "statement": "StopTask followed by JoinTask is safe also when the task has finished; JoinTask is safe while the scheduler ends, returns true exactly when the task has finished or was stopped, and then it does not run; and each task is destroyed in the end.", "quantifier": "all executions", "why_tests_cant": "Depends on whether a worker has just dropped its reference, and on a sleep of up to 100 ms of JoinTask during the end of the program.", "anchors": ["trpc/runtime/common/periphery_task_scheduler.cc: GetTaskPtr, JoinTaskImpl, Join"]}
{"id": "C142", "title": "The notifier of the schedulers loses no wake-up", "statement": "PredicateNotifier: when Notify(true) is called after a change of the predicate and has returned, then every thread that waits from then on has tested the predicate after that change, or a notifier holds it and wakes it by its own steps alone; one that tested it before and has not yet gone to wait returns from CommitWait without waiting. A thread that waits is on the stack or belongs to exactly one notifier; one that sleeps although it was signalled is about to be woken. Notify(false) releases exactly one thread: the first that has prepared, else the last that went to wait. A thread has to wait for the decision of another only if there is one whose turn it is. The assertions hold and indices of waiters are in range.", "quantifier": "all interleavings of fewer than 65535 waiters and any number of notifiers, as long as the 32-bit counter does not advance by 2^31 while a thread is inside a function or between PrepareWait and the other one", "why_tests_cant": "Lost wake-ups need a notifier between two accesses of a waiter; reuse of a waiter on the lock-free stack, wrap-around of the counter.", "anchors": ["trpc/util/thread/predicate_notifier.h"]}
{"id": "C143", "title": "Helpers for strings do what their names say", "statement": "Split with kept empty parts cuts a non-empty string at the occurrences of the delimiter from the left, in exactly one way; without them it gives the same parts but the empty ones; no part contains the delimiter; Join of the parts with the delimiter is the string again. Split at a character loses no other character. Replace puts the new text between the first n parts and keeps the delimiter between the others, also if the new text contains the old one. StartsWith and EndsWith are prefix and suffix. Trim takes the blanks from both ends. ToLower, ToUpper and IEquals change or ignore the case of ASCII letters and nothing else. TryParse of digits, with a minus sign for signed types, is the number if that is in the range of the type and nothing otherwise; what it accepts without a minus sign is blanks or plus signs followed by the digits of the result.", "quantifier": "all byte strings without bound (Trim of non-empty ones, Join up to 2 GiB together, case for ASCII), all delimiters that are not empty, all numbers of replacements, all ranges of integer types", "why_tests_cant": "Overlaps of delimiters, adjacent ones, delimiters at the ends, replacements that contain what is replaced, boundaries of number types.", "anchors": ["trpc/util/string/string_helper.h", "trpc/util/string/string_helper.cc"]}
{"id": "C144", "title": "Helpers for strings are defined for all strings and strict about numbers", "statement": "Trim, ToLower, ToUpper, IEquals, Join and Split would be defined for all strings, and TryParse would accept exactly the decimal numbers in the range of the type and depend on nothing but the string. Refuted: Trim of the empty string is undefined and tabs stay; bytes from 128 on index a table with a negative number; Join of 4 GiB gives nothing and of 2 GiB throws; Split of an empty string has no part and of an empty delimiter fails a check; unsigned TryParse accepts -n as 2^64-n (it is used for Content-Length); text after a zero byte is ignored; the greatest number is refused after an earlier error.", "quantifier": "all strings of the given form", "why_tests_cant": "The inputs that fail are rare ones: negative lengths, bytes outside of ASCII, empty strings, stale errno.", "anchors": ["trpc/util/string/string_helper.cc"]}
{"id": "C145", "title": "Variables with a buffer per thread lose no update", "statement": "Counter, Gauge, Averager, IntRecorder: the sum of all buffers, of what exited threads have left, and of the results of Reset is the sum of all updates (and of the initial values that were put in), at any time and with threads that come and go. GetValue returns exactly that when there are no updates meanwhile and no thread is just exiting; with updates that are not negative it is between the sums at its start and its end. What an exited thread has added stays. With Reset this holds for the variables whose updates are atomic (Averager, IntRecorder), not for Counter and Gauge.", "quantifier": "all interleavings of any number of threads that update, exit, read and reset", "why_tests_cant": "Threads that exit while another one reads; concurrent Reset; the order of the locks of the variable and the thread-local arrays.", "anchors": ["trpc/tvar/common/write_mostly.h", "trpc/tvar/common/atomic_type.h", "trpc/tvar/basic_ops/reducer.h", "trpc/tvar/basic_ops/recorder.h", "trpc/util/thread/thread_local.h", "trpc/util/thread/internal/object_array.h"]}
{"id": "C146", "title": "Variables are right with an initial value, while threads exit, and after Reset", "statement": "A Counter with an initial value would start from it, never go back, and Reset would take what was added exactly once. Refuted: the initial value is counted once more for every thread that has written; GetValue misses what a thread has added between its deregistration and the destruction of its buffer, so that a counter goes back; Reset of a Counter or Gauge is undone by an update that has loaded the value before, and the results add up to more than all updates.", "quantifier": "all values and initial values", "why_tests_cant": "The first needs an initial value that is not zero and several threads; the others need one interleaving.", "anchors": ["trpc/tvar/common/write_mostly.h", "trpc/tvar/common/atomic_type.h", "trpc/tvar/basic_ops/reducer.h"]}
{"id": "C147", "title": "The packed number and sum of an IntRecorder are exact", "statement": "For any sequence of values of one thread, the number and the sum of those that were merged and of those in the packed 64-bit buffer are the number and the sum of all values, each cut to the range of an int; the 20 bits of the number and the 44 bits of the signed sum never overflow, and negative sums are read back with their sign.", "quantifier": "all 64-bit contents of the buffer and all values, sequences of any length", "why_tests_cant": "Overflow of the 44-bit sum needs thousands of extreme values, of the 20-bit number a million; the sign bit in the middle of the word.", "anchors": ["trpc/tvar/basic_ops/recorder.h"]}
{"id": "C148", "title": "Windows cover the last seconds", "statement": "GetValue of a window of w seconds is nothing for w <= 0 or with one sample; otherwise the difference of the last sample and that of w samples ago (or without an inverse all of the last w samples together), and the time between; if the window has got its size less than w samples ago, of as many samples at least. No assertion fails, whatever was done before. SetWindowSize only enlarges, up to 3600.", "quantifier": "all sequences of samples and changes of the size, all types of values and operations", "why_tests_cant": "The ring buffer grows while it is full; windows of different sizes share one sampler.", "anchors": ["trpc/tvar/common/sampler.h", "trpc/tvar/compound_ops/window.h"]}
{"id": "C149", "title": "Series hold the last minute, hour, day and month", "statement": "After any number of values, one per second: the seconds are the last 60, the newest first; the minutes are those of the last 60 complete minutes, each combined of its 60 seconds in order; the hours the last 24, each of its 60 minutes; the days the last 30, each of its 24 hours; zero where there is none yet.", "quantifier": "all sequences of values of any length, all operations", "why_tests_cant": "A month has 2.6 million values; wrap-around of four rings at different times.", "anchors": ["trpc/tvar/common/series.h"]}
{"id": "C150", "title": "GetSeries may be called while values are appended", "statement": "GetSeries would read a consistent state under the mutex and release it once. Refuted: it unlocks the mutex itself and the scoped_lock unlocks it again, so that each call unlocks a mutex that it does not own, which is undefined; if it just unlocks, two threads append at the same time; the values are read without the mutex.", "quantifier": "all interleavings of readers and writers", "why_tests_cant": "An unlock of a free mutex mostly goes unnoticed.", "anchors": ["trpc/tvar/common/series.h"]}
{"id": "C151", "title": "Latencies of a percentile variable are not lost", "statement": "For any number of threads that record latencies and exit, and Resets at any time: whatever the random draws, no assertion fails; every recorded latency is in exactly one result of Reset or still in the variable, except for those of a full interval that a Reset finds in the buffer of a thread which has just merged it (they are counted once more). A result has the exact number of its latencies in every interval (2^i, 2^(i+1)], and samples of them, none more often than it was recorded, all of them up to 254.", "quantifier": "all interleavings, all latencies with a defined interval, all random draws", "why_tests_cant": "Random draws in the merge; the writer drops its own mutex to take that of the variable.", "anchors": ["trpc/tvar/common/percentile.h", "trpc/tvar/common/percentile.cc", "trpc/tvar/common/op_util.h", "trpc/tvar/common/write_mostly.h"]}
{"id": "C152", "title": "Latencies of a percentile variable are counted once", "statement": "Every 32-bit latency would be put into its interval, and be counted once. Refuted: GetIntervalIndex negates INT_MIN for 2^31 + 2^k, which is undefined; a Reset between GlobalValue::Unlock and the removal of the full interval counts its latencies twice (60 after 30 updates).", "quantifier": "all latencies, all interleavings", "why_tests_cant": "Needs a Reset in the few instructions between two mutexes, once in 30 updates of an interval.", "anchors": ["trpc/tvar/common/percentile.cc", "trpc/tvar/common/op_util.h"]}
{"id": "C153", "title": "LatencyPercentile is the exact one, or in the same interval", "statement": "For a window of any results of Reset and any ratio p/q, whatever the random draws, LatencyPercentile returns without failing an assertion; 0 if there are no latencies. If no interval has more than 254 latencies in a sample and 1022 in the window, it is the latency with rank ceil(ratio * number), at most number. For any window of at most 1022 samples it is a latency of the window in the same interval as that of this rank, hence less than twice it and more than half of it unless both are at most 2.", "quantifier": "all windows, ratios and random draws", "why_tests_cant": "The result is random; the error is bounded only by the structure of the intervals.", "anchors": ["trpc/tvar/common/percentile.h", "trpc/tvar/compound_ops/latency_recorder.cc"]}
{"id": "C154", "title": "Percentiles of any window and after more merges", "statement": "GetNumber would return a recorded latency for any window, and after a further Merge the right one. Refuted: with more than 1022 samples in a window all latencies of an interval may be dropped, and 0 is returned; an interval that was sorted once is not sorted again after a Merge (not reached by LatencyRecorder, which combines into a new group each time).", "quantifier": "all values", "why_tests_cant": "The first needs an hour and an improbable draw, the second a use that the tests do not have.", "anchors": ["trpc/tvar/common/percentile.h"]}
{"id": "C155", "title": "Exposed variables are found under their paths", "statement": "For any sequence of FindOrCreate, Add to any group, and ends of handles: TryGet of a path gives the variable exposed under it, with the rest of the path; a group is dumped; nothing else is found. Add of a path of names is refused if a name on the way is a variable, or the last name is a variable or a group; otherwise the variable is there and all others stay. No assertion fails; when a handle ends, the variable is not found any more and its path can be used again. A path of an URL below /cmds/var fails no assertion.", "quantifier": "all sequences of calls, all paths", "why_tests_cant": "All forms of paths with escaped slashes, and all orders of calls.", "anchors": ["trpc/tvar/common/tvar_group.h", "trpc/tvar/common/tvar_group.cc", "trpc/admin/stats_handler.cc"]}
{"id": "C156", "title": "Exposed variables: any path that is accepted, and names of groups", "statement": "A path that passes the checks would be one under which a variable is found, and a path that no variable uses could be exposed. Refuted: FindOrCreate of an empty path passes the check and throws; a variable exposed under an empty name is accepted and found under no path; groups are never removed, so that after a/b is gone a is still refused; the URL /cmds/var itself takes the last character of an empty string.", "quantifier": "all paths", "why_tests_cant": "The tests expose names that are not empty and do not reuse names of groups.", "anchors": ["trpc/tvar/common/tvar_group.cc", "trpc/admin/stats_handler.cc", "trpc/admin/admin_service.cc"]}
{"id": "C157", "title": "Objects of the object pool have one owner", "statement": "For the default object pool with any number of threads that start and end, any interleaving, and objects given back on any thread: New never returns an object again before Delete; an object that somebody has is in no free list; none gets lost, not even when threads end; the pool exceeds its limit by less than one chunk (1024 objects), single objects come from the system only at the limit (or without memory for a chunk), and all of the pool can be handed out. No null pointer is followed.", "quantifier": "all interleavings, any number of threads, any limit", "why_tests_cant": "Objects move between threads in lists of 32; a double hand-out needs particular interleavings.", "anchors": ["trpc/util/object_pool/global.h", "trpc/util/object_pool/object_pool.h"]}
{"id": "C158", "title": "Objects of the shared-nothing object pool go back to their thread", "statement": "For the object pool with one pool for each thread, any number of threads, any interleaving of New, Delete on the same and on other threads (with its compare-and-swap loop) and of threads that end: New never returns an object again before Delete; an object that somebody has is in no free list; none gets lost; each list of a thread has objects of its own chunks only; after Delete at most max_free_num_ objects are at hand; New takes objects back from the chunks until it has goal_num_ or there are none. When a thread ends, each chunk of which no object is handed out, being given back or in the list of those given back by other threads goes back to the system, once, and no chunk with a handed-out object does. Nothing undefined happens as long as there is memory and no thread has ended.", "quantifier": "all interleavings, any number of threads, any chunk sizes", "why_tests_cant": "Lists are shared without locks; a lost or doubled object needs particular interleavings.", "anchors": ["trpc/util/object_pool/shared_nothing.h"]}
{"id": "C159", "title": "The shared-nothing object pool survives the end of threads and of memory", "statement": "An object may be given back after the thread that made it has ended, and New returns a null pointer if there is no memory. (Both are violated: Delete uses the pool of the ended thread, and New writes into the null pointer.)", "quantifier": "all reachable states", "why_tests_cant": "Needs a thread that ends before its objects are given back, or a system without memory.", "anchors": ["trpc/util/object_pool/shared_nothing.h"]}
{"id": "C160", "title": "Cookies are read as they were set", "statement": "HttpCookie::ToString of a cookie whose fields have no semicolons and quotes, read as Set-Cookie is read (parts between semicolons, name before the first equals sign, values with or without quotes), gives its name and value and exactly the attributes that were set, in order, for both versions (SameSite other than Lax); without name or value nothing is written. A cookie of version 1 is made again by the constructor from what was read, whatever the order of the map.", "quantifier": "all cookies, all orders of the map", "why_tests_cant": "Eight optional attributes in two formats; the order of an unordered_map is not chosen by a test.", "anchors": ["trpc/util/http/http_cookie.cc", "trpc/util/http/http_cookie.h"]}
{"id": "C161", "title": "Cookies keep SameSite=Lax, their age, and other attributes' values apart", "statement": "A cookie with SameSite=Lax is written with this attribute alone, the age of a cookie read from expires is the one that was written, and a value does not set attributes. (Violated: Lax is followed by Strict; the age is the difference of the date to the steady clock; values are written as they are.)", "quantifier": "all cookies", "why_tests_cant": "The age depends on the clock; tests compare the text of other attributes.", "anchors": ["trpc/util/http/http_cookie.cc"]}
{"id": "C162", "title": "The intrusive doubly linked list is a list", "statement": "For any number of lists that share memory: push_front and push_back add an entry that is in no list, pop_front and pop_back return and remove the first and last entry (a null pointer if there is none), erase removes an entry of the list and says whether it did, splice moves all entries of another list to the end, swap exchanges the entries of two different lists; all other lists, and entries in none, stay as they were. Iteration visits the entries in order, size() is their number, and an entry points to itself exactly if it is in no list.", "quantifier": "all memories made of such lists, all operations", "why_tests_cant": "A wrong pointer shows only in later operations in the other direction; tests go through few shapes.", "anchors": ["trpc/util/internal/doubly_linked_list.h"]}
{"id": "C163", "title": "The intrusive singly linked list is a list", "statement": "For any number of lists that share memory: push_front and push_back add an entry that is in no list, pop_front returns and removes the first entry (on an empty list it uses a null pointer), splice moves all entries of a different list to the end, swap exchanges two lists; no other operation uses a null pointer and all other lists stay as they were. Iteration visits the entries in order and ends, front() and back() are the first and the last entry, and size() is the number of entries.", "quantifier": "all memories made of such lists, all operations", "why_tests_cant": "A stale tail pointer shows only in a later push_back or splice; tests go through few sequences.", "anchors": ["trpc/util/internal/singly_linked_list.h"]}
{"id": "C164", "title": "Allocated indices are distinct and as small as possible", "statement": "If callers only free indices that they hold: IndexAlloc::Next returns no index in use; each index is smaller than the largest number of indices that were in use at the same time; and an index that was never returned before is returned only if all others are in use.", "quantifier": "all sequences of calls of Next and Free, from any threads", "why_tests_cant": "Fiber-local variables use the indices as slots, two with one index would share a slot; a test sees few orders of creation and destruction.", "anchors": ["trpc/util/internal/index_alloc.h", "trpc/util/internal/index_alloc.cc"]}
{"id": "C165", "title": "A processor configuration is taken as written and threads get its processors in turn", "statement": "For a configuration made of numbers and ranges a-b with a <= b < 4294967295, BindCoreManager::ParseBindCoreGroup returns true exactly if it names at least one processor, none twice, and only processors of the thread; the group is then exactly the named ones in increasing order, and empty otherwise. After that, the n-th call of BindCore (n < 2^31, setting the affinity works) binds to the processor number n modulo the size of the group, and no call ever binds to one outside of the group (without a group: outside of those of the thread).", "quantifier": "all such configurations, all sets of processors, all numbers of calls", "why_tests_cant": "Tests run on one machine with its processors and a few configurations.", "anchors": ["trpc/util/thread/thread_helper.cc", "trpc/util/bind_core_manager.cc"]}
{"id": "C166", "title": "A bad processor configuration is refused", "statement": "ParseBindCoreGroup returns false for every configuration that it cannot use. Violated: a part that is not a number or a range in order aborts the program, although the caller handles a refusal, and a range that ends with 4294967295 makes the loop go on for ever.", "quantifier": "all configurations", "why_tests_cant": "The tests have no malformed configuration, and a loop without an end cannot be tested.", "anchors": ["trpc/util/thread/thread_helper.cc"]}
{"id": "C167", "title": "Type-erased pointers own what they are given", "statement": "For programs that construct, move, assign (also to itself), reset, leak and destroy ErasedPtr objects and give each pointer to one constructor only: no two objects hold the same pointer; a pointer is deleted at most once, with the deleter it came with, not while an object holds it and never after Leak; when all objects are destroyed each pointer was deleted or leaked. A moved-from object is empty, and GetDeleter still returns the deleter after Leak.", "quantifier": "all such programs", "why_tests_cant": "Tests count the destructions in a few programs.", "anchors": ["trpc/util/erased_ptr.h"]}
{"id": "C168", "title": "The fixed-size pool hands out separate blocks until all are in use", "statement": "For programs that release and write only blocks they hold, whatever they write: FixedMemoryPool::Allocate returns false exactly if all item_num blocks are held; held blocks lie in the memory of the pool, are at least item_mem_size long, are at a multiple of 8 from its beginning and do not overlap; a new block has its first word set to zero; Deallocate of a held block returns true, and of an address before the pool or more than its length behind its beginning returns false.", "quantifier": "all such programs, all numbers and sizes of blocks", "why_tests_cant": "The list of free blocks is in the blocks, so a wrong link shows only after particular orders of releases.", "anchors": ["trpc/util/container/fixed_arena_allocator.h"]}
{"id": "C169", "title": "The fixed-size pool refuses every address outside of it", "statement": "FixedMemoryPool::Deallocate returns false for each address that is not in the pool, so that FixedArenaAllocator gives it back to std::allocator. Violated: the address right behind the pool, which another allocation may have, is taken if a block is held, and Deallocate writes to it.", "quantifier": "all states of the pool", "why_tests_cant": "It depends on where the system allocator puts the next block.", "anchors": ["trpc/util/container/fixed_arena_allocator.h"]}
