{"id": "C01", "title": "mutex: mutual exclusion", "statement": "At every moment at most one task holds the unique_lock obtained from a koios::mutex by co_await acquire() or a successful co_await try_acquire(): between a grant and the matching unlock no other grant is delivered.", "quantifier": "every number of tasks, every program of acquire/try_acquire/unlock calls per task, every interleaving of the atomic operations on any number of threads, and any dequeue order (or spurious emptiness) of the waiter queue", "why_tests_cant": "A unit test drives one or a few thread schedules; the failing interleavings are windows of a few instructions that no test can force or enumerate.", "anchors": ["include/koios/coroutine_mutex.h: mutex::hold_this_immediately, mutex::release, mutex::add_waiting", "src/coroutine_mutex.cc: mutex::try_wake_up_next", "include/koios/acq_lk_aw.h: acq_lk_aw, try_acq_lk_aw"]}
{"id": "C02", "title": "mutex: no lost wake-up", "statement": "A task that suspended in co_await acquire() on a koios::mutex is never left asleep while the mutex is free and no other task is inside an acquire/unlock call: when all calls in progress have finished, either somebody holds the mutex (or is being resumed as its holder) or nobody is waiting.", "quantifier": "every number of tasks and every interleaving of acquire and unlock", "why_tests_cant": "A unit test drives one or a few thread schedules; the failing interleavings are windows of a few instructions that no test can force or enumerate.", "anchors": ["include/koios/acq_lk_aw.h: acq_lk_aw::await_suspend", "include/koios/coroutine_mutex.h: mutex::release", "src/coroutine_mutex.cc: mutex::try_wake_up_next"]}
{"id": "C03", "title": "mutex: each acquire is granted at most once, each suspended task woken at most once", "statement": "For every co_await acquire() there is at most one grant; a suspended acquirer is resumed exactly once per suspension and only with the lock handed to it; try_acquire never suspends and answers nullopt or a lock.", "quantifier": "every interleaving and number of tasks", "why_tests_cant": "A unit test drives one or a few thread schedules; the failing interleavings are windows of a few instructions that no test can force or enumerate.", "anchors": ["src/coroutine_mutex.cc", "include/koios/acq_lk_aw.h"]}
{"id": "C04", "title": "unique_lock/shared_lock: every acquisition is released exactly once", "statement": "Through any sequence of move construction, move assignment, unlock(), re-acquisition through lock()/try_lock(), and destruction of lock objects, every acquisition represented by a lock object is released exactly once, and never while another lock object still claims it.", "quantifier": "every finite sequence of operations over any number of lock objects and mutexes", "why_tests_cant": "A unit test samples finitely many inputs; the claim ranges over an unbounded set of inputs/histories.", "anchors": ["include/koios/lock_base.h: lock_base", "include/koios/unique_lock.h: unique_lock", "include/koios/shared_lock.h: shared_lock"]}
{"id": "C05", "title": "shared_mutex: writer exclusion", "statement": "While a task holds the unique_lock of a koios::shared_mutex, no other task holds a unique_lock or shared_lock of it, except a shared_lock the writer itself obtained (shared-during-unique).", "quantifier": "every history of acquire/acquire_shared/unlock calls by any number of tasks", "why_tests_cant": "A unit test drives one or a few thread schedules; the failing interleavings are windows of a few instructions that no test can force or enumerate.", "anchors": ["src/coroutine_shared_mutex.cc", "include/koios/acq_lk_aw.h: acq_shr_lk_aw"]}
{"id": "C06", "title": "shared_mutex: no starvation at quiescence", "statement": "When every granted lock of a shared_mutex has been released and no call is in progress, nobody is still suspended waiting for it.", "quantifier": "every history of acquire/acquire_shared/unlock calls by any number of tasks", "why_tests_cant": "A unit test drives one or a few thread schedules; the failing interleavings are windows of a few instructions that no test can force or enumerate.", "anchors": ["src/coroutine_shared_mutex.cc: release, try_wake_up_next_impl, try_wake_up_shr_impl"]}
{"id": "C07", "title": "shared_mutex: readers share, and uncontended lock/unlock returns to free", "statement": "As long as every shared_lock was granted without suspension and no writer asked, any number of readers hold simultaneously, and after the last of them unlocks the mutex is free again (a writer asking next is granted immediately).", "quantifier": "every number of readers and every order of their acquisitions and releases", "why_tests_cant": "A unit test samples finitely many inputs; the claim ranges over an unbounded set of inputs/histories.", "anchors": ["src/coroutine_shared_mutex.cc: hold_this_shr_immediately, release"]}
{"id": "C08", "title": "future/promise: the awaiting task is woken exactly once and sees the value", "statement": "For a co_awaited future, whatever the interleaving between the producer storing its value (or exception) and the consumer's ready test and suspension, the consumer is resumed exactly once, only after the value is stored, and obtains that value; it is never left suspended once both sides have finished.", "quantifier": "every interleaving of producer and consumer steps", "why_tests_cant": "A unit test drives one or a few thread schedules; the failing interleavings are windows of a few instructions that no test can force or enumerate.", "anchors": ["include/koios/future.h: shared_state, future, promise", "include/koios/future_aw.h: get_result_aw"]}
{"id": "C09", "title": "future: at-most-once retrieval and errors", "statement": "get_nonblk() on a future returns the produced value exactly once if it is there, throws out_of_range when it is not there yet, logic_error when it was already taken, and rethrows the exception if the task failed; the value obtained is the one the task returned.", "quantifier": "every sequence of operations on promise and future", "why_tests_cant": "A unit test samples finitely many inputs; the claim ranges over an unbounded set of inputs/histories.", "anchors": ["include/koios/future.h: future::get_nonblk, future::ready"]}
{"id": "C10", "title": "future::get() terminates after the value is stored", "statement": "A blocking get() whose promise is (or will be) fulfilled returns that value, whether or not ready() has been called before and whatever spurious wake-ups the condition variable delivers.", "quantifier": "every sequence of ready()/get() calls, every schedule, every spurious wake-up", "why_tests_cant": "A unit test drives one or a few thread schedules; the failing interleavings are windows of a few instructions that no test can force or enumerate.", "anchors": ["include/koios/future.h: future::get, future::ready, shared_state::wait_util_has_value"]}
{"id": "C11", "title": "task_on_the_fly: a coroutine frame is resumed or destroyed exactly once", "statement": "Along any sequence of move construction, move assignment, invocation and destruction of task_on_the_fly objects (none invoked after being moved from), each coroutine frame handed to the library is either resumed or destroyed, never both, never twice, and none is leaked once all objects are gone.", "quantifier": "every finite sequence of operations over any number of handle objects", "why_tests_cant": "A unit test samples finitely many inputs; the claim ranges over an unbounded set of inputs/histories.", "anchors": ["include/koios/task_on_the_fly.h: task_on_the_fly"]}
{"id": "C12", "title": "task_release_once: one winner", "statement": "If several threads race to release() the same task_release_once, exactly one of them obtains the task and all others obtain nothing.", "quantifier": "every number of threads and every interleaving", "why_tests_cant": "A unit test drives one or a few thread schedules; the failing interleavings are windows of a few instructions that no test can force or enumerate.", "anchors": ["include/koios/task_release_once.h: task_release_once::release"]}
{"id": "C13", "title": "task: a task body runs exactly once", "statement": "A task is started at most once; a lazy task that is run, or an eager task, delivers its result to the future exactly once; a lazy task dropped before being run never runs and its frame is destroyed; asking for the future of an already scheduled lazy task, or awaiting after the future was taken, raises logic_error instead of starting it again.", "quantifier": "every sequence of run/run_on/run_and_get_future/get_future/co_await/destroy calls on a task object", "why_tests_cant": "A unit test samples finitely many inputs; the claim ranges over an unbounded set of inputs/histories.", "anchors": ["include/koios/task.h: _type, run_on, run_and_get_future_on, get_future, operator co_await"]}
{"id": "C14", "title": "task: exceptions propagate to the consumer", "statement": "The exception leaving a task body is the one raised at the consumer that awaits it, through any depth of task-awaits-task nesting; without an exception the consumer obtains the returned value.", "quantifier": "every nesting depth and every body", "why_tests_cant": "A unit test samples finitely many inputs; the claim ranges over an unbounded set of inputs/histories.", "anchors": ["include/koios/return_value_or_void.h", "include/koios/future.h: promise, future::get_nonblk", "include/koios/future_aw.h"]}
{"id": "C15", "title": "thread_pool: every enqueued task is executed at most once and none is lost", "statement": "For every interleaving of enqueues, consumers and stealing, each enqueued task is executed at most once, only after being enqueued, and at any time each not yet executed task is still queued (or was discarded by quick_stop).", "quantifier": "every number of workers, every sequence of enqueues, every schedule", "why_tests_cant": "A unit test drives one or a few thread schedules; the failing interleavings are windows of a few instructions that no test can force or enumerate.", "anchors": ["src/thread_pool.cc: thread_pool::consumer", "include/koios/thread_pool.h", "include/koios/work_stealing_queue.h"]}
{"id": "C16", "title": "thread_pool: stop() drains", "statement": "When stop() (not quick_stop()) has joined all workers, every task enqueued before the stop and every task enqueued by a task running on the pool has been executed exactly once.", "quantifier": "every number of workers and tasks, tasks that enqueue further tasks, every schedule", "why_tests_cant": "A unit test drives one or a few thread schedules; the failing interleavings are windows of a few instructions that no test can force or enumerate.", "anchors": ["src/thread_pool.cc: thread_pool::stop, thread_pool::done, thread_pool::consumer"]}
{"id": "C17", "title": "thread_pool: a throwing task does not kill its worker", "statement": "An exception leaving a task does not terminate the worker: subsequent tasks are executed and stop() still drains.", "quantifier": "every set of throwing tasks and every schedule", "why_tests_cant": "A unit test samples finitely many inputs; the claim ranges over an unbounded set of inputs/histories.", "anchors": ["src/thread_pool.cc: thread_pool::consumer"]}
{"id": "C18", "title": "thread_pool: quick_stop refuses later enqueues and runs nothing new", "statement": "Once quick_stop() has taken effect each worker starts at most one further task (the one it was already fetching), a worker that is running a task starts none, and later enqueues are refused by thread_pool_stopped_exception.", "quantifier": "every schedule", "why_tests_cant": "A unit test drives one or a few thread schedules; the failing interleavings are windows of a few instructions that no test can force or enumerate.", "anchors": ["src/thread_pool.cc: thread_pool::quick_stop, thread_pool::enqueue_no_future", "include/koios/task_scheduler.h: enqueue"]}
{"id": "C19", "title": "work stealing: adding a consumer never loses queued tasks", "statement": "Concurrent add_consumer calls (which replace the thread->queue map by an extended copy) never lose a task already queued or being queued through an older snapshot, and never drop a consumer's queue.", "quantifier": "every interleaving of add_consumer/enqueue/dequeue with stale snapshots", "why_tests_cant": "A unit test drives one or a few thread schedules; the failing interleavings are windows of a few instructions that no test can force or enumerate.", "anchors": ["include/koios/work_stealing_queue.h: work_stealing_queue"]}
{"id": "C20", "title": "work stealing: a worker finds a task whenever one exists", "statement": "A dequeue by a registered worker on a quiescent queue returns a task iff some queue is non-empty, its own queue first, and size() equals the number of queued tasks.", "quantifier": "every queue content and every set of workers", "why_tests_cant": "A unit test samples finitely many inputs; the claim ranges over an unbounded set of inputs/histories.", "anchors": ["include/koios/work_stealing_queue.h: dequeue, enqueue, size"]}
{"id": "C21", "title": "std_queue_wrapper: linearizable FIFO", "statement": "std_queue_wrapper behaves as a FIFO queue: the dequeued sequence is a prefix of the enqueued sequence, in order.", "quantifier": "every sequence of enqueue/dequeue", "why_tests_cant": "A unit test samples finitely many inputs; the claim ranges over an unbounded set of inputs/histories.", "anchors": ["include/koios/std_queue_wrapper.h"]}
{"id": "C22", "title": "invocable_queue_wrapper: the wrapped queue is destroyed exactly once", "statement": "Through any sequence of moves and destructions of wrapper objects each wrapped queue is destroyed exactly once and never used after.", "quantifier": "every finite sequence of operations", "why_tests_cant": "A unit test samples finitely many inputs; the claim ranges over an unbounded set of inputs/histories.", "anchors": ["include/koios/invocable_queue_wrapper.h"]}
{"id": "C23", "title": "wait_group: waiters resume exactly when the count reaches zero", "statement": "A task awaiting wait_group::wait() is resumed only when the count is zero, at most once, and is resumed whenever the count reaches zero: it is never left suspended with the count at zero and no call in progress.", "quantifier": "every number of tasks, every sequence of add/done(n)/wait, every interleaving", "why_tests_cant": "A unit test drives one or a few thread schedules; the failing interleavings are windows of a few instructions that no test can force or enumerate.", "anchors": ["include/koios/wait_group.h: wait_group::done, wait_group::await_ready", "include/koios/async_awaiting_hub.h"]}
{"id": "C24", "title": "wait_group_guard: every guard subtracts exactly one", "statement": "Each wait_group_guard constructed on a wait_group adds one and eventually subtracts one exactly once across any sequence of moves, assignments and destructions.", "quantifier": "every finite sequence of guard operations", "why_tests_cant": "A unit test samples finitely many inputs; the claim ranges over an unbounded set of inputs/histories.", "anchors": ["include/koios/wait_group.h: wait_group_guard"]}
{"id": "C25", "title": "async_awaiting_hub: wake-ups are neither duplicated nor invented", "statement": "may_wake_next wakes at most one registered waiter and reports whether it did; may_wake_all wakes every waiter registered before it exactly once.", "quantifier": "every sequence of add_awaiting/may_wake_next/may_wake_all", "why_tests_cant": "A unit test samples finitely many inputs; the claim ranges over an unbounded set of inputs/histories.", "anchors": ["include/koios/async_awaiting_hub.h"]}
{"id": "C26", "title": "generator: consumer sees exactly the yielded sequence", "statement": "Repeatedly awaiting next_value_async() yields exactly the values the generator body co_yields, in order, each once, then nullopt forever; the producer never runs ahead of the demand.", "quantifier": "every generator body (finite yield sequence), every number of calls, every interleaving", "why_tests_cant": "A unit test samples finitely many inputs; the claim ranges over an unbounded set of inputs/histories.", "anchors": ["include/koios/generator.h", "include/koios/generator_shared_state.h"]}
{"id": "C27", "title": "generator: an exception in the body reaches the consumer", "statement": "If a generator body throws, the consumer awaiting next_value_async() gets the exception (or at least is resumed).", "quantifier": "every body that throws after any number of yields", "why_tests_cant": "A unit test samples finitely many inputs; the claim ranges over an unbounded set of inputs/histories.", "anchors": ["include/koios/generator.h: unhandled_exception"]}
{"id": "C28", "title": "generator adaptors: unique and merge", "statement": "unique(g) yields the input with consecutive duplicates removed; merge(a,b) of sorted inputs is a sorted permutation of their concatenation and loses nothing even on ties and uneven lengths; to<vector> collects exactly the yielded values.", "quantifier": "every pair of finite input sequences and every comparison", "why_tests_cant": "A unit test samples finitely many inputs; the claim ranges over an unbounded set of inputs/histories.", "anchors": ["include/koios/generator.h: unique_impl, merge, to"]}
{"id": "C29", "title": "timer: never early, at most once, every due event fires", "statement": "An event added to the timer with deadline tp is resumed at most once and never at a time before tp; when the loop runs at time now, every pending event with tp <= now is resumed in that same pass; events fire in deadline order within a pass.", "quantifier": "every sequence of add_event/do_occured/clock advance", "why_tests_cant": "A unit test samples finitely many inputs; the claim ranges over an unbounded set of inputs/histories.", "anchors": ["src/timer.cc: timer_event_loop_impl::do_occured_nonblk, add_event_impl", "include/koios/timer.h"]}
{"id": "C30", "title": "timer: pending events after stop", "statement": "After stop() of the runtime's timer loop, what happens to not yet expired sleepers: none is resumed by the timer any more, and every one of them is destroyed with the loop, not leaked or resumed twice.", "quantifier": "every set of pending events", "why_tests_cant": "A unit test samples finitely many inputs; the claim ranges over an unbounded set of inputs/histories.", "anchors": ["src/timer.cc", "include/koios/timer.h"]}
{"id": "C31", "title": "timer: add_event from any thread", "statement": "sleep_for/sleep_until may be awaited from any thread of the runtime without undefined behaviour.", "quantifier": "every calling thread, registered as a worker or not", "why_tests_cant": "A unit test drives one or a few thread schedules; the failing interleavings are windows of a few instructions that no test can force or enumerate.", "anchors": ["src/timer.cc: timer_event_loop::cur_thread_ptr"]}
{"id": "C32", "title": "sleep_for/sleep_until: never resumes early", "statement": "sleep_until(tp) and sleep_for(d) resume the task no earlier than requested; a zero, negative or past deadline does not suspend forever.", "quantifier": "every duration/deadline, every clock value", "why_tests_cant": "A unit test samples finitely many inputs; the claim ranges over an unbounded set of inputs/histories.", "anchors": ["include/koios/this_task.h"]}
{"id": "C33", "title": "event loop: a worker never oversleeps a pending deadline", "statement": "The time a worker waits when idle is at most the smallest of the loops' max_sleep_duration (and 500ms): it never sleeps past the earliest timer deadline of its own thread.", "quantifier": "every set of registered loops and pending deadlines", "why_tests_cant": "A unit test samples finitely many inputs; the claim ranges over an unbounded set of inputs/histories.", "anchors": ["include/koios/event_loop.h: max_sleep_duration, do_occured_nonblk", "src/thread_pool.cc: consumer", "src/timer.cc: max_sleep_duration_impl"]}
{"id": "C34", "title": "user_event_loops: each loop prepared exactly once per thread and polled on every pass", "statement": "Under any order of add_loop and worker-thread preparation, each user loop's thread_specific_preparation is called exactly once for each worker thread, and every registered loop is polled by each pass until quick_stop.", "quantifier": "every interleaving of add_loop / thread preparation calls", "why_tests_cant": "A unit test drives one or a few thread schedules; the failing interleavings are windows of a few instructions that no test can force or enumerate.", "anchors": ["src/user_event_loop.cc", "include/koios/user_event_loops.h"]}
{"id": "C35", "title": "io_uring loop: a batch resumes its owner once, with all its completions", "statement": "A task that awaits an op batch of n SQEs is resumed at most once, after exactly its own n completions were recorded and with exactly these results, by the first poll that begins when its completions are in the completion ring (whether they get there: C98), whatever the order and interleaving of completions of other batches.", "quantifier": "every number of batches, sizes and completion orders", "why_tests_cant": "A unit test drives one or a few thread schedules; the failing interleavings are windows of a few instructions that no test can force or enumerate.", "anchors": ["src/iouring.cc: dealwith_cqe, add_event", "src/iouring_op_batch_execute_aw.cc"]}
{"id": "C36", "title": "io_uring loop: large batches", "statement": "Executing a batch never writes through a null SQE, whatever the number of operations queued in it.", "quantifier": "every batch size and ring occupancy", "why_tests_cant": "A unit test samples finitely many inputs; the claim ranges over an unbounded set of inputs/histories.", "anchors": ["src/iouring.cc: add_event"]}
{"id": "C37", "title": "io_uring loop: idle back-off is bounded", "statement": "The idle sleep proposed by the io_uring loop never exceeds 200 ms while operations are outstanding and is reset by a completion; it is zero-free/monotone in the number of consecutive misses.", "quantifier": "every number of consecutive polling misses", "why_tests_cant": "A unit test samples finitely many inputs; the claim ranges over an unbounded set of inputs/histories.", "anchors": ["src/iouring.cc: max_sleep_duration, shot_record"]}
{"id": "C38", "title": "op_batch: sequential execution order", "statement": "A batch submits its operations in the order they were queued, every operation but the last linked to its successor, with the timeout (if any) last and not linked onward, whatever the order of timeout() and prep calls.", "quantifier": "every sequence of prep/timeout calls", "why_tests_cant": "A unit test samples finitely many inputs; the claim ranges over an unbounded set of inputs/histories.", "anchors": ["include/koios/iouring_op_batch.h", "src/iouring_op_batch_rep.cc", "src/iouring_op_batch_execute_aw.cc"]}
{"id": "C39", "title": "op_batch: reuse after clear()", "statement": "After clear() a batch behaves like a fresh batch: executing it again resumes the task exactly after all its new operations completed and the results are those of the new operations.", "quantifier": "every sequence of executions separated by clear()", "why_tests_cant": "A unit test samples finitely many inputs; the claim ranges over an unbounded set of inputs/histories.", "anchors": ["include/koios/iouring_op_batch.h: clear", "include/koios/iouring_op_batch_rep.h"]}
{"id": "C40", "title": "op_batch: all_success and is_timeout report truthfully", "statement": "all_success() is true iff every user operation of the executed batch succeeded; is_timeout() is true iff the timeout expired before the operations completed.", "quantifier": "every result vector and every completion order", "why_tests_cant": "A unit test samples finitely many inputs; the claim ranges over an unbounded set of inputs/histories.", "anchors": ["include/koios/iouring_op_batch.h: all_success, is_timeout"]}
{"id": "C41", "title": "ioret: the error code is the kernel's", "statement": "For each completion, error_code() is success iff the result is non-negative and otherwise is exactly the errno the kernel reported (-res); nbytes_delivered() is the result when non-negative and 0 on error.", "quantifier": "every result value and every stale thread-local errno", "why_tests_cant": "A unit test samples finitely many inputs; the claim ranges over an unbounded set of inputs/histories.", "anchors": ["src/iouring_ioret.cc"]}
{"id": "C42", "title": "uring cancel operations cancel what they say", "statement": "cancel_all cancels all matching operations, cancel_first the first; an exception thrown by the uring layer carries the error code of the failed operation.", "quantifier": "every set of outstanding operations and every error", "why_tests_cant": "A unit test samples finitely many inputs; the claim ranges over an unbounded set of inputs/histories.", "anchors": ["src/iouring_op_functions.cc", "include/koios/exceptions.h: uring_exception"]}
{"id": "C43", "title": "append_all: the whole buffer is written, contiguously, exactly once", "statement": "When append_all returns success the file's new content is the old content followed by the whole buffer, for any pattern of short writes.", "quantifier": "every buffer, every initial file content, every pattern of short writes and errors", "why_tests_cant": "A unit test samples finitely many inputs; the claim ranges over an unbounded set of inputs/histories.", "anchors": ["src/iouring_awaitables.cc: append_all"]}
{"id": "C44", "title": "read_fill_buffer/recv_fill_buffer: bytes are placed contiguously in stream order", "statement": "After read_fill_buffer or recv_fill_buffer the filled prefix of the buffer equals the bytes of the stream/file from the start offset in order, no byte duplicated, skipped or written outside the buffer, for every chunking; success with a full buffer means every byte is delivered; the loop ends.", "quantifier": "every chunking of the stream by the kernel, timeouts and EOF", "why_tests_cant": "A unit test samples finitely many inputs; the claim ranges over an unbounded set of inputs/histories.", "anchors": ["src/iouring_awaitables.cc: recv_fill_buffer, read_fill_buffer, after_read_or_recv"]}
{"id": "C45", "title": "unique_file_state::append_async writes the buffer once", "statement": "append_async writes each byte of its buffer exactly once, in order, for any pattern of short writes.", "quantifier": "every buffer and every pattern of short writes", "why_tests_cant": "A unit test samples finitely many inputs; the claim ranges over an unbounded set of inputs/histories.", "anchors": ["src/unique_file_state.cc: append_async"]}
{"id": "C46", "title": "protobuf framing round-trips", "statement": "What send_pb_message puts on the wire is decoded by recv_pb_message to the same message; consecutive messages do not get mixed; a true return value means the complete frame was delivered.", "quantifier": "every message size, sequence of messages, and every pattern of short sends/recvs", "why_tests_cant": "A unit test samples finitely many inputs; the claim ranges over an unbounded set of inputs/histories.", "anchors": ["include/koios/iouring_protobuf.h"]}
{"id": "C47", "title": "expected: monadic laws and alternative safety", "statement": "expected::and_then obeys left identity, right identity and associativity, also for continuations that throw or return tasks; in a chain of and_then an error (or exception) ends the chain, no later continuation is called and the error arrives unchanged; value() succeeds iff the success alternative is held and error() iff the error one is, otherwise they throw; expected<void, E> behaves the same.", "quantifier": "every value, error and list of continuations, including failing and throwing ones", "why_tests_cant": "A unit test samples finitely many inputs; the claim ranges over an unbounded set of inputs/histories.", "anchors": ["include/koios/expected.h"]}
{"id": "C48", "title": "co_await_all: results in argument order", "statement": "co_await_all(f1..fn) resumes after all n futures are ready and returns the results in argument order whatever the completion order.", "quantifier": "every number of futures, every completion order", "why_tests_cant": "A unit test drives one or a few thread schedules; the failing interleavings are windows of a few instructions that no test can force or enumerate.", "anchors": ["include/koios/functional.h: co_await_all"]}
{"id": "C49", "title": "for_each: each element is processed exactly once, completion implies all processed", "statement": "for_each over a range calls the function exactly once per element (in parallel, says its documentation) and completes only after all the calls' tasks completed; for_each_dispatch_evenly assigns elements to workers so that loads differ by at most one; the _int variants do the same for integers.", "quantifier": "every range, every number of workers, every interleaving of concurrent calls", "why_tests_cant": "A unit test drives one or a few thread schedules; the failing interleavings are windows of a few instructions that no test can force or enumerate.", "anchors": ["include/koios/functional.h: for_each, for_each_dispatch_evenly, for_each_int"]}
{"id": "C50", "title": "dir_mutex: mutual exclusion across processes", "statement": "At most one holder of a dir_mutex on a directory at any time, across tasks, dir_mutex objects and processes.", "quantifier": "every interleaving of any number of objects/processes", "why_tests_cant": "A unit test drives one or a few thread schedules; the failing interleavings are windows of a few instructions that no test can force or enumerate.", "anchors": ["src/dir_mutex.cc"]}
{"id": "C51", "title": "dir_mutex: progress", "statement": "When all holders have unlocked and no caller is waiting, the lock file does not remain; a later acquirer gets the lock.", "quantifier": "every interleaving", "why_tests_cant": "A unit test drives one or a few thread schedules; the failing interleavings are windows of a few instructions that no test can force or enumerate.", "anchors": ["src/dir_mutex.cc"]}
{"id": "C52", "title": "mutex_monitor: registry equals live used mutexes", "statement": "A mutex is registered with the monitor at its first use exactly once and deregistered when destroyed: the registered set is always the set of live used mutexes.", "quantifier": "every history of construction/use/destruction", "why_tests_cant": "A unit test samples finitely many inputs; the claim ranges over an unbounded set of inputs/histories.", "anchors": ["src/mutex_monitor.cc", "src/coroutine_mutex.cc"]}
{"id": "C53", "title": "tcp_server: until_done_async after stop waits for the server loops", "statement": "until_done_async returns only when all accept loops of the server have exited; is_stop() is true only after stop was requested and the loops have exited.", "quantifier": "every interleaving of start/stop/until_done calls", "why_tests_cant": "A unit test drives one or a few thread schedules; the failing interleavings are windows of a few instructions that no test can force or enumerate.", "anchors": ["include/koios/tcp_server.h", "src/tcp_server.cc"]}
{"id": "C54", "title": "tcp_server address literal", "statement": "\"ip:port\"_tcp_s parses every valid address/port pair to that address and port, and rejects strings without a valid port.", "quantifier": "every string", "why_tests_cant": "A unit test samples finitely many inputs; the claim ranges over an unbounded set of inputs/histories.", "anchors": ["src/tcp_server.cc: operator\"\"_tcp_s"]}
{"id": "C55", "title": "event_loop/pool shutdown: no add_event accepted after stop", "statement": "After stop() is requested, add_event throws; no task handed to the loops is silently lost.", "quantifier": "every order of stop/add_event", "why_tests_cant": "A unit test drives one or a few thread schedules; the failing interleavings are windows of a few instructions that no test can force or enumerate.", "anchors": ["include/koios/event_loop.h"]}
{"id": "C56", "title": "local_thread_scheduler: run executes everything in FIFO order", "statement": "local_thread_scheduler executes every enqueued task exactly once, in FIFO order, including tasks enqueued by running tasks, before run() returns.", "quantifier": "every set of tasks, including tasks spawning tasks", "why_tests_cant": "A unit test samples finitely many inputs; the claim ranges over an unbounded set of inputs/histories.", "anchors": ["include/koios/local_thread_scheduler.h"]}
{"id": "C57", "title": "task_scheduler: wake-ups go back to the suspending thread, invalid handles are ignored", "statement": "Waking a waiting_handle enqueues the coroutine on the worker queue of the thread where it suspended; enqueueing an empty handle has no effect.", "quantifier": "every thread and handle", "why_tests_cant": "A unit test samples finitely many inputs; the claim ranges over an unbounded set of inputs/histories.", "anchors": ["src/waiting_handle.cc", "include/koios/task_scheduler.h"]}
{"id": "C58", "title": "tcp_util deplete: send buffer depletion wait respects its deadline", "statement": "deplete_send_buffer returns true only if the socket's send queue was observed empty, reports the ioctl error otherwise, checks at least once, and never starts another 1 ms sleep that would reach the deadline.", "quantifier": "every sequence of observed queue lengths and clock values", "why_tests_cant": "A unit test samples finitely many inputs; the claim ranges over an unbounded set of inputs/histories.", "anchors": ["src/tcp_util.cc"]}
{"id": "C59", "title": "shared_mutex: awaiters are not used after the coroutine may have been resumed", "statement": "co_await acquire_shared() never touches its awaiter (which lives in the coroutine frame) after the coroutine was made available to another thread that may resume and finish it.", "quantifier": "every interleaving of any number of tasks", "why_tests_cant": "A unit test drives one or a few thread schedules; the failing interleavings are windows of a few instructions that no test can force or enumerate.", "anchors": ["include/koios/acq_lk_aw.h: acq_shr_lk_aw::await_suspend", "src/coroutine_shared_mutex.cc: add_shr_waiting"]}
{"id": "C60", "title": "locks: owns_lock() tells the truth", "statement": "owns_lock() of a unique_lock/shared_lock is true iff that object is responsible for an acquisition that has not been released yet.", "quantifier": "every finite sequence of operations on any number of lock objects", "why_tests_cant": "A unit test samples finitely many inputs; the claim ranges over an unbounded set of inputs/histories.", "anchors": ["include/koios/lock_base.h: lock_base::owns_lock"]}
{"id": "C61", "title": "mutex: an uncontended request is granted at once", "statement": "try_acquire() answers nullopt, and acquire() suspends, only if at the time of the request some task held the mutex, was being resumed as its owner or was inside unlock(); otherwise the lock is granted without suspension.", "quantifier": "every number of tasks, every interleaving, every dequeue order", "why_tests_cant": "A unit test drives one or a few thread schedules; the failing interleavings are windows of a few instructions that no test can force or enumerate.", "anchors": ["include/koios/acq_lk_aw.h: acq_lk_aw::await_ready, try_acq_lk_aw::await_resume", "include/koios/coroutine_mutex.h: mutex::hold_this_immediately"]}
{"id": "C62", "title": "op_batch: the time-out covers the whole batch", "statement": "timeout(tp) bounds the whole batch: when tp has passed and the kernel has done its work, every operation of the batch has completed or was cancelled and the awaiting task is resumed.", "quantifier": "every batch, every time-out, every behaviour of the operations", "why_tests_cant": "A unit test drives one or a few thread schedules; the failing interleavings are windows of a few instructions that no test can force or enumerate.", "anchors": ["include/koios/iouring_op_batch.h: timeout", "src/iouring_op_batch.cc: timeout"]}
{"id": "C63", "title": "single operations: co_await yields the operation's own result", "statement": "The value of co_await uring::read/write/send/recv/... is the result of that operation (bytes delivered or its error), also when a time-out was given.", "quantifier": "every result, every time-out, every order of completions", "why_tests_cant": "A unit test drives one or a few thread schedules; the failing interleavings are windows of a few instructions that no test can force or enumerate.", "anchors": ["include/koios/iouring_single_op_aw.h: resume_template"]}
{"id": "C64", "title": "unique_file_state opens the named file for appending", "statement": "A unique_file_state constructed with the path of an existing file refers to that file, opened so that append_async can write to it; if the file cannot be opened the constructor throws.", "quantifier": "every path, every set of existing files", "why_tests_cant": "A unit test samples finitely many inputs; the claim ranges over an unbounded set of inputs/histories.", "anchors": ["src/unique_file_state.cc: unique_file_state::unique_file_state"]}
{"id": "C65", "title": "dir_mutex_guard: every acquisition is unlocked exactly once", "statement": "A dir_mutex acquisition is unlocked at most once, not before its last guard lets go of it, and exactly once when all guards are destroyed, whatever moves, self-assignments and explicit unlocks happened before.", "quantifier": "every finite sequence of constructions, moves, (self-)assignments, unlocks and destructions of guards", "why_tests_cant": "A unit test samples finitely many inputs; the claim ranges over an unbounded set of inputs/histories.", "anchors": ["src/dir_mutex.cc: dir_mutex_guard", "include/koios/dir_mutex.h: dir_mutex_guard"]}
{"id": "C66", "title": "mutexes may be used and destroyed after the runtime was stopped", "statement": "Constructing, using and destroying a mutex never terminates the program, also when event_loop::stop() / the task scheduler's stop() has been called before.", "quantifier": "every history of construction, use, destruction and stop", "why_tests_cant": "A unit test samples finitely many inputs; the claim ranges over an unbounded set of inputs/histories.", "anchors": ["src/coroutine_mutex.cc: mutex::acquire, mutex::try_acquire, mutex::~mutex", "include/koios/event_loop.h: add_event"]}
{"id": "C67", "title": "turn_into_scheduler() puts the task on a worker", "statement": "After co_await turn_into_scheduler() the task runs on a worker thread of the global scheduler, wherever it ran before.", "quantifier": "every thread on which the task may run, every stealing schedule", "why_tests_cant": "A unit test drives one or a few thread schedules; the failing interleavings are windows of a few instructions that no test can force or enumerate.", "anchors": ["src/this_task.cc: turn_into_scheduler_impl"]}
{"id": "C68", "title": "stopping the runtime does not terminate running tasks' program", "statement": "Stopping the runtime (quick_stop, runtime_exit, SIGINT) while tasks run lets them yield, wake others or create tasks without terminating the program.", "quantifier": "every interleaving of stop with running tasks", "why_tests_cant": "A unit test drives one or a few thread schedules; the failing interleavings are windows of a few instructions that no test can force or enumerate.", "anchors": ["include/koios/task_scheduler.h: enqueue (noexcept)", "include/koios/thread_pool.h: enqueue_no_future"]}
{"id": "C69", "title": "tcp_server: every accepted connection gets exactly one callback", "statement": "The callback is started exactly once for every connection the kernel accepts for the server, and only for those.", "quantifier": "every interleaving of accept completions and time-outs on any number of workers", "why_tests_cant": "A unit test drives one or a few thread schedules; the failing interleavings are windows of a few instructions that no test can force or enumerate.", "anchors": ["include/koios/tcp_server.h: tcp_loop"]}
{"id": "C70", "title": "tcp_server may be destroyed after stop and until_done", "statement": "After stop() and the return of until_done_async()/until_done_blk() the server object can be destroyed: nothing uses it any more.", "quantifier": "every interleaving of accept loops, callers and the destructor", "why_tests_cant": "A unit test drives one or a few thread schedules; the failing interleavings are windows of a few instructions that no test can force or enumerate.", "anchors": ["include/koios/tcp_server.h: tcp_loop, start", "src/tcp_server.cc: until_done_async", "include/koios/wait_group.h: done"]}
{"id": "C71", "title": "tcp_server: accept loops survive errors and end after stop", "statement": "start() hands one accept loop to each worker (none if bind or listen fails); a loop ends only after stop(), no accept error or time-out ends it; after stop() each loop submits at most one more accept.", "quantifier": "every interleaving, every sequence of accept results", "why_tests_cant": "A unit test drives one or a few thread schedules; the failing interleavings are windows of a few instructions that no test can force or enumerate.", "anchors": ["include/koios/tcp_server.h: start, tcp_loop"]}
{"id": "C72", "title": "stop()/quick_stop() may be called from any thread, any number of times", "statement": "stop() and quick_stop() (and runtime_exit()) may be called from any thread, also from a task, repeatedly and concurrently; every call returns, and when one returns all workers have ended; the program is not terminated.", "quantifier": "every number of workers, every interleaving of callers and workers", "why_tests_cant": "A unit test drives one or a few thread schedules; the failing interleavings are windows of a few instructions that no test can force or enumerate.", "anchors": ["src/thread_pool.cc: stop, quick_stop, consumer", "src/runtime.cc: runtime_exit"]}
{"id": "C73", "title": "the runtime object may be destroyed at any time", "statement": "Destroying a thread_pool or event_loop (constructed without manually_stop) while it runs is safe: the destructor stops the workers, returns when all have ended, and no worker uses a destroyed part; with manually_stop it returns only after somebody called stop().", "quantifier": "every interleaving of destructor, workers and callers, every number of workers", "why_tests_cant": "A unit test drives one or a few thread schedules; the failing interleavings are windows of a few instructions that no test can force or enumerate.", "anchors": ["src/thread_pool.cc: ~thread_pool", "include/koios/event_loop.h: ~event_loop"]}
{"id": "C74", "title": "start() returns with every worker ready", "statement": "start() always returns; when it does every worker has registered itself exactly once (queue, timer heap, ring); no worker runs a task before; the attributes of each worker carry the number of threads.", "quantifier": "every interleaving of start() and the workers, every number of workers", "why_tests_cant": "A unit test drives one or a few thread schedules; the failing interleavings are windows of a few instructions that no test can force or enumerate.", "anchors": ["src/thread_pool.cc: start, consumer", "include/koios/per_consumer_attr.h"]}
{"id": "C75", "title": "SIGINT stops the runtime, a second one terminates it", "statement": "The first SIGINT stops the runtime gracefully, whichever thread the kernel delivers it on and whatever that thread does; a second one terminates the program.", "quantifier": "every thread, every moment, every interleaving", "why_tests_cant": "A unit test drives one or a few thread schedules; the failing interleavings are windows of a few instructions that no test can force or enumerate.", "anchors": ["src/runtime.cc: signal_handler"]}
{"id": "C76", "title": "op_batch: copied arguments stay valid and are freed exactly once", "statement": "The arguments op_batch and the single operations copy (paths, addresses, time stamps) are readable at the address handed to the kernel, with the value passed, for as long as the batch exists, also after the batch or the awaitable was moved; each copy is destroyed exactly once and its memory given back exactly once to the resource it came from.", "quantifier": "every sequence of constructions, prep_*/timeout calls, moves, assignments, executions and destructions, of any number of batches and memory resources", "why_tests_cant": "A unit test samples finitely many inputs; the claim ranges over an unbounded set of inputs/histories.", "anchors": ["include/koios/iouring_op_peripheral.h, src/iouring_op_peripheral.cc: op_peripheral, op_peripheral_element", "include/koios/iouring_op_batch.h: op_batch", "include/koios/iouring_single_op_aw.h: op_aw_base", "include/koios/iouring_op_batch_execute_aw.h: op_batch_execute_aw"]}
{"id": "C77", "title": "io_uring operations: the kernel is asked for what the user wrote", "statement": "The prep_* functions of op_batch and the single-operation functions (read, write, send, recv, sendmsg, recvmsg, accept, connect, openat, unlink, rename, socket, fsync, sync_file_range, nop, ...) make the kernel perform exactly the system calls the user named, with the user's arguments, in the user's order, chained so that each waits for its predecessor, followed by the last deadline that was set.", "quantifier": "every sequence of prep_*/timeout calls with every argument value on a fresh batch; every single-operation function with every argument", "why_tests_cant": "A unit test samples finitely many inputs; the claim ranges over an unbounded set of inputs/histories.", "anchors": ["src/iouring_op_batch.cc: op_batch::prep_*, timeout", "include/koios/iouring_op_batch.h", "src/iouring_op_functions.cc", "src/iouring_op_batch_execute_aw.cc: await_suspend", "src/iouring_op_batch_rep.cc: get_sqe"]}
{"id": "C78", "title": "io_uring operations: the overloads of a function agree", "statement": "The overloads of an operation for spans of bytes and of characters, and for a time span and a time point, ask the kernel for the same thing; milliseconds::max() and time_point::max() mean no time-out in each of them.", "quantifier": "all argument values, time spans, time points and clock readings", "why_tests_cant": "A unit test samples finitely many inputs; the claim ranges over an unbounded set of inputs/histories.", "anchors": ["src/iouring_op_functions.cc", "include/koios/iouring_op_functions.h", "include/koios/iouring_op_batch.h: timeout"]}
{"id": "C79", "title": "Descriptors returned by openat, socket and accept are closed exactly once", "statement": "A file descriptor opened by openat, socket or accept is closed exactly once, by the destructor of the object get_fd/get_socket_fd/get_client returned; that destructor never closes a descriptor that meanwhile belongs to somebody else.", "quantifier": "every interleaving of completions, descriptor-number reuse by the kernel, get_fd calls, moves and destructions, for any number of operations", "why_tests_cant": "A unit test drives one or a few thread schedules; the failing interleavings are windows of a few instructions that no test can force or enumerate.", "anchors": ["src/iouring_ioret.cc: ioret_for_posix_fd_result::get_fd, ioret_for_accept::get_client", "include/koios/iouring_ioret.h: get_fd, get_socket_fd, get_client"]}
{"id": "C80", "title": "connect_get_sock and bind_get_sock_tcp: a ready socket or an error, never a leak", "statement": "The socket that connect_get_sock / bind_get_sock_tcp returns is open and connected / bound to the requested address, with the requested options set before binding; otherwise an exception is thrown, and the socket opened on the way has been closed exactly once. A call destroyed while suspended closes its socket.", "quantifier": "every result of every system call on the way, and destruction at every suspension point", "why_tests_cant": "A unit test drives one or a few thread schedules; the failing interleavings are windows of a few instructions that no test can force or enumerate.", "anchors": ["src/iouring_awaitables.cc: connect_get_sock, bind_get_sock_tcp", "include/koios/iouring_awaitables.h"]}
{"id": "C81", "title": "A generator's coroutine is destroyed exactly once, when nobody owns it", "statement": "A generator variable can be moved, assigned and destroyed. A coroutine is owned by at most one variable; its frame, with all its local variables, is destroyed exactly once: when its body has run to its end or when no variable owns it any more, and not before.", "quantifier": "every sequence of generator calls, moves, assignments, destructions, requests, yields and returns, for any number of variables and coroutines", "why_tests_cant": "A unit test drives one or a few thread schedules; the failing interleavings are windows of a few instructions that no test can force or enumerate.", "anchors": ["include/koios/generator.h: ~_type, operator=, _type(task_on_the_fly, sptr), yield_value, return_void", "include/koios/generator_shared_state.h: try_finalize, set_generator_coro, get_generator_coro"]}
{"id": "C82", "title": "When co_await of a task has delivered its result, the call is over", "statement": "When co_await f(args) (or future::get()) has delivered the result of a task, its local variables, parameters and frame have been destroyed, in this order, each exactly once, as after a call of an ordinary function; so the callee may keep references to the caller's variables.", "quantifier": "every program of nested calls (eager or lazy, returning or throwing, caught or not), any number of workers, every schedule", "why_tests_cant": "A unit test drives one or a few thread schedules; the failing interleavings are windows of a few instructions that no test can force or enumerate.", "anchors": ["include/koios/task.h: promise_type, operator co_await", "include/koios/return_value_or_void.h: return_value, return_void, deal_exception", "include/koios/promise_base.h: destroy_aw", "include/koios/future.h: shared_state::set_value, set_waiting", "src/thread_pool.cc: consumer"]}
{"id": "C83", "title": "Releasing a dir_mutex returns", "statement": "dir_mutex::unlock() (and the destructor of its guard, and of the mutex) returns after the lock file was deleted, whatever thread or task calls it.", "quantifier": "every number of workers, any number of calls by tasks and by threads outside of the runtime, every schedule", "why_tests_cant": "A unit test drives one or a few thread schedules; the failing interleavings are windows of a few instructions that no test can force or enumerate.", "anchors": ["src/dir_mutex.cc: unlock, delete_lock_file, ~dir_mutex", "include/koios/task.h: result, result_on", "include/koios/future.h: get", "src/iouring.cc: do_occured_nonblk, dealing_cqes", "src/thread_pool.cc: consumer"]}
{"id": "C84", "title": "Tasks destroyed before they have finished are disposed of completely", "statement": "When what holds a suspended task goes away (the queue of a stopped scheduler, the waiting list of a mutex, the table of an event loop, a task object that was never started), the task is destroyed: each live local variable once, with the unstarted tasks it owns; the destruction comes to an end; and the tasks that await it do not stay in memory for ever.", "quantifier": "every program of tasks that call, start, await and drop tasks (own calls or futures held outside), any nesting, every order of events and of destruction", "why_tests_cant": "A unit test drives one or a few thread schedules; the failing interleavings are windows of a few instructions that no test can force or enumerate.", "anchors": ["include/koios/task_on_the_fly.h: destroy", "include/koios/task.h: m_coro_handle, m_future", "include/koios/future.h: shared_state::m_waiting, set_waiting, m_ss, m_shared_state", "include/koios/future_aw.h: await_suspend", "src/coroutine_mutex.cc, src/iouring.cc, src/timer.cc: containers of task_on_the_fly"]}
{"id": "C85", "title": "A sleep of any length ends when it should", "statement": "sleep_for(d) ends when the clock shows d after the co_await or later, sleep_until(tp) when it shows tp or later, whatever d and tp are: a negative or past one is over at once, and the longest one the type can express is not.", "quantifier": "every duration and time point of 64 bits, every unit, every time of the call and of the co_await", "why_tests_cant": "A unit test samples finitely many inputs; the claim ranges over an unbounded set of inputs/histories.", "anchors": ["include/koios/this_task.h: sleep_for, sleep_until, sleep_await", "include/koios/timer.h: timer_event_loop_impl::add_event"]}
{"id": "C86", "title": "The runtime may be started again", "statement": "After runtime_exit() has returned, runtime_init() returns with a new runtime that accepts and runs tasks. Tasks the old runtime had accepted and not begun are destroyed once by then and run in no other runtime; tasks that waited for a lock held by one of them go on; the first SIGINT stops the new runtime gracefully.", "quantifier": "every history of any number of runtimes, tasks, locks and signals, every schedule", "why_tests_cant": "A unit test drives one or a few thread schedules; the failing interleavings are windows of a few instructions that no test can force or enumerate.", "anchors": ["src/runtime.cc: runtime_init, runtime_exit, signal_handler, get_task_scheduler_ptr", "include/koios/work_stealing_queue.h: enqueue", "include/koios/task_scheduler.h: enqueue", "src/coroutine_mutex.cc: try_wake_up_next"]}
{"id": "C87", "title": "mutex: what is done under the lock is visible to the next holder", "statement": "Every access a task makes to the protected data while it holds the mutex happens before (C++ memory model) every access of every later holder, however the lock got from one to the other: there is no data race.", "quantifier": "any number of tasks, every interleaving and every hand-over, the memory orders of the code (not sequential consistency)", "why_tests_cant": "A unit test drives one or a few thread schedules; the failing interleavings are windows of a few instructions that no test can force or enumerate.", "anchors": ["include/koios/coroutine_mutex.h: hold_this_immediately, release, add_waiting", "src/coroutine_mutex.cc: try_wake_up_next"]}
{"id": "C88", "title": "wait_group: the results of the counted tasks are visible after wait()", "statement": "When co_await wg.wait() returns, everything the counted tasks did before done() has been done and happens before the return, even if the counter is read stale.", "quantifier": "any number of tasks, nested add(), every interleaving, any message of the counter read, the memory orders of the code", "why_tests_cant": "A unit test drives one or a few thread schedules; the failing interleavings are windows of a few instructions that no test can force or enumerate.", "anchors": ["include/koios/wait_group.h: add, done, ready, wait, wake_up_all"]}
{"id": "C89", "title": "future: what the producer did is visible once the future says the result is there", "statement": "Once ready() has returned true, or get_nonblk(), co_await or get() has delivered the value or the exception, everything the producer wrote before it stored the result happens before (C++ memory model) what the consumer does next: reading it is not a data race.", "quantifier": "any number of writes, every interleaving of producer and consumer, every way of consuming, the synchronisation the code really does (not sequential consistency)", "why_tests_cant": "A unit test drives one or a few thread schedules; the failing interleavings are windows of a few instructions that no test can force or enumerate.", "anchors": ["include/koios/future.h: shared_state, promise, future", "include/koios/return_value_or_void.h", "include/koios/future_aw.h", "src/future.cc", "src/future_aw.cc"]}
{"id": "C90", "title": "shared_mutex: what is done under the lock is visible to those who get it later, and conflicting accesses do not race", "statement": "An access under a unique_lock never races with an access under any other lock of the same shared_mutex: conflicting accesses are ordered by happens-before (C++ memory model).", "quantifier": "any number of readers and writers, every interleaving and every hand-over, the synchronisation the code really does", "why_tests_cant": "A unit test drives one or a few thread schedules; the failing interleavings are windows of a few instructions that no test can force or enumerate.", "anchors": ["include/koios/coroutine_shared_mutex.h", "src/coroutine_shared_mutex.cc: hold_this_shr_immediately, hold_this_uni_immediately, add_waiting, release, try_wake_up_next"]}
{"id": "C91", "title": "generator: body and consumer do not race on shared data", "statement": "A generator body runs only between a request and its answer and the consumer only outside, so both may use the same data without a lock: their accesses are ordered by happens-before (C++ memory model), the yielded value included; when the consumer is told that there are no more values, the body is over.", "quantifier": "every generator body (endless ones included), every number of requests, every interleaving on any threads, the synchronisation the code really does", "why_tests_cant": "A unit test drives one or a few thread schedules; the failing interleavings are windows of a few instructions that no test can force or enumerate.", "anchors": ["include/koios/generator.h: yield_value, return_void, get_yielded_aw", "include/koios/generator_shared_state.h", "src/waiting_handle.cc: wake_up"]}
{"id": "C92", "title": "Ready tasks and due timers are not starved", "statement": "A ready task is started after a bounded number of other tasks, however many tasks are created, woken up or yield meanwhile; each queue is served in order; a sleeping task whose deadline has passed becomes ready at once even if the workers are never idle.", "quantifier": "any number of workers and tasks, every interleaving, unbounded creation and yielding of tasks", "why_tests_cant": "A unit test drives one or a few thread schedules; the failing interleavings are windows of a few instructions that no test can force or enumerate.", "anchors": ["src/thread_pool.cc: thread_pool::consumer", "include/koios/work_stealing_queue.h: enqueue, dequeue", "include/koios/event_loop.h: before_each_task", "src/timer.cc: do_occured_nonblk"]}
{"id": "C93", "title": "Errors are reported as what they are", "statement": "If an operation made by one of the library's functions fails, the caller is told that this error happened: by the error code parameter or the returned error code, or by an exception whose error_code() is that code; without a failure there is no error; the number of bytes returned is that of the bytes delivered before the failure.", "quantifier": "every sequence of results of the operations, every error, every previous value of the error code", "why_tests_cant": "A unit test samples finitely many inputs; the claim ranges over an unbounded set of inputs/histories.", "anchors": ["include/koios/exceptions.h: uring_exception, socket_exception", "src/iouring_awaitables.cc: append_all, recv_fill_buffer, read_fill_buffer", "src/iouring_ioret.cc: get_fd, get_client, number_canceled", "src/unique_file_state.cc: append_async"]}
{"id": "C94", "title": "mutex, wait_group and hub may be destroyed when nobody uses them any more", "statement": "The owner of a mutex, a wait_group or an async_awaiting_hub may destroy it when, by all that the API shows, it is not in use: the counted work is done and nobody waits; nobody holds the mutex or wants it; nobody is registered. The library does not access the object after that.", "quantifier": "any number of tasks, every interleaving of the calls that have taken effect with the destruction", "why_tests_cant": "A unit test drives one or a few thread schedules; the failing interleavings are windows of a few instructions that no test can force or enumerate.", "anchors": ["include/koios/wait_group.h: done, wake_up_all", "include/koios/coroutine_mutex.h: release", "src/coroutine_mutex.cc: try_wake_up_next", "include/koios/async_awaiting_hub.h: may_wake_all"]}
{"id": "C95", "title": "Waiting for a task that is destroyed without a result ends", "statement": "If a task is destroyed before it has a result (stopped runtime, destroyed event loop or lock), a thread in get() or result() and a task in co_await are told so; ready() and get_nonblk() never report a result.", "quantifier": "every execution in which the promise is destroyed before it is fulfilled, at any moment relative to the consumer's calls", "why_tests_cant": "A unit test drives one or a few thread schedules; the failing interleavings are windows of a few instructions that no test can force or enumerate.", "anchors": ["include/koios/future.h: promise, shared_state, future::get, future::ready, future::get_nonblk", "include/koios/task.h: result_on, operator co_await"]}
{"id": "C96", "title": "Idle workers notice new work and stop requests", "statement": "A task enqueued while a worker is idle is started without the pool sleeping on: a sleeping worker is woken up, and in no case does an idle worker let more than 500 ms pass while a task waits or after stop()/quick_stop() has told it to end.", "quantifier": "every number of workers, every interleaving of enqueuing threads, workers and stop(), every nap length the event loops ask for", "why_tests_cant": "A unit test drives one or a few thread schedules; the failing interleavings are windows of a few instructions that no test can force or enumerate.", "anchors": ["src/thread_pool.cc: consumer, done, stop, quick_stop", "include/koios/thread_pool.h: enqueue*, wake_up", "include/koios/work_stealing_queue.h: dequeue"]}
{"id": "C97", "title": "thread_pool::enqueue: the returned std::future tells what happened", "statement": "get() of the future yields the value or the exception of the function, nothing else; exceptions go to the future and not to the worker; it ends when stop() has returned for everything enqueued in time, and when the pool is stopped or destroyed without running the function, with broken_promise.", "quantifier": "every execution of the pool, every mix of enqueue and enqueue_no_future, every stop, quick_stop and destruction", "why_tests_cant": "A unit test drives one or a few thread schedules; the failing interleavings are windows of a few instructions that no test can force or enumerate.", "anchors": ["include/koios/thread_pool.h: enqueue, enqueue_without_checking", "src/thread_pool.cc: consumer, stop, quick_stop, ~thread_pool"]}
{"id": "C98", "title": "io_uring loop: operations are started and their completions delivered", "statement": "When a task has executed a batch, every operation of it is started, and once all of them are done, the next poll of the worker resumes the task - however many operations are in flight, and also if the kernel refuses one of them.", "quantifier": "every number of tasks, batches and operations, every order and burst of completions, every part of the submission ring the kernel takes", "why_tests_cant": "A unit test drives one or a few thread schedules; the failing interleavings are windows of a few instructions that no test can force or enumerate.", "anchors": ["src/iouring.cc: add_event (io_uring_submit, its result is ignored), do_occured_nonblk (io_uring_cq_ready)", "include/koios/iouring.h: io_uring_queue_init"]}
{"id": "C99", "title": "io_uring operations: the kernel does not touch memory of a task that may be gone", "statement": "From the submission of an operation to its completion the task that awaits it, with the buffers and addresses the operation names, stays in memory; afterwards the kernel does not access them.", "quantifier": "every interleaving of submissions, completions, polls, kernel accesses, stop and end of workers", "why_tests_cant": "A unit test drives one or a few thread schedules; the failing interleavings are windows of a few instructions that no test can force or enumerate.", "anchors": ["src/iouring.cc: dealwith_cqe, add_event", "include/koios/iouring.h: ~iouring_event_loop_perthr, m_opreps"]}
{"id": "C100", "title": "Calls of the library do not dead-lock each other", "statement": "Whatever calls any number of threads make at the same time (workers polling, sleeping and printing their status, tasks being made ready, futures, mutexes, shared_mutexes, generators, timers, io_uring, adding and stopping user loops, stopping the runtime), no call waits for ever for a lock inside the library: once no new calls are made, every call returns, except those that wait for a task that has not ended.", "quantifier": "every number of threads, every sequence of calls, every interleaving, every behaviour of user code called back by the library, shared locks with reader or writer preference", "why_tests_cant": "A unit test drives one or a few thread schedules; the failing interleavings are windows of a few instructions that no test can force or enumerate.", "anchors": ["src/thread_pool.cc: consumer", "src/timer.cc: do_occured_nonblk, quick_stop", "src/iouring.cc", "src/user_event_loop.cc", "src/mutex_monitor.cc", "include/koios/future.h: shared_state", "include/koios/generator_shared_state.h: try_finalize", "src/dir_mutex.cc: hold_this_immediately", "include/koios/std_queue_wrapper.h"]}
{"id": "C101", "title": "Tasks may sleep and use io_uring on whatever thread runs them", "statement": "A task may co_await sleep_for/sleep_until and io_uring operations on the thread it is running on.", "quantifier": "every number of threads inside and outside of the runtime, every history of the task and the scheduler", "why_tests_cant": "A unit test drives one or a few thread schedules; the failing interleavings are windows of a few instructions that no test can force or enumerate.", "anchors": ["include/koios/timer.h: cur_thread_ptr", "src/iouring.cc: iouring_event_loop::add_event, thread_specific_preparation", "src/this_task.cc: turn_into_scheduler", "include/koios/local_thread_scheduler.h"]}
{"id": "C102", "title": "consumer_attrs() lists the workers", "statement": "After start() has returned, consumer_attrs() names every worker exactly once, in an order that never changes, and its entries may be read by any thread.", "quantifier": "every number of workers and of reading threads, every interleaving with start, tasks, stop and signals", "why_tests_cant": "A unit test drives one or a few thread schedules; the failing interleavings are windows of a few instructions that no test can force or enumerate.", "anchors": ["include/koios/thread_pool.h: consumer_attrs, thread_specific_preparation", "src/thread_pool.cc: consumer", "src/this_task.cc: turn_into_scheduler", "include/koios/functional.h: for_each_dispatch_evenly"]}
{"id": "C103", "title": "mutex: every request is answered in the end", "statement": "If every holder releases, every acquire() on a mutex is granted after finitely many steps; calls never wait actively; a waiting task is not overtaken without end by later requests.", "quantifier": "every number of tasks and requests, every interleaving of the atomic and queue operations", "why_tests_cant": "A unit test drives one or a few thread schedules; the failing interleavings are windows of a few instructions that no test can force or enumerate.", "anchors": ["include/koios/coroutine_mutex.h: mutex", "src/coroutine_mutex.cc: try_wake_up_next", "include/koios/acq_lk_aw.h: acq_lk_aw, try_acq_lk_aw"]}
{"id": "C104", "title": "wait_group: every wait() is answered in the end", "statement": "When the count of a wait_group stays at zero, every co_await of wait() is answered after finitely many steps and every done() returns; no call waits actively, and a done() does work only for tasks that were waiting when it was called.", "quantifier": "every number of tasks and calls, every interleaving of the atomic and queue operations", "why_tests_cant": "A unit test drives one or a few thread schedules; the failing interleavings are windows of a few instructions that no test can force or enumerate.", "anchors": ["include/koios/wait_group.h: wait_group::done, wait_group::wait, wait_group::wake_up_all", "src/waiting_handle.cc: wake_up"]}
{"id": "C105", "title": "The pool's idle report is true", "statement": "The message \"thread_pool has been idle for a while!\" is logged at most once in 15 s, only when every worker sleeps and nothing is pending, and only if no task was executed in the last 15 s.", "quantifier": "every number of workers, every history of tasks, polls and naps, every passage of time", "why_tests_cant": "A unit test drives one or a few thread schedules; the failing interleavings are windows of a few instructions that no test can force or enumerate.", "anchors": ["src/thread_pool.cc: thread_pool::consumer", "include/koios/thread_pool.h: thread_pool::has_pending_event"]}
{"id": "C106", "title": "make_lazy runs the callable only on request and keeps it alive", "statement": "`make_lazy(f, args...)` runs nothing of f before the task is run or awaited, and f at most once; the task's result is f's result or exception; everything f has captured exists as long as f (body and destructors of its local variables) uses it.", "quantifier": "every callable, whether it returns an eager or a lazy task, every number of workers, every schedule, value and exception", "why_tests_cant": "A unit test drives one or a few thread schedules; the failing interleavings are windows of a few instructions that no test can force or enumerate.", "anchors": ["include/koios/functional.h: make_lazy", "include/koios/promise_base.h: promise_base::final_suspend"]}
{"id": "C107", "title": "Memory is consistent when tasks move between threads", "statement": "A callable finds everything its submitter had written or seen when it submitted it; a task finds what it has itself written or seen, on whatever worker it is resumed; whoever has got the std::future's result finds what the callable did; after stop() or quick_stop() has returned to a thread, that thread finds everything any callable ever did.", "quantifier": "every number of workers, both queues, every interleaving of submissions, thefts, suspensions, wake-ups, results and stops, every read and write", "why_tests_cant": "A unit test drives one or a few thread schedules; the failing interleavings are windows of a few instructions that no test can force or enumerate.", "anchors": ["include/koios/thread_pool.h: thread_pool::enqueue", "src/thread_pool.cc: thread_pool::consumer, thread_pool::stop", "include/koios/std_queue_wrapper.h: std_queue_wrapper", "src/moodycamel_queue_wrapper.cc: moodycamel_queue_wrapper"]}
{"id": "C108", "title": "this_task::get_id() identifies the task", "statement": "co_await this_task::get_id() gives a task the same non-null id however often and on whatever worker it asks, and no two tasks that exist at the same time have the same id; every question is answered at most once.", "quantifier": "every history of creation, questions, resumptions on any worker and ends of any number of tasks, every choice of the allocator", "why_tests_cant": "A unit test drives one or a few thread schedules; the failing interleavings are windows of a few instructions that no test can force or enumerate.", "anchors": ["include/koios/this_task.h: get_id", "src/get_id_aw.cc: get_id_aw::await_suspend", "include/koios/task_on_the_fly.h: task_on_the_fly::address"]}
{"id": "C109", "title": "shared_mutex serves every request in the end", "statement": "If tasks make finitely many requests for the shared or the unique lock and give back what they get, every request is granted and nobody is left waiting; no call waits actively (each takes a bounded number of steps), and a waiting writer is not overtaken by an unbounded number of readers.", "quantifier": "every number of tasks and requests, every interleaving, every choice of the queues", "why_tests_cant": "A unit test drives one or a few thread schedules; the failing interleavings are windows of a few instructions that no test can force or enumerate.", "anchors": ["src/coroutine_shared_mutex.cc: release, try_wake_up_next, hold_this_shr_immediately, add_waiting", "include/koios/acq_lk_aw.h: acq_lk_aw, acq_shr_lk_aw"]}
{"id": "C110", "title": "Futures may be moved, and a promise gives out more than one", "statement": "A koios::future that is moved keeps its meaning (valid(), ready(), get_nonblk() and co_await answer at the new place what they would have answered at the old one, moved-from objects are not valid); every future obtained from a promise learns of the result; every task that awaits one is resumed with it exactly once, and the result is handed out at most once.", "quantifier": "every number of future objects, moves, get_future() calls and awaiting tasks, in every interleaving with the producer", "why_tests_cant": "A unit test drives one or a few thread schedules; the failing interleavings are windows of a few instructions that no test can force or enumerate.", "anchors": ["include/koios/future.h: shared_state, future, promise::get_future", "include/koios/future_aw.h: future_aw", "include/koios/task_on_the_fly.h: task_on_the_fly::operator="]}
{"id": "C111", "title": "The usual program with a mutex and a wait_group computes what it should and ends", "statement": "n jobs started with run() each take the mutex, read a shared object, store an updated one, unlock and call wg.done(); a main task called wg.add(n) before and awaits wg.wait(). When main goes on, the shared object is the result of all n jobs, each exactly once, one after the other in some order; and main does go on: every execution ends, and it ends with main's result.", "quantifier": "every n < 2^64, every job function, every number of workers and every schedule of the workers", "why_tests_cant": "A unit test drives one or a few thread schedules; the failing interleavings are windows of a few instructions that no test can force or enumerate.", "anchors": ["include/koios/coroutine_mutex.h, src/coroutine_mutex.cc", "include/koios/wait_group.h, src/wait_group.cc", "src/thread_pool.cc: thread_pool::consumer", "include/koios/task.h: run", "src/waiting_handle.cc: wake_up"]}
{"id": "C112", "title": "Programs of tasks compute on any number of workers what their plain reading says, and end", "statement": "A coroutine that calls coroutines, starts the tasks with run(), awaits them (or does not), returns and throws behaves as if calls were ordinary calls: its result is the one of that reading, every co_await yields what the awaited body ended with, each body ends at most once, each result is delivered at most once. Workers never block: a worker that runs a task can always go on, a task is never on two workers or twice in a queue, and every execution is finite and ends with the result of the program.", "quantifier": "every program (any depth, any mix of eager and lazy tasks), every number of workers >= 1, every interleaving of their actions, including the ones between await_ready and await_suspend", "why_tests_cant": "A unit test drives one or a few thread schedules; the failing interleavings are windows of a few instructions that no test can force or enumerate.", "anchors": ["include/koios/task.h: run, operator co_await, promise_type", "include/koios/future.h: shared_state, future", "include/koios/future_aw.h", "include/koios/promise_base.h: initial_suspend, final_suspend", "src/thread_pool.cc: thread_pool::consumer"]}
{"id": "C113", "title": "Programs that sleep end when they should: sleeping tasks do not occupy a worker", "statement": "A coroutine that calls coroutines, runs them beside it, awaits them, yields and sleeps never ends before the time its plain reading gives (tasks run side by side, co_await waits for the end of a task, sleep_for(d) takes d, the rest takes no time); a task that called sleep_for(d) does not go on before d has passed, whichever worker wakes it; and as long as workers and timers lose no time the program ends exactly then, with one worker as well: any number of tasks that sleep side by side together need as long as the longest.", "quantifier": "every program (any depth, mix of eager and lazy tasks, durations), every number of workers >= 1, every interleaving", "why_tests_cant": "A unit test drives one or a few thread schedules; the failing interleavings are windows of a few instructions that no test can force or enumerate.", "anchors": ["include/koios/this_task.h: sleep_for, yield", "src/timer.cc", "src/thread_pool.cc: thread_pool::consumer", "include/koios/task.h", "include/koios/future.h"]}
{"id": "C114", "title": "A tcp_server can be moved", "statement": "`tcp_server b{ std::move(a) };` makes b the server: its accept loops go on accepting on the listening socket, b.stop() stops them, b.until_done_*() waits for them, and the moved-from object can be destroyed.", "quantifier": "every number of servers, moves and accept loops, every interleaving of moves, starts, stops, waits, destructions and the steps of the accept loops", "why_tests_cant": "A unit test drives one or a few thread schedules; the failing interleavings are windows of a few instructions that no test can force or enumerate.", "anchors": ["include/koios/tcp_server.h: tcp_server(tcp_server&&), start, tcp_loop", "src/tcp_server.cc: tcp_server(tcp_server&&), stop, is_stop, until_done_async"]}
{"id": "C115", "title": "Appends of several tasks to one unique_file_state", "statement": "Any number of tasks may call append_async on one unique_file_state at the same time: the bytes of one call are together in the file, however many writes they take; a call writes only between its beginning and the delivery of its result; the result says whether one of its own writes failed; every call ends if its writes do; and once all results have been delivered the object may be destroyed.", "quantifier": "every number of calls, every buffer size, every pattern of short and failing writes, every interleaving of the calls and of the steps of the lock", "why_tests_cant": "A unit test drives one or a few thread schedules; the failing interleavings are windows of a few instructions that no test can force or enumerate.", "anchors": ["src/unique_file_state.cc: append_async", "include/koios/unique_file_state.h", "include/koios/coroutine_mutex.h", "src/coroutine_mutex.cc"]}
