# A Lean 4 model of JPewterschmidt/koios

## 1. Method

Every component is modelled as a *labelled machine*
(`Verif/Common/Machine.lean`): a state type, an initial state and a computable
partial step function `step : State → Label → Option (State × List Event)`.
A *label* is one atomic action of one agent (one atomic read-modify-write, one
critical section of a `std::mutex`, one queue operation, ...), so a list of
labels is an arbitrary interleaving of any number of agents.  *Events* are the
API-visible effects (a lock was granted, a task was resumed, a value was
delivered, ...).  Safety properties are stated over the event trace of an
arbitrary run, by small specification functions that mention neither the state
nor the step function, and are proved by an inductive invariant over
(state, trace).  Pure or sequential code is modelled by ordinary functions and
the properties are equations or refinements.

Undefined behaviour (null dereference, double resume, ...), `std::terminate`
and exceptions are distinct outcomes in the models, never assumed away.

When the code violates a property, the file holds
* a theorem `..._fails`/`..._refuted` which exhibits a concrete run of the model
  violating the property (checked by the kernel), and
* a theorem with suffix `_partial` which proves the property under the exact
  extra hypothesis under which it holds.

## 2. Trusted base

* Lean 4.33.0's kernel; each property theorem depends at most on the axioms
  `propext`, `Classical.choice`, `Quot.sound` (see section 5).
* That the model is a faithful reading of the cited lines of `/repo`
  (the code is not run and the model is not extracted from it).
* Sequential consistency of the modelled atomics (the code uses `acq_rel`,
  `release` or `seq_cst`; the weaker orders are not distinguished), except in
  `Verif/Hb` (C87-C91), which models release/acquire visibility with views.
* External components, whose source is not in `/repo`, by their documented
  contract: `moodycamel::ConcurrentQueue` (a linearizable bag; where stated,
  even with spurious "empty" answers), `toolpex` (`move_only`, fds, string
  helpers), `std::mutex`/`condition_variable`/`call_once`, the kernel's io_uring
  (each SQE it takes yields exactly one CQE carrying its user_data; a CQ ring of
  twice the SQ entries; what does not fit waits in an overflow list until
  io_uring_submit enters the kernel; io_uring_queue_exit does not wait for
  operations), the file system
  (`O_CREAT|O_EXCL` is atomic), the C++ compiler's coroutine transformation.

Not modelled: memory reclamation internals, logging (except when the idle report is made, C105), `print_status`, compile
time concepts/traits, performance, the C++ weak memory model outside `Verif/Hb`.

## 3. Properties and plan

| id | property | model and proof |
|---|---|---|
| C01 | mutex: mutual exclusion | Machine `Mutex`: flag + waiter bag + per-task program counter, one label per atomic op; invariant: flag set iff exactly one owner token (holder, woken task, or releaser in its hand-over window). Trace spec `holdersAfter`. |
| C02 | mutex: no lost wake-up | False of the code (release between a failed await_ready and the enqueue; enqueue between an empty dequeue and the clear). Refutation run + partial theorems: single-worker (call-atomic) schedules, and race-free schedules. |
| C03 | mutex: each acquire is granted at most once, each suspended task woken at most once | Same machine, counting spec over the trace. |
| C04 | unique_lock/shared_lock: every acquisition is released exactly once | Machine `Lock` over lock objects: heap of lock objects; trace of acquire/release per acquisition token. |
| C05 | shared_mutex: writer exclusion | Machine `SharedMutex`, one label per critical section; false of the code, refutation runs + partial (no reader ever suspended). |
| C06 | shared_mutex: no starvation at quiescence | Same machine; refutation (woken reader is not counted) + partial. |
| C07 | shared_mutex: readers share, and uncontended lock/unlock returns to free | Same machine restricted to unsuspended readers; proved by invariant m_shr_cnt = number of readers. |
| C08 | future/promise: the awaiting task is woken exactly once and sees the value | Machine `Future`: producer and consumer, one label per critical section; all interleavings. |
| C09 | future: at-most-once retrieval and errors | Sequential API machine of promise/future; refinement to a 3-state spec. |
| C10 | future::get() terminates after the value is stored | False of the code (ready() moves the frame away from the shared state; no predicate around cond.wait). Refutations + partial. |
| C11 | task_on_the_fly: a coroutine frame is resumed or destroyed exactly once | Machine `Fly`: objects in slots, frames with status; invariant + leak-freedom. |
| C12 | task_release_once: one winner | CAS machine with n threads. |
| C13 | task: a task body runs exactly once | Sequential machine over task API calls. |
| C14 | task: exceptions propagate to the consumer | Machine `Nest`: task bodies of any depth with arbitrary continuations vs their direct (function call) reading; invariant + termination measure. |
| C15 | thread_pool: every enqueued task is executed at most once and none is lost | Machine `Pool`: n workers with pcs, per-worker queues, enqueuers, steals. |
| C16 | thread_pool: stop() drains | Same machine; terminal-state theorem. |
| C17 | thread_pool: a throwing task does not kill its worker | Same machine, tasks with a throw flag. |
| C18 | thread_pool: quick_stop refuses later enqueues and runs nothing new | Same machine. |
| C19 | work stealing: adding a consumer never loses queued tasks | Machine `WSQ` with snapshots of the map. |
| C20 | work stealing: a worker finds a task whenever one exists | Pure functions for dequeue/enqueue/size on a quiescent queue. |
| C21 | std_queue_wrapper: linearizable FIFO | Refinement of the wrapper to a list queue. |
| C22 | invocable_queue_wrapper: the wrapped queue is destroyed exactly once | Machine of wrapper objects. |
| C23 | wait_group: waiters resume exactly when the count reaches zero | Machine `WaitGroup`; false in general (done(n), lost wake-up): refutations + partial. |
| C24 | wait_group_guard: every guard subtracts exactly one | Machine of guards; move-assignment bug: refutation + partial. |
| C25 | async_awaiting_hub: wake-ups are neither duplicated nor invented | Machine of the hub. |
| C26 | generator: consumer sees exactly the yielded sequence | Machine of generator/consumer handshake for every body. |
| C27 | generator: an exception in the body reaches the consumer | False: refutation + what does hold. |
| C28 | generator adaptors: unique and merge | Pure functions over lists; refinement. |
| C29 | timer: never early, at most once, every due event fires | Machine `Timer` with a clock. |
| C30 | timer: pending events after stop | Same machine. |
| C31 | timer: add_event from any thread | False outside worker threads: refutation + partial. |
| C32 | sleep_for/sleep_until: never resumes early | Arithmetic on Int durations. |
| C33 | event loop: a worker never oversleeps a pending deadline | Arithmetic over lists of loops. |
| C34 | user_event_loops: each loop prepared exactly once per thread and polled on every pass | Machine of user_event_loops. |
| C35 | io_uring loop: a batch resumes its owner once, with all its completions | Machine `Uring` with arbitrary completion order. |
| C36 | io_uring loop: large batches | Ring capacity model; refutation + partial. |
| C37 | io_uring loop: idle back-off is bounded | Arithmetic with 32 bit wrap-around. |
| C38 | op_batch: sequential execution order | Refinement of batch building to `ops ++ timeout`. |
| C39 | op_batch: reuse after clear() | Refutation + partial. |
| C40 | op_batch: all_success and is_timeout report truthfully | Functions over result lists; refutation + partial. |
| C41 | ioret: the error code is the kernel's | Function over Int results; refutation (-EPERM) + partial. |
| C42 | uring cancel operations cancel what they say | Function model; refutation + partial. |
| C43 | append_all: the whole buffer is written, contiguously, exactly once | Byte-level file model with arbitrary short writes; refutation + partial (O_APPEND). |
| C44 | read_fill_buffer/recv_fill_buffer: bytes are placed contiguously in stream order | Byte-level loop over arbitrary kernel chunking. |
| C45 | unique_file_state::append_async writes the buffer once | Byte-level model; refutation + partial. |
| C46 | protobuf framing round-trips | Byte-level codec + stream model. |
| C47 | expected: monadic laws and alternative safety | Pure laws. |
| C48 | co_await_all: results in argument order | Machine of n futures. |
| C49 | for_each: each element is processed exactly once, completion implies all processed | Function model + arithmetic. |
| C50 | dir_mutex: mutual exclusion across processes | Machine over a shared lock file and several objects; refutation + partial. |
| C51 | dir_mutex: progress | Same. |
| C52 | mutex_monitor: registry equals live used mutexes | Machine of registry. |
| C53 | tcp_server: until_done_async after stop waits for the server loops | Machine of server. |
| C54 | tcp_server address literal | Parser model on strings. |
| C55 | event_loop/pool shutdown: no add_event accepted after stop | Machine `EvLoop`: workers, per-worker timer heaps, flags of stop()/quick_stop(); accounting of accepted tasks, progress before stop, refutations after it. |
| C56 | local_thread_scheduler: run executes everything in FIFO order | Big-step queue semantics. |
| C57 | task_scheduler: wake-ups go back to the suspending thread, invalid handles are ignored | Function model. |
| C58 | tcp_util deplete: send buffer depletion wait respects its deadline | Function model over observation sequence. |
| C59 | shared_mutex: awaiters are not used after the coroutine may have been resumed | Machine `SharedMutex`: the read of m_mutex after add_shr_waiting is its own label; refutation + partial. |
| C60 | locks: owns_lock() tells the truth | Machine `Lock`; refutation (default constructed lock) + partial. |
| C61 | mutex: an uncontended request is granted at once | Machine `Mutex`: the flag is set only while somebody is busy. |
| C62 | op_batch: the time-out covers the whole batch | Kernel model of linked entries (`OpBatch/Model.lean`); settled states; proved for one operation, refuted for all larger batches. |
| C63 | single operations: co_await yields the operation's own result | Same kernel model; the first stored result against the operation's own completion. |
| C64 | unique_file_state opens the named file for appending | Function model of the constructor (member order, moved-from path, flags); refutation. |
| C65 | dir_mutex_guard: every acquisition is unlocked exactly once | Linear-token machine (`Common/Linear.lean`): guards in slots, ghost acquisition numbers. |
| C66 | mutexes may be used and destroyed after the runtime was stopped | Machine `Monitor` with std::call_once, noexcept and m_cleanning; refutation + partial. |
| C67 | turn_into_scheduler() puts the task on a worker | Machine `Sched`: worker queues, stealing, waiting handles, turn_into_scheduler. |
| C68 | stopping the runtime does not terminate running tasks' program | Same machine with quick_stop and noexcept enqueue; refutation + partial. |
| C69 | tcp_server: every accepted connection gets exactly one callback | Machine `TcpServer`: loops, wait group, accept results; refutation (overtaken completions) + partial. |
| C70 | tcp_server may be destroyed after stop and until_done | Same machine with the object's lifetime; refutation + partial. |
| C71 | tcp_server: accept loops survive errors and end after stop | Same machine; invariants over traces. |
| C72 | stop()/quick_stop() may be called from any thread, any number of times | Machine `Life`: start/latch, call_once, join loop, callers main/external/worker; invariants, progress, refutation for tasks. |
| C73 | the runtime object may be destroyed at any time | Same machine with destructors of sub-loops, pool and jthreads; refutation + partials. |
| C74 | start() returns with every worker ready | Same machine; counting invariant for the latch; progress; refutation of number_of_threads (data race). |
| C75 | SIGINT stops the runtime, a second one terminates it | Same machine with signals on any thread; refutations + partial. |
| C76 | op_batch: copied arguments stay valid and are freed exactly once | Machine `Storage`: heap blocks, memory resources, list nodes, elements, batches, awaitables; invariants under the discipline (no move assignment, no use of moved-from objects), history counts; refutations without it. |
| C77 | io_uring operations: the kernel is asked for what the user wrote | Function-level model `Ops`: the bit layout of the submission entry as liburing's prep functions fill it, the kernel's decoding, every prep_* and single-operation function; by cases and induction on the call list. |
| C78 | io_uring operations: the overloads of a function agree | Corollary of C77 over the same model; signed overflow is modelled as undefined. |
| C79 | Descriptors returned by openat, socket and accept are closed exactly once | Machine `Fd`: the kernel's descriptor table with number reuse, results, owners; invariants under the discipline "get_fd at most once"; refutations without it. |
| C80 | connect_get_sock and bind_get_sock_tcp: a ready socket or an error, never a leak | Machine `Sock`: program counters of the two coroutines, results of all system calls, destruction at suspension points; the trace is characterised per program counter. |
| C81 | A generator's coroutine is destroyed exactly once, when nobody owns it | Machine `GenLife`: generator variables, shared states, frames; invariant between the ownership computed from the trace and the state; refutation by a stuck predicate. |
| C82 | When co_await of a task has delivered its result, the call is over | Machine `Scope`: functions as instruction lists with a final co_return or throw, tasks, workers with call stacks; the order result / locals / frame of the coroutine rules; invariant: a task that has stored its result and is not dead is on top of a worker's stack. |
| C83 | Releasing a dir_mutex returns | Machine `Block`: workers that are idle, run a user task or block in unlock(); the deleter coroutine of a call: queued, in the ring of a worker, completed, woken, done. Liveness as reachability: from every reachable state with a free worker the calls can return, youngest first (an operation in a ring is older than the call that blocks the worker of the ring). |
| C84 | Tasks destroyed before they have finished are disposed of completely | Machine `Leak`: frames with lists of locals (plain variables, task objects), futures with their holders, shared states with their waiter, containers; a work list of destructions in C++ order. Invariants by counting; termination by a weight; a set of tasks each of which awaits its own call in the set, or an aborted one, never changes again. |
| C85 | A sleep of any length ends when it should | Functions `sleepFor`, `sleepUntil` over integers with the range checks of 64-bit arithmetic; linear arithmetic (omega). |
| C86 | The runtime may be started again | Machine `Reinit`: the global pointer, the queues of the current and the dying runtime, tasks with locks and waiters, the SIGINT flag. Invariants by induction; the canonical run of runtime_init by induction over the left over tasks; a stuck predicate for the refutation. |
| C87 | mutex: what is done under the lock is visible to the next holder | Machine `Hb` = machine `Mutex` with views (sets of accesses known to a task, carried by the flag, by queue entries), memory orders as parameters; the owner of the flag always has the full view. Weaker orders: racing runs. |
| C88 | wait_group: the results of the counted tasks are visible after wait() | Machine `Hb.Wg`: message history of the counter with views, loads of any message; invariant: each result is in the last message's view or known to a task that still owes a done(). Weaker orders: stale runs. |
| C89 | future: what the producer did is visible once the future says the result is there | Machine `Hb.Fut` = machine `Future` with views (sets of writes known to the producer, the lock, the consumer, the scheduler's queue); which operations synchronise is a parameter. Invariant: if the result is there, the view that the consumer joins contains every earlier write. Without the lock: racing runs. |
| C90 | shared_mutex: what is done under the lock is visible to those who get it later, and conflicting accesses do not race | Machine `Hb.Shr` = machine `SharedMutex` with views. For all runs: whatever was closed before the lock was given is visible. Race freedom under the conditions of C05 (calm runs) from exclusion + visibility; a racing run otherwise. |
| C91 | generator: body and consumer do not race on shared data | Machine `Hb.Gen` = machine `Generator` with views, the unprotected slot and the destruction of the body's local variables after return_void. Invariant: whoever may run knows all accesses not made by such destructors; a racing run with them. |
| C92 | Ready tasks and due timers are not starved | Machine `Fair`: consumer loops, FIFO queues, own queue first, stealing, timer heaps per worker. Invariant: the queue is the list of waiting occasions computed from the trace; position + starts never exceeds the initial position. Unbounded starvation while the owner of the queue is occupied. |
| C93 | Errors are reported as what they are | Function models over all histories of operation results, error codes with categories, the class hierarchy of the exceptions; inductions over histories; refutations for every error. |
| C94 | mutex, wait_group and hub may be destroyed when nobody uses them any more | Machine transformer `Mortal.mortal`: the machines of C01, C23, C25 with a destruction action; accesses afterwards are undefined. Generic invariant; refuting runs for the three objects. |
| C95 | Waiting for a task that is destroyed without a result ends | Machine `Future` with the destruction of the promise. Invariant: nothing is there; all continuations of all such executions contain no result, no wake-up, no end of get(). |
| C96 | Idle workers notice new work and stop requests | Machine `Nap`: workers scanning the queues, napping with a deadline, notifications without the mutex, a clock that advances only while everybody naps, runs a task or has ended. History invariant: time since a moment is bounded by where the worker is. |
| C97 | thread_pool::enqueue: the returned std::future tells what happened | Layer `PoolFut` over machine `Pool`: results of packaged_tasks, destruction of the pool. Projection to Pool, invariant, C16 for the part about stop(). |
| C98 | io_uring loop: operations are started and their completions delivered | Machine `Uring`, extended by the size of the completion ring, the kernel's overflow list and partial submissions. Invariants: where completions wait; the number of completions is bounded by the operations in flight. |
| C99 | io_uring operations: the kernel does not touch memory of a task that may be gone | Layer `UringMem` over machine `Uring`: the kernel's accesses to the memory of operations, also after the ring is closed. Projection to Uring, whose invariant gives that an operation in the kernel belongs to an execution that has not ended. |
| C100 | Calls of the library do not dead-lock each other | Machine `Locks`: every call is the sequence of lock operations it performs, user code called back is a tree of such calls. A well-founded order of the locks, invariant that threads ask only for lower locks than they hold; the absence of dead-lock by well-founded induction, termination by counting what is left to do. |
| C101 | Tasks may sleep and use io_uring on whatever thread runs them | Layer `SchedIo` over machine `Sched`: starting a sleep or an operation needs the loop of the current thread. Invariant: a running task is on a worker or has been run outside without interruption. |
| C102 | consumer_attrs() lists the workers | Layer `Attrs` over machine `Life`: threads that go through the list entry by entry. Invariant: after start() the list is a permutation of the workers and fixed; an entry ends when its worker leaves. |
| C103 | mutex: every request is answered in the end | Machine `Mutex`: a potential per task bounds its steps by 7 per request, hence the length of every run; progress outside quiescence; with the wake-up theorem every maximal run has answered all requests. Overtaking: a run for every k. |
| C104 | wait_group: every wait() is answered in the end | Machine `WaitGroup`: every step leaves a mark in the trace or takes an entry from the queue, so a run has at most a + 2d + 4w steps; progress outside quiescence; with the wake-up theorem every maximal run has answered all waits. done(): the pending and the woken tasks were waiting when it was called, as long as nothing is added meanwhile; a run for every k otherwise. |
| C105 | The pool's idle report is true | Timed machine `Idle` of consumer() for N workers: the counter of sleepers equals the number of sleeping workers (induction), the time of the last report bounds the distance of reports; a single worker that has just finished is the counterexample to truthfulness. |
| C106 | make_lazy runs the callable only on request and keeps it alive | Machine `Lazy`: per task the coroutine of f, the coroutine make_lazy (if it is one) and the existence of the copy of f; induction over the schedule. Lazy callables: every use of a capture is proved to be too late; eager ones: only destructors after co_return, with two or more workers. |
| C107 | Memory is consistent when tasks move between threads | Machine `Hb.Pl`: the pool machine with happens-before views of actors (threads, callables), queue entries or queue mutexes, parked handles, joins and call_once; induction with an invariant that says where each location's view is. The synchronisation of the queue and of join() is a parameter: without either, the property is refuted. |
| C108 | this_task::get_id() identifies the task | Machine `TaskId`: frames at addresses chosen by the allocator, await_suspend in two steps with the resumption possible before it returns; induction. (An id may be used again after its task has ended: shown by a run.) |
| C109 | shared_mutex serves every request in the end | Same machine as C05 (`SharedMutex`): a measure of the steps left bounds every execution by five steps per request; what is left when nothing but requests is enabled is characterised from the invariants; with C06 (calm histories) every request is served. Overtaking of a writer: a loop of two readers, by induction on the number of rounds. |
| C110 | Futures may be moved, and a promise gives out more than one | Machine `FutMany`: any number of future objects over one shared state, moves, any number of awaiting tasks; layered invariants (where the result is; where the one future is; who awaits). What fails with two futures, two awaiters, or a move during co_await is shown by runs, 'for ever' by a predicate preserved by all steps. |
| C111 | The usual program with a mutex and a wait_group computes what it should and ends | Machine `EndToEnd`: the models of mutex and wait_group composed with the workers and the program text. Every program execution projects to executions of the two parts (`parts`), whose invariants carry over; a ranking function (25 n + 21 steps at most) gives termination, and 'no worker is ever blocked' plus an accounting of who has to wake whom gives the end. With one worker everything is proved; with two or more the lost wake-ups of C02 and C23 hang it, for every n ≥ 1. |
| C112 | Programs of tasks compute on any number of workers what their plain reading says, and end | Machine `ForkJoin`: the programs of `Nest` executed by W workers with stacks (eager tasks begin on their caller's), one queue, and an instance of the model of the future (`Verif.Future.step`) for every task, so that await_ready, await_suspend, await_resume and the storing of the result are separate actions. Invariants (tree of tasks, futures, places), a refinement to `Nest` with a rank for the actions that Nest does not know, and from these result, termination (at most 6 * work + 5 actions between which time passes) and absence of deadlock. Programs may yield and sleep: a clock, and a timer for every worker. |
| C113 | Programs that sleep end when they should: sleeping tasks do not occupy a worker | Specification `done` (ForkJoin/Span.lean): the time at which a program ends, by recursion on the program alone. On the machine `ForkJoin` (C112) every task gets the time at which it is bound to end when it is started; invariant: along every execution that time is a lower bound (monotonicity of `done`), along executions in which time passes only when nothing else can happen (`Prompt`) it is exact; such an execution exists for every program. |
| C114 | A tcp_server can be moved | Machine with any number of server objects (socket, stop state, wait group, alive) and accept loops (the object they hold as `this`, their token, a program counter); using a destroyed object is undefined behaviour. Specification: where the server is now (`whereIs`), from the history alone. Invariants relate socket and wait group to the history; two-phase theorems (start, move anything, stop) for stop(); refutations for what a move while running breaks, for every history where possible. |
| C115 | Appends of several tasks to one unique_file_state | Machine `FileAppend`: the machine `Mutex` (every atomic operation of m_fs_io_lock a step) under any number of append_async coroutines with their own 64-bit `left`, the kernel's answers and the destruction of the object as labels. Invariant: phase of a call fits the lock's protocol state, so mutual exclusion (C01) makes writes contiguous; refutations for the end of the object (the result is delivered before the lock is released) and for lost wake-ups (stuck state closed under steps). |

## 4. What the proofs found in the code

Every `_refuted` theorem is an execution (or, where the theorem is universally quantified, a family of executions) of the model in which the English property is false. The
corresponding `_partial` theorem says under which condition the property holds. In short:

| area | finding | theorem(s) |
|---|---|---|
| mutex | lost wake-up: a waiter that enqueues itself between the owner's look at the queue and its release is never woken | `Verif.Mutex.*_refuted` |
| mutex | acquire, try_acquire and ~mutex are noexcept but add_event throws after stop(): std::terminate | `Verif.Monitor.mutex_after_stop_refuted` |
| shared_mutex | exclusion, lost wake-up and use of an awaiter after its coroutine was published | `Verif.SharedMutex.*_refuted` |
| locks | a default-constructed lock answers owns_lock() = true | `Verif.Lock.*_refuted` |
| wait_group | done(n) beyond zero, lost wake-up, early wake | `Verif.WaitGroup.*_refuted` |
| thread_pool | tasks enqueued late around stop() are lost; enqueue after quick_stop() terminates (noexcept) | `Verif.Pool.*_refuted`, `Verif.Sched.enqueue_after_quick_stop_refuted` |
| future | get() after ready() blocks for ever; spurious wake-up throws out_of_range | `Verif.Future.*_refuted` |
| task | run() twice, after get_future or on a moved-from task is undefined | `Verif.Task.*_refuted` |
| generator | an exception leaves the consumer suspended for ever and leaks the frame | `Verif.Generator.*_refuted` |
| timer | due tasks of one pass are enqueued in reverse deadline order | `Verif.Timer.*_refuted` |
| io_uring | batches > 1024 dereference a null SQE; reuse after clear(); the link time-out covers only the last operation; `front()` may be the time-out's completion; is_timeout/all_success; EPERM; cancel | `Verif.Uring.*`, `Verif.OpBatch.*`, `Verif.Cancel.*` |
| streams | append_all overwrites files not opened with O_APPEND; read/recv_fill_buffer spin at EOF; unique_file_state; protobuf framing | `Verif.Stream.*_refuted` |
| expected | and_then moves out of lvalues; a throwing assignment leaves it valueless | `Verif.Expected.*_refuted` |
| functional | for_each is sequential (lazy view), an exception skips the rest, dispatch counter shared and wrapping | `Verif.Functional.*_refuted` |
| dir_mutex | destroying any object deletes others' lock file; a stale poller creates the lock file for nobody | `Verif.DirMutex.*_refuted` |
| tcp_server | until_done() returns at once when no loop has begun yet, early when only some loops have begun, or never when stop() races; destroying the server after until_done() is a use after free (the last loop is still inside wake_up_all()); a connection whose completion is overtaken by the time-out's is lost | `Verif.TcpServer.*_refuted` |
| event_loop | tasks asleep when stop() or quick_stop() reaches the timer are lost; after quick_stop() add_event swallows tasks without an error; add_event racing with stop() too | `Verif.EvLoop.*_refuted` |
| life cycle | stop() called by a task (or SIGINT delivered on a worker) joins itself: std::terminate, or dead-lock with a concurrent stop(); SIGINT on a thread inside stop() re-enters call_once: dead-lock; ~event_loop destroys the sub-loops before the workers end; number_of_threads is read in a race | `Verif.Life.*_refuted` |
| op_batch memory | move assignment of an op_batch uses the memory resource it has just destroyed (any content); between user resources memory goes back to the wrong resource and is leaked; a moved single-operation awaitable points into the moved-from object; a moved-from batch keeps its time-out flag and a borrowed resource | `Verif.Storage.*_refuted` |
| io_uring operations | a buffer of 4 GiB or more is truncated to its lower 32 bits (4 GiB exactly: 0 bytes, read looks like end of file); a path with a zero byte names another file; socket flags other than 0 make the kernel refuse the entry; milliseconds::max() overflows in the char overloads, accept and connect | `Verif.Ops.*_refuted` |
| descriptors | get_fd() called twice: the second owner closes a descriptor that meanwhile belongs to somebody else; a result dropped without get_fd() leaks its descriptor | `Verif.Fd.*_refuted` |
| connect_get_sock, bind_get_sock_tcp | destroyed while the socket operation is in flight, the socket leaks; bind_get_sock_tcp ignores its flags, connect_get_sock fails with any flags but 0; the exception of connect_get_sock carries no error code | `Verif.Sock.*_refuted` |
| generator variables | move assignment onto a variable that owns a suspended coroutine never destroys that coroutine's frame (shared state and frame own each other, `operator=` does not finalize); the destructor aborts while a request is outstanding | `Verif.GenLife.*_refuted` |
| end of an awaited task | `return_value` wakes the awaiting task (and future::get()) before the local variables and parameters of the awaited task are destroyed; with two workers the caller may return, and destroy what they refer to, first; an exception is delivered after the locals but before the parameters | `Verif.Scope.*_refuted` |
| dir_mutex::unlock in tasks | `unlock()` blocks its worker in `delete_lock_file().result()`, which needs a free worker; with one worker a single release, with W workers W simultaneous releases, hang the runtime | `Verif.Block.all_workers_refuted` |
| awaiting an aborted task | `co_await f()` makes a cycle: frame → task object → future → shared state → handle of the frame; if f is destroyed before it has finished (mutex destroyed, runtime stopped, ...) the caller, its callers and all their locals (locks, guards) are leaked | `Verif.Leak.aborted_refuted` |
| longest sleep | `sleep_for(nanoseconds::max())`, `sleep_until(time_point::max())` and `sleep_until(time_point::min())` compute a deadline by signed addition/subtraction that overflows (in practice: they return at once or never) | `Verif.Deadline.sleepFor_max_refuted`, `Verif.Deadline.sleepUntil_max_refuted`, `Verif.Deadline.sleepUntil_min_refuted` |
| restart | `runtime_init()` after `runtime_exit()`: the pointer already leads to the new, unstarted runtime while the old one's tasks are destroyed; if one of them held a lock with a waiter, the waiter is enqueued into an empty map of queues (`begin()` of an empty map dereferenced). The SIGINT flag is never reset. `runtime_exit()` before `runtime_init()`, and SIGINT inside the first `runtime_init()`, dereference null | `Verif.Reinit.lock_refuted`, `Verif.Reinit.sigint_refuted`, `Verif.Reinit.early_refuted`, `Verif.Reinit.init_twice_refuted` |
| shared_mutex | a data race: a reader woken but not counted is resumed after a writer has written and released, without synchronising with it | `Verif.Hb.Shr.shared_mutex_race_refuted` |
| generator | the consumer is told the end before the local variables of the body are destroyed: a race with their destructors | `Verif.Hb.Gen.generator_race_refuted` |
| scheduler | tasks queued on a worker that is occupied, and timers of tasks that went to sleep on it, wait for ever while others are busy | `Verif.Fair.starvation_refuted` |
| errors | error_code() of every uring_exception / socket_exception is success; a set error code parameter makes the fill functions do nothing; a stop during a fill loses the byte count | `Verif.Err.*_refuted` |
| wait_group, mutex, hub | done(), unlock(), may_wake_all() use the object after the task they let go may have destroyed it | `Verif.Mortal.*_refuted` |
| future | a promise destroyed without a result is not reported: get(), result() and co_await wait for ever | `Verif.Future.broken_promise_refuted` |
| thread_pool | the notification of enqueue() is sent without the mutex: a worker about to sleep misses it and the task waits up to 500 ms with an idle worker | `Verif.Nap.wake_up_lost_refuted` |
| thread_pool | the std::future of a function that quick_stop() leaves behind gets no result, not even broken_promise, before the pool is destroyed | `Verif.PoolFut.pool_future_abandoned_refuted` |
| io_uring loop | more than 2048 completions between two polls of a worker: what does not fit into the completion ring is not delivered until the worker executes another batch (the loop looks at the ring only); the tasks hang | `Verif.Uring.many_completions_strand_refuted`, `Verif.Uring.overflowed_waits` |
| io_uring loop | the result of io_uring_submit is ignored: operations behind an entry the kernel refuses are not started until the worker executes another batch | `Verif.Uring.short_submit_strands_refuted` |
| io_uring loop | a worker that ends destroys the waiting tasks right after io_uring_queue_exit, while the kernel may still write into their buffers | `Verif.UringMem.kernel_touches_freed_refuted` |
| stopping with a dir_mutex held | quick_stop() (runtime_exit(), SIGINT) destroys the sleeping tasks with the lock of the timers held; if one of them holds a dir_mutex, its guard waits for the task that deletes the lock file, and every worker waits for the lock: the program hangs | `Verif.Locks.quick_stop_hangs_refuted` |
| user loops | user loops are called with the lock of the list held: one that adds a loop blocks its worker for ever | `Verif.Locks.add_loop_in_loop_refuted` |
| tasks outside of the workers | a task run by local_thread_scheduler that sleeps or starts an io_uring operation uses a null pointer (the loops are per worker) | `Verif.SchedIo.start_outside_refuted` |
| consumer_attrs() | the entries point to locals of the workers' function: turn_into_scheduler() / for_each_dispatch_evenly() during or after stop() read dead stack frames; before start() returns the vector is read without its lock | `Verif.Attrs.look_after_stop_refuted`, `look_while_draining_refuted`, `look_before_start_refuted` |
| mutex fairness | a waiting task can be overtaken any number of times by tasks that ask between the two halves of unlock() | `Verif.Mutex.mutex_overtaking_refuted` |
| wait_group::done loop | done() drains the queue of waiters until it is empty: tasks that call wait() after a later add() are let through early and keep it in the loop without end | `Verif.WaitGroup.wait_group_done_unbounded_refuted` |
| idle report | "thread_pool has been idle for a while!" is logged half a second after 20 s of work | `Verif.Idle.report_truthful_refuted` |
| make_lazy, lazy callable | the closure is a parameter of an ordinary function: it is destroyed before the coroutine begins, so every use of a capture is a use after destruction | `Verif.Lazy.lazy_captures_never_exist`, `lazy_captures_refuted` |
| make_lazy, eager callable | with two workers make_lazy's frame (with the closure) may end before the destructors of the callable's local variables have run | `Verif.Lazy.eager_captures_late_refuted` |
| shared_mutex, readers first | a reader is let in although a writer sleeps: two readers that take turns keep the writer out for ever | `Verif.SharedMutex.shared_mutex_writer_overtaken_refuted` |
| promise, second get_future() | a task that awaits the second future sleeps for ever once the first has seen the result; a second awaiter destroys the first one inside of its co_await; a future moved while awaited is dereferenced empty | `Verif.FutMany.second_future_refuted`, `shared_future_refuted`, `second_awaiter_refuted`, `moved_while_awaited_refuted` |
| a program of n jobs with a mutex and a wait_group | on two or more workers main may sleep for ever after all jobs are over (and jobs may sleep for ever at a free mutex); with one worker it always ends | `Verif.EndToEnd.program_hangs_refuted`, `mutex_hang_refuted` |
| moving a tcp_server | the accept loops hold `this`, but the move constructor takes socket and stop source away from it and gives the new object a new wait group: a server moved while it runs accepts nothing any more (its loops spin on failing accepts), until_done of the new object returns at once, destroying the moved-from object is undefined behaviour; `operator=(tcp_server&&)` is declared and not defined | `TcpMove.moved_server_deaf_refuted`, `moved_until_done_refuted`, `moved_from_destroyed_refuted` |
| end of unique_file_state | append_async delivers its result (return_value wakes the caller) before `lk` is destroyed: a caller on another worker that then destroys the unique_file_state destroys a mutex that is about to be released | `FileAppend.destroyed_after_results_refuted` |
| tcp_server literal | missing, garbage and out-of-range ports are accepted | `Verif.TcpServer.Literal.*_refuted` |

Found while reading, outside of the models: `task_scheduler::enqueue(task_concept auto)` calls a member function that does not exist; try_acquire_shared's await_resume does not
compile when used; the variadic void co_await_all does not compile; `tcp_server::operator=(tcp_server&&)` is declared but not defined; `consumer_attrs()` is read without its lock;
user_event_loops::m_cleanning is written under a shared lock; `event_loop::max_sleep_duration` uses a function-static vector shared by all instances; the timer's
`cur_thread_ptr` is a null dereference on threads that are not workers;
`milliseconds::max() + now` overflows in the char overloads of append_all and recv_fill_buffer.
`op_batch`'s `cancel_any(fd)` with one argument is ambiguous and cannot be called.

## 5. Axioms of each theorem

As printed by `#print axioms` for every theorem named in MANIFEST.json. `propext`, `Quot.sound` and `Classical.choice` are the three standard axioms of Lean's library; no other axiom occurs.

**propext, Classical.choice, Quot.sound** (433 theorems)

- `Verif.Adaptor`: merge_output_interleaves, merge_complete, merge_perm, merge_sorted, merge_terminates
- `Verif.Attrs`: list_is_complete_partial, list_is_stable_partial, no_race_partial, entries_valid_while_running_partial, look_completes_partial, look_after_stop_refuted
- `Verif.Block`: returned_deleted, returned_called, returns_partial, outside_returns, all_workers_refuted
- `Verif.Cancel`: cancel_first_correct, cancel_any_refuted, get_fd_iff, exception_loses_code_refuted
- `Verif.Deadline`: sleepFor_refuted, sleepFor_max_refuted, sleepUntil_max_refuted, sleepUntil_min_refuted
- `Verif.DirMutex`: dir_mutex_exclusion_partial, dir_mutex_file_has_owner_partial, dir_mutex_waiter_progress_partial, dir_mutex_progress_refuted, dir_mutex_uncontended, dir_mutex_polling_stops
- `Verif.DirMutex.Guard`: guard_unlocks_at_most_once, guard_unlocks_all, guard_holds
- `Verif.EndToEnd`: total_is_serial, counter_is_exact, total_is_deterministic, program_terminates, running_can_go, single_worker_ends_with_total, single_worker_finishes, ends_with_total_partial, end_to_end_nontrivial, program_hangs_refuted, mutex_hang_refuted
- `Verif.Err`: fill_blames, fill_throws, exception_code_refuted, cancel_silent_refuted, fill_stop_loses_count_refuted
- `Verif.EvLoop`: no_add_after_stop, add_after_stop_throws, throws_only_after_stop, accounting, nothing_lost_before_stop_partial, sleeper_wakes_partial, yield_resumes, worker_exits_drained, stop_loses_sleepers_refuted, stop_loses_a_sleeper_refuted, add_after_quick_stop_refuted
- `Verif.Expected`: alternatives, value_iff_has_value, and_then_left_identity, and_then_right_identity, and_then_assoc, chain_is_railway, and_then_task, void_and_then, and_then_keeps_alternative, and_then_consumes_refuted
- `Verif.Fair`: bounded_bypass, in_order, prompt_deadlines, starvation_refuted
- `Verif.Fd`: closes_own_file_partial, owner_valid_partial, no_leak_partial, closed_once, threw_only_if_failed, dropped_result_refuted
- `Verif.FileAppend`: appends_contiguous, append_within_call, append_honest, append_total_partial, no_use_after_frames_partial, destroyed_after_results_refuted, append_lost_refuted
- `Verif.Fly`: fly_at_most_once, fly_no_leak, fly_no_ub, fly_ub_source
- `Verif.ForkJoin`: forkjoin_refines, forkjoin_result, forkjoin_await_yields_child_result, forkjoin_once, forkjoin_terminates, forkjoin_one_worker, running_can_go, can_act_or_sleeps, forkjoin_no_deadlock, forkjoin_completes, forkjoin_sleep_not_early, forkjoin_not_before, forkjoin_on_time, forkjoin_ends_at, forkjoin_prompt_ends, sleepers_side_by_side
- `Verif.Functional`: co_await_all_ordered, co_await_all_once, co_await_all_exception, co_await_all_progress, co_await_all_terminates, for_each_all_processed, for_each_in_range, for_each_parallel_refuted, dispatch_concurrent_refuted
- `Verif.FutMany`: futures_at_most_once, futures_authentic, future_moves_transparent, future_await_after_moves, futures_nontrivial, second_future_refuted, shared_future_refuted
- `Verif.Future`: future_await_result, future_woken_once, future_woken_after_produced, future_no_lost_wakeup, future_get_nonblk_answers, future_ready_truthful, future_at_most_once, future_get_returns_partial, broken_no_false_result_partial, broken_promise_refuted
- `Verif.GenLife`: destroyed_at_most_once, one_owner, owned_alive, unowned_destroyed_partial, returned_destroyed, abort_only_active, overwrite_refuted
- `Verif.Generator`: generator_consumer_sees_yields, generator_one_answer_per_request, generator_never_runs_ahead, generator_yields_at_most_asked, generator_request_answered, generator_progress, generator_no_assertion_failure, generator_frame_destroyed_once, generator_values_before_exception_partial
- `Verif.Hb`: mutex_race_free, race_free_of_strong
- `Verif.Hb.Fut`: future_result_visible, visible_of_locks
- `Verif.Hb.Gen`: generator_races_only_with_locals, generator_race_free_partial, race_free_of_queue
- `Verif.Hb.Pl`: start_visible, task_visible, result_visible, stop_visible
- `Verif.Hb.Shr`: shared_mutex_hand_over_visible, shared_mutex_race_free_partial, shared_mutex_race_free_nontrivial
- `Verif.Hb.Wg`: wg_no_stale, wg_all_before
- `Verif.Hub`: hub_wakes_each_once, hub_reports_truthfully, hub_nobody_missed
- `Verif.Idle`: reports_apart, no_report_at_once, all_sleep_at_report, nothing_pending_at_report, report_after_naps_partial, report_truthful_refuted
- `Verif.Lazy`: make_lazy_runs_when_started, make_lazy_result, eager_captures_exist, eager_captures_exist_until_end_partial, make_lazy_no_dangling_partial, lazy_captures_never_exist
- `Verif.Leak`: at_most_once, gone_locals, unstarted_gone, settles, container_destroys, awaiting_own_kept, awaiting_gone_partial, aborted_refuted
- `Verif.Life`: stop_returns_after_workers, terminates_only_then, external_stop_returns_partial, stop_in_task_refuted, destroyed_after_workers, manual_destructor_blocks, destroy_after_stop_safe_partial, destroy_completes_partial, destroy_running_refuted, start_returns_prepared, prepared_before_return, tasks_after_prepared, start_completes, number_of_threads_partial, number_of_threads_refuted, second_sigint_terminates, sigint_stops_partial, sigint_on_worker_refuted, sigint_during_stop_refuted
- `Verif.LocalSched`: local_fifo, local_all_done, local_synchronous
- `Verif.Lock`: lock_released_at_most_once, lock_no_leak, lock_unreleased_has_unique_owner, owns_lock_truthful_partial
- `Verif.Locks`: calls_do_not_deadlock_partial, calls_return_partial, add_loop_in_loop_refuted, quick_stop_hangs_refuted
- `Verif.Monitor`: monitor_lists_live_used, monitor_touches_live, monitor_registers_once, monitor_used_is_registered, monitor_no_dangling, monitor_progress, mutex_terminates_only_after_stop_partial, mutex_after_stop_refuted
- `Verif.Mortal`: wait_group_destroy_partial, mutex_destroy_partial, hub_destroy_partial
- `Verif.Mutex`: mutex_mutual_exclusion, mutex_lost_wakeup_refuted, mutex_no_lost_wakeup_partial, mutex_no_lost_wakeup_single_worker_partial, mutex_life_cycle, mutex_woken_is_next_owner, mutex_refuses_only_if_busy, mutex_bounded_steps, mutex_terminates, mutex_progress, mutex_can_ask, mutex_all_served_partial, mutex_newcomers_wait_partial, mutex_overtaking_refuted, live_nontrivial
- `Verif.Nap`: idle_worker_notices, sleeping_worker_is_woken, time_can_pass
- `Verif.Nest`: nest_result, nest_completes, nest_terminates, nest_no_deadlock, nest_await_yields_child_result, nest_ends_once, nest_got_once, nest_exception_propagates
- `Verif.OpBatch`: batch_sequential, batch_stops_at_failure, batch_reports_once, batch_reports_in_order, all_success_sound, all_success_complete_partial, is_timeout_sound, is_timeout_complete_partial, ioret_success_iff, single_timeout_covers_partial, batch_timeout_covers_whole_refuted, single_result_own_partial
- `Verif.Ops`: batch_requests_partial, single_op_requests_partial, overloads_agree_partial, max_span_refuted
- `Verif.Pool`: pool_executes_at_most_once, pool_never_loses, pool_stop_drains, pool_survives_exceptions, pool_quick_stop_at_most_one_more, pool_quick_stop_running_starts_none, pool_quick_stop_refuses
- `Verif.PoolFut`: pool_future_truthful, pool_future_after_stop, pool_future_after_destruction, pool_future_abandoned_refuted
- `Verif.QWrapper`: wrapper_destroyed_at_most_once, wrapper_no_leak, wrapper_null_only_moved_from
- `Verif.Reinit`: once, leftovers, begins_here, accepts, restart_partial, restart_safe_partial, sigint_first, lock_refuted, sigint_refuted
- `Verif.ReleaseOnce`: release_at_most_one_winner, release_exactly_one_winner
- `Verif.Sched`: wake_up_goes_back, null_handle_ignored, queues_hold_tasks, turn_into_scheduler_on_worker, enqueue_safe_before_quick_stop_partial
- `Verif.SchedIo`: start_on_worker_partial, after_turn_safe
- `Verif.Scope`: over_partial, exception_after_locals, exception_outside_after_locals, destroyed_le_made, frame_last
- `Verif.SharedMutex`: shared_mutex_exclusion_partial, shared_mutex_starvation_refuted, shared_mutex_no_starvation_partial, shared_mutex_readers_share, shared_mutex_free_after_last_release, shared_mutex_free_after_last_reader, shared_mutex_awaiter_lifetime_partial, shared_mutex_bounded_steps, shared_mutex_terminates, shared_mutex_progress, shared_mutex_all_served_partial, shared_mutex_writer_overtaken_refuted
- `Verif.Sock`: returned_ready, error_closes, one_outcome, destroyed_connecting_closes_partial, flags_refuted, connect_code_lost_refuted
- `Verif.Storage`: batch_memory_safe_partial, copied_arguments_readable_partial, submitted_arguments_partial, in_flight_arguments_partial, freed_at_most_once_partial, all_freed_partial, destroy_frees_partial, move_assign_refuted, moved_awaitable_refuted
- `Verif.Stream`: append_all_append_mode_partial, append_all_returns, append_all_spins_refuted, append_all_overwrites_refuted, recv_fill_contiguous, read_fill_contiguous, fill_success_is_full, recv_fill_returns, fill_spins_at_eof_refuted, append_async_full_writes_partial, append_async_error, send_pb_frames_partial, recv_pb_decodes, recv_pb_never_truncated, recv_pb_returns, pb_round_trip_partial, send_pb_true_on_error_refuted, send_pb_split_prefix_refuted
- `Verif.Task`: task_body_at_most_once, task_dropped_or_scheduled, task_scheduled_delivers, task_answers, task_no_ub_partial
- `Verif.TaskId`: task_id_stable, task_ids_distinct, task_id_answers
- `Verif.TcpMove`: accepts_on_socket_partial, until_done_partial, stop_reaches_loops, no_use_after_destruction_partial, moved_server_deaf_refuted
- `Verif.TcpServer`: is_stop_partial, until_done_partial, until_done_hangs_refuted, connection_callback_partial, connection_overtaken_refuted, loop_leaves_only_after_stop, accepts_after_stop, loop_progress, start_launches_each_once
- `Verif.TcpServer.Literal`: literal_parses, literal_big_port_refuted, literal_trailing_refuted
- `Verif.Timer`: timer_never_early, timer_at_most_once, timer_pass_wakes_all_due, timer_pass_order, timer_silent_after_stop, timer_nothing_leaks, timer_no_ub_partial, sleep_past_is_resumed, worker_never_oversleeps
- `Verif.Uring`: uring_resumed_with_all_results, uring_at_most_once, uring_poll_resumes, uring_no_ub, uring_nothing_leaks, uring_batch_up_to_1024_partial, uring_backoff, uring_backoff_bounds, batch_reuse_never_resumes, caught_up_poll_resumes_partial, few_ops_poll_resumes, ring_never_full, all_started_partial, overflowed_waits, many_completions_strand_refuted, short_submit_strands_refuted, few_ops_nontrivial, all_started_nontrivial
- `Verif.UringMem`: kernel_memory_safe_partial, kernel_touches_freed_refuted, kernel_memory_nontrivial
- `Verif.UserLoops`: loop_prepared_exactly_once, pass_polls_every_loop, add_loop_safe
- `Verif.WSQ`: wsq_at_most_once, wsq_size_exact, wsq_own_queue, wsq_no_ub, wsq_dequeue_finds, wsq_dequeue_returns
- `Verif.WaitGroup`: wait_group_well_behaved, wait_group_passes_only_at_zero_mod, wait_group_passes_only_at_zero, wait_group_suspends_only_if_not_zero, wait_group_no_lost_wakeup_partial, wait_group_woken_only_at_zero_partial, wait_group_terminates, wait_group_progress, wait_group_all_served_partial, wait_group_done_bounded_partial, wait_group_done_unbounded_refuted, live_nontrivial
- `Verif.WaitGroup.Guard`: guard_done_at_most_once, guard_leak_refuted, guard_self_assign_refuted, guard_no_leak_partial

**propext, Quot.sound** (102 theorems)

- `Verif.Adaptor`: unique_output_is_prefix, unique_complete, unique_terminates, collect_exact, collect_terminates
- `Verif.Attrs`: attrs_nontrivial
- `Verif.Cancel`: cancel_first_none, batch_cancel_all_correct, cancel_all_refuted, cancel_all_single_partial
- `Verif.Deadline`: sleepUntil_partial
- `Verif.DirMutex`: dir_mutex_exclusion_refuted
- `Verif.Err`: append_all_success, append_all_throws, appendAsync_success, appendAsync_waits, append_async_handler_refuted
- `Verif.EvLoop`: add_races_stop_refuted
- `Verif.Fly`: fly_invoke, fly_null_handle_refuted
- `Verif.Functional`: dispatch_even, dispatch_worker, for_each_int_no_dangling
- `Verif.FutMany`: second_awaiter_refuted, moved_while_awaited_refuted
- `Verif.Future`: future_get_after_ready_blocks_refuted
- `Verif.Hb`: relaxed_tas_races, relaxed_clear_races, relaxed_giveUp_races
- `Verif.Hb.Gen`: unsynchronised_queue_races
- `Verif.Hb.Pl`: hb_pool_nontrivial, unsynchronised_read_races, queue_must_synchronise, stop_must_join
- `Verif.Hb.Shr`: shared_mutex_race_refuted
- `Verif.Hb.Wg`: relaxed_sub_stale, relaxed_load_stale, release_only_sub_stale
- `Verif.Idle`: idle_nontrivial
- `Verif.Lazy`: lazy_nontrivial
- `Verif.Life`: stop_in_task_terminates_refuted
- `Verif.Lock`: owns_lock_refuted
- `Verif.Locks`: locks_nontrivial
- `Verif.Mortal`: wait_group_destroy_nontrivial, mutex_handover_nontrivial, wait_group_destroy_refuted, wait_group_destroy_unsuspended_refuted, mutex_destroy_refuted, hub_destroy_refuted
- `Verif.Nap`: wake_up_lost_refuted, nap_nontrivial
- `Verif.OpBatch`: batch_submission, all_success_missed_refuted, is_timeout_missed_refuted, ioret_truthful_partial, single_result_lost_refuted
- `Verif.Ops`: large_buffer_refuted, large_buffer_refuted', nul_path_refuted, socket_flags_refuted, span_deadline, huge_span_refuted
- `Verif.Pool`: pool_late_task_lost_refuted
- `Verif.PoolFut`: pool_future_nontrivial, pool_future_stop_nontrivial, pool_future_abandoned_nontrivial
- `Verif.Reinit`: lock_witness, early_refuted, init_twice_refuted
- `Verif.Sched`: scheduled_run_on_workers, enqueue_after_quick_stop_refuted
- `Verif.SchedIo`: start_outside_refuted, start_nontrivial
- `Verif.SharedMutex`: shared_mutex_exclusion_refuted, shared_mutex_nested_exclusion_refuted, shared_mutex_awaiter_lifetime_refuted, shared_live_nontrivial
- `Verif.StdQueue`: std_queue_fifo
- `Verif.Storage`: move_assign_user_refuted, moved_from_reuse_refuted
- `Verif.Stream`: recv_pb_nothing_arrived_refuted
- `Verif.TaskId`: task_id_reused_refuted, task_id_nontrivial
- `Verif.TcpServer`: until_done_refuted, until_done_early_refuted, destroy_safe_partial, destroy_after_until_done_refuted
- `Verif.TcpServer.Literal`: literal_rejects_partial, literal_no_number_refuted
- `Verif.TcpUtil`: deplete_correct, deplete_true, deplete_error, deplete_bounded, deplete_progress
- `Verif.Timer`: timer_deadline_order_refuted, timer_foreign_thread_refuted
- `Verif.UserLoops`: add_loop_after_exit_refuted, maxSleep_is_min
- `Verif.WSQ`: wsq_undisciplined_ub_refuted
- `Verif.WaitGroup`: wait_group_done_n_refuted, wait_group_lost_wakeup_refuted, wait_group_woken_early_refuted

**propext** (42 theorems)

- `Verif.Attrs`: look_while_draining_refuted, look_before_start_refuted, attrs_stopped
- `Verif.Deadline`: sleepFor_partial
- `Verif.Err`: fill_no_false_alarm, append_all_blames, append_all_no_false_alarm, append_async_blames, reused_code_refuted
- `Verif.Expected`: alternatives_void, and_then_error, valueless_refuted, assign_ok
- `Verif.Fair`: fair_nontrivial
- `Verif.Fd`: double_take_refuted
- `Verif.Functional`: for_each_exception_skips_refuted, dispatch_each
- `Verif.Future`: future_get_spurious_refuted, broken_promise_nontrivial
- `Verif.GenLife`: drop_while_active_refuted
- `Verif.Generator`: generator_exception_strands_consumer
- `Verif.Hb.Fut`: future_result_visible_nontrivial, unlocked_set_races, unlocked_frame_races, later_writes_race
- `Verif.Hb.Gen`: generator_race_free_nontrivial, generator_race_refuted
- `Verif.Lazy`: lazy_captures_refuted, eager_captures_late_refuted
- `Verif.Life`: sigint_on_idle_worker_terminates_refuted
- `Verif.LocalSched`: local_progress
- `Verif.OpBatch`: ioret_stale_errno_refuted
- `Verif.Scope`: early_result_refuted, early_result_outside_refuted, early_exception_refuted
- `Verif.Sock`: destroyed_early_leaks_refuted
- `Verif.Stream`: unique_file_state_refuted
- `Verif.TcpMove`: moved_until_done_refuted, moved_from_destroyed_refuted
- `Verif.Uring`: uring_large_batch_refuted, batch_reuse_hangs_refuted, batch_reuse_resumes_early_refuted

**no axioms** (9 theorems)

- `Verif.Cancel`: number_canceled_refuted
- `Verif.Err`: err_nontrivial
- `Verif.Functional`: dispatch_wrap_refuted
- `Verif.OpBatch`: clear_with_timeout_refuted
- `Verif.Stream`: append_all_short_write_refuted, recv_fill_loses_bytes_refuted, append_async_short_write_refuted, append_async_wraps_refuted
- `Verif.Task`: task_run_twice_ub_refuted
