{
 "claims": [
  {
   "property": "C01",
   "status": "proved",
   "theorems": [
    "Verif.Mutex.mutex_mutual_exclusion"
   ],
   "note": "All interleavings, any number of tasks, also with spuriously empty waiter queue."
  },
  {
   "property": "C02",
   "status": "partial",
   "theorems": [
    "Verif.Mutex.mutex_lost_wakeup_refuted",
    "Verif.Mutex.mutex_no_lost_wakeup_partial",
    "Verif.Mutex.mutex_no_lost_wakeup_single_worker_partial"
   ],
   "note": "False of the code (lost wake-up, refuted by a concrete run). Proved when tasks only go to sleep while the lock is held, in particular for non-overlapping calls (single worker thread)."
  },
  {
   "property": "C03",
   "status": "proved",
   "theorems": [
    "Verif.Mutex.mutex_life_cycle",
    "Verif.Mutex.mutex_woken_is_next_owner"
   ],
   "note": "Life-cycle automaton per task."
  },
  {
   "property": "C04",
   "status": "proved",
   "theorems": [
    "Verif.Lock.lock_released_at_most_once",
    "Verif.Lock.lock_no_leak",
    "Verif.Lock.lock_unreleased_has_unique_owner"
   ],
   "note": "Any number of lock objects and mutexes, self-move-assignment included."
  },
  {
   "property": "C05",
   "status": "partial",
   "theorems": [
    "Verif.SharedMutex.shared_mutex_exclusion_refuted",
    "Verif.SharedMutex.shared_mutex_nested_exclusion_refuted",
    "Verif.SharedMutex.shared_mutex_exclusion_partial"
   ],
   "note": "False of the code; refuted by concrete runs. Proved for histories in which no reader was ever suspended."
  },
  {
   "property": "C06",
   "status": "partial",
   "theorems": [
    "Verif.SharedMutex.shared_mutex_starvation_refuted",
    "Verif.SharedMutex.shared_mutex_no_starvation_partial"
   ],
   "note": "False of the code; refuted. Proved in the calm case stated in the theorem."
  },
  {
   "property": "C07",
   "status": "proved",
   "theorems": [
    "Verif.SharedMutex.shared_mutex_readers_share",
    "Verif.SharedMutex.shared_mutex_free_after_last_release",
    "Verif.SharedMutex.shared_mutex_free_after_last_reader"
   ],
   "note": ""
  },
  {
   "property": "C08",
   "status": "proved",
   "theorems": [
    "Verif.Future.future_await_result",
    "Verif.Future.future_woken_once",
    "Verif.Future.future_woken_after_produced",
    "Verif.Future.future_no_lost_wakeup"
   ],
   "note": "All interleavings of the producer's and consumer's critical sections."
  },
  {
   "property": "C09",
   "status": "proved",
   "theorems": [
    "Verif.Future.future_get_nonblk_answers",
    "Verif.Future.future_ready_truthful",
    "Verif.Future.future_at_most_once"
   ],
   "note": ""
  },
  {
   "property": "C10",
   "status": "partial",
   "theorems": [
    "Verif.Future.future_get_after_ready_blocks_refuted",
    "Verif.Future.future_get_spurious_refuted",
    "Verif.Future.future_get_returns_partial"
   ],
   "note": "False of the code in full: get() after ready() answered true blocks forever, and a spurious wake-up makes get() throw out_of_range; the partial theorem covers get() without them."
  },
  {
   "property": "C11",
   "status": "proved",
   "theorems": [
    "Verif.Fly.fly_at_most_once",
    "Verif.Fly.fly_no_leak",
    "Verif.Fly.fly_no_ub",
    "Verif.Fly.fly_invoke",
    "Verif.Fly.fly_ub_source",
    "Verif.Fly.fly_null_handle_refuted"
   ],
   "note": "Frames resumed xor destroyed, exactly once; an owning object around a null handle is UB on destruction (refuted separately)."
  },
  {
   "property": "C12",
   "status": "proved",
   "theorems": [
    "Verif.ReleaseOnce.release_at_most_one_winner",
    "Verif.ReleaseOnce.release_exactly_one_winner"
   ],
   "note": "Any number of threads, every interleaving of the atomic exchange and the moves."
  },
  {
   "property": "C13",
   "status": "partial",
   "theorems": [
    "Verif.Task.task_body_at_most_once",
    "Verif.Task.task_dropped_or_scheduled",
    "Verif.Task.task_scheduled_delivers",
    "Verif.Task.task_answers",
    "Verif.Task.task_run_twice_ub_refuted",
    "Verif.Task.task_no_ub_partial"
   ],
   "note": "run() a second time is undefined behaviour instead of logic_error (refuted); everything else proved."
  },
  {
   "property": "C14",
   "status": "proved",
   "theorems": [
    "Verif.Nest.nest_result",
    "Verif.Nest.nest_completes",
    "Verif.Nest.nest_terminates",
    "Verif.Nest.nest_no_deadlock",
    "Verif.Nest.nest_await_yields_child_result",
    "Verif.Nest.nest_ends_once",
    "Verif.Nest.nest_got_once",
    "Verif.Nest.nest_exception_propagates"
   ],
   "note": "Bodies of any depth with arbitrary continuations, eager and lazy children, tasks started with run(), every interleaving. C112 has the same on W workers with the futures action by action."
  },
  {
   "property": "C15",
   "status": "proved",
   "theorems": [
    "Verif.Pool.pool_executes_at_most_once",
    "Verif.Pool.pool_never_loses"
   ],
   "note": "N workers, any interleaving, any dequeue order of each queue."
  },
  {
   "property": "C16",
   "status": "proved",
   "theorems": [
    "Verif.Pool.pool_stop_drains",
    "Verif.Pool.pool_late_task_lost_refuted"
   ],
   "note": "Tasks may throw and enqueue more. Tasks enqueued from outside after stop() are accepted silently and may be lost (second theorem)."
  },
  {
   "property": "C17",
   "status": "proved",
   "theorems": [
    "Verif.Pool.pool_survives_exceptions",
    "Verif.Pool.pool_stop_drains"
   ],
   "note": "Drain theorem quantifies over throwing tasks too."
  },
  {
   "property": "C18",
   "status": "proved",
   "theorems": [
    "Verif.Pool.pool_quick_stop_at_most_one_more",
    "Verif.Pool.pool_quick_stop_running_starts_none",
    "Verif.Pool.pool_quick_stop_refuses"
   ],
   "note": ""
  },
  {
   "property": "C19",
   "status": "proved",
   "theorems": [
    "Verif.WSQ.wsq_at_most_once",
    "Verif.WSQ.wsq_size_exact",
    "Verif.WSQ.wsq_own_queue",
    "Verif.WSQ.wsq_no_ub",
    "Verif.WSQ.wsq_undisciplined_ub_refuted"
   ],
   "note": "Any number of threads, stale snapshots included."
  },
  {
   "property": "C20",
   "status": "proved",
   "theorems": [
    "Verif.WSQ.wsq_dequeue_finds",
    "Verif.WSQ.wsq_dequeue_returns",
    "Verif.WSQ.wsq_own_queue",
    "Verif.WSQ.wsq_size_exact"
   ],
   "note": ""
  },
  {
   "property": "C21",
   "status": "proved",
   "theorems": [
    "Verif.StdQueue.std_queue_fifo"
   ],
   "note": ""
  },
  {
   "property": "C22",
   "status": "proved",
   "theorems": [
    "Verif.QWrapper.wrapper_destroyed_at_most_once",
    "Verif.QWrapper.wrapper_no_leak",
    "Verif.QWrapper.wrapper_null_only_moved_from"
   ],
   "note": ""
  },
  {
   "property": "C23",
   "status": "partial",
   "theorems": [
    "Verif.WaitGroup.wait_group_well_behaved",
    "Verif.WaitGroup.wait_group_passes_only_at_zero_mod",
    "Verif.WaitGroup.wait_group_passes_only_at_zero",
    "Verif.WaitGroup.wait_group_suspends_only_if_not_zero",
    "Verif.WaitGroup.wait_group_done_n_refuted",
    "Verif.WaitGroup.wait_group_lost_wakeup_refuted",
    "Verif.WaitGroup.wait_group_woken_early_refuted",
    "Verif.WaitGroup.wait_group_no_lost_wakeup_partial",
    "Verif.WaitGroup.wait_group_woken_only_at_zero_partial"
   ],
   "note": "False of the code in full (three refutations); the partial theorems state the conditions under which it holds."
  },
  {
   "property": "C24",
   "status": "partial",
   "theorems": [
    "Verif.WaitGroup.Guard.guard_done_at_most_once",
    "Verif.WaitGroup.Guard.guard_leak_refuted",
    "Verif.WaitGroup.Guard.guard_self_assign_refuted",
    "Verif.WaitGroup.Guard.guard_no_leak_partial"
   ],
   "note": "Move assignment over a live guard leaks its count (refuted); without it, proved."
  },
  {
   "property": "C25",
   "status": "proved",
   "theorems": [
    "Verif.Hub.hub_wakes_each_once",
    "Verif.Hub.hub_reports_truthfully",
    "Verif.Hub.hub_nobody_missed"
   ],
   "note": ""
  },
  {
   "property": "C26",
   "status": "proved",
   "theorems": [
    "Verif.Generator.generator_consumer_sees_yields",
    "Verif.Generator.generator_one_answer_per_request",
    "Verif.Generator.generator_never_runs_ahead",
    "Verif.Generator.generator_yields_at_most_asked",
    "Verif.Generator.generator_request_answered",
    "Verif.Generator.generator_progress",
    "Verif.Generator.generator_no_assertion_failure",
    "Verif.Generator.generator_frame_destroyed_once"
   ],
   "note": "Every body (finite or endless, with pauses), every interleaving of consumer and body."
  },
  {
   "property": "C27",
   "status": "partial",
   "theorems": [
    "Verif.Generator.generator_exception_strands_consumer",
    "Verif.Generator.generator_values_before_exception_partial"
   ],
   "note": "The property is false of the code (refutation proved); proved: no value yielded before the exception is lost."
  },
  {
   "property": "C28",
   "status": "proved",
   "theorems": [
    "Verif.Adaptor.unique_output_is_prefix",
    "Verif.Adaptor.unique_complete",
    "Verif.Adaptor.unique_terminates",
    "Verif.Adaptor.merge_output_interleaves",
    "Verif.Adaptor.merge_complete",
    "Verif.Adaptor.merge_perm",
    "Verif.Adaptor.merge_sorted",
    "Verif.Adaptor.merge_terminates",
    "Verif.Adaptor.collect_exact",
    "Verif.Adaptor.collect_terminates"
   ],
   "note": "Any element type, any sources, any comparison (sortedness for strict weak orders)."
  },
  {
   "property": "C29",
   "status": "partial",
   "theorems": [
    "Verif.Timer.timer_never_early",
    "Verif.Timer.timer_at_most_once",
    "Verif.Timer.timer_pass_wakes_all_due",
    "Verif.Timer.timer_pass_order",
    "Verif.Timer.timer_deadline_order_refuted"
   ],
   "note": "Deadline order within a pass is false of the code (refutation proved): the due tasks are enqueued latest deadline first, which is what timer_pass_order proves. Everything else is proved for any heap implementation meeting the C++ standard."
  },
  {
   "property": "C30",
   "status": "proved",
   "theorems": [
    "Verif.Timer.timer_silent_after_stop",
    "Verif.Timer.timer_nothing_leaks",
    "Verif.Timer.timer_at_most_once"
   ],
   "note": "Silence holds once passes in progress at the time of stop() are over."
  },
  {
   "property": "C31",
   "status": "partial",
   "theorems": [
    "Verif.Timer.timer_no_ub_partial",
    "Verif.Timer.timer_foreign_thread_refuted"
   ],
   "note": "False on a thread that is not a prepared worker (null dereference); proved for worker threads."
  },
  {
   "property": "C32",
   "status": "proved",
   "theorems": [
    "Verif.Timer.timer_never_early",
    "Verif.Timer.sleep_past_is_resumed"
   ],
   "note": ""
  },
  {
   "property": "C33",
   "status": "proved",
   "theorems": [
    "Verif.Timer.worker_never_oversleeps"
   ],
   "note": ""
  },
  {
   "property": "C34",
   "status": "proved",
   "theorems": [
    "Verif.UserLoops.loop_prepared_exactly_once",
    "Verif.UserLoops.pass_polls_every_loop",
    "Verif.UserLoops.add_loop_safe",
    "Verif.UserLoops.add_loop_after_exit_refuted",
    "Verif.UserLoops.maxSleep_is_min"
   ],
   "note": "Proved for every order of announcements and add_loop while no announced worker thread has ended; add_loop after a worker ended uses a dangling pointer (refutation proved)."
  },
  {
   "property": "C35",
   "status": "proved",
   "theorems": [
    "Verif.Uring.uring_resumed_with_all_results",
    "Verif.Uring.uring_at_most_once",
    "Verif.Uring.uring_poll_resumes",
    "Verif.Uring.uring_no_ub",
    "Verif.Uring.uring_nothing_leaks"
   ],
   "note": "For every behaviour of the kernel and every history of properly used batches (not empty, fresh, submission ring not overflowed); delivery by a poll at whose beginning no completion waits outside of the completion ring (C98)."
  },
  {
   "property": "C36",
   "status": "partial",
   "theorems": [
    "Verif.Uring.uring_large_batch_refuted",
    "Verif.Uring.uring_batch_up_to_1024_partial",
    "Verif.Uring.uring_no_ub"
   ],
   "note": "False for batches above the ring size (null SQE); proved safe up to 1024 entries."
  },
  {
   "property": "C37",
   "status": "proved",
   "theorems": [
    "Verif.Uring.uring_backoff",
    "Verif.Uring.uring_backoff_bounds"
   ],
   "note": ""
  },
  {
   "property": "C38",
   "status": "proved",
   "theorems": [
    "Verif.OpBatch.batch_submission",
    "Verif.OpBatch.batch_sequential",
    "Verif.OpBatch.batch_stops_at_failure",
    "Verif.OpBatch.batch_reports_once",
    "Verif.OpBatch.batch_reports_in_order"
   ],
   "note": "Submission for every call sequence on a fresh batch; sequential execution for every behaviour of the kernel model (linked entries)."
  },
  {
   "property": "C39",
   "status": "partial",
   "theorems": [
    "Verif.Uring.batch_reuse_never_resumes",
    "Verif.Uring.batch_reuse_hangs_refuted",
    "Verif.Uring.batch_reuse_resumes_early_refuted",
    "Verif.OpBatch.clear_with_timeout_refuted",
    "Verif.Uring.uring_resumed_with_all_results"
   ],
   "note": "Re-execution after clear() is false (hang or early resume, both refuted); for fresh batches the full property is proved."
  },
  {
   "property": "C40",
   "status": "partial",
   "theorems": [
    "Verif.OpBatch.all_success_sound",
    "Verif.OpBatch.all_success_complete_partial",
    "Verif.OpBatch.all_success_missed_refuted",
    "Verif.OpBatch.is_timeout_sound",
    "Verif.OpBatch.is_timeout_complete_partial",
    "Verif.OpBatch.is_timeout_missed_refuted"
   ],
   "note": "Positive answers are always right (proved); both functions can answer no wrongly when the expired time-out reports before the operation (refuted)."
  },
  {
   "property": "C41",
   "status": "partial",
   "theorems": [
    "Verif.OpBatch.ioret_success_iff",
    "Verif.OpBatch.ioret_truthful_partial",
    "Verif.OpBatch.ioret_stale_errno_refuted"
   ],
   "note": "Full statement proved for every result but -1 (EPERM), for which a stale errno is reported (refuted)."
  },
  {
   "property": "C42",
   "status": "partial",
   "theorems": [
    "Verif.Cancel.cancel_first_correct",
    "Verif.Cancel.cancel_first_none",
    "Verif.Cancel.batch_cancel_all_correct",
    "Verif.Cancel.cancel_all_refuted",
    "Verif.Cancel.cancel_all_single_partial",
    "Verif.Cancel.cancel_any_refuted",
    "Verif.Cancel.number_canceled_refuted",
    "Verif.Cancel.get_fd_iff",
    "Verif.Cancel.exception_loses_code_refuted"
   ],
   "note": "cancel_first and the batch version of cancel_all are right; uring::cancel_all cancels only the first, and exceptions lose their code (refuted)."
  },
  {
   "property": "C43",
   "status": "partial",
   "theorems": [
    "Verif.Stream.append_all_append_mode_partial",
    "Verif.Stream.append_all_returns",
    "Verif.Stream.append_all_spins_refuted",
    "Verif.Stream.append_all_overwrites_refuted",
    "Verif.Stream.append_all_short_write_refuted"
   ],
   "note": "Proved for every pattern of short writes and errors if the file was opened with O_APPEND; false otherwise (every write is done at offset 0) and the loop spins on writes of 0 bytes (refuted)."
  },
  {
   "property": "C44",
   "status": "partial",
   "theorems": [
    "Verif.Stream.recv_fill_contiguous",
    "Verif.Stream.read_fill_contiguous",
    "Verif.Stream.fill_success_is_full",
    "Verif.Stream.recv_fill_returns",
    "Verif.Stream.fill_spins_at_eof_refuted",
    "Verif.Stream.recv_fill_loses_bytes_refuted"
   ],
   "note": "Contiguity, exact counting and termination with data proved for every chunking; the end-of-stream spin and bytes lost to an expiring time-out are refutations."
  },
  {
   "property": "C45",
   "status": "partial",
   "theorems": [
    "Verif.Stream.append_async_full_writes_partial",
    "Verif.Stream.append_async_error",
    "Verif.Stream.append_async_short_write_refuted",
    "Verif.Stream.append_async_wraps_refuted"
   ],
   "note": "Proved if the first write is complete; any short write duplicates bytes and the counter may wrap (refuted)."
  },
  {
   "property": "C46",
   "status": "partial",
   "theorems": [
    "Verif.Stream.send_pb_frames_partial",
    "Verif.Stream.recv_pb_decodes",
    "Verif.Stream.recv_pb_never_truncated",
    "Verif.Stream.recv_pb_returns",
    "Verif.Stream.pb_round_trip_partial",
    "Verif.Stream.send_pb_true_on_error_refuted",
    "Verif.Stream.send_pb_split_prefix_refuted",
    "Verif.Stream.recv_pb_nothing_arrived_refuted"
   ],
   "note": "Round trip proved for any number of messages and every chunking if the 4-byte prefix is taken in one piece and no errors occur; otherwise false (refuted)."
  },
  {
   "property": "C47",
   "status": "proved",
   "theorems": [
    "Verif.Expected.alternatives",
    "Verif.Expected.alternatives_void",
    "Verif.Expected.value_iff_has_value",
    "Verif.Expected.and_then_left_identity",
    "Verif.Expected.and_then_right_identity",
    "Verif.Expected.and_then_assoc",
    "Verif.Expected.and_then_error",
    "Verif.Expected.chain_is_railway",
    "Verif.Expected.and_then_task",
    "Verif.Expected.void_and_then",
    "Verif.Expected.and_then_keeps_alternative",
    "Verif.Expected.and_then_consumes_refuted",
    "Verif.Expected.valueless_refuted",
    "Verif.Expected.assign_ok"
   ],
   "note": "Laws proved for all values and continuations. Caveats shown beside: and_then moves out of lvalues, and an assignment that throws leaves neither alternative."
  },
  {
   "property": "C48",
   "status": "proved",
   "theorems": [
    "Verif.Functional.co_await_all_ordered",
    "Verif.Functional.co_await_all_once",
    "Verif.Functional.co_await_all_exception",
    "Verif.Functional.co_await_all_progress",
    "Verif.Functional.co_await_all_terminates"
   ],
   "note": "Every order of awaits (make_tuple leaves it unspecified) and of completions."
  },
  {
   "property": "C49",
   "status": "partial",
   "theorems": [
    "Verif.Functional.for_each_all_processed",
    "Verif.Functional.for_each_in_range",
    "Verif.Functional.for_each_parallel_refuted",
    "Verif.Functional.for_each_exception_skips_refuted",
    "Verif.Functional.dispatch_even",
    "Verif.Functional.dispatch_worker",
    "Verif.Functional.dispatch_each",
    "Verif.Functional.dispatch_concurrent_refuted",
    "Verif.Functional.dispatch_wrap_refuted",
    "Verif.Functional.for_each_int_no_dangling"
   ],
   "note": "Exactly once and completion proved for normal return; the documented parallelism is false (the view is lazy, so calls are sequential), an exception skips the rest, evenness holds over all calls but not per call; for_each_int does not read its destroyed temporary range (task is eager)."
  },
  {
   "property": "C50",
   "status": "partial",
   "theorems": [
    "Verif.DirMutex.dir_mutex_exclusion_partial",
    "Verif.DirMutex.dir_mutex_exclusion_refuted"
   ],
   "note": "Proved for any number of tasks, objects and processes as long as no dir_mutex object is destroyed; the destructor deletes a lock file held by somebody else (refuted)."
  },
  {
   "property": "C51",
   "status": "partial",
   "theorems": [
    "Verif.DirMutex.dir_mutex_file_has_owner_partial",
    "Verif.DirMutex.dir_mutex_waiter_progress_partial",
    "Verif.DirMutex.dir_mutex_progress_refuted",
    "Verif.DirMutex.dir_mutex_uncontended",
    "Verif.DirMutex.dir_mutex_polling_stops"
   ],
   "note": "Progress proved until a poller creates the lock file for nobody; that is reachable by two ordinary acquisitions and blocks the directory for ever (refuted)."
  },
  {
   "property": "C52",
   "status": "proved",
   "theorems": [
    "Verif.Monitor.monitor_lists_live_used",
    "Verif.Monitor.monitor_touches_live",
    "Verif.Monitor.monitor_registers_once",
    "Verif.Monitor.monitor_used_is_registered",
    "Verif.Monitor.monitor_no_dangling",
    "Verif.Monitor.monitor_progress"
   ],
   "note": "Any number of threads and mutexes; a mutex in use is registered, the registered ones exist."
  },
  {
   "property": "C53",
   "status": "partial",
   "theorems": [
    "Verif.TcpServer.is_stop_partial",
    "Verif.TcpServer.until_done_partial",
    "Verif.TcpServer.until_done_refuted",
    "Verif.TcpServer.until_done_early_refuted",
    "Verif.TcpServer.until_done_hangs_refuted"
   ],
   "note": "Proved if all loops began before stop(); loops enter the wait group only when they begin to run, so until_done may return at once or early (refuted), and it may hang (lost wake-up, refuted)."
  },
  {
   "property": "C54",
   "status": "partial",
   "theorems": [
    "Verif.TcpServer.Literal.literal_parses",
    "Verif.TcpServer.Literal.literal_rejects_partial",
    "Verif.TcpServer.Literal.literal_no_number_refuted",
    "Verif.TcpServer.Literal.literal_big_port_refuted",
    "Verif.TcpServer.Literal.literal_trailing_refuted"
   ],
   "note": "Every valid pair is parsed; missing, non-numeric, out-of-range and trailing-garbage ports are accepted (refuted for all such strings)."
  },
  {
   "property": "C55",
   "status": "partial",
   "theorems": [
    "Verif.EvLoop.no_add_after_stop",
    "Verif.EvLoop.add_after_stop_throws",
    "Verif.EvLoop.throws_only_after_stop",
    "Verif.EvLoop.accounting",
    "Verif.EvLoop.nothing_lost_before_stop_partial",
    "Verif.EvLoop.sleeper_wakes_partial",
    "Verif.EvLoop.yield_resumes",
    "Verif.EvLoop.worker_exits_drained",
    "Verif.EvLoop.stop_loses_sleepers_refuted",
    "Verif.EvLoop.stop_loses_a_sleeper_refuted",
    "Verif.EvLoop.add_after_quick_stop_refuted",
    "Verif.EvLoop.add_races_stop_refuted"
   ],
   "note": "add_event throws after stop() and only then (proved); nothing is lost before stopping (proved); tasks asleep at stop()/quick_stop(), and tasks that go to sleep after quick_stop(), are silently lost (refuted). The sub-loop modelled is the timer."
  },
  {
   "property": "C56",
   "status": "proved",
   "theorems": [
    "Verif.LocalSched.local_fifo",
    "Verif.LocalSched.local_all_done",
    "Verif.LocalSched.local_synchronous",
    "Verif.LocalSched.local_progress"
   ],
   "note": "Nested enqueue() to any depth."
  },
  {
   "property": "C57",
   "status": "proved",
   "theorems": [
    "Verif.Sched.wake_up_goes_back",
    "Verif.Sched.null_handle_ignored",
    "Verif.Sched.queues_hold_tasks",
    "Verif.Sched.scheduled_run_on_workers"
   ],
   "note": "Any set of workers, stealing, arbitrary tasks."
  },
  {
   "property": "C58",
   "status": "proved",
   "theorems": [
    "Verif.TcpUtil.deplete_correct",
    "Verif.TcpUtil.deplete_true",
    "Verif.TcpUtil.deplete_error",
    "Verif.TcpUtil.deplete_bounded",
    "Verif.TcpUtil.deplete_progress"
   ],
   "note": "Every sequence of queue lengths, errors and clock values; boundedness needs an advancing clock."
  },
  {
   "property": "C59",
   "status": "partial",
   "theorems": [
    "Verif.SharedMutex.shared_mutex_awaiter_lifetime_refuted",
    "Verif.SharedMutex.shared_mutex_awaiter_lifetime_partial"
   ],
   "note": "False of the code: await_suspend reads m_mutex after the coroutine was published."
  },
  {
   "property": "C60",
   "status": "partial",
   "theorems": [
    "Verif.Lock.owns_lock_refuted",
    "Verif.Lock.owns_lock_truthful_partial",
    "Verif.Lock.lock_unreleased_has_unique_owner"
   ],
   "note": "A default constructed lock answers true; otherwise proved."
  },
  {
   "property": "C61",
   "status": "proved",
   "theorems": [
    "Verif.Mutex.mutex_refuses_only_if_busy"
   ],
   "note": ""
  },
  {
   "property": "C62",
   "status": "partial",
   "theorems": [
    "Verif.OpBatch.single_timeout_covers_partial",
    "Verif.OpBatch.batch_timeout_covers_whole_refuted"
   ],
   "note": "Proved for one operation; false for every batch of two or more (refuted for all of them)."
  },
  {
   "property": "C63",
   "status": "partial",
   "theorems": [
    "Verif.OpBatch.single_result_own_partial",
    "Verif.OpBatch.single_result_lost_refuted"
   ],
   "note": "Proved unless a time-out expired; false then (the time-out's result may be returned instead)."
  },
  {
   "property": "C64",
   "status": "partial",
   "theorems": [
    "Verif.Stream.unique_file_state_refuted"
   ],
   "note": "False for every path: open() gets the moved-from (empty) path, and O_APPEND without O_WRONLY does not allow writing."
  },
  {
   "property": "C65",
   "status": "proved",
   "theorems": [
    "Verif.DirMutex.Guard.guard_unlocks_at_most_once",
    "Verif.DirMutex.Guard.guard_unlocks_all",
    "Verif.DirMutex.Guard.guard_holds"
   ],
   "note": "Every sequence of operations on guards."
  },
  {
   "property": "C66",
   "status": "partial",
   "theorems": [
    "Verif.Monitor.mutex_terminates_only_after_stop_partial",
    "Verif.Monitor.mutex_after_stop_refuted"
   ],
   "note": "Never terminates before stop(); after it every use and every destruction does (refuted)."
  },
  {
   "property": "C67",
   "status": "proved",
   "theorems": [
    "Verif.Sched.turn_into_scheduler_on_worker"
   ],
   "note": ""
  },
  {
   "property": "C68",
   "status": "partial",
   "theorems": [
    "Verif.Sched.enqueue_safe_before_quick_stop_partial",
    "Verif.Sched.enqueue_after_quick_stop_refuted"
   ],
   "note": "Safe until quick_stop(); afterwards a yield or wake-up terminates the program (refuted)."
  },
  {
   "property": "C69",
   "status": "partial",
   "theorems": [
    "Verif.TcpServer.connection_callback_partial",
    "Verif.TcpServer.connection_overtaken_refuted"
   ],
   "note": "Exactly once for every connection delivered to a loop; connections whose completion is overtaken by the time-out's are lost (refuted)."
  },
  {
   "property": "C70",
   "status": "partial",
   "theorems": [
    "Verif.TcpServer.destroy_safe_partial",
    "Verif.TcpServer.destroy_after_until_done_refuted"
   ],
   "note": "Safe only when all loops have run to their very end, which until_done does not guarantee (refuted in two ways)."
  },
  {
   "property": "C71",
   "status": "proved",
   "theorems": [
    "Verif.TcpServer.loop_leaves_only_after_stop",
    "Verif.TcpServer.accepts_after_stop",
    "Verif.TcpServer.loop_progress",
    "Verif.TcpServer.start_launches_each_once"
   ],
   "note": "Any number of workers."
  },
  {
   "property": "C72",
   "status": "partial",
   "theorems": [
    "Verif.Life.stop_returns_after_workers",
    "Verif.Life.terminates_only_then",
    "Verif.Life.external_stop_returns_partial",
    "Verif.Life.stop_in_task_refuted",
    "Verif.Life.stop_in_task_terminates_refuted"
   ],
   "note": "When a call returns all workers have ended (proved); calls from outside can always return; a call from a task never returns, blocks all others and may terminate the program (refuted)."
  },
  {
   "property": "C73",
   "status": "partial",
   "theorems": [
    "Verif.Life.destroyed_after_workers",
    "Verif.Life.manual_destructor_blocks",
    "Verif.Life.destroy_after_stop_safe_partial",
    "Verif.Life.destroy_completes_partial",
    "Verif.Life.destroy_running_refuted"
   ],
   "note": "Safe after stop() has returned, and for a plain thread_pool; an event_loop destroyed while running destroys its sub-loops before the workers end (refuted)."
  },
  {
   "property": "C74",
   "status": "partial",
   "theorems": [
    "Verif.Life.start_returns_prepared",
    "Verif.Life.prepared_before_return",
    "Verif.Life.tasks_after_prepared",
    "Verif.Life.start_completes",
    "Verif.Life.number_of_threads_partial",
    "Verif.Life.number_of_threads_refuted"
   ],
   "note": "All but number_of_threads, which is read while start() is still appending threads (refuted)."
  },
  {
   "property": "C75",
   "status": "partial",
   "theorems": [
    "Verif.Life.second_sigint_terminates",
    "Verif.Life.sigint_stops_partial",
    "Verif.Life.sigint_on_worker_refuted",
    "Verif.Life.sigint_on_idle_worker_terminates_refuted",
    "Verif.Life.sigint_during_stop_refuted"
   ],
   "note": "Graceful when delivered on a thread outside the pool that is not inside stop(); on a worker, or on a thread waiting in stop(), it never completes (refuted)."
  },
  {
   "property": "C76",
   "status": "partial",
   "theorems": [
    "Verif.Storage.batch_memory_safe_partial",
    "Verif.Storage.copied_arguments_readable_partial",
    "Verif.Storage.submitted_arguments_partial",
    "Verif.Storage.in_flight_arguments_partial",
    "Verif.Storage.freed_at_most_once_partial",
    "Verif.Storage.all_freed_partial",
    "Verif.Storage.destroy_frees_partial",
    "Verif.Storage.move_assign_refuted",
    "Verif.Storage.move_assign_user_refuted",
    "Verif.Storage.moved_awaitable_refuted",
    "Verif.Storage.moved_from_reuse_refuted"
   ],
   "note": "Proved with move construction of batches; move assignment, a moved awaitable and reuse of a moved-from batch are undefined behaviour (refuted)."
  },
  {
   "property": "C77",
   "status": "partial",
   "theorems": [
    "Verif.Ops.batch_requests_partial",
    "Verif.Ops.single_op_requests_partial",
    "Verif.Ops.large_buffer_refuted",
    "Verif.Ops.large_buffer_refuted'",
    "Verif.Ops.nul_path_refuted",
    "Verif.Ops.socket_flags_refuted"
   ],
   "note": "Proved for buffers below 4 GiB, paths without zero bytes, socket flags 0; refuted outside."
  },
  {
   "property": "C78",
   "status": "partial",
   "theorems": [
    "Verif.Ops.overloads_agree_partial",
    "Verif.Ops.span_deadline",
    "Verif.Ops.max_span_refuted",
    "Verif.Ops.huge_span_refuted"
   ],
   "note": "Proved where the end of the span is representable; milliseconds::max() in the char overloads, accept and connect overflows."
  },
  {
   "property": "C79",
   "status": "partial",
   "theorems": [
    "Verif.Fd.closes_own_file_partial",
    "Verif.Fd.owner_valid_partial",
    "Verif.Fd.no_leak_partial",
    "Verif.Fd.closed_once",
    "Verif.Fd.threw_only_if_failed",
    "Verif.Fd.double_take_refuted",
    "Verif.Fd.dropped_result_refuted"
   ],
   "note": "Proved if get_fd is called exactly once on each successful result; otherwise a foreign descriptor is closed, or one leaks."
  },
  {
   "property": "C80",
   "status": "partial",
   "theorems": [
    "Verif.Sock.returned_ready",
    "Verif.Sock.error_closes",
    "Verif.Sock.one_outcome",
    "Verif.Sock.destroyed_connecting_closes_partial",
    "Verif.Sock.destroyed_early_leaks_refuted",
    "Verif.Sock.flags_refuted",
    "Verif.Sock.connect_code_lost_refuted"
   ],
   "note": "Destruction while the socket operation itself is in flight leaks the socket; non-zero flags always fail or are ignored; the error code of a failed connect_get_sock is lost."
  },
  {
   "property": "C81",
   "status": "partial",
   "theorems": [
    "Verif.GenLife.destroyed_at_most_once",
    "Verif.GenLife.one_owner",
    "Verif.GenLife.owned_alive",
    "Verif.GenLife.unowned_destroyed_partial",
    "Verif.GenLife.returned_destroyed",
    "Verif.GenLife.abort_only_active",
    "Verif.GenLife.overwrite_refuted",
    "Verif.GenLife.drop_while_active_refuted"
   ],
   "note": "Move assignment onto a variable that owns a suspended coroutine leaks the coroutine for ever; a variable destroyed while a request is outstanding aborts the program."
  },
  {
   "property": "C82",
   "status": "partial",
   "theorems": [
    "Verif.Scope.over_partial",
    "Verif.Scope.exception_after_locals",
    "Verif.Scope.exception_outside_after_locals",
    "Verif.Scope.destroyed_le_made",
    "Verif.Scope.frame_last",
    "Verif.Scope.early_result_refuted",
    "Verif.Scope.early_result_outside_refuted",
    "Verif.Scope.early_exception_refuted"
   ],
   "note": "Holds with one worker, and for the local variables if the callee throws. Refuted otherwise: return_value wakes the caller before the callee's local variables are destroyed."
  },
  {
   "property": "C83",
   "status": "partial",
   "theorems": [
    "Verif.Block.returned_deleted",
    "Verif.Block.returned_called",
    "Verif.Block.returns_partial",
    "Verif.Block.outside_returns",
    "Verif.Block.all_workers_refuted"
   ],
   "note": "Can always return as long as one worker is not inside unlock(). Refuted otherwise: unlock() blocks the worker in future::get() for a coroutine that needs a worker; if as many tasks as there are workers release a dir_mutex at once (with one worker: one), the runtime hangs forever."
  },
  {
   "property": "C84",
   "status": "partial",
   "theorems": [
    "Verif.Leak.at_most_once",
    "Verif.Leak.gone_locals",
    "Verif.Leak.unstarted_gone",
    "Verif.Leak.settles",
    "Verif.Leak.container_destroys",
    "Verif.Leak.awaiting_own_kept",
    "Verif.Leak.awaiting_gone_partial",
    "Verif.Leak.aborted_refuted"
   ],
   "note": "Everything but the last clause is proved. A task that awaits its own call owns the future whose shared state owns the task: when the call is destroyed unfinished the cycle is never freed, for every chain of callers (refuted for all of them)."
  },
  {
   "property": "C85",
   "status": "partial",
   "theorems": [
    "Verif.Deadline.sleepFor_partial",
    "Verif.Deadline.sleepFor_refuted",
    "Verif.Deadline.sleepFor_max_refuted",
    "Verif.Deadline.sleepUntil_partial",
    "Verif.Deadline.sleepUntil_max_refuted",
    "Verif.Deadline.sleepUntil_min_refuted"
   ],
   "note": "Proved whenever the end of the sleep fits into the clock's 64 bits. sleep_for(nanoseconds::max()), sleep_until(time_point::max()) and sleep_until(time_point::min()) overflow (refuted)."
  },
  {
   "property": "C86",
   "status": "partial",
   "theorems": [
    "Verif.Reinit.once",
    "Verif.Reinit.leftovers",
    "Verif.Reinit.begins_here",
    "Verif.Reinit.accepts",
    "Verif.Reinit.restart_partial",
    "Verif.Reinit.restart_safe_partial",
    "Verif.Reinit.sigint_first",
    "Verif.Reinit.lock_refuted",
    "Verif.Reinit.lock_witness",
    "Verif.Reinit.sigint_refuted",
    "Verif.Reinit.early_refuted",
    "Verif.Reinit.init_twice_refuted"
   ],
   "note": "A restart is proved to work if no task waits for a lock held by a task that was left over. If one does, the second runtime_init never returns (it wakes the waiter into the new runtime, whose map of queues is still empty). If the first runtime was stopped by SIGINT, the first SIGINT after the restart terminates the program."
  },
  {
   "property": "C87",
   "status": "proved",
   "theorems": [
    "Verif.Hb.mutex_race_free",
    "Verif.Hb.race_free_of_strong",
    "Verif.Hb.relaxed_tas_races",
    "Verif.Hb.relaxed_clear_races",
    "Verif.Hb.relaxed_giveUp_races"
   ],
   "note": "Release/acquire views over the machine of C01. Acquire on test_and_set and release on both clears suffice and each is needed."
  },
  {
   "property": "C88",
   "status": "proved",
   "theorems": [
    "Verif.Hb.Wg.wg_no_stale",
    "Verif.Hb.Wg.wg_all_before",
    "Verif.Hb.Wg.relaxed_sub_stale",
    "Verif.Hb.Wg.relaxed_load_stale",
    "Verif.Hb.Wg.release_only_sub_stale"
   ],
   "note": "For groups in which add() is called while a done() is owed (otherwise see C23). The relaxed add() is harmless."
  },
  {
   "property": "C89",
   "status": "proved",
   "theorems": [
    "Verif.Hb.Fut.future_result_visible",
    "Verif.Hb.Fut.visible_of_locks",
    "Verif.Hb.Fut.future_result_visible_nontrivial",
    "Verif.Hb.Fut.unlocked_set_races",
    "Verif.Hb.Fut.unlocked_frame_races",
    "Verif.Hb.Fut.later_writes_race"
   ],
   "note": "Release/acquire views over the machine of C14-C17. The spin lock in the shared state is what carries the visibility; without it, and for writes after the result is stored, racing runs are exhibited."
  },
  {
   "property": "C90",
   "status": "partial",
   "theorems": [
    "Verif.Hb.Shr.shared_mutex_hand_over_visible",
    "Verif.Hb.Shr.shared_mutex_race_free_partial",
    "Verif.Hb.Shr.shared_mutex_race_free_nontrivial",
    "Verif.Hb.Shr.shared_mutex_race_refuted"
   ],
   "note": "Hand-over visibility in all runs; race freedom where readers ask uncontended and releases nest (as C05); otherwise a reader that was woken but not counted is resumed after a writer has released, without synchronising with it: a data race."
  },
  {
   "property": "C91",
   "status": "partial",
   "theorems": [
    "Verif.Hb.Gen.generator_races_only_with_locals",
    "Verif.Hb.Gen.generator_race_free_partial",
    "Verif.Hb.Gen.race_free_of_queue",
    "Verif.Hb.Gen.generator_race_free_nontrivial",
    "Verif.Hb.Gen.generator_race_refuted",
    "Verif.Hb.Gen.unsynchronised_queue_races"
   ],
   "note": "All races involve destructors of the body's local variables, which run after return_void has woken the consumer (refuted); otherwise race free, by the scheduler's queue alone."
  },
  {
   "property": "C92",
   "status": "partial",
   "theorems": [
    "Verif.Fair.bounded_bypass",
    "Verif.Fair.in_order",
    "Verif.Fair.prompt_deadlines",
    "Verif.Fair.fair_nontrivial",
    "Verif.Fair.starvation_refuted"
   ],
   "note": "Bounded relative to the worker that owns the queue (or the timer heap), for FIFO underlying queues. While that worker is occupied, other workers may start any number of tasks before they look at its queue, and never at its timers (refuted)."
  },
  {
   "property": "C93",
   "status": "partial",
   "theorems": [
    "Verif.Err.fill_blames",
    "Verif.Err.fill_no_false_alarm",
    "Verif.Err.append_all_blames",
    "Verif.Err.append_all_success",
    "Verif.Err.append_all_no_false_alarm",
    "Verif.Err.append_all_throws",
    "Verif.Err.fill_throws",
    "Verif.Err.append_async_blames",
    "Verif.Err.appendAsync_success",
    "Verif.Err.appendAsync_waits",
    "Verif.Err.err_nontrivial",
    "Verif.Err.exception_code_refuted",
    "Verif.Err.cancel_silent_refuted",
    "Verif.Err.fill_stop_loses_count_refuted",
    "Verif.Err.reused_code_refuted",
    "Verif.Err.append_async_handler_refuted"
   ],
   "note": "Holds for the error code parameters if they are clear at the call. error_code() of every uring_exception and socket_exception is success, throwing fill functions do not report cancellation, the fill functions do nothing if the error code parameter is not clear (refuted)."
  },
  {
   "property": "C94",
   "status": "partial",
   "theorems": [
    "Verif.Mortal.wait_group_destroy_partial",
    "Verif.Mortal.wait_group_destroy_nontrivial",
    "Verif.Mortal.mutex_destroy_partial",
    "Verif.Mortal.mutex_handover_nontrivial",
    "Verif.Mortal.hub_destroy_partial",
    "Verif.Mortal.wait_group_destroy_refuted",
    "Verif.Mortal.wait_group_destroy_unsuspended_refuted",
    "Verif.Mortal.mutex_destroy_refuted",
    "Verif.Mortal.hub_destroy_refuted"
   ],
   "note": "Holds if no call of done() / unlock() / may_wake_*() is still executing. done(), unlock() and may_wake_all() access the object after the waiting task, or the next holder, may have gone on and destroyed it (refuted)."
  },
  {
   "property": "C95",
   "status": "partial",
   "theorems": [
    "Verif.Future.broken_no_false_result_partial",
    "Verif.Future.broken_promise_refuted",
    "Verif.Future.broken_promise_nontrivial"
   ],
   "note": "No false results; but get(), result() and co_await never end in any such execution (refuted for all of them)."
  },
  {
   "property": "C96",
   "status": "partial",
   "theorems": [
    "Verif.Nap.idle_worker_notices",
    "Verif.Nap.sleeping_worker_is_woken",
    "Verif.Nap.time_can_pass",
    "Verif.Nap.wake_up_lost_refuted",
    "Verif.Nap.nap_nontrivial"
   ],
   "note": "500 ms bound proved for all cases, and no delay if a worker sleeps already; a worker about to sleep misses the notification (sent without the mutex) and the task waits out its nap (refuted)."
  },
  {
   "property": "C97",
   "status": "partial",
   "theorems": [
    "Verif.PoolFut.pool_future_truthful",
    "Verif.PoolFut.pool_future_after_stop",
    "Verif.PoolFut.pool_future_after_destruction",
    "Verif.PoolFut.pool_future_abandoned_refuted",
    "Verif.PoolFut.pool_future_nontrivial",
    "Verif.PoolFut.pool_future_stop_nontrivial",
    "Verif.PoolFut.pool_future_abandoned_nontrivial"
   ],
   "note": "All parts proved except the end of get() after quick_stop(): it does not end before the pool is destroyed (refuted for all such executions)."
  },
  {
   "property": "C98",
   "status": "partial",
   "theorems": [
    "Verif.Uring.caught_up_poll_resumes_partial",
    "Verif.Uring.few_ops_poll_resumes",
    "Verif.Uring.ring_never_full",
    "Verif.Uring.all_started_partial",
    "Verif.Uring.overflowed_waits",
    "Verif.Uring.many_completions_strand_refuted",
    "Verif.Uring.short_submit_strands_refuted",
    "Verif.Uring.few_ops_nontrivial",
    "Verif.Uring.all_started_nontrivial"
   ],
   "note": "Proved as long as at most 2048 operations are in flight in a worker (or no completion has found the ring full) and io_uring_submit takes everything. Refuted otherwise, for all executions: a completion that found the ring full, and an operation that io_uring_submit left behind, wait until the worker happens to execute another batch."
  },
  {
   "property": "C99",
   "status": "partial",
   "theorems": [
    "Verif.UringMem.kernel_memory_safe_partial",
    "Verif.UringMem.kernel_touches_freed_refuted",
    "Verif.UringMem.kernel_memory_nontrivial"
   ],
   "note": "Proved unless a worker's loop is destroyed while a task waits in it; then the task is destroyed while the kernel may still access its buffers (refuted)."
  },
  {
   "property": "C100",
   "status": "partial",
   "theorems": [
    "Verif.Locks.calls_do_not_deadlock_partial",
    "Verif.Locks.calls_return_partial",
    "Verif.Locks.add_loop_in_loop_refuted",
    "Verif.Locks.quick_stop_hangs_refuted",
    "Verif.Locks.locks_nontrivial"
   ],
   "note": "Proved for user code that keeps to the rules: functions of user loops do not add loops or wait for tasks, destructors of destroyed tasks and generators do not wait for tasks. Refuted without: a user loop that adds a loop blocks its worker for ever; stopping the runtime while a sleeping task holds a dir_mutex_guard (whose destructor waits for a task) hangs for ever. Joining the workers in stop() is C72's subject."
  },
  {
   "property": "C101",
   "status": "partial",
   "theorems": [
    "Verif.SchedIo.start_on_worker_partial",
    "Verif.SchedIo.after_turn_safe",
    "Verif.SchedIo.start_outside_refuted",
    "Verif.SchedIo.start_nontrivial"
   ],
   "note": "Proved for every task once the runtime has resumed it or it has come back from turn_into_scheduler(). Refuted for tasks that a thread outside of the runtime runs (local_thread_scheduler): the per-thread timer and ring are null pointers there."
  },
  {
   "property": "C102",
   "status": "partial",
   "theorems": [
    "Verif.Attrs.list_is_complete_partial",
    "Verif.Attrs.list_is_stable_partial",
    "Verif.Attrs.no_race_partial",
    "Verif.Attrs.entries_valid_while_running_partial",
    "Verif.Attrs.look_completes_partial",
    "Verif.Attrs.look_after_stop_refuted",
    "Verif.Attrs.look_while_draining_refuted",
    "Verif.Attrs.look_before_start_refuted",
    "Verif.Attrs.attrs_nontrivial",
    "Verif.Attrs.attrs_stopped"
   ],
   "note": "Proved from the return of start() until somebody stops the runtime. Refuted afterwards: the entries are pointers to locals of the workers' function, so turn_into_scheduler() and for_each_dispatch_evenly() read dead stack frames while stop() drains and after it; and for tasks that run before start() has returned (the vector is read without the lock)."
  },
  {
   "property": "C103",
   "status": "partial",
   "theorems": [
    "Verif.Mutex.mutex_bounded_steps",
    "Verif.Mutex.mutex_terminates",
    "Verif.Mutex.mutex_progress",
    "Verif.Mutex.mutex_can_ask",
    "Verif.Mutex.mutex_all_served_partial",
    "Verif.Mutex.mutex_newcomers_wait_partial",
    "Verif.Mutex.mutex_overtaking_refuted",
    "Verif.Mutex.live_nontrivial"
   ],
   "note": "Bounded work and progress are proved for all executions; that everybody is served, for executions in which nobody goes to sleep while the lock is free (C02). Overtaking is refuted: unlock() frees the lock before it looks for waiters, so two tasks that take turns can keep a third one waiting for ever; with one worker newcomers never overtake (proved)."
  },
  {
   "property": "C104",
   "status": "partial",
   "theorems": [
    "Verif.WaitGroup.wait_group_terminates",
    "Verif.WaitGroup.wait_group_progress",
    "Verif.WaitGroup.wait_group_all_served_partial",
    "Verif.WaitGroup.wait_group_done_bounded_partial",
    "Verif.WaitGroup.wait_group_done_unbounded_refuted",
    "Verif.WaitGroup.live_nontrivial"
   ],
   "note": "Bounded work and progress are proved for all executions; that everybody is served, for executions with unit dones in which nobody registers at count zero (C23 has the race); the bound on a single done(), for executions in which nothing is added while a done() is in progress, and refuted otherwise: later waiters can keep done() in its loop for ever."
  },
  {
   "property": "C105",
   "status": "partial",
   "theorems": [
    "Verif.Idle.reports_apart",
    "Verif.Idle.no_report_at_once",
    "Verif.Idle.all_sleep_at_report",
    "Verif.Idle.nothing_pending_at_report",
    "Verif.Idle.report_after_naps_partial",
    "Verif.Idle.report_truthful_refuted",
    "Verif.Idle.idle_nontrivial"
   ],
   "note": "Frequency, all asleep, nothing pending: proved for every N and every history. Truthfulness is refuted: the 15 s are measured from the last report (or the start), not from the last task; what does hold is that the reporting worker has slept N times since its own last task."
  },
  {
   "property": "C106",
   "status": "partial",
   "theorems": [
    "Verif.Lazy.make_lazy_runs_when_started",
    "Verif.Lazy.make_lazy_result",
    "Verif.Lazy.eager_captures_exist",
    "Verif.Lazy.eager_captures_exist_until_end_partial",
    "Verif.Lazy.make_lazy_no_dangling_partial",
    "Verif.Lazy.lazy_captures_never_exist",
    "Verif.Lazy.lazy_captures_refuted",
    "Verif.Lazy.eager_captures_late_refuted",
    "Verif.Lazy.lazy_nontrivial"
   ],
   "note": "Start on request, at most once, result: proved. Captures exist while the body of an eager f runs: proved for any number of workers; up to the end of its destructors: one worker only (refuted for two). If f returns a lazy task the closure is destroyed when make_lazy returns, so every use of a capture dangles: proved."
  },
  {
   "property": "C107",
   "status": "proved",
   "theorems": [
    "Verif.Hb.Pl.start_visible",
    "Verif.Hb.Pl.task_visible",
    "Verif.Hb.Pl.result_visible",
    "Verif.Hb.Pl.stop_visible",
    "Verif.Hb.Pl.hb_pool_nontrivial",
    "Verif.Hb.Pl.unsynchronised_read_races",
    "Verif.Hb.Pl.queue_must_synchronise",
    "Verif.Hb.Pl.stop_must_join"
   ],
   "note": "Proved for the work stealing queue over moodycamel (contract: dequeue synchronises with its enqueue) and over std_queue_wrapper (its mutex). The place where a suspended task's handle is left is assumed to hand over the view: that is what C87-C91 prove for mutex, wait_group, future, shared_mutex and generator. What is needed (queue, join) is shown by counterexamples without it."
  },
  {
   "property": "C108",
   "status": "proved",
   "theorems": [
    "Verif.TaskId.task_id_stable",
    "Verif.TaskId.task_ids_distinct",
    "Verif.TaskId.task_id_answers",
    "Verif.TaskId.task_id_reused_refuted",
    "Verif.TaskId.task_id_nontrivial"
   ],
   "note": "Proved for any number of tasks and any allocator that does not hand out memory in use. Beyond the claim: an id may be given to a later task once its owner has ended (task_id_reused_refuted)."
  },
  {
   "property": "C109",
   "status": "partial",
   "theorems": [
    "Verif.SharedMutex.shared_mutex_bounded_steps",
    "Verif.SharedMutex.shared_mutex_terminates",
    "Verif.SharedMutex.shared_mutex_progress",
    "Verif.SharedMutex.shared_mutex_all_served_partial",
    "Verif.SharedMutex.shared_mutex_writer_overtaken_refuted",
    "Verif.SharedMutex.shared_live_nontrivial",
    "Verif.SharedMutex.shared_mutex_starvation_refuted"
   ],
   "note": "Termination (at most five steps per request) and progress hold in all histories; all requests are served in the histories where C06 holds. The code violates the rest: a writer can sleep for ever (starvation_refuted) and two readers that take turns keep a sleeping writer out for any number of rounds."
  },
  {
   "property": "C110",
   "status": "partial",
   "theorems": [
    "Verif.FutMany.futures_at_most_once",
    "Verif.FutMany.futures_authentic",
    "Verif.FutMany.future_moves_transparent",
    "Verif.FutMany.future_await_after_moves",
    "Verif.FutMany.futures_nontrivial",
    "Verif.FutMany.second_future_refuted",
    "Verif.FutMany.shared_future_refuted",
    "Verif.FutMany.second_awaiter_refuted",
    "Verif.FutMany.moved_while_awaited_refuted"
   ],
   "note": "At most once and authentic in all histories; moves are transparent with one get_future(), and co_await works after moves if the future is used by one task at a time. The code violates the rest: a second future never learns of a result that the first has seen, a second awaiter destroys the first, a future moved while it is awaited is dereferenced empty."
  },
  {
   "property": "C111",
   "status": "partial",
   "theorems": [
    "Verif.EndToEnd.total_is_serial",
    "Verif.EndToEnd.counter_is_exact",
    "Verif.EndToEnd.total_is_deterministic",
    "Verif.EndToEnd.program_terminates",
    "Verif.EndToEnd.running_can_go",
    "Verif.EndToEnd.single_worker_ends_with_total",
    "Verif.EndToEnd.single_worker_finishes",
    "Verif.EndToEnd.ends_with_total_partial",
    "Verif.EndToEnd.end_to_end_nontrivial",
    "Verif.EndToEnd.program_hangs_refuted",
    "Verif.EndToEnd.mutex_hang_refuted"
   ],
   "note": "The result is the serial one in every execution, and every execution ends after at most 25 n + 21 steps. With one worker it ends with main's result; with more it does if no task goes to sleep after the release it waits for (ends_with_total_partial). The code does not ensure that: program_hangs_refuted shows, for every n >= 1 and every number of workers >= 2, an execution that ends with all jobs over and main asleep."
  },
  {
   "property": "C112",
   "status": "proved",
   "theorems": [
    "Verif.ForkJoin.forkjoin_refines",
    "Verif.ForkJoin.forkjoin_result",
    "Verif.ForkJoin.forkjoin_await_yields_child_result",
    "Verif.ForkJoin.forkjoin_once",
    "Verif.ForkJoin.forkjoin_terminates",
    "Verif.ForkJoin.forkjoin_one_worker",
    "Verif.ForkJoin.running_can_go",
    "Verif.ForkJoin.can_act_or_sleeps",
    "Verif.ForkJoin.forkjoin_no_deadlock",
    "Verif.ForkJoin.forkjoin_completes",
    "Verif.ForkJoin.forkjoin_sleep_not_early"
   ],
   "note": "Every program of Verif.Nest.Spec (with run(), yield() and sleep_for), any number of workers; there is a clock, and the timers may find a due task at any later time. Nobody stops the runtime; a second run() of a lazy task (undefined behaviour, C13) is not in the programs; stealing and the order of the queues are abstracted to one bag (C19-C22). The hand-over of a result to a consumer, unlike the ones of mutex and wait_group (C111), loses no wake-up."
  },
  {
   "property": "C113",
   "status": "proved",
   "theorems": [
    "Verif.ForkJoin.forkjoin_not_before",
    "Verif.ForkJoin.forkjoin_on_time",
    "Verif.ForkJoin.forkjoin_ends_at",
    "Verif.ForkJoin.forkjoin_prompt_ends",
    "Verif.ForkJoin.sleepers_side_by_side",
    "Verif.ForkJoin.forkjoin_sleep_not_early"
   ],
   "note": "The upper bound is for executions in which time passes only when no worker and no timer can act (that an idle worker does not oversleep a deadline is C33; durations beyond the range of the clock: C85). A due timer is looked at only by its own worker and only between tasks, as in the code. Durations are natural numbers of clock ticks; programs do not read the clock."
  },
  {
   "property": "C114",
   "status": "partial",
   "theorems": [
    "Verif.TcpMove.accepts_on_socket_partial",
    "Verif.TcpMove.until_done_partial",
    "Verif.TcpMove.stop_reaches_loops",
    "Verif.TcpMove.no_use_after_destruction_partial",
    "Verif.TcpMove.moved_server_deaf_refuted",
    "Verif.TcpMove.moved_until_done_refuted",
    "Verif.TcpMove.moved_from_destroyed_refuted"
   ],
   "note": "Proved: a server moved before start() works as any other; stop() of the object that holds the server now reaches its loops however often it was moved; until_done of the object that was started waits for the loops that have begun; nothing destroyed is used if an object is destroyed only after the loops started with it have ended. False of the code, and proved false: after a move while it runs no loop accepts more than the connection it may be waiting for (the loops hold `this`, whose socket is gone: accept fails in a busy loop), until_done of the new object returns while loops run (m_wait_stop is not moved), and a moved-from object that is destroyed is used by the loops. start() is called at most once per server and not on a moved-from object (precondition). operator=(tcp_server&&) is declared and never defined: not modelled."
  },
  {
   "property": "C115",
   "status": "partial",
   "theorems": [
    "Verif.FileAppend.appends_contiguous",
    "Verif.FileAppend.append_within_call",
    "Verif.FileAppend.append_honest",
    "Verif.FileAppend.append_total_partial",
    "Verif.FileAppend.no_use_after_frames_partial",
    "Verif.FileAppend.destroyed_after_results_refuted",
    "Verif.FileAppend.append_lost_refuted"
   ],
   "note": "Contiguity, the window of the writes and the honesty of the result are proved in full. False of the code, and proved false: the result is delivered before the lock is released, so an object destroyed once all results have been delivered can still be used by a call (it is safe once the frames are gone: no_use_after_frames_partial); an append can be lost for good (wake-up lost in the lock, C02). Which bytes are written, and how often, is C45 (append_total_partial: a call that succeeds has written its size up to multiples of 2^64, never less)."
  }
 ]
}