import Verif.Locks.Spec
import Verif.Common.Machine
/-!
# Model of the library's internal locks (C100)

Every call is modelled by the sequence of lock operations it performs.  `acq`/`rel` of one lock by one thread are single steps; what happens between them (the data) is the
subject of the other models.

Simplified: a condition variable's wait is "release, acquire again" (it may end at any time); std::thread::join in stop() is not a lock operation (see `Life`, C72);
the spinning on the null pointer in work_stealing_queue (one writer replaces the pointer) is a lock around the queue operation; spdlog's and the allocator's locks are not
modelled (nothing is called while they are held).
-/

namespace Verif.Locks

/-- the locks -/
inductive Lock where
  | pool                -- thread_pool::m_lock                       thread_pool.h 264
  | user                -- user_event_loops::m_mutex                 user_event_loops.h 39
  | ptrs                -- timer_event_loop::m_ptrs_lock             timer.h 213
  | impl (w : Nat)      -- timer_event_loop_impl::m_lk of a worker   timer.h 123
  | ring (w : Nat)      -- iouring_event_loop_perthr::m_lk           iouring.h 80
  | pollers (d : Nat)   -- dir_mutex::m_pollers_lock                 dir_mutex.h 83
  | gen (g : Nat)       -- generator shared_state::m_lock            generator_shared_state.h 21
  | once (m : Nat)      -- mutex::m_once                             coroutine_mutex.h
  | monitor             -- mutex_monitor::m_lock                     mutex_monitor.h 50
  | shr (m : Nat)       -- shared_mutex::m_lock                      coroutine_shared_mutex.h
  | fut (f : Nat)       -- future shared_state::m_lock               future.h 34
  | queue (q : Nat)     -- std_queue_wrapper::m_lock / work_stealing_queue::m_queues    std_queue_wrapper.h 62, work_stealing_queue.h 98-104
  deriving DecidableEq

inductive Instr where
  | acq (l : Lock) (excl : Bool)
  | rel (l : Lock)
  | wait (k : Nat)      -- blocks until task k has ended
  | ends (k : Nat)      -- task k ends

/-- m_tasks.enqueue/dequeue (std_queue_wrapper.h 28-49, work_stealing_queue.h 38-74, thread_pool.h 180-181) -/
def onQueue (q : Nat) : List Instr := [.acq (.queue q) true, .rel (.queue q)]

/-- a critical section -/
def crit (l : Lock) (excl : Bool) (body : List Instr) : List Instr := .acq l excl :: (body ++ [.rel l])

mutual
def opCode : Op → List Instr
  -- task_scheduler::enqueue (task_scheduler.h 47-50), thread_pool::wake_up (thread_pool.h 130-133): notify without the mutex
  | .enqueue q => onQueue q
  -- shared_state::set_value (future.h 42-49); wake_up (waiting_handle.cc 19-23)
  | .setResult f wake => crit (.fut f) true (wake.toList.flatMap onQueue)
  -- set_waiting (51-58)
  | .await f wake => crit (.fut f) true (wake.toList.flatMap onQueue)
  -- get_future_frame_ptr (60-64)
  | .take f => crit (.fut f) true []
  -- shared_mutex (coroutine_shared_mutex.cc 11-87)
  | .shared m wake => crit (.shr m) true (wake.flatMap onQueue)
  -- mutex::acquire / try_acquire (coroutine_mutex.cc 13-27), mutex_monitor::add_event (mutex_monitor.cc 9-17)
  | .firstAcquire m => crit (.once m) true (crit .monitor true [])
  -- ~mutex (33-36)
  | .destroyMutex => crit .monitor true []
  -- timer_event_loop::add_event (timer.h 143-157), cur_thread_ptr (193-207), add_event_impl (timer.cc 73-83)
  | .sleep w => crit .ptrs false (crit (.impl w) true [])
  -- iouring_event_loop_perthr::add_event (iouring.cc 104-117)
  | .uring w => crit (.ring w) true []
  -- dir_mutex::hold_this_immediately (dir_mutex.cc 133-146)
  | .dirAcquire d q => crit (.pollers d) true (onQueue q)
  -- generator_shared_state.h 24-28, 41-80
  | .genUse g => crit (.gen g) true []
  -- try_finalize (82-89): the frame is destroyed with the lock held
  | .genDestroy g locals => crit (.gen g) true (opCodes locals)
  -- user_event_loops::add_loop (user_event_loop.cc 74-82)
  | .addLoop prep => crit .user true (opCodes prep)
  | .awaitTask k => [.wait k]

def opCodes : List Op → List Instr
  | [] => []
  | o :: os => opCode o ++ opCodes os
end

/-- event_loop::do_occured_nonblk (event_loop.h 49-55): the timer (timer.h 137-141, timer.cc 20-57), io_uring (iouring.cc 67-95), the user loops (user_event_loop.cc 62-72);
mutex_monitor does nothing -/
def pollCode (w : Nat) (timers : Option (List Nat)) (compl : List Nat) (user : List Op) : List Instr :=
  crit .ptrs false (crit (.impl w) false [] ++ (match timers with | none => [] | some qs => crit (.impl w) true (qs.flatMap onQueue)))
    ++ crit (.ring w) true (compl.flatMap onQueue) ++ crit .user false (opCodes user)

/-- event_loop::print_status (event_loop.h 105-108): timer.cc 85-98, 133-140; iouring.cc 127-132; user_event_loop.cc 95-102; mutex_monitor.cc 37-44 -/
def statusCode (w : Nat) (ws : List Nat) (user : List Op) : List Instr :=
  crit .ptrs false (ws.flatMap fun v => crit (.impl v) false []) ++ crit (.ring w) true [] ++ crit .user false (opCodes user) ++ crit .monitor false []

def callCode : Call → List Instr
  | .op o => opCode o
  -- thread_pool::consumer (thread_pool.cc 60-67), event_loop::thread_specific_preparation (event_loop.h 149-153), thread_pool.h 237-242, timer.h 176-186, user_event_loop.cc 12-20
  | .workerStart _ q prep => onQueue q ++ crit .pool true [] ++ crit .ptrs true [] ++ crit .user true (opCodes prep)
  -- consumer (73-102): before_each_task(), dequeue, the task
  | .work w timers compl user qs ends => pollCode w timers compl user ++ qs.flatMap onQueue ++ ends.toList.map .ends
  -- consumer (73-99): before_each_task(), dequeue, then under m_lock max_sleep_duration(), print_status(), wait_for
  | .rest w timers compl user qs sleep status =>
    pollCode w timers compl user ++ qs.flatMap onQueue ++
      crit .pool true (crit .ptrs false (crit (.impl w) false []) ++ crit (.ring w) true [] ++ crit .user false (opCodes sleep) ++
        (match status with | none => [] | some st => statusCode w st.1 st.2)) ++ crit .pool true []
  -- user_event_loop.cc 22-48
  | .stopLoops user => crit .user false (opCodes user)
  -- timer_event_loop::quick_stop (timer.cc 99-108): clear() with m_ptrs_lock held
  | .dropTimers locals => crit .ptrs true (opCodes locals)

structure St where
  prog : Nat → List Instr        -- what the thread has still to do in its call
  writer : Lock → Option Nat
  readers : Lock → List Nat
  over : Nat → Bool              -- the task has ended

inductive Lbl where
  | call (t : Nat) (c : Call)
  | go (t : Nat)

def init : St := ⟨fun _ => [], fun _ => none, fun _ => [], fun _ => false⟩

/-- the returned event when the call has nothing more to do -/
def ret (t : Nat) (p : List Instr) : List Ev := if p.isEmpty then [.returned t] else []

def step (s : St) : Lbl → Option (St × List Ev)
  | .call t c => if (s.prog t).isEmpty then some ({ s with prog := upd s.prog t (callCode c) }, [.called t c]) else none
  | .go t =>
    match s.prog t with
    | [] => none
    -- std::mutex::lock, std::shared_mutex::lock
    | .acq l true :: p =>
      if s.writer l = none ∧ s.readers l = [] then some ({ s with prog := upd s.prog t p, writer := upd s.writer l (some t) }, ret t p) else none
    -- std::shared_mutex::lock_shared
    | .acq l false :: p =>
      if s.writer l = none then some ({ s with prog := upd s.prog t p, readers := upd s.readers l (t :: s.readers l) }, ret t p) else none
    | .rel l :: p =>
      if s.writer l = some t then some ({ s with prog := upd s.prog t p, writer := upd s.writer l none }, ret t p)
      else some ({ s with prog := upd s.prog t p, readers := upd s.readers l ((s.readers l).erase t) }, ret t p)
    | .wait k :: p => if s.over k = true then some ({ s with prog := upd s.prog t p }, ret t p) else none
    | .ends k :: p => some ({ s with prog := upd s.prog t p, over := upd s.over k true }, ret t p)

def machine : Machine St Lbl Ev := ⟨init, step⟩

end Verif.Locks
