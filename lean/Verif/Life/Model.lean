import Verif.Life.Spec
import Verif.Common.Machine
/-!
# Model of the life cycle of the runtime: thread_pool::start/stop/quick_stop/~thread_pool (src/thread_pool.cc 18-66, 121-128), ~event_loop (include/koios/event_loop.h 113-123),
the SIGINT handler and runtime_exit (src/runtime.cc 32-45, 105-109)

`n` workers; `manual`: constructed with manually_stop; `loops`: the object is an event_loop (with sub-loops polled by the workers), otherwise a plain thread_pool.

Simplified: which tasks the workers run, and how many are left when a worker sees the stop request, is in `Pool` and `EvLoop`: here a worker may leave whenever stop has been requested
(after stop() it drains first: it may also go on).  A SIGINT on a worker is considered only after start() has returned, on another thread only between start() and the destructor.
-/

namespace Verif.Life

/-- the main thread -/
inductive Mpc where
  | starting (k : Nat)   -- start(): `k` threads emplaced (thread_pool.cc 20-26)
  | latch                -- m_start_working.wait() (27)
  | user                 -- start() has returned
  | dtorLoops            -- ~event_loop: its body is over, the bases `Loops` are next
  | dtorPool             -- ~thread_pool
  | dtorCall             -- ~thread_pool has called quick_stop() (33)
  | dtorJoin (k : Nat)   -- the jthreads in m_thrs are destroyed: joins
  | gone
  deriving DecidableEq, Repr

/-- a worker -/
inductive Wpc where
  | none
  | born                 -- the thread exists; before `cattr` is filled (thread_pool.cc 56-64)
  | prep                 -- before thread_specific_preparation (65)
  | reg                  -- before the latch's count_down (66-67)
  | loop                 -- in the loop, before polling or looking for a task (72)
  | run                  -- a task
  | exited
  deriving DecidableEq, Repr

/-- a call of stop() or quick_stop() -/
inductive Call where
  | idle
  | once                 -- before call_once (38)
  | joining (k : Nat)    -- executing its function, at thread `k` (42-46)
  | blocked              -- waiting for the thread that executes it
  | recursing            -- interrupted by a SIGINT while executing it: the handler calls call_once with the same flag on the same thread
  deriving DecidableEq, Repr

inductive Once where
  | fresh
  | running (c : Who)
  | done
  deriving DecidableEq, Repr

structure St where
  mpc : Mpc
  wpc : Nat → Wpc
  counted : Nat           -- count_downs of m_start_working
  attrs : List Nat        -- m_consumer_attrs
  stopReq : Bool          -- m_stop_source
  once : Once             -- m_stop_once_flag
  call : Who → Call
  sig : Bool              -- `called` in signal_handler
  loopsAlive : Bool       -- the sub-loops of the event_loop exist
  dead : Bool             -- std::terminate or undefined behaviour

inductive Lbl where
  | emplace               -- start(): the next thread
  | latchDone
  | fill (i k : Nat)      -- cattr.number_of_threads is `k`
  | prepare (i : Nat)
  | countDown (i : Nat)
  | poll (i : Nat)        -- before_each_task and, after a failed dequeue, max_sleep_duration
  | begin (i : Nat)
  | finish (i : Nat)
  | leave (i : Nat)
  | stop (c : Who)
  | advance (c : Who)     -- the call of `c` makes progress
  | signal (c : Who)
  | destroy
  | dtor                  -- the destructor makes progress
  deriving DecidableEq

/-- start() has returned -/
def Mpc.after : Mpc → Bool
  | .starting _ | .latch => false
  | _ => true

/-- The thread is free to call something: a worker while it runs a task (after start() has returned), the others between start() and the destructor (calling earlier or later is a data race of the caller's). -/
def free (s : St) : Who → Bool
  | .main => s.mpc == .user && s.call .main == .idle
  | .ext k => s.mpc == .user && s.call (.ext k) == .idle
  | .wrk i => s.mpc.after && s.wpc i == .run && s.call (.wrk i) == .idle

/-- m_thrs.size() as a new worker may read it: the last emplace_back may be counted or not. -/
def sees (n : Nat) : Mpc → Nat → Bool
  | .starting m, k => k == m || k + 1 == m
  | _, k => k == n

/-- a SIGINT may interrupt this thread -/
def canSignal (s : St) : Who → Bool
  | .main => s.mpc == .user
  | .ext _ => s.mpc == .user
  | .wrk i => s.mpc.after && (s.wpc i == .loop || s.wpc i == .run)

def stepLive (n : Nat) (manual loops : Bool) (s : St) : Lbl → Option (St × List Ev)
  | .emplace =>
    match s.mpc with
    | .starting k =>
      if k < n then some ({ s with mpc := .starting (k + 1), wpc := upd s.wpc k .born }, []) else some ({ s with mpc := .latch }, [])
    | _ => none
  | .latchDone => if s.mpc = .latch ∧ s.counted = n then some ({ s with mpc := .user }, [.startReturned]) else none
  -- `.number_of_threads = this->number_of_threads()` reads m_thrs.size() while start() may still be appending (thread_pool.cc 63): the value depends on the race.
  | .fill i k =>
    if s.wpc i = .born ∧ sees n s.mpc k = true then some ({ s with wpc := upd s.wpc i .prep }, [.sawThreads i k]) else none
  | .prepare i => if s.wpc i = .prep then some ({ s with wpc := upd s.wpc i .reg, attrs := s.attrs ++ [i] }, [.prepared i]) else none
  | .countDown i => if s.wpc i = .reg then some ({ s with wpc := upd s.wpc i .loop, counted := s.counted + 1 }, []) else none
  | .poll i =>
    if s.wpc i = .loop ∧ s.call (.wrk i) = .idle then
      if loops = true ∧ s.loopsAlive = false then some ({ s with dead := true }, [.useAfterFree]) else some (s, [])
    else none
  | .begin i => if s.wpc i = .loop ∧ s.call (.wrk i) = .idle then some ({ s with wpc := upd s.wpc i .run }, [.taskBegan i]) else none
  | .finish i => if s.wpc i = .run ∧ s.call (.wrk i) = .idle then some ({ s with wpc := upd s.wpc i .loop }, []) else none
  | .leave i => if s.wpc i = .loop ∧ s.call (.wrk i) = .idle ∧ s.stopReq = true then some ({ s with wpc := upd s.wpc i .exited }, [.workerExited i]) else none
  -- runtime_exit (runtime.cc 105-109) is a call of quick_stop() too
  | .stop c => if free s c = true then some ({ s with call := upd s.call c .once }, [.stopCalled c]) else none
  -- thread_pool::stop (thread_pool.cc 36-48), noexcept
  | .advance c =>
    match s.call c with
    | .once =>
      match s.once with
      | .fresh => some ({ s with once := .running c, stopReq := true, call := upd s.call c (.joining 0) }, [])
      | .running _ => some ({ s with call := upd s.call c .blocked }, [])
      | .done => some ({ s with call := upd s.call c .idle, mpc := if c = .main ∧ s.mpc = .dtorCall then .dtorJoin 0 else s.mpc }, [.stopReturned c])
    | .blocked =>
      if s.once = .done then some ({ s with call := upd s.call c .idle, mpc := if c = .main ∧ s.mpc = .dtorCall then .dtorJoin 0 else s.mpc }, [.stopReturned c])
      else none
    | .joining k =>
      if k < n then
        -- a thread that joins itself: join throws resource_deadlock_would_occur
        if c = .wrk k then some ({ s with dead := true }, [.terminated])
        else if s.wpc k = .exited then some ({ s with call := upd s.call c (.joining (k + 1)) }, [])
        else none
      else some ({ s with once := .done, call := upd s.call c .idle, mpc := if c = .main ∧ s.mpc = .dtorCall then .dtorJoin 0 else s.mpc }, [.stopReturned c])
    | _ => none
  -- signal_handler (runtime.cc 32-45); delivered on any thread that exists
  | .signal c =>
    if canSignal s c = true then
      if s.sig = true then some ({ s with dead := true }, [.sigint c, .terminated])
      else
        match s.call c with
        | .idle => some ({ s with sig := true, call := upd s.call c .once }, [.sigint c, .stopCalled c])
        | .joining _ => some ({ s with sig := true, call := upd s.call c .recursing }, [.sigint c])
        | _ => some ({ s with sig := true }, [.sigint c])
    else none
  -- the destructor begins (main, after start()); the body of ~event_loop (event_loop.h 113-123) tells the loops to stop, not the workers
  | .destroy => if free s .main = true then some ({ s with mpc := if loops = true then .dtorLoops else .dtorPool }, [.destroyBegan]) else none
  | .dtor =>
    match s.mpc with
    | .dtorLoops => some ({ s with mpc := .dtorPool, loopsAlive := false }, [])
    | .dtorPool =>
      if manual = true then some ({ s with mpc := .dtorJoin 0 }, [])
      else some ({ s with mpc := .dtorCall, call := upd s.call .main .once }, [.stopCalled .main])
    -- ~jthread: requests a stop nobody listens to, joins if still joinable
    | .dtorJoin k =>
      if k < n then (if s.wpc k = .exited then some ({ s with mpc := .dtorJoin (k + 1) }, []) else none)
      else some ({ s with mpc := .gone }, [.destroyed])
    | _ => none

def step (n : Nat) (manual loops : Bool) (s : St) (l : Lbl) : Option (St × List Ev) := if s.dead = true then none else stepLive n manual loops s l

def init : St := ⟨.starting 0, fun _ => .none, 0, [], false, .fresh, fun _ => .idle, false, true, false⟩
def machine (n : Nat) (manual loops : Bool) : Machine St Lbl Ev := ⟨init, step n manual loops⟩

end Verif.Life
