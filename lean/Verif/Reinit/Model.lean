import Verif.Reinit.Spec
import Verif.Common.Machine
/-!
# Model of the global runtime pointer: runtime_init, runtime_exit, the SIGINT handler (src/runtime.cc 22-109), and what tasks do to it

The inside of the queues, the order in which stop() joins and the sub-loops are in `Pool`, `WSQ`, `Life`, `EvLoop`.  Here: which runtime an
enqueue reaches.  A task holds at most one lock and other tasks may wait for it in a list; when its frame is destroyed the first of them gets the
lock, and is enqueued (unique_lock::~unique_lock, mutex::try_wake_up_next, wake_up: coroutine_mutex.cc 41-56, waiting_handle.cc 12-17).
One thread (main) calls runtime_init and runtime_exit; tasks may be enqueued by main, tasks and other threads.  Not modelled: tasks that sleep
in a sub-loop; a SIGINT at other times than in `Lbl.sigint`; runtime_init with a thread count of 0.
-/

namespace Verif.Reinit

/-- What g_ts_p points to (runtime.cc 24). -/
inductive Ptr where
  | null
  | fresh                -- constructed, start() not yet called: the map of queues is empty
  | running
  | stopped              -- m_stop_now
  deriving DecidableEq, Repr

/-- Where the main thread is. -/
inductive Mpc where
  | idle
  | handler              -- runtime_init: the signal handler is installed (86)
  | replacing            -- runtime_init: inside `g_ts_p = make_unique(...)` (88-90): the pointer is new, the old runtime is being destroyed
  | stopping             -- runtime_exit or the signal handler: quick_stop() waits for the workers
  deriving DecidableEq, Repr

inductive Place where
  | outside              -- a task object that nobody has started
  | queued
  | running
  | waiting              -- in the list of a lock that some task holds
  | gone
  deriving DecidableEq, Repr

structure St where
  ptr : Ptr
  gen : Nat
  pc : Mpc
  place : Nat → Place
  queue : List Nat       -- accepted by the runtime g_ts_p points to, not begun
  old : List Nat         -- the same, of the runtime that is being destroyed
  live : List Nat        -- tasks on workers
  waiters : Nat → List Nat
  installed : Bool       -- sigaction has been called
  called : Bool          -- `static atomic_bool called` (34)
  dead : Bool

inductive Lbl where
  | initCall             -- runtime_init (81-86)
  | initMake             -- make_unique and the assignment (88-90)
  | destroyOld           -- the next task in the queue of the old runtime is destroyed
  | initStart            -- start() (97)
  | exitCall             -- runtime_exit (105-109)
  | stopped              -- quick_stop() returns
  | sigint               -- delivered to the main thread outside quick_stop()
  | spawn (t : Nat)      -- somebody enqueues a new task
  | take (t : Nat)       -- a worker resumes a queued task
  | yield (t : Nat)      -- a running task enqueues itself (this_task.h 83)
  | block (u t : Nat)    -- a running task waits for the lock that t holds
  | finish (t : Nat)
  deriving DecidableEq, Repr

/-- get_task_scheduler().enqueue(t) (runtime.cc 66-75, task_scheduler.h 48-61, thread_pool.h 98-104, work_stealing_queue.h 63-73). -/
def enqueue (s : St) (t : Nat) : St × List Ev :=
  match s.ptr with
  | .null => ({ s with dead := true }, [.terminated])          -- "runtime has not been started! terminating..."
  | .fresh => ({ s with dead := true }, [.undefined])          -- `queues.begin()->first` of an empty map
  | .running => ({ s with place := upd s.place t .queued, queue := s.queue ++ [t] }, [.accepted t s.gen])
  | .stopped => ({ s with dead := true }, [.terminated])       -- thread_pool_stopped_exception out of a noexcept function

/-- The locals of t are destroyed: the lock passes to the first waiter (coroutine_mutex.cc 41-56). -/
def release (s : St) (t : Nat) : St × List Ev :=
  match s.waiters t with
  | [] => (s, [])
  | u :: rest => enqueue { s with waiters := upd (upd s.waiters t []) u (s.waiters u ++ rest) } u

def stepLive (s : St) : Lbl → Option (St × List Ev)
  | .initCall => if s.pc = .idle then some ({ s with pc := .handler, installed := true }, [.initCalled]) else none
  | .initMake =>
    if s.pc = .handler then
      some ({ s with ptr := .fresh, gen := s.gen + 1, pc := .replacing, old := s.queue, queue := [] }, [])
    else none
  | .destroyOld =>
    match s.pc, s.live, s.old with
    | .replacing, [], t :: rest =>
      let r := release { s with place := upd s.place t .gone, old := rest } t
      some (r.1, .dropped t :: r.2)
    | _, _, _ => none
  | .initStart =>
    match s.pc, s.live, s.old with
    | .replacing, [], [] => some ({ s with ptr := .running, pc := .idle }, [.initReturned s.gen])
    | _, _, _ => none
  | .exitCall =>
    if s.pc = .idle then
      match s.ptr with
      | .null => some ({ s with dead := true }, [.exitCalled, .undefined])            -- g_ts_p->quick_stop() with a null pointer
      | _ => some ({ s with ptr := .stopped, pc := .stopping }, [.exitCalled])
    else none
  | .stopped => if s.pc = .stopping ∧ s.live = [] then some ({ s with pc := .idle }, [.exitReturned s.gen]) else none
  | .sigint =>
    if s.installed = true ∧ (s.pc = .idle ∨ s.pc = .handler) then
      if s.called = true then some ({ s with dead := true }, [.sigint, .terminated])
      else match s.ptr with
        | .null => some ({ s with called := true, dead := true }, [.sigint, .undefined])
        | _ => some ({ s with
            called := true
            ptr := .stopped
            pc := if s.pc = .idle then .stopping else s.pc }, [.sigint])
    else none
  | .spawn t => if s.place t = .outside then some (enqueue s t) else none
  | .take t =>
    if s.ptr = .running ∧ t ∈ s.queue then
      some ({ s with place := upd s.place t .running, queue := s.queue.erase t, live := t :: s.live }, [.began t s.gen])
    else none
  | .yield t => if t ∈ s.live then some (enqueue { s with live := s.live.erase t } t) else none
  | .block u t =>
    if u ∈ s.live ∧ s.waiters u = [] ∧ u ≠ t ∧ (t ∈ s.live ∨ t ∈ s.queue ∨ t ∈ s.old) then
      some ({ s with
        place := upd s.place u .waiting
        live := s.live.erase u
        waiters := upd s.waiters t (s.waiters t ++ [u]) }, [.blocked u t])
    else none
  | .finish t =>
    if t ∈ s.live then
      let r := release { s with place := upd s.place t .gone, live := s.live.erase t } t
      some (r.1, .finished t :: r.2)
    else none

/-- Nothing happens after undefined behaviour or std::terminate. -/
def step (s : St) (l : Lbl) : Option (St × List Ev) := if s.dead = true then none else stepLive s l

def init : St := ⟨.null, 0, .idle, fun _ => .outside, [], [], [], fun _ => [], false, false, false⟩
def machine : Machine St Lbl Ev := ⟨init, step⟩

end Verif.Reinit
