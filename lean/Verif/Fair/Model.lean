import Verif.Fair.Spec
import Verif.Common.Machine
/-!
# Model of the consumer loops and their queues, as far as the order of tasks is concerned

src/thread_pool.cc 56-118 (consumer), include/koios/work_stealing_queue.h 38-73, include/koios/event_loop.h 57-63, 117-121 (before_each_task), src/timer.cc 22-58 and
include/koios/timer.h (each worker has its own heap).

Simplified: the underlying queues are FIFO queues with atomic operations (`std_queue_wrapper` is one; moodycamel's queue is FIFO for each producer); the map of
queues is complete (all workers have registered).  A worker that finds nothing goes round again.  Exceptions of tasks end them (C17).
-/

namespace Verif.Fair

inductive Pc where
  | top                         -- before before_each_task() (thread_pool.cc 75)
  | polling (rest : List Nat)   -- in do_occured_nonblk(); the tasks that are due and not enqueued yet
  | polled                      -- before m_tasks.dequeue(cattr) (76)
  | busy (x : Nat)              -- in the task (102)
  deriving DecidableEq, Repr

structure St where
  q : Nat → List Nat      -- the queues
  pc : Nat → Pc           -- the workers
  due : Nat → List Nat    -- entries of the timer heaps whose deadline has passed
  next : Nat              -- fresh names

inductive Lbl where
  | enq (w : Nat)         -- a task, or a thread outside the pool, makes a task ready on the queue of w
  | expire (w : Nat)      -- time passes: a deadline in the heap of w is reached
  | poll (w : Nat)
  | dispatch (w : Nat)
  | pollEnd (w : Nat)
  | take (w : Nat)
  | steal (w v : Nat)
  | none (w : Nat)
  | finish (w : Nat)
  deriving DecidableEq, Repr

def init : St := ⟨fun _ => [], fun _ => .top, fun _ => [], 0⟩

def step (s : St) : Lbl → Option (St × List Ev)
  -- work_stealing_queue::enqueue (63-73)
  | .enq w => some ({ s with q := upd s.q w (s.q w ++ [s.next]), next := s.next + 1 }, [.ready s.next w])
  | .expire w => some ({ s with due := upd s.due w (s.due w ++ [s.next]), next := s.next + 1 }, [.occurred w s.next])
  -- timer.cc 22-50: takes everything that is due off the heap of the calling thread
  | .poll w =>
    if s.pc w = .top then some ({ s with pc := upd s.pc w (.polling (s.due w)), due := upd s.due w [] }, []) else none
  -- timer.cc 52-55: schr.enqueue(task), without attribute: the first queue
  | .dispatch w =>
    match s.pc w with
    | .polling (x :: r) => some ({ s with pc := upd s.pc w (.polling r), q := upd s.q 0 (s.q 0 ++ [x]) }, [.ready x 0])
    | _ => none
  | .pollEnd w => if s.pc w = .polling [] then some ({ s with pc := upd s.pc w .polled }, []) else none
  -- work_stealing_queue::dequeue (38-46): the worker's own queue first
  | .take w =>
    match s.pc w, s.q w with
    | .polled, x :: r => some ({ s with pc := upd s.pc w (.busy x), q := upd s.q w r }, [.started w x])
    | _, _ => none
  -- work_stealing_queue::dequeue (47-54)
  | .steal w v =>
    match s.pc w, s.q w, s.q v with
    | .polled, [], x :: r => some ({ s with pc := upd s.pc w (.busy x), q := upd s.q v r }, [.started w x])
    | _, _, _ => none
  -- thread_pool.cc 77-100: nothing found, sleeps
  | .none w => if s.pc w = .polled ∧ s.q w = [] then some ({ s with pc := upd s.pc w .top }, []) else none
  -- thread_pool.cc 101-117
  | .finish w =>
    match s.pc w with
    | .busy x => some ({ s with pc := upd s.pc w .top }, [.ended w x])
    | _ => none

def machine : Machine St Lbl Ev := ⟨init, step⟩

end Verif.Fair
