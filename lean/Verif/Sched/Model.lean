import Verif.Sched.Spec
import Verif.Common.Machine
/-!
# Model of task_scheduler (include/koios/task_scheduler.h), waiting_handle (src/waiting_handle.cc, include/koios/waiting_handle.h),
this_task::yield / turn_into_scheduler (include/koios/this_task.h, src/this_task.cc) and get_id_aw (src/get_id_aw.cc)

The pool has been started with the worker threads `ws` (see `Pool`, `WSQ` for the inside of the queues: here an enqueue or dequeue is one step).  Worker threads take tasks
from any queue (stealing).  Tasks are arbitrary.  Other threads may run tasks too (`runHere`, e.g. through local_thread_scheduler).
Tasks are coroutine handles; 0 is the null handle of a moved-from task object.
-/

namespace Verif.Sched

inductive Place where
  | none                       -- not known to the scheduler
  | queued                     -- in a worker's queue
  | running (u : Nat)
  | turning (u : Nat)          -- runs on u, inside turn_into_scheduler()
  | waiting (attr : Nat)       -- suspended, owned by a waiting_handle with this thread_id
  | turnQueued                 -- in a worker's queue, because of the yield in turn_into_scheduler()
  | turned (u : Nat)           -- runs on u, back from the yield in turn_into_scheduler()
  | done
  deriving DecidableEq, Repr

structure St where
  queue : Nat → List Nat
  place : Nat → Place
  stopNow : Bool               -- m_stop_now
  term : Bool

inductive Lbl where
  | spawn (u t k : Nat)        -- thread u: enqueue(task) (task_scheduler.h 48-51)
  | spawnTo (a t k : Nat)      -- enqueue(ca, task) with ca.thread_id = a (58-61)
  | take (w t k : Nat)         -- worker w takes t from queue k and resumes it
  | runHere (u t : Nat)        -- a thread outside the pool resumes t itself
  | suspend (t : Nat)          -- the task suspends; `{ .task = ... }` records this_thread (per_consumer_attr.h)
  | wake (t k : Nat)           -- wake_up(waiting_handle&), by any thread (waiting_handle.cc 12-17)
  | yield (t k : Nat)          -- this_task::yield (this_task.h 83), get_id (get_id_aw.cc 11-15)
  | turn (t : Nat)             -- turn_into_scheduler: the loop over consumer_attrs() (this_task.cc 15-19)
  | turnYield (t k : Nat)      -- turn_into_scheduler: the yield (20)
  | turnEnd (t : Nat)          -- turn_into_scheduler returns
  | finish (t : Nat)
  | quickStop                  -- thread_pool::quick_stop (thread_pool.cc 50-54): m_stop_now
  deriving DecidableEq, Repr

/-- work_stealing_queue::enqueue (work_stealing_queue.h 63-73): the queue of the named thread if it is a worker, else the first one of the map (any, here) -/
def target (ws : List Nat) (a k : Nat) : Option Nat := if a ∈ ws then some a else if k ∈ ws then some k else none

/-- task_scheduler::enqueue (task_scheduler.h 48-61) with thread_pool::enqueue_no_future (thread_pool.h 98-104, 124-130): refuses by throwing, which ends the program as
enqueue is noexcept -/
def enqueue (ws : List Nat) (s : St) (a k t : Nat) (pl : Place) (ev : Nat → Ev) : Option (St × List Ev) :=
  match target ws a k with
  | none => none
  | some w =>
    if t = 0 then some (s, [])                                -- `if (h)`
    else if s.stopNow = true then some ({ s with term := true }, [.terminated])
    else some ({ s with queue := upd s.queue w (s.queue w ++ [t]), place := upd s.place t pl }, [ev w])

def stepLive (ws : List Nat) (s : St) : Lbl → Option (St × List Ev)
  | .spawn u t k => if s.place t = .none then enqueue ws s u k t .queued (.moved t) else none
  | .spawnTo a t k => if s.place t = .none then enqueue ws s a k t .queued (.moved t) else none
  | .take w t k =>
    if w ∈ ws ∧ t ∈ s.queue k then
      match s.place t with
      | .queued => some ({ s with queue := upd s.queue k ((s.queue k).erase t), place := upd s.place t (.running w) }, [.resumed t w])
      | .turnQueued => some ({ s with queue := upd s.queue k ((s.queue k).erase t), place := upd s.place t (.turned w) }, [.resumed t w])
      | _ => none
    else none
  | .runHere u t => if s.place t = .none ∧ t ≠ 0 ∧ u ∉ ws then some ({ s with place := upd s.place t (.running u) }, [.ranHere t u]) else none
  | .suspend t =>
    match s.place t with
    | .running u => some ({ s with place := upd s.place t (.waiting u) }, [.suspended t u])
    | _ => none
  | .wake t k =>
    match s.place t with
    | .waiting a => enqueue ws s a k t .queued (.woken t)
    | _ => none
  | .yield t k =>
    match s.place t with
    | .running u => enqueue ws s u k t .queued (.moved t)
    | _ => none
  | .turn t =>
    match s.place t with
    | .running u => if u ∈ ws then some (s, [.turned t u]) else some ({ s with place := upd s.place t (.turning u) }, [])
    | _ => none
  | .turnYield t k =>
    match s.place t with
    | .turning u => enqueue ws s u k t .turnQueued (.moved t)
    | _ => none
  | .turnEnd t =>
    match s.place t with
    | .turned u => some ({ s with place := upd s.place t (.running u) }, [.turned t u])
    | _ => none
  | .finish t =>
    match s.place t with
    | .running _ => some ({ s with place := upd s.place t .done }, [.finished t])
    | _ => none
  | .quickStop => some ({ s with stopNow := true }, [.quickStop])

/-- nothing happens after std::terminate -/
def step (ws : List Nat) (s : St) (l : Lbl) : Option (St × List Ev) := if s.term = true then none else stepLive ws s l

def init : St := ⟨fun _ => [], fun _ => .none, false, false⟩
def machine (ws : List Nat) : Machine St Lbl Ev := ⟨init, step ws⟩

end Verif.Sched
