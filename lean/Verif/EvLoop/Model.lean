import Verif.EvLoop.Spec
import Verif.Common.Machine
/-!
# Model of event_loop (include/koios/event_loop.h 70-129) with timer_event_loop (include/koios/timer.h 134-215, src/timer.cc) as the sub-loop

`n` workers, each with its own timer heap; tasks are arbitrary.  Details in other models: order of a heap and clocks in `Timer`, queues and the worker's loop in `Pool`.
Here a dequeue is one step on one bag of tasks (stealing), and a poll expires any part of the worker's heap (whatever is due).

Simplified: a task that sleeps runs on a worker; one caller of stop() and one of quick_stop() (repeating them changes nothing).
-/

namespace Verif.EvLoop

inductive Pc where
  | top                    -- before the test of done() (thread_pool.cc 72)
  | poll                   -- before before_each_task() (74)
  | expiring               -- do_occured_nonblk: stop was not requested at the test (timer.cc 25); before the heap is looked at
  | deq                    -- before dequeue (75)
  | run (t : Nat)
  | adding (t : Nat)       -- event_loop::add_event: m_cleanning was false; before timer_event_loop::add_event (event_loop.h 80)
  | inserting (t : Nat)    -- timer_event_loop::add_event: is_cleanning() was false (timer.h 148-158)
  | exited
  deriving DecidableEq, Repr

structure St where
  queue : List Nat
  heap : Nat → List Nat
  pc : Nat → Pc
  cleaning : Bool          -- event_loop::m_cleanning
  tstop : Bool             -- timer_event_loop::m_stop_src
  stopReq : Bool           -- thread_pool::m_stop_source
  stopNow : Bool           -- thread_pool::m_stop_now
  stopStage : Nat
  quickStage : Nat
  next : Nat

inductive Lbl where
  | spawn
  | test (i : Nat)
  | poll (i : Nat)
  | expire (i : Nat) (due : List Nat)
  | take (i t : Nat)
  | idle (i : Nat)
  | sleep (i : Nat)
  | add (i : Nat)
  | insert (i : Nat)
  | yield (i : Nat)
  | finish (i : Nat)
  | stop
  | quickStop
  deriving DecidableEq

def step (n : Nat) (s : St) : Lbl → Option (St × List Ev)
  -- a new task; after quick_stop() see `Sched`
  | .spawn => if s.stopNow = false then some ({ s with queue := s.queue ++ [s.next], next := s.next + 1 }, []) else none
  -- thread_pool::done (thread_pool.cc 121-128)
  | .test i =>
    if i < n ∧ s.pc i = .top then
      if s.stopReq = true ∧ (s.stopNow = true ∨ s.queue = []) then some ({ s with pc := upd s.pc i .exited }, [.workerExited i])
      else some ({ s with pc := upd s.pc i .poll }, [])
    else none
  -- timer_event_loop_impl::do_occured_nonblk (timer.cc 20-28): the test of the stop token
  | .poll i =>
    if s.pc i = .poll then
      if s.tstop = true then some ({ s with pc := upd s.pc i .deq }, []) else some ({ s with pc := upd s.pc i .expiring }, [])
    else none
  -- do_occured_nonblk (timer.cc 30-58): `due` is any part of the worker's heap (which part and in which order: see `Timer`).  Enqueueing after quick_stop() terminates the program (`Sched`): not modelled here
  | .expire i due =>
    if s.pc i = .expiring ∧ due.Nodup ∧ due ⊆ s.heap i ∧ (due = [] ∨ s.stopNow = false) then
      some ({ s with pc := upd s.pc i .deq, queue := s.queue ++ due, heap := upd s.heap i ((s.heap i).filter (fun t => !due.contains t)) }, due.map Ev.expired)
    else none
  | .take i t =>
    if s.pc i = .deq ∧ t ∈ s.queue then some ({ s with pc := upd s.pc i (.run t), queue := s.queue.erase t }, [.resumed t]) else none
  | .idle i => if s.pc i = .deq then some ({ s with pc := upd s.pc i .top }, []) else none
  -- sleep_await::await_suspend (this_task.h 38-41) with event_loop::add_event (event_loop.h 70-81).  When it throws, the unwinding of await_suspend destroys the coroutine frame
  -- through its parameter h, and the exception is then delivered to that coroutine: the task is gone (and the behaviour undefined)
  | .sleep i =>
    match s.pc i with
    | .run t =>
      if s.cleaning = true then some ({ s with pc := upd s.pc i .top }, [.refused t])
      else some ({ s with pc := upd s.pc i (.adding t) }, [.admitted t])
    | _ => none
  -- timer_event_loop::add_event (timer.h 145-159)
  | .add i =>
    match s.pc i with
    | .adding t =>
      if s.tstop = true then some ({ s with pc := upd s.pc i .top }, [.ignored t])
      else some ({ s with pc := upd s.pc i (.inserting t) }, [])
    | _ => none
  -- add_event_impl (timer.cc 73-83)
  | .insert i =>
    match s.pc i with
    | .inserting t => some ({ s with pc := upd s.pc i .top, heap := upd s.heap i (t :: s.heap i) }, [.slept t])
    | _ => none
  -- the task goes back to the queue
  | .yield i =>
    match s.pc i with
    | .run t => if s.stopNow = false then some ({ s with pc := upd s.pc i .top, queue := s.queue ++ [t] }, []) else none
    | _ => none
  | .finish i =>
    match s.pc i with
    | .run t => some ({ s with pc := upd s.pc i .top }, [.finished t])
    | _ => none
  -- event_loop::stop (event_loop.h 95-100)
  | .stop =>
    match s.stopStage with
    | 0 => some ({ s with cleaning := true, stopStage := 1 }, [.stopping])
    | 1 => some ({ s with tstop := true, stopStage := 2 }, [.timerStopped])
    | 2 => some ({ s with stopReq := true, stopStage := 3 }, [])
    | _ => none
  -- event_loop::quick_stop (event_loop.h 102-106), timer_event_loop::quick_stop (timer.cc 99-108): m_cleanning is not set
  | .quickStop =>
    match s.quickStage with
    | 0 => some ({ s with quickStage := 1 }, [.quickStopping])
    -- under m_ptrs_lock, exclusively: a worker that polls holds it shared (timer.h 139-143, 193-206)
    | 1 =>
      if ∀ i, i < n → s.pc i ≠ .expiring then
        some ({ s with heap := fun _ => [], tstop := true, quickStage := 2 }, ((List.range n).flatMap s.heap).map Ev.dropped ++ [.timerStopped])
      else none
    | 2 => some ({ s with stopNow := true, quickStage := 3 }, [])
    | 3 => some ({ s with stopReq := true, quickStage := 4 }, [])
    | _ => none

def init : St := ⟨[], fun _ => [], fun _ => .top, false, false, false, false, 0, 0, 0⟩
def machine (n : Nat) : Machine St Lbl Ev := ⟨init, step n⟩

end Verif.EvLoop
