import Verif.Common.Machine
import Verif.Mutex.Spec
/-!
# Model of `koios::mutex`

include/koios/coroutine_mutex.h, src/coroutine_mutex.cc, include/koios/acq_lk_aw.h
(`acq_lk_aw`, `try_acq_lk_aw`).  One label is one atomic operation on `m_flag`,
one operation on `m_waitings`, one `wake_up`, or one resumption.
-/

namespace Verif.Mutex

/-- Program counter of a task.
`missed`   : `acq_lk_aw::await_ready` (acq_lk_aw.h 33-36) answered `false`, `await_suspend`
             (27-30) has not run yet;
`queued`   : its handle has been put in `m_waitings` (coroutine_mutex.h 74-77);
`woken`    : `wake_up(handle)` (coroutine_mutex.cc 47) gave it to the scheduler;
`holding`  : it owns the `unique_lock` built by `await_resume` (acq_lk_aw.h 38-41, 60-68);
`rel1`     : in `release()` (coroutine_mutex.h 86-90) after `m_flag.clear()`;
`rel2`     : in `try_wake_up_next` (coroutine_mutex.cc 39-53), `test_and_set` succeeded;
`rel3`     : there, `try_dequeue` failed, `m_flag.clear` still to come (line 51);
`relWake u`: there, `u`'s handle was dequeued, `wake_up` still to come (line 47). -/
inductive Pc where
  | idle | missed | queued | woken | holding
  | rel1 | rel2 | rel3 | relWake (u : Nat)
  deriving DecidableEq, Repr

/-- The mutex (`m_flag`, `m_waitings`: coroutine_mutex.h 93-96) and all tasks' program
counters.  Simplification: `m_once`/`m_uuid` (monitor registration) are modelled in
`Verif.Monitor`; the waiter queue is a bag listed in enqueue order, from which a
dequeue may take any element (moodycamel only orders per producer). -/
structure St where
  flag  : Bool
  queue : List Nat
  pc    : Nat → Pc

/-- Atomic actions; the first argument is the acting task. -/
inductive Lbl where
  | acquire (t : Nat)         -- await_ready of acquire(): `!test_and_set` (h 69-72)
  | suspend (t : Nat)         -- await_suspend: `m_waitings.enqueue` (h 74-77)
  | resume (t : Nat)          -- scheduler resumes a woken waiter: await_resume
  | tryAcquire (t : Nat)      -- try_acq_lk_aw::await_resume (acq_lk_aw.h 60-68)
  | unlock (t : Nat)          -- release(): `m_flag.clear()` (h 88)
  | retake (t : Nat)          -- try_wake_up_next: `hold_this_immediately` (cc 41)
  | dequeue (t u : Nat)       -- `try_dequeue` yields the handle of waiter `u` (cc 45)
  | dequeueNone (t : Nat)     -- `try_dequeue` yields nothing (cc 45)
  | wake (t : Nat)            -- `wake_up(handle)` (cc 47)
  | clear (t : Nat)           -- `m_flag.clear` (cc 51)
  deriving DecidableEq, Repr

/-- The acting task. -/
def Lbl.agent : Lbl → Nat
  | .acquire t | .suspend t | .resume t | .tryAcquire t | .unlock t | .retake t
  | .dequeue t _ | .dequeueNone t | .wake t | .clear t => t

/-- One atomic action.  `weak = true` additionally lets `try_dequeue` report "empty"
although the queue is not (moodycamel documents its answer as approximate under
contention); `weak = false` is the linearizable queue.
Models coroutine_mutex.h 69-90, coroutine_mutex.cc 39-53, acq_lk_aw.h 27-41 and 56-68. -/
def step (weak : Bool) (s : St) : Lbl → Option (St × List Ev)
  | .acquire t =>
    if s.pc t = .idle then
      if s.flag then some ({ s with pc := upd s.pc t .missed }, [.asked t])
      else some ({ s with flag := true, pc := upd s.pc t .holding }, [.asked t, .granted t])
    else none
  | .suspend t =>
    if s.pc t = .missed then
      some ({ s with queue := s.queue ++ [t], pc := upd s.pc t .queued }, [.slept t])
    else none
  | .resume t =>
    if s.pc t = .woken then
      some ({ s with pc := upd s.pc t .holding }, [.granted t])
    else none
  | .tryAcquire t =>
    if s.pc t = .idle then
      if s.flag then some (s, [.tryAsked t, .refused t])
      else some ({ s with flag := true, pc := upd s.pc t .holding }, [.tryAsked t, .granted t])
    else none
  | .unlock t =>
    if s.pc t = .holding then
      some ({ s with flag := false, pc := upd s.pc t .rel1 }, [.released t])
    else none
  | .retake t =>
    if s.pc t = .rel1 then
      if s.flag then some ({ s with pc := upd s.pc t .idle }, [.returned t])
      else some ({ s with flag := true, pc := upd s.pc t .rel2 }, [])
    else none
  | .dequeue t u =>
    if s.pc t = .rel2 then
      if u ∈ s.queue then
        some ({ s with queue := s.queue.erase u, pc := upd s.pc t (.relWake u) }, [])
      else none
    else none
  | .dequeueNone t =>
    if s.pc t = .rel2 ∧ (s.queue = [] ∨ weak = true) then
      some ({ s with pc := upd s.pc t .rel3 }, [])
    else none
  | .wake t =>
    match s.pc t with
    | .relWake u =>
      some ({ s with pc := upd (upd s.pc t .idle) u .woken }, [.woken u, .returned t])
    | _ => none
  | .clear t =>
    if s.pc t = .rel3 then
      some ({ s with flag := false, pc := upd s.pc t .idle }, [.returned t])
    else none

/-- A freshly constructed mutex (coroutine_mutex.h 95: flag clear) and idle tasks. -/
def init : St := { flag := false, queue := [], pc := fun _ => .idle }

/-- The mutex with any number of tasks. -/
def machine (weak : Bool) : Machine St Lbl Ev := { init := init, step := step weak }

end Verif.Mutex
