import Verif.Common.Machine
import Verif.Task.Spec
/-!
# Model of `koios::task` (include/koios/task.h) with `promise_base` (include/koios/promise_base.h)

One coroutine; `lazy` says whether `initial_suspend` is `suspend_always` (lazy_task) or
`suspend_never` (task).  Object `i` holds `m_coro_handle` (owning or not, see `Fly` for the handle
class) and `m_future` (valid or moved-from, see `Future`).  The calls on task objects are made by
one thread of control; the coroutine itself runs concurrently (`exec`, `finish`).
`m_future.ready()` of a valid future is true iff the body has ended (see `Future`).
-/

namespace Verif.Task

/-- The coroutine frame. -/
inductive Frame where
  | fresh      -- suspended at the initial suspend point
  | queued     -- owned by the scheduler
  | running    -- started, not ended (possibly suspended at an inner co_await)
  | ended      -- final_suspend is suspend_never (promise_base.h 36): the frame is gone
  | destroyed  -- destroyed by the destructor of task_on_the_fly
  deriving DecidableEq, Repr

structure Obj where
  alive : Bool
  owns  : Bool   -- m_coro_handle holds the ownership (task.h 281)
  fut   : Bool   -- m_future.valid() (282)
  deriving DecidableEq, Repr

structure St where
  obj   : Nat → Obj
  next  : Nat          -- next object number
  frame : Frame

inductive Lbl where
  | run (i : Nat)      -- run_on (132-164)
  | runFut (i : Nat)   -- run_and_get_future_on (184-213)
  | await (i : Nat)    -- operator co_await (215-223)
  | conv (i : Nat)     -- operator task_on_the_fly (99), result enqueued (task_scheduler.h 58-61)
  | done (i : Nat)     -- done (112)
  | move (i : Nat)     -- move constructor (93-97)
  | destroy (i : Nat)  -- implicit destructor
  | exec               -- the scheduler resumes the coroutine, or (eager) it starts by itself
  | finish             -- return_value / return_void / unhandled_exception (78)
  deriving DecidableEq, Repr

/-- `get_handler_to_schedule()` (278): the object gives up the handle. -/
def dropHandle (s : St) (i : Nat) : St := { s with obj := upd s.obj i { s.obj i with owns := false } }

/-- `std::move(m_future)` (275). -/
def dropFuture (s : St) (i : Nat) : St := { s with obj := upd s.obj i { s.obj i with fut := false } }

/-- `get_handler_to_schedule()` and `schr.enqueue(h)`: nothing happens to an empty handle
(task_scheduler.h 48-51). -/
def schedule (s : St) (i : Nat) : St × List Ev :=
  if (s.obj i).owns then ({ dropHandle s i with frame := .queued }, [.scheduled]) else (s, [])

def step (lazy : Bool) (s : St) : Lbl → Option (St × List Ev)
  | .run i =>
    if (s.obj i).alive then
      if lazy then
        if (s.obj i).fut = false then some (s, [.ran i .ub])            -- `m_future.ready()` (140): m_ss is null
        else if s.frame = .ended then some (s, [.ran i .ok])            -- ready: nothing to do
        else if (s.obj i).owns = false then some (s, [.ran i .ub])      -- `[[assume(bool(h))]]` (143)
        else some ((schedule s i).1, .ran i .ok :: (schedule s i).2)
      else some (s, [.ran i .ok])                                       -- `if constexpr (!is_eager())` (138)
    else none
  | .runFut i =>
    if (s.obj i).alive then
      if lazy then
        if (s.obj i).owns = false then some (s, [.ranFuture i .logicError])  -- get_future (272)
        else if (s.obj i).fut = false then some (s, [.ranFuture i .ub])      -- `result.ready()` (189)
        else some ((schedule (dropFuture s i) i).1, .ranFuture i .ok :: (schedule (dropFuture s i) i).2)
      else some (dropFuture s i, [.ranFuture i (if (s.obj i).fut then .ok else .emptyFuture)])
    else none
  | .await i =>
    if (s.obj i).alive then
      if (s.obj i).fut = false then some (s, [.awaited i .logicError])
      else some ((schedule s i).1, .awaited i .ok :: (schedule s i).2)
    else none
  | .conv i =>
    if (s.obj i).alive then some ((schedule s i).1, .converted i :: (schedule s i).2) else none
  | .done i =>
    -- task_on_the_fly::done: an owned frame sits at its initial suspend point, which is not final
    if (s.obj i).alive then some (s, [.isDone i !(s.obj i).owns]) else none
  | .move i =>
    if (s.obj i).alive then
      some ({ s with obj := upd (upd s.obj i { alive := true, owns := false, fut := false }) s.next (s.obj i),
                     next := s.next + 1 }, [.moved i s.next])
    else none
  | .destroy i =>
    if (s.obj i).alive then
      let s1 := { s with obj := upd s.obj i { alive := false, owns := false, fut := false } }
      if (s.obj i).owns then some ({ s1 with frame := .destroyed }, [.destroyed i, .frameDestroyed])
      else some (s1, [.destroyed i])
    else none
  | .exec =>
    if s.frame = .queued ∨ (lazy = false ∧ s.frame = .fresh) then
      some ({ s with frame := .running }, [.bodyStarted])
    else none
  | .finish =>
    if s.frame = .running then some ({ s with frame := .ended }, [.bodyEnded]) else none

/-- The constructor (84-89): an eager task gives up the ownership at once. -/
def init (lazy : Bool) : St :=
  { obj := fun i => if i = 0 then { alive := true, owns := lazy, fut := true }
                    else { alive := false, owns := false, fut := false },
    next := 1, frame := .fresh }

def machine (lazy : Bool) : Machine St Lbl Ev := { init := init lazy, step := step lazy }

end Verif.Task
