import Verif.Nest.Spec
import Verif.Future.Model
/-!
# Task programs on a runtime with `W` workers

The programs of `Verif.Nest.Spec` (coroutine bodies that create tasks, start them with `run()`, await them, return and throw), now with the parts that `Verif.Nest` leaves out:
* every task has its shared state and its future, and they are the model of include/koios/future.h (`Verif.Future.step`): storing the result, `ready()`, `set_waiting` and `get_nonblk()` are single
  actions under `m_lock`, and everything else may happen between them;
* a task acts only while a worker runs it.  A worker takes a task from the queues when it has nothing else to do (src/thread_pool.cc 72-114; the queues are one bag because of work stealing, see `Pool`,
  `WSQ`), and runs it until it suspends or ends;
* an eager task (include/koios/promise_base.h 38) begins on the stack of its caller, which goes on when the task suspends or ends; so a worker has a stack of tasks;
* a task may yield, and sleep: there is a clock, and the timer of the worker on which the task went to sleep (src/timer.cc 21-55) puts it into the queues, not before its time has come,
  when the worker has nothing else to do (src/thread_pool.cc 74).

Simplified: nobody stops the runtime; a suspension, or the end of a body, and the return to what the worker did before are one action; task objects live until their body's end or longer; results are numbers.
-/

namespace Verif.ForkJoin
open Verif.Nest (Body Exc Res Ev)

/-- Results as the model of the future has them: only the names of exceptions differ. -/
def enc : Res → Future.Res
  | .val v => .val v
  | .exc .hasBeenGot => .exc 0
  | .exc (.user e) => .exc (e + 1)

def dec : Future.Res → Res
  | .val v => .val v
  | .exc 0 => .exc .hasBeenGot
  | .exc (e + 1) => .exc (.user e)

/-- Where a task is. -/
inductive Ctl where
  | fresh (b : Body)                 -- lazy_aw: suspended at the initial suspend point, nobody has started it
  | run (b : Body)                   -- started; what is left of the body
  | test (i : Nat) (k : Res → Body)  -- in `co_await` of local task i: the handle has been enqueued (task.h 221), before await_ready (future_aw.h 31)
  | susp (i : Nat) (k : Res → Body)  -- await_ready was false, before await_suspend (36)
  | wait (i : Nat) (k : Res → Body)  -- in the shared state
  | woken (i : Nat) (k : Res → Body) -- handed to the scheduler, before await_resume (41)
  | got (i : Nat) (k : Res → Body)   -- await_ready was true, before await_resume
  | nap (w u : Nat) (b : Body)       -- in the timer of worker w until time u
  | fin (r : Res)

structure St where
  n : Nat                    -- tasks created
  ctl : Nat → Ctl
  kids : Nat → List Nat      -- the local tasks
  fut : Nat → Future.St      -- the shared state and the future of a task
  waiter : Nat → Option Nat  -- shared_state::m_waiting (future.h 36)
  ready : List Nat           -- in the scheduler's queues
  on : Nat → List Nat        -- the tasks on the stack of a worker, the running one first
  now : Nat                  -- the clock

inductive Lbl where
  | take (w t : Nat)
  | act (w : Nat)            -- the next action of the task that worker w runs
  | fire (w t : Nat)         -- the timer of worker w finds task t due
  | tick                     -- time passes
  deriving DecidableEq, Repr

def setCtl (s : St) (t : Nat) (x : Ctl) : St := { s with ctl := upd s.ctl t x }

/-- Hand the handle of task `c` to the scheduler if it is still owned (task.h 124-150, 215-223; task_scheduler.h 50). -/
def start (s : St) (c : Nat) : St :=
  match s.ctl c with
  | .fresh b => { setCtl s c (.run b) with ready := s.ready ++ [c] }
  | _ => s

/-- The call of a coroutine function (promise_base.h 38-39). -/
def spawn (s : St) (w t : Nat) (lz : Bool) (c rest : Body) : St where
  n := s.n + 1
  ctl := upd (upd s.ctl t (.run rest)) s.n (if lz then .fresh c else .run c)
  kids := upd (upd s.kids t (s.kids t ++ [s.n])) s.n []
  fut := upd s.fut s.n Future.init
  waiter := upd s.waiter s.n none
  ready := s.ready
  on := if lz then s.on else upd s.on w (s.n :: s.on w)
  now := s.now

/-- `wake_up(std::move(m_waiting))` (future.h 46-47). -/
def wake (s : St) (t : Nat) : St :=
  match s.waiter t with
  | none => s
  | some p =>
    { s with
      ctl := match s.ctl p with
        | .wait i k => upd s.ctl p (.woken i k)
        | _ => s.ctl
      waiter := upd s.waiter t none
      ready := s.ready ++ [p] }

/-- The body ends: `set_value`/`set_exception` of its promise (return_value_or_void.h 38-77, task.h 78), and the worker goes on with what it did before. -/
def finish (s : St) (w t : Nat) (r : Res) : Option (St × List Ev) :=
  match Future.step (s.fut t) (.produce (enc r)) with
  | none => none
  | some (f, e) =>
    let s1 : St := { s with fut := upd s.fut t f, ctl := upd s.ctl t (.fin r), on := upd s.on w (s.on w).tail }
    some (if Future.Ev.woken ∈ e then wake s1 t else s1, [.finished t r])

/-- await_suspend (future_aw.h 36): the worker goes on with what it did before; if the result is there, the task goes to the scheduler at once (future.h 51-58). -/
def suspend (s : St) (w t i c : Nat) (k : Res → Body) : Option (St × List Ev) :=
  match Future.step (s.fut c) .suspend with
  | none => none
  | some (f, e) =>
    let s1 : St := { s with fut := upd s.fut c f, on := upd s.on w (s.on w).tail }
    some (if Future.Ev.woken ∈ e then { s1 with ctl := upd s.ctl t (.woken i k), ready := s.ready ++ [t] }
      else { s1 with ctl := upd s.ctl t (.wait i k), waiter := upd s.waiter c (some t) }, [])

/-- await_resume (future_aw.h 41).  `std::out_of_range` ("not ready") has no continuation here: that it does not happen is part of `running_can_go`. -/
def resume (s : St) (t c : Nat) (k : Res → Body) : Option (St × List Ev) :=
  match Future.step (s.fut c) .resume with
  | some (f, [.awaitRet (.res r)]) => some ({ s with fut := upd s.fut c f, ctl := upd s.ctl t (.run (k (dec r))) }, [.got t c (dec r)])
  | some (f, [.awaitRet .logicError]) => some ({ s with fut := upd s.fut c f, ctl := upd s.ctl t (.run (k (.exc .hasBeenGot))) }, [])
  | _ => none

/-- await_ready (future_aw.h 31). -/
def test (s : St) (t i c : Nat) (k : Res → Body) : Option (St × List Ev) :=
  match Future.step (s.fut c) .await with
  | none => none
  | some (f, _) => some ({ s with fut := upd s.fut c f, ctl := upd s.ctl t (if f.pc = .resuming then .got i k else .susp i k) }, [])

/-- The next action of task `t` on worker `w`. -/
def act (s : St) (w t : Nat) : Option (St × List Ev) :=
  match s.ctl t with
  | .run (.ret v) => finish s w t (.val v)
  | .run (.throw e) => finish s w t (.exc e)
  | .run (.spawn lz c rest) => some (spawn s w t lz c rest, [])
  | .run (.start i rest) =>
    match (s.kids t)[i]? with
    | none => some (setCtl s t (.run rest), [])
    | some c => some (start (setCtl s t (.run rest)) c, [])
  | .run (.await i k) =>
    match (s.kids t)[i]? with
    | none => some (setCtl s t (.run (k (.exc .hasBeenGot))), [])
    | some c => some (start (setCtl s t (.test i k)) c, [])
  | .run (.yield rest) => some ({ s with ctl := upd s.ctl t (.run rest), on := upd s.on w (s.on w).tail, ready := s.ready ++ [t] }, [])   -- this_task.h 78-88
  | .run (.sleep d rest) =>                                                                                                               -- this_task.h 23-57
    if d = 0 then some (setCtl s t (.run rest), [])
    else some ({ s with ctl := upd s.ctl t (.nap w (s.now + d) rest), on := upd s.on w (s.on w).tail }, [])
  | .test i k =>
    match (s.kids t)[i]? with
    | none => none
    | some c => test s t i c k
  | .susp i k =>
    match (s.kids t)[i]? with
    | none => none
    | some c => suspend s w t i c k
  | .woken i k =>
    match (s.kids t)[i]? with
    | none => none
    | some c => resume s t c k
  | .got i k =>
    match (s.kids t)[i]? with
    | none => none
    | some c => resume s t c k
  | .fresh _ => none
  | .wait _ _ => none
  | .nap _ _ _ => none
  | .fin _ => none

def step (W : Nat) (s : St) : Lbl → Option (St × List Ev)
  | .take w t => if w < W ∧ s.on w = [] ∧ t ∈ s.ready then some ({ s with on := upd s.on w [t], ready := s.ready.erase t }, []) else none
  | .act w =>
    match s.on w with
    | [] => none
    | t :: _ => act s w t
  | .fire w t =>
    match s.ctl t with
    | .nap w' u b => if t < s.n ∧ w' = w ∧ s.on w = [] ∧ u ≤ s.now then some ({ s with ctl := upd s.ctl t (.run b), ready := s.ready ++ [t] }, []) else none
    | _ => none
  | .tick => some ({ s with now := s.now + 1 }, [])

/-- The root is in the scheduler's queue. -/
def init (b : Body) : St where
  n := 1
  ctl := fun _ => .run b
  kids := fun _ => []
  fut := fun _ => Future.init
  waiter := fun _ => none
  ready := [0]
  on := fun _ => []
  now := 0

def machine (b : Body) (W : Nat) : Machine St Lbl Ev := ⟨init b, step W⟩

end Verif.ForkJoin
