import Verif.Common.Machine
import Verif.Nest.Spec
/-!
# Model of tasks awaiting tasks

`task::promise_type` (include/koios/task.h 71-79), `return_value_or_void`
(include/koios/return_value_or_void.h 29-77), `future_aw` (include/koios/future_aw.h 18-48),
`future::get_nonblk` (include/koios/future.h 106-134), `shared_state::set_value/set_waiting`
(future.h 42-58), `task::operator co_await` (task.h 215-223), `task::run` (task.h 124-150).

Simplifications: `set_value`, `set_waiting` and `get_nonblk` are one action each (they hold
`m_lock`; the interleavings between `ready()` and `set_waiting` are treated in `Verif.Future`, where
the hand-over is proved to be atomic in effect).  Which thread executes a task is not recorded: any
task that is not suspended may do its next action at any time, which includes the synchronous start
of an eager task, every scheduler and every timer (a pause of any length is one action; times are in `Verif.ForkJoin`).  Task objects outlive the `co_await` on them.
-/

namespace Verif.Nest

inductive TSt where
  | fresh (b : Body)                 -- lazy_aw: suspended at the initial suspend point
  | run (b : Body)
  | wait (i : Nat) (k : Res → Body)  -- suspended in `co_await` of local task `i`
  | woken (i : Nat) (k : Res → Body) -- handed to the scheduler by `wake_up`
  | fin (r : Res)                    -- body ended, result in the shared state / future

structure Tk where
  st      : TSt
  kids    : List (Nat × Bool)  -- local tasks: task number, future::m_has_got
  waiter  : Option Nat         -- shared_state::m_waiting of this task's future

structure St where
  n  : Nat        -- tasks created
  tk : Nat → Tk

def setSt (s : St) (t : Nat) (x : TSt) : St := { s with tk := upd s.tk t { s.tk t with st := x } }

/-- `m_promise.set_value(val)` (return_value_or_void.h 59-62) or
`m_promise.set_exception(current_exception())` (task.h 78, return_value_or_void.h 38-41):
`shared_state::set_value` (future.h 42-49) stores the result and wakes the waiting task. -/
def finish (s : St) (t : Nat) (r : Res) : St :=
  let s1 := setSt s t (.fin r)
  match (s.tk t).waiter with
  | none => s1
  | some p =>
    match (s1.tk p).st with
    | .wait i k =>
      { s1 with tk := upd (upd s1.tk p { s1.tk p with st := .woken i k }) t { s1.tk t with waiter := none } }
    | _ => s1

/-- The call of a coroutine function: a lazy task stays at its initial suspend point, an eager one
runs (promise_base.h 38-39). -/
def spawn (s : St) (t : Nat) (lz : Bool) (c rest : Body) : St :=
  { n := s.n + 1,
    tk := upd (upd s.tk t { s.tk t with st := .run rest, kids := (s.tk t).kids ++ [(s.n, false)] })
              s.n { st := if lz then .fresh c else .run c, kids := [], waiter := none } }

/-- `future::get_nonblk` (future.h 106-134) on local task `i` = task `c` holding `r`: sets `m_has_got`
and returns the value or rethrows. -/
def take (s : St) (t i c : Nat) (k : Res → Body) (r : Res) : St × List Ev :=
  ({ s with tk := upd s.tk t { s.tk t with st := .run (k r), kids := (s.tk t).kids.set i (c, true) } },
   [.got t c r])

/-- `task::operator co_await` (task.h 221): the handle, if still owned, is enqueued. -/
def ensureStarted (s : St) (c : Nat) : St :=
  match (s.tk c).st with
  | .fresh b => setSt s c (.run b)
  | _ => s

/-- One action of task `t`. -/
def step (s : St) (t : Nat) : Option (St × List Ev) :=
  if t < s.n then
    match (s.tk t).st with
    | .run (.ret v) => some (finish s t (.val v), [.finished t (.val v)])
    | .run (.throw e) => some (finish s t (.exc e), [.finished t (.exc e)])
    | .run (.spawn lz c rest) => some (spawn s t lz c rest, [])
    | .run (.await i k) =>
      match (s.tk t).kids[i]? with
      | none => some (setSt s t (.run (k (.exc .hasBeenGot))), [])
      | some (_, true) => some (setSt s t (.run (k (.exc .hasBeenGot))), [])  -- future.h 117-120
      | some (c, false) =>
        match (s.tk c).st with
        | .fin r => some (take s t i c k r)                            -- await_ready (future_aw.h 31)
        | _ =>                                                         -- await_suspend (36)
          let s1 := ensureStarted s c
          let s2 := setSt s1 t (.wait i k)
          some ({ s2 with tk := upd s2.tk c { s2.tk c with waiter := some t } }, [])
    | .run (.start i rest) =>                                          -- run() (task.h 124-150)
      match (s.tk t).kids[i]? with
      | none => some (setSt s t (.run rest), [])
      | some (c, _) => some (ensureStarted (setSt s t (.run rest)) c, [])
    | .run (.yield rest) => some (setSt s t (.run rest), [])           -- this_task::yield() (this_task.h 78-88)
    | .run (.sleep _ rest) => some (setSt s t (.run rest), [])         -- this_task::sleep_for() (this_task.h 23-57)
    | .woken i k =>                                                    -- await_resume (41)
      match (s.tk t).kids[i]? with
      | some (c, _) =>
        match (s.tk c).st with
        | .fin r => some (take s t i c k r)
        | _ => none
      | none => none
    | _ => none
  else none

/-- Task 0 runs the root body. -/
def init (b : Body) : St :=
  { n := 1, tk := fun _ => { st := .run b, kids := [], waiter := none } }

def machine (b : Body) : Machine St Nat Ev := { init := init b, step := step }

end Verif.Nest
