import Verif.Common.Trace
/-!
# What a user of the task scheduler relies on (C57, C67, C68)

`t` names tasks, `u` threads, `w` worker threads.
-/

namespace Verif.Sched

inductive Ev where
  | suspended (t u : Nat)          -- the task suspends on thread u (in a mutex, wait group, future, generator ...)
  | woken (t w : Nat)              -- wake_up: the task goes to the queue of worker w
  | moved (t w : Nat)              -- any other enqueue (new task, yield, get_id) to the queue of worker w
  | resumed (t u : Nat)            -- thread u takes the task from a queue and runs it
  | ranHere (t u : Nat)            -- a new task is run by thread u without the scheduler
  | finished (t : Nat)
  | turned (t u : Nat)             -- co_await turn_into_scheduler() is over; the task runs on thread u
  | quickStop
  | terminated                     -- std::terminate
  deriving DecidableEq, Repr

/-- the task an event is about -/
def Ev.task : Ev → Option Nat
  | .suspended t _ | .woken t _ | .moved t _ | .resumed t _ | .ranHere t _ | .finished t | .turned t _ => some t
  | .quickStop | .terminated => none

/-- the last thing task t did was to suspend, on thread u -/
def SuspendedOn (t u : Nat) (tr : List Ev) : Prop := ∃ a b, tr = a ++ .suspended t u :: b ∧ ∀ x ∈ b, x.task ≠ some t

def isEnqueue (t : Nat) : Ev → Bool
  | .woken x _ | .moved x _ => x == t
  | _ => false
def isResume (t : Nat) : Ev → Bool
  | .resumed x _ => x == t
  | _ => false

end Verif.Sched
