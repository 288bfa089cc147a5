import Verif.Common.Trace
/-!
# What a user of event_loop::add_event and of stopping relies on (C55)

`t` names tasks.  A task that sleeps (co_await sleep_for) gives itself to the timer loop with add_event.
-/

namespace Verif.EvLoop

inductive Ev where
  | resumed (t : Nat)          -- a worker runs the task
  | admitted (t : Nat)         -- add_event lets the task pass
  | refused (t : Nat)          -- add_event throws
  | slept (t : Nat)            -- the task is in the timer's heap
  | expired (t : Nat)          -- its time has come: handed to the scheduler
  | ignored (t : Nat)          -- the timer does not take the task: it is destroyed, the caller gets no error
  | dropped (t : Nat)          -- taken out of the timer's heap and destroyed
  | finished (t : Nat)
  | workerExited (i : Nat)
  | stopping                   -- stop() begins
  | quickStopping              -- quick_stop() begins
  | timerStopped               -- the timer loop has been told to stop
  deriving DecidableEq, Repr

/-- somebody has begun to stop the runtime -/
def StopBegan (tr : List Ev) : Prop := Ev.stopping ∈ tr ∨ Ev.quickStopping ∈ tr

end Verif.EvLoop
