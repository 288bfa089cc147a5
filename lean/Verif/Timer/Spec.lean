import Verif.Common.Trace
/-!
# What a user of `sleep_for` / `sleep_until` relies on (C29 - C32)

Times and durations are integers (nanoseconds).  `id` identifies one await of one task.
-/

namespace Verif.Timer

inductive Ev where
  | asked (t id : Nat) (now due : Int) -- on thread t a task awaits sleep_for(due-now) / sleep_until(due); it may not go on before `due`
  | added (t id : Nat) (tp : Int)      -- it was suspended; the timer of thread t knows its deadline
  | resumed (id : Nat) (now : Int)     -- it goes on / is handed to the scheduler at time `now`
  | refused (id : Nat)                 -- the timer was already stopped: the suspended task is destroyed
  | passed (t : Nat) (now : Int)       -- a pass of thread t's timer that looked at the clock at `now` is over
  | destroyed (id : Nat)               -- the suspended task is destroyed with the timer
  | prepared (t : Nat)                 -- worker thread t has set up its timer
  | polled (t : Nat)                   -- thread t polls its timer
  | stopped                            -- stop was requested
  | ended                              -- the timer was destroyed
  | ub                                 -- undefined behaviour
  deriving DecidableEq, Repr

/-- The ends a sleeping task can come to. -/
def ending (id : Nat) : Ev → Bool
  | .resumed i _ => i == id
  | .refused i => i == id
  | .destroyed i => i == id
  | _ => false

/-- How many times the await `id` was brought to an end. -/
def endings (id : Nat) (tr : List Ev) : Nat := tr.countP (ending id)

def Asked (id : Nat) (tr : List Ev) : Prop := ∃ t now due, Ev.asked t id now due ∈ tr

/-- The tasks resumed by the events `e`, in order. -/
def resumedIds (e : List Ev) : List Nat := e.filterMap fun | .resumed i _ => some i | _ => none

end Verif.Timer
