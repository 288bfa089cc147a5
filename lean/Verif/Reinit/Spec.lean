/-!
# What a user relies on about starting the runtime again (C86)

`runtime_init()` may be called again after `runtime_exit()`: when it returns, a fresh runtime accepts and runs tasks; tasks the first runtime had
accepted but not begun have been destroyed and never run; a task that waited for a lock such a task held goes on in the new runtime;
the first SIGINT stops the new runtime gracefully, as it did the old one.
-/

namespace Verif.Reinit

/-- What can be observed.  Runtimes are counted 1, 2, ... -/
inductive Ev where
  | initCalled
  | initReturned (g : Nat)
  | exitCalled
  | exitReturned (g : Nat)
  | accepted (t g : Nat)     -- runtime g has taken the task into its queue
  | began (t g : Nat)        -- a worker of runtime g resumes the task
  | blocked (u t : Nat)      -- task u waits for a lock that task t holds
  | finished (t : Nat)       -- the task has ended; its locals (its locks) are destroyed
  | dropped (t : Nat)        -- the task was destroyed before it ended; likewise
  | sigint
  | undefined                -- undefined behaviour
  | terminated               -- std::terminate
  deriving DecidableEq, Repr

/-- The runtime that is up according to a history: `runtime_init` has returned, and neither it nor `runtime_exit` has been called since, nor has a
SIGINT arrived. -/
def up : List Ev → Option Nat → Option Nat
  | [], r => r
  | .initReturned g :: tr, _ => up tr (some g)
  | .initCalled :: tr, _ => up tr none
  | .exitCalled :: tr, _ => up tr none
  | .sigint :: tr, _ => up tr none
  | _ :: tr, r => up tr r

/-- According to the history the runtime is down: `runtime_exit` has returned, and nothing was called and no SIGINT has arrived since. -/
def down : List Ev → Bool → Bool
  | [], r => r
  | .exitReturned _ :: tr, _ => down tr true
  | .initCalled :: tr, _ => down tr false
  | .exitCalled :: tr, _ => down tr false
  | .sigint :: tr, _ => down tr false
  | _ :: tr, r => down tr r

end Verif.Reinit
