import Verif.Common.Trace
/-!
# What a user of the runtime's life cycle relies on (C72-C75)
-/

namespace Verif.Life

/-- A thread: the one that constructs, starts and destroys the runtime, another thread of the user, a worker. -/
inductive Who where
  | main
  | ext (k : Nat)
  | wrk (i : Nat)
  deriving DecidableEq, Repr

inductive Ev where
  | sawThreads (i k : Nat)     -- worker `i` fills number_of_threads of its attributes with `k`
  | prepared (i : Nat)         -- worker `i` has registered (queue, timer heap, ring)
  | startReturned
  | taskBegan (i : Nat)        -- worker `i` runs a task
  | stopCalled (c : Who)       -- stop() or quick_stop() called
  | stopReturned (c : Who)
  | workerExited (i : Nat)
  | sigint (c : Who)           -- SIGINT delivered on this thread
  | terminated                 -- std::terminate
  | destroyBegan               -- the destructor of the runtime object begins
  | useAfterFree               -- a worker calls into a sub-loop that has been destroyed
  | destroyed                  -- the destructor is over
  deriving DecidableEq, Repr

end Verif.Life
