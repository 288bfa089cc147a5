import Verif.Common.Trace
/-!
# What a user event loop, and its user, relies on (C34)

`l` identifies a user loop object, `t` a worker thread.
-/

namespace Verif.UserLoops

inductive Ev where
  | prepared (t : Nat)            -- worker thread t announces itself
  | added (l : Nat)               -- add_loop(l)
  | loopPrep (l t : Nat)          -- l's thread_specific_preparation is called for thread t
  | passBegan (t : Nat)           -- thread t starts a polling pass
  | polled (t l : Nat) (r : Bool) -- l's do_occured_nonblk is called on thread t and answers r
  | passEnded (t : Nat) (r : Bool)-- the pass is over and answers r
  | quickStopped                  -- quick_stop was requested
  | loopStop (l : Nat)            -- l's stop is called
  | loopQuickStop (l : Nat)       -- l's quick_stop is called
  | exited (t : Nat)              -- worker thread t is gone, with its attributes
  | ub                            -- a dangling pointer was used
  deriving DecidableEq, Repr

/-- The loops added, in order. -/
def addedLoops (tr : List Ev) : List Nat := tr.filterMap fun | .added l => some l | _ => none

/-- The loops thread `t` polled, in order. -/
def polledBy (t : Nat) (tr : List Ev) : List Nat :=
  tr.filterMap fun | .polled t' l _ => if t' = t then some l else none | _ => none

/-- The answers the loops gave to thread `t`. -/
def answersTo (t : Nat) (tr : List Ev) : List Bool :=
  tr.filterMap fun | .polled t' _ r => if t' = t then some r else none | _ => none

/-- How often loop `l` was prepared for thread `t`. -/
def preps (l t : Nat) (tr : List Ev) : Nat := tr.count (.loopPrep l t)

end Verif.UserLoops
