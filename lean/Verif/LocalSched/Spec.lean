import Verif.Common.Trace
/-!
# What a user of local_thread_scheduler relies on (C56)

Tasks are numbered in the order of the enqueue() calls.
-/

namespace Verif.LocalSched

inductive Ev where
  | enqueued (t : Nat)                 -- enqueue(t) is called
  | started (t : Nat)                  -- the task is resumed
  | stopped (t : Nat) (threw : Bool)   -- the resumption of the task ends: it returned, suspended or threw
  | returned (t : Nat)                 -- the call enqueue(t) returns to its caller
  deriving DecidableEq, Repr

def enqueuedTasks (tr : List Ev) : List Nat := tr.filterMap fun | .enqueued t => some t | _ => none
def startedTasks (tr : List Ev) : List Nat := tr.filterMap fun | .started t => some t | _ => none

end Verif.LocalSched
