import Verif.Common.Trace
/-!
# What a user of `koios::thread_pool` relies on

Traces of API-visible events.  Workers are numbered `w`, tasks are numbered in the order in
which they were accepted.
-/

namespace Verif.Pool

/-- Who enqueues: a thread outside of the pool, or the task running on worker `w`. -/
inductive Who where
  | ext (n : Nat)
  | wrk (w : Nat)
  deriving DecidableEq, Repr

inductive Ev where
  | enqCalled (a : Who)                -- `a` calls `enqueue...`
  | enqueued (a : Who) (x : Nat)       -- the call put task `x` into the pool
  | refused (a : Who)                  -- the call threw `thread_pool_stopped_exception`
  | started (w x : Nat)                -- worker `w` starts executing `x`
  | finished (w x : Nat) (threw : Bool) -- `x` returned, or an exception left it
  | stopRequested                      -- `stop()` (or `quick_stop()`) requested the stop
  | stopNow                            -- `quick_stop()` was called
  | exited (w : Nat)                   -- the thread of worker `w` ends
  | joined                             -- `stop()` has joined all workers and returns
  deriving DecidableEq, Repr

def timesEnqueued (x : Nat) (tr : List Ev) : Nat :=
  tr.countP fun | .enqueued _ y => y == x | _ => false
def timesStarted (x : Nat) (tr : List Ev) : Nat :=
  tr.countP fun | .started _ y => y == x | _ => false
def timesFinished (x : Nat) (tr : List Ev) : Nat :=
  tr.countP fun | .finished _ y _ => y == x | _ => false
/-- How many tasks were accepted, how many started in total. -/
def allEnqueued (tr : List Ev) : Nat := tr.countP fun | .enqueued _ _ => true | _ => false
def allStarted (tr : List Ev) : Nat := tr.countP fun | .started _ _ => true | _ => false

/-- Task `x` was accepted in time: from a task running on the pool, or from outside before
the stop was requested. -/
def InTime (x : Nat) (tr : List Ev) : Prop :=
  ∃ p a, p ++ [.enqueued a x] <+: tr ∧ ((∃ w, a = .wrk w) ∨ Ev.stopRequested ∉ p)

/-- Number of tasks worker `w` starts. -/
def startsOf (w : Nat) (tr : List Ev) : Nat :=
  tr.countP fun | .started v _ => v == w | _ => false

end Verif.Pool
