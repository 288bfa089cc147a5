import Verif.Common.Trace
/-!
# What users rely on about idle workers (C96)

Traces of a running `thread_pool`.  `w` names a worker, `x` a task.  `tick` is one millisecond; everything a worker does between two tasks except sleeping is taken to
need no time, so that the statements measure the time for which the pool *sleeps*.
-/

namespace Verif.Nap

inductive Ev where
  | tick                    -- a millisecond passes
  | enqueued (x : Nat)      -- a task is accepted
  | started (w x : Nat)     -- worker w executes x
  | finished (w x : Nat)
  | stopRequested           -- stop() or quick_stop() was called
  | stopNow                 -- quick_stop() was called
  | exited (w : Nat)        -- the thread of worker w ends
  deriving DecidableEq, Repr

/-- Time that passes in a part of a history. -/
def elapsed (tr : List Ev) : Nat := tr.count .tick

/-- Worker w executes nothing at the end of `p`. -/
def Idle (w : Nat) (p : List Ev) : Prop := ∀ x, .started w x ∈ p → .finished w x ∈ p

/-- Nothing happens to worker w in `m`. -/
def Still (w : Nat) (m : List Ev) : Prop := (∀ x, .started w x ∉ m) ∧ .exited w ∉ m

/-- There is something to do during all of `m`, which follows `p`: a task that is not started, -/
def TaskWaits (p m : List Ev) : Prop := ∃ x, .enqueued x ∈ p ∧ ∀ v, .started v x ∉ p ++ m

/-- ... or to end the thread: because of quick_stop(), or because of stop() when there are no tasks. -/
def MustEnd (p m : List Ev) : Prop :=
  .stopRequested ∈ p ∧ (.stopNow ∈ p ∨ ∀ x, .enqueued x ∈ p ++ m → ∃ v, .started v x ∈ p)

/-- An idle worker of a pool of n workers lets at most `d` milliseconds pass before it does what there is to do. -/
def NoticesWithin (n d : Nat) (tr : List Ev) : Prop :=
  ∀ p m w, w < n → p ++ m <+: tr → Idle w p → .exited w ∉ p → Still w m → TaskWaits p m ∨ MustEnd p m → elapsed m ≤ d

end Verif.Nap
