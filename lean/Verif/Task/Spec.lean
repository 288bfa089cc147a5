import Verif.Common.Trace
/-!
# What a user of `koios::task` relies on (C13)

One coroutine, the `task` objects that stand for it (the first one is number 0, each move
construction makes the next), and the calls made on them.
-/

namespace Verif.Task

/-- How a call ends. -/
inductive Ans where
  | ok           -- returned
  | logicError   -- threw std::logic_error
  | emptyFuture  -- returned a future without a shared state
  | ub           -- undefined behaviour (violated [[assume]] or use of an empty future)
  deriving DecidableEq, Repr

inductive Ev where
  | ran (i : Nat) (a : Ans)       -- `run()` / `run_on()` / `operator()()`
  | ranFuture (i : Nat) (a : Ans) -- `run_and_get_future()` / `run_and_get_future_on()`
  | awaited (i : Nat) (a : Ans)   -- `operator co_await()`
  | converted (i : Nat)           -- `operator task_on_the_fly()`, the result is enqueued
  | isDone (i : Nat) (b : Bool)   -- `done()`
  | moved (i j : Nat)             -- object `j` is move constructed from object `i`
  | destroyed (i : Nat)           -- destructor of object `i`
  | scheduled                     -- the coroutine was handed to the scheduler
  | bodyStarted                   -- the body starts executing
  | bodyEnded                     -- the body ends, its result is delivered to the future
  | frameDestroyed                -- the coroutine frame is destroyed without having been run
  deriving DecidableEq, Repr

def times (e : Ev) (tr : List Ev) : Nat := tr.count e

/-- Effect of an event on the number of the object that stands for the coroutine. -/
def curStep (c : Nat) : Ev → Nat
  | .moved i j => if i = c then j else c
  | _ => c

/-- The object that stands for the coroutine: the last target of a move. -/
def current (tr : List Ev) : Nat := tr.foldl curStep 0

/-- The future was given away. -/
def futureGiven (tr : List Ev) : Prop := ∃ i, Ev.ranFuture i .ok ∈ tr

/-- The user calls `run()` only on the current object, at most once and not after anything else
that schedules the task. -/
def Disciplined (tr : List Ev) : Prop :=
  ∀ p i a, p ++ [.ran i a] <+: tr → i = current p ∧ .scheduled ∉ p ∧ ¬ futureGiven p

end Verif.Task
