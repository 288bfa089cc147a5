import Verif.Common.Trace
/-!
# What the log line "thread_pool has been idle for a while!" says (C105)

Over the observable events of a pool whose `start()` has returned.  `Nat` names workers.  One `tick` is one millisecond.
-/

namespace Verif.Idle

inductive Ev where
  | tick
  | polled (w : Nat) (did : Bool)      -- the event loops of w were polled; did they do anything?
  | started (w : Nat)                  -- w begins to execute a task
  | finished (w : Nat)                 -- ... and is done with it
  | pending (w : Nat) (b : Bool)       -- the event loops are asked by w whether something is pending
  | slept (w : Nat)                    -- w goes to sleep
  | awoke (w : Nat)
  | reported (w : Nat)                 -- w logs the message
  deriving DecidableEq, Repr

def isTick : Ev → Bool
  | .tick => true
  | _ => false

def isSleep (w : Nat) : Ev → Bool
  | .slept u => u == w
  | _ => false

def asleepStep (w : Nat) (b : Bool) : Ev → Bool
  | .slept u => if u = w then true else b
  | .awoke u => if u = w then false else b
  | _ => b

/-- w has gone to sleep and has not woken up since. -/
def asleep (w : Nat) (tr : List Ev) : Bool := tr.foldl (asleepStep w) false

def busyStep (w : Nat) (b : Bool) : Ev → Bool
  | .started u => if u = w then true else b
  | .finished u => if u = w then false else b
  | _ => b

/-- w is executing a task. -/
def busy (w : Nat) (tr : List Ev) : Bool := tr.foldl (busyStep w) false

/-- Two reports are at least 15 s apart. -/
def Apart (tr : List Ev) : Prop := ∀ p q w u, p ++ .reported w :: q ++ [.reported u] <+: tr → 15000 ≤ q.countP isTick

/-- ... and the first one comes 15 s after the start at the earliest. -/
def NotAtOnce (tr : List Ev) : Prop := ∀ p w, p ++ [.reported w] <+: tr → 15000 ≤ p.countP isTick

/-- The message is logged only when all the other workers are asleep, and nobody is executing a task. -/
def OnlyWhenAllSleep (N : Nat) (tr : List Ev) : Prop :=
  ∀ p w, p ++ [.reported w] <+: tr → w < N ∧ (∀ u, u < N → u ≠ w → asleep u p = true) ∧ ∀ u, u < N → busy u p = false

/-- ... when nothing was pending in the event loops, and the last poll of the reporting worker did nothing. -/
def OnlyWhenNothingPending (tr : List Ev) : Prop :=
  ∀ p w, p ++ [.reported w] <+: tr → (∃ p', p = p' ++ [.pending w false]) ∧
    ∃ p1 q, p = p1 ++ .polled w false :: q ∧ ∀ b, .polled w b ∉ q

/-- ... when the reporting worker has slept at least N times since it executed a task. -/
def OnlyAfterNaps (N : Nat) (tr : List Ev) : Prop :=
  ∀ p w, p ++ [.reported w] <+: tr → ∀ p1 q, p = p1 ++ .started w :: q → N ≤ q.countP (isSleep w)

/-- The message is true: no worker has executed anything in the last 15 s. -/
def Truthful (tr : List Ev) : Prop :=
  ∀ p w, p ++ [.reported w] <+: tr → ∀ p1 q u, p = p1 ++ .finished u :: q → 15000 ≤ q.countP isTick

end Verif.Idle
