import Verif.Common.Trace
/-!
# What a user of `koios::mutex` relies on

Stated over traces of API-visible events only.  `Nat` names tasks.
-/

namespace Verif.Mutex

/-- API-visible events of one `koios::mutex`. -/
inductive Ev where
  | asked (t : Nat)     -- `t` evaluates `co_await m.acquire()`
  | tryAsked (t : Nat)  -- `t` evaluates `co_await m.try_acquire()`
  | refused (t : Nat)   -- ... and gets `nullopt`
  | granted (t : Nat)   -- `t` now owns a `unique_lock` of the mutex
  | slept (t : Nat)     -- `t` is suspended and registered as a waiter
  | woken (t : Nat)     -- `t` is handed to the scheduler for resumption
  | released (t : Nat)  -- `t` calls `unlock()` (or destroys the lock)
  | returned (t : Nat)  -- that `unlock()` call returns
  deriving DecidableEq, Repr

/-- Mutual exclusion: whenever a lock is granted, no earlier grant is still open. -/
def MutualExclusion (tr : List Ev) : Prop :=
  ∀ p u, p ++ [.granted u] <+: tr → ∀ t, ¬ OpenIn (.granted t) (.released t) p

/-- The life of one task with respect to the mutex. -/
inductive Life where
  | out | asking | trying | asleep | wakened | holding | unlocking
  deriving DecidableEq, Repr

/-- Legal successions of events in the life of task `t`; events of other tasks
do not matter; `none` is a violation. -/
def lifeStep (t : Nat) : Life → Ev → Option Life
  | l, .asked u     => if u ≠ t then some l else if l = .out then some .asking else none
  | l, .tryAsked u  => if u ≠ t then some l else if l = .out then some .trying else none
  | l, .refused u   => if u ≠ t then some l else if l = .trying then some .out else none
  | l, .granted u   => if u ≠ t then some l else
      if l = .asking ∨ l = .trying ∨ l = .wakened then some .holding else none
  | l, .slept u     => if u ≠ t then some l else if l = .asking then some .asleep else none
  | l, .woken u     => if u ≠ t then some l else if l = .asleep then some .wakened else none
  | l, .released u  => if u ≠ t then some l else if l = .holding then some .unlocking else none
  | l, .returned u  => if u ≠ t then some l else if l = .unlocking then some .out else none

/-- Where task `t` is after the trace (`none`: the life cycle was violated). -/
def life (t : Nat) (tr : List Ev) : Option Life :=
  tr.foldl (fun l e => l.bind (lifeStep t · e)) (some .out)

/-- Every task's events follow the life cycle: one answer per request, one wake-up
per suspension, a woken task gets the lock, a lock is released only by its holder. -/
def WellBehaved (tr : List Ev) : Prop := ∀ t, life t tr ≠ none

/-- No call is in progress and nobody holds the lock: every task is outside or asleep. -/
def Quiet (tr : List Ev) : Prop := ∀ t, life t tr = some .out ∨ life t tr = some .asleep

/-- No lost wake-up: when everything is quiet nobody is left asleep. -/
def NoLostWakeup (tr : List Ev) : Prop := Quiet tr → ∀ t, life t tr ≠ some .asleep

/-- Whenever a task goes to sleep, some task holds the lock at that moment, or is
being resumed as its owner. -/
def SleepsOnlyWhileHeld (tr : List Ev) : Prop :=
  ∀ p t, p ++ [.slept t] <+: tr →
    ∃ u, life u p = some .holding ∨ life u p = some .wakened

/-- The task is inside an `acquire`/`try_acquire`/`unlock` call. -/
def inCall (l : Option Life) : Prop :=
  l = some .asking ∨ l = some .trying ∨ l = some .unlocking

/-- Calls on the mutex never overlap in time.  This is what a runtime with a single
worker thread guarantees: each call (up to its suspension) runs to its end before the
thread executes another task. -/
def CallsDoNotOverlap (tr : List Ev) : Prop :=
  ∀ p, p <+: tr → ∀ t u, inCall (life t p) → inCall (life u p) → t = u

end Verif.Mutex
