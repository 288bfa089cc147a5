import Verif.Common.Trace
/-!
# What a user of `koios::wait_group` relies on

Over traces of API-visible events only.  `Nat` names tasks (or threads).
-/

namespace Verif.WaitGroup

inductive Ev where
  | added (n : Nat)               -- `add(n)`
  | doneCalled (t n : Nat)        -- `t` calls `done(n)`: the subtraction takes effect
  | doneReturned (t : Nat)        -- that call returns
  | asked (t : Nat)               -- `t` evaluates `co_await wg.wait()`
  | passed (t : Nat)              -- ... and goes on without suspension
  | slept (t : Nat)               -- ... or is suspended and registered
  | woken (t : Nat)               -- the suspended `t` is handed to the scheduler
  deriving DecidableEq, Repr

/-- The count a user keeps in mind: everything added minus everything done. -/
def countStep (c : Int) : Ev → Int
  | .added n => c + n
  | .doneCalled _ n => c - n
  | _ => c

def count (tr : List Ev) : Int := tr.foldl countStep 0

inductive Life where
  | out | asking | asleep | inDone
  deriving DecidableEq, Repr

/-- Legal successions of events in the life of task `t`; `none` is a violation. -/
def lifeStep (t : Nat) : Life → Ev → Option Life
  | l, .added _ => some l
  | l, .doneCalled u _ => if u ≠ t then some l else if l = .out then some .inDone else none
  | l, .doneReturned u => if u ≠ t then some l else if l = .inDone then some .out else none
  | l, .asked u  => if u ≠ t then some l else if l = .out then some .asking else none
  | l, .passed u => if u ≠ t then some l else if l = .asking then some .out else none
  | l, .slept u  => if u ≠ t then some l else if l = .asking then some .asleep else none
  | l, .woken u  => if u ≠ t then some l else if l = .asleep then some .out else none

def life (t : Nat) (tr : List Ev) : Option Life :=
  tr.foldl (fun l e => l.bind (lifeStep t · e)) (some .out)

/-- Per `wait()` one answer; per suspension at most one wake-up, and only of a suspended task. -/
def WellBehaved (tr : List Ev) : Prop := ∀ t, life t tr ≠ none

/-- No call in progress. -/
def Quiet (tr : List Ev) : Prop := ∀ t, life t tr = some .out ∨ life t tr = some .asleep

/-- Nobody is left asleep when the count is zero and no call is in progress. -/
def NoLostWakeup (tr : List Ev) : Prop :=
  Quiet tr → count tr = 0 → ∀ t, life t tr ≠ some .asleep

/-- A suspended task is woken only at a moment when the count is zero. -/
def WokenOnlyAtZero (tr : List Ev) : Prop :=
  ∀ p t, p ++ [.woken t] <+: tr → count p = 0

/-- A task passes `wait()` without suspension only at a moment when the count is zero. -/
def PassesOnlyAtZero (tr : List Ev) : Prop :=
  ∀ p t, p ++ [.passed t] <+: tr → count p = 0

/-- `done` is used with its default argument 1, never more often than `add` allows, and the
count fits `size_t`. -/
def UnitDones (tr : List Ev) : Prop :=
  (∀ p t n, p ++ [.doneCalled t n] <+: tr → n = 1 ∧ 1 ≤ count p) ∧
  ∀ p, p <+: tr → count p < 2 ^ 64

/-- Whenever a task goes to sleep, the count is positive at that moment. -/
def SleepsOnlyWhilePositive (tr : List Ev) : Prop :=
  ∀ p t, p ++ [.slept t] <+: tr → 0 < count p

/-- Nothing is added while a `done()` call is in progress. -/
def NoAddDuringDone (tr : List Ev) : Prop :=
  ∀ p n, p ++ [.added n] <+: tr → ∀ t, life t p ≠ some .inDone

end Verif.WaitGroup
