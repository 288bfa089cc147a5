import Verif.Common.Trace
/-!
# What a user of `co_await this_task::get_id()` relies on (C108)

Tasks (coroutines) are numbered; an id is an address, here a number; 0 is the null pointer.
-/

namespace Verif.TaskId

inductive Ev where
  | made (t : Nat)               -- the coroutine of task t is created
  | asked (t : Nat)              -- task t evaluates `co_await this_task::get_id()`
  | gotId (t i : Nat)            -- ... and gets i
  | ended (t : Nat)              -- the coroutine of t is destroyed
  deriving DecidableEq, Repr

/-- A task has one id, and it is not null. -/
def Stable (tr : List Ev) : Prop :=
  (∀ t i j, .gotId t i ∈ tr → .gotId t j ∈ tr → i = j) ∧ ∀ t i, .gotId t i ∈ tr → i ≠ 0

/-- The tasks that exist have different ids. -/
def Distinct (tr : List Ev) : Prop :=
  ∀ p t u i, p <+: tr → t ≠ u → .ended t ∉ p → .ended u ∉ p → .gotId t i ∈ p → .gotId u i ∉ p

/-- Different tasks have different ids, whether they exist or not. -/
def DistinctForever (tr : List Ev) : Prop := ∀ t u i, t ≠ u → .gotId t i ∈ tr → .gotId u i ∉ tr

/-- How often t has asked, and how often it was answered. -/
def asks (t : Nat) (tr : List Ev) : Nat := tr.count (.asked t)
def answers (t : Nat) (tr : List Ev) : Nat := tr.countP fun | .gotId u _ => u == t | _ => false

end Verif.TaskId
