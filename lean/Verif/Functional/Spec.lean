import Verif.Common.Trace
/-!
# What a user of co_await_all and for_each relies on (C48, C49)
-/

namespace Verif.Functional

/-- What can be observed.  `i` is the position of an argument of co_await_all, or of an element of the range of for_each; a result is a value or an
exception. -/
inductive Ev where
  | started (i : Nat)                          -- the i-th awaitable starts (for_each: the function is called with the i-th element)
  | completed (i : Nat) (r : Except Nat Nat)   -- it ends with this result
  | returned (r : Except Nat (List Nat))       -- the co_await of co_await_all / for_each ends
  deriving DecidableEq

/-- When the values `vs` are returned, there is one for every argument, and the i-th one is the result of the i-th argument, which has
completed before. -/
def OrderedResults (n : Nat) (tr : List Ev) : Prop :=
  ∀ pre post vs, tr = pre ++ Ev.returned (.ok vs) :: post →
    vs.length = n ∧ ∀ i v, vs[i]? = some v → Ev.completed i (.ok v) ∈ pre

/-- `e` is the completion of the i-th awaitable -/
def isCompletion (i : Nat) (e : Ev) : Bool :=
  match e with
  | .completed j _ => j == i
  | _ => false

/-- Every awaitable is started at most once, and completes at most once. -/
def OnceEach (tr : List Ev) : Prop :=
  ∀ i, tr.count (Ev.started i) ≤ 1 ∧ tr.countP (isCompletion i) ≤ 1

/-- An exception is thrown only if one of the awaitables threw it. -/
def HonestException (n : Nat) (tr : List Ev) : Prop :=
  ∀ pre post x, tr = pre ++ Ev.returned (.error x) :: post → ∃ i, i < n ∧ Ev.completed i (.error x) ∈ pre

/-- When for_each ends normally, the function was called exactly once with each of the elements, and every call has ended normally. -/
def AllProcessed (n : Nat) (tr : List Ev) : Prop :=
  ∀ pre post vs, tr = pre ++ Ev.returned (.ok vs) :: post →
    ∀ i, i < n → pre.count (Ev.started i) = 1 ∧ ∃ v, Ev.completed i (.ok v) ∈ pre

/-- Nothing happens outside the range. -/
def InRange (n : Nat) (tr : List Ev) : Prop := ∀ i, Ev.started i ∈ tr → i < n

end Verif.Functional
