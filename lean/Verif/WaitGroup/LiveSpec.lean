import Verif.WaitGroup.Spec
/-!
# Getting past `wait()` in the end (C104)
-/

namespace Verif.WaitGroup

def isAsked (t : Nat) : Ev → Bool
  | .asked u => u == t
  | _ => false

def isAnswer (t : Nat) : Ev → Bool
  | .passed u | .woken u => u == t
  | _ => false

def isWoken (t : Nat) : Ev → Bool
  | .woken u => u == t
  | _ => false

def isAdd : Ev → Bool
  | .added _ => true
  | _ => false

def isDoneCall : Ev → Bool
  | .doneCalled _ _ => true
  | _ => false

def isWaitCall : Ev → Bool
  | .asked _ => true
  | _ => false

/-- Every `wait()` has been answered, and every `done()` has returned. -/
def AllServed (tr : List Ev) : Prop := ∀ t, tr.countP (isAsked t) = tr.countP (isAnswer t) ∧ life t tr = some .out

/-- A `done()` has to do only with those who had called `wait()` before it: each of them is woken at most once while it is in progress, and nobody else is woken. -/
def DoneWakesTheWaiters (tr : List Ev) : Prop :=
  ∀ p q t n, p ++ .doneCalled t n :: q <+: tr → .doneReturned t ∉ q → ∀ u,
    q.countP (isWoken u) ≤ if life u p = some .asking ∨ life u p = some .asleep then 1 else 0

end Verif.WaitGroup
