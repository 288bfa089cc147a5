import Verif.Mutex.Spec
/-!
# Getting the lock in the end (C103)
-/

namespace Verif.Mutex

def isRequest (t : Nat) : Ev → Bool
  | .asked u | .tryAsked u => u == t
  | _ => false

def isAnswer (t : Nat) : Ev → Bool
  | .granted u | .refused u => u == t
  | _ => false

def isAnyRequest : Ev → Bool
  | .asked _ | .tryAsked _ => true
  | _ => false

/-- Every request has been answered, and every lock has been given back. -/
def AllServed (tr : List Ev) : Prop := ∀ t, tr.countP (isRequest t) = tr.countP (isAnswer t) ∧ life t tr = some .out

/-- Newcomers do not overtake: whoever gets the lock without having waited gets it when nobody is waiting. -/
def NewcomersWait (tr : List Ev) : Prop :=
  ∀ p u, (p ++ [.asked u, .granted u] <+: tr ∨ p ++ [.tryAsked u, .granted u] <+: tr) → ∀ t, life t p ≠ some .asleep

def isOtherGrant (t : Nat) : Ev → Bool
  | .granted u => u != t
  | _ => false

/-- the grants to others after `t` has gone to sleep -/
def overtaken (t : Nat) (tr : List Ev) : Nat :=
  (tr.dropWhile (· ≠ .slept t)).countP (isOtherGrant t)

end Verif.Mutex
