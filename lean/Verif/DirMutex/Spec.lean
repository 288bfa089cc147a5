import Verif.Common.Trace
/-!
# What a user of dir_mutex relies on (C50, C51)

`t` names tasks (of any process), `o` names dir_mutex objects (in any process), all for the same directory.
-/

namespace Verif.DirMutex

inductive Ev where
  | contended (t o : Nat)  -- acquire() by `t` through object `o` found the lock file there
  | acquired (t o : Nat)   -- co_await acquire() yields the guard
  | released (t : Nat)     -- `t` unlocks its guard
  | destroyed (o : Nat)    -- the destructor of object `o` begins
  | ownerless (o : Nat)    -- object `o` has created the lock file and found nobody to give the lock to
  deriving DecidableEq

/-- whenever a lock is acquired, no other task holds one -/
def MutualExclusion (tr : List Ev) : Prop :=
  ∀ p u o, p ++ [.acquired u o] <+: tr → ∀ t o', ¬ OpenIn (.acquired t o') (.released t) p

end Verif.DirMutex
