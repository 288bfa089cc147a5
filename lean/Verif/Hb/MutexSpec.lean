/-!
# What a user of a mutex relies on about the data it protects (C87)

Whatever a task did to the protected data while it held the lock is visible to every later holder: accesses made under the lock are never a data
race (each one happens before the next one, in the sense of the C++ memory model).
-/

namespace Verif.Hb

/-- Accesses to the protected data, numbered 0, 1, 2, ... in the order in which they are made. -/
inductive Ev where
  | access (t i : Nat)     -- task t makes access i, and every earlier access happens before it
  | race (t i j : Nat)     -- task t makes access i, but access j < i does not happen before it: undefined behaviour
  deriving DecidableEq, Repr

/-- No access races with another one. -/
def RaceFree (tr : List Ev) : Prop := ∀ t i j, .race t i j ∉ tr

end Verif.Hb
