/-!
# What a user of a wait_group relies on about the results of the tasks (C88)

When `co_await wg.wait()` returns, everything the counted tasks did before their `done()` is visible to the waiting task.
-/

namespace Verif.Hb.Wg

/-- Results written by the counted tasks, numbered 0, 1, 2, ... in the order in which they are written. -/
inductive Ev where
  | wrote (t i : Nat)       -- task t, which still owes a done(), writes result i
  | returned (u : Nat)      -- u's wait() returns
  | saw (u i : Nat)         -- u, whose wait() has returned, reads result i, and the write happens before it
  | stale (u i : Nat)       -- ... and the write does not: data race
  deriving DecidableEq, Repr

def NoStale (tr : List Ev) : Prop := ∀ u i, .stale u i ∉ tr

/-- No result is written after a wait() has returned. -/
def AllBefore (tr : List Ev) : Prop := ∀ pre post u, tr = pre ++ .returned u :: post → ∀ t i, .wrote t i ∉ post

end Verif.Hb.Wg
