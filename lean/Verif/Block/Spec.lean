/-!
# What a user of dir_mutex relies on about releasing it (C83)

Releasing the lock (`unlock()`, or the destructor of the guard) returns, after the lock file was deleted.  `d` numbers the calls, `w` workers.
-/

namespace Verif.Block

inductive Ev where
  | calledByTask (w d : Nat)    -- a task that runs on worker w calls unlock()
  | calledOutside (d : Nat)     -- a thread that does not belong to the runtime calls unlock()
  | deleted (d : Nat)           -- the kernel has removed the lock file for call d
  | returned (d : Nat)          -- unlock() returns
  deriving DecidableEq, Repr

/-- Some call of unlock(), by whomever. -/
def Called (d : Nat) (tr : List Ev) : Prop := .calledOutside d ∈ tr ∨ ∃ w, .calledByTask w d ∈ tr

/-- Worker w is not inside a call of unlock(). -/
def Free (w : Nat) (tr : List Ev) : Prop := ∀ d, .calledByTask w d ∈ tr → .returned d ∈ tr

end Verif.Block
