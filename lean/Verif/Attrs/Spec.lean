import Verif.Life.Spec
/-!
# What a user of `consumer_attrs()` relies on (C102)

`thread_pool::consumer_attrs()` is the list of the workers; `turn_into_scheduler()` and `for_each_dispatch_evenly()` go through it.
-/

namespace Verif.Attrs

inductive Ev where
  | life (e : Life.Ev)                            -- what happens to the runtime
  | lookBegan (c : Life.Who)                      -- the thread `c` asks for the list and begins to go through it
  | looked (c : Life.Who) (i : Nat)               -- it reads the attributes of worker `i`
  | listed (c : Life.Who) (l : List Nat)          -- it has gone through the whole list and has met the workers `l`, in this order
  | dangling (c : Life.Who) (i : Nat)             -- it reads the attributes of worker `i`, which no longer exist
  | raced (c : Life.Who)                          -- it reads the list while a worker may be entering itself
  deriving DecidableEq, Repr

/-- Nobody asks for the list before start() has returned. -/
def AfterStart (tr : List Ev) : Prop := ∀ p q c, tr = p ++ .lookBegan c :: q → .life .startReturned ∈ p

end Verif.Attrs
