import Verif.Mutex.Spec
import Verif.WaitGroup.Spec
import Verif.Hub.Spec
/-!
# What a user who destroys a synchronisation object relies on (C94)

The owner of a mutex, wait_group or hub destroys it when, from all it can know through the API, nobody uses it any more: the work counted by the
wait_group is done and nobody waits; nobody holds, wants or waits for the mutex; nobody is registered in the hub.  From then on nobody
calls its member functions.  Then the object must not be touched any more.
-/

namespace Verif.Mortal

/-- Events of an object that can be destroyed; `ε`: the events of its API. -/
inductive MEv (ε : Type) where
  | api (e : ε)
  | destroyed          -- the object is destroyed
  | undefined          -- a member of the object is accessed after that
  deriving DecidableEq, Repr

/-- The API events of a trace. -/
def apis {ε : Type} (tr : List (MEv ε)) : List ε := tr.filterMap fun | .api e => some e | _ => none

/-- Whenever the object is destroyed, the API events before satisfy `P`. -/
def DestroyedOnlyIf {ε : Type} (P : List ε → Prop) (tr : List (MEv ε)) : Prop :=
  ∀ p, p ++ [.destroyed] <+: tr → P (apis p)

/-- wait_group: everything added is done and nobody waits, or is about to.  Calls of done() that have taken effect may still be
executing. -/
def WgFinished (tr : List WaitGroup.Ev) : Prop :=
  WaitGroup.count tr = 0 ∧ ∀ t, WaitGroup.life t tr = some .out ∨ WaitGroup.life t tr = some .inDone

/-- mutex: nobody holds it, asks for it, waits for it, or is being resumed as its owner.  Calls of unlock() that have taken effect may
still be executing. -/
def MutexFinished (tr : List Mutex.Ev) : Prop :=
  ∀ t, Mutex.life t tr = some .out ∨ Mutex.life t tr = some .unlocking

/-- hub: every task that was registered has been woken.  Calls of may_wake_next() and may_wake_all() may still be executing. -/
def HubFinished (tr : List Hub.Ev) : Prop := ∀ t, Hub.asleep t tr = some false

/-- No call of a member function is executing. -/
def WgQuiet (tr : List WaitGroup.Ev) : Prop := ∀ t, WaitGroup.life t tr ≠ some .inDone
def MutexQuiet (tr : List Mutex.Ev) : Prop := ∀ t, Mutex.life t tr ≠ some .unlocking
def HubQuiet (tr : List Hub.Ev) : Prop := ∀ w, Hub.call w tr = some .out

end Verif.Mortal
