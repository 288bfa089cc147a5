import Verif.Common.Trace
/-!
# What a user of `koios::shared_mutex` relies on
-/

namespace Verif.SharedMutex

/-- API-visible events of one `koios::shared_mutex`. -/
inductive Ev where
  | askedShr (t : Nat)     -- `t` evaluates `co_await m.acquire_shared()`
  | askedUni (t : Nat)     -- `t` evaluates `co_await m.acquire()`
  | sleptShr (t : Nat)     -- `t` is registered as a waiting reader
  | sleptUni (t : Nat)     -- `t` is registered as a waiting writer
  | wokenShr (t : Nat)     -- `t` is handed to the scheduler to hold a shared_lock
  | wokenUni (t : Nat)     -- `t` is handed to the scheduler to hold the unique_lock
  | grantedShr (t : Nat)   -- `t` now owns a shared_lock
  | grantedUni (t : Nat)   -- `t` now owns the unique_lock
  | releasedShr (t : Nat)  -- `t` unlocks its shared_lock
  | releasedUni (t : Nat)  -- `t` unlocks its unique_lock
  | ub (t : Nat)           -- a thread uses the awaiter of `t` after `t` was resumed
  deriving DecidableEq, Repr

def HoldsShr (t : Nat) (tr : List Ev) : Prop := OpenIn (.grantedShr t) (.releasedShr t) tr
def HoldsUni (t : Nat) (tr : List Ev) : Prop := OpenIn (.grantedUni t) (.releasedUni t) tr
def BecomingWriter (t : Nat) (tr : List Ev) : Prop := OpenIn (.wokenUni t) (.grantedUni t) tr
def BecomingReader (t : Nat) (tr : List Ev) : Prop := OpenIn (.wokenShr t) (.grantedShr t) tr
def WaitsShr (t : Nat) (tr : List Ev) : Prop := OpenIn (.sleptShr t) (.wokenShr t) tr
def WaitsUni (t : Nat) (tr : List Ev) : Prop := OpenIn (.sleptUni t) (.wokenUni t) tr

/-- Writer exclusion: a unique_lock is granted only when nobody holds anything; a
shared_lock is granted only when no *other* task holds the unique_lock. -/
def Exclusion (tr : List Ev) : Prop :=
  (∀ p u, p ++ [.grantedUni u] <+: tr → ∀ t, ¬ HoldsUni t p ∧ ¬ HoldsShr t p) ∧
  (∀ p u, p ++ [.grantedShr u] <+: tr → ∀ t, t ≠ u → ¬ HoldsUni t p)

/-- Nobody holds a lock and nobody is being resumed as an owner. -/
def AllReleased (tr : List Ev) : Prop :=
  ∀ t, ¬ HoldsShr t tr ∧ ¬ HoldsUni t tr ∧ ¬ BecomingWriter t tr ∧ ¬ BecomingReader t tr

/-- Nobody is left waiting. -/
def NobodyWaits (tr : List Ev) : Prop := ∀ t, ¬ WaitsShr t tr ∧ ¬ WaitsUni t tr

/-- Readers only ask while no *other* task has, or is being given, the unique_lock. -/
def ReadersAskUncontended (tr : List Ev) : Prop :=
  ∀ p t, p ++ [.askedShr t] <+: tr → ∀ u, u ≠ t → ¬ HoldsUni u p ∧ ¬ BecomingWriter u p

/-- A writer gives its nested shared_lock back before the unique_lock. -/
def NestedReleaseOrder (tr : List Ev) : Prop :=
  ∀ p t, p ++ [.releasedUni t] <+: tr → ¬ HoldsShr t p

end Verif.SharedMutex
