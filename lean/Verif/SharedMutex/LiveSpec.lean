import Verif.SharedMutex.Spec
/-!
# Getting the shared_mutex in the end (C109)
-/

namespace Verif.SharedMutex

def isRequest (t : Nat) : Ev → Bool
  | .askedShr u | .askedUni u => u == t
  | _ => false

def isAnyRequest : Ev → Bool
  | .askedShr _ | .askedUni _ => true
  | _ => false

/-- Every request has been granted, and every lock has been given back. -/
def AllServed (tr : List Ev) : Prop :=
  ∀ t, tr.count (.askedShr t) = tr.count (.grantedShr t) ∧ tr.count (.grantedShr t) = tr.count (.releasedShr t) ∧
    tr.count (.askedUni t) = tr.count (.grantedUni t) ∧ tr.count (.grantedUni t) = tr.count (.releasedUni t)

def isReaderGrant : Ev → Bool
  | .grantedShr _ => true
  | _ => false

/-- the readers that are let in after writer `t` has gone to sleep -/
def readersAhead (t : Nat) (tr : List Ev) : Nat := (tr.dropWhile (· ≠ .sleptUni t)).countP isReaderGrant

/-- Nobody who holds one of the locks asks for the unique_lock. -/
def WritersAskEmptyHanded (tr : List Ev) : Prop := ∀ p t, p ++ [.askedUni t] <+: tr → ¬ HoldsShr t p ∧ ¬ HoldsUni t p

/-- Nothing undefined has happened so far (see C59). -/
def Defined (tr : List Ev) : Prop := ∀ t, Ev.ub t ∉ tr

end Verif.SharedMutex
