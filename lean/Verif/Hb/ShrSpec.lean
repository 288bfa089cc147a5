import Verif.SharedMutex.Spec
/-!
# What users of a shared_mutex rely on about the data it protects (C90)
-/

namespace Verif.Hb.Shr

/-- Accesses to the protected data are numbered 0, 1, 2, ... in the order in which they are made. -/
inductive Ev where
  | lk (e : SharedMutex.Ev)          -- an event of the lock
  | access (t i : Nat) (w : Bool)    -- task t makes access i (a write if w) under its lock
  | race (t i j : Nat)               -- that access conflicts with access j < i (one of them is a write), and j does not happen before it
  deriving DecidableEq, Repr

/-- No access races with another one. -/
def RaceFree (tr : List Ev) : Prop := ∀ t i j, .race t i j ∉ tr

def released (u : Nat) (x : Ev) : Prop := x = .lk (.releasedShr u) ∨ x = .lk (.releasedUni u)

/-- Access j was made by a task that has since released a lock. -/
def Closed (tr : List Ev) (j : Nat) : Prop := ∃ p q u w, tr = p ++ .access u j w :: q ∧ ∃ x ∈ q, released u x

/-- The events at which the lock is decided about for t: it asks for a shared_lock, or is handed to the scheduler as the new owner. -/
def gives (t : Nat) (g : SharedMutex.Ev) : Prop := g = .askedShr t ∨ g = .wokenShr t ∨ g = .wokenUni t

/-- Access j was closed before the lock was decided about for t. -/
def Given (tr : List Ev) (t j : Nat) : Prop := ∃ q g, q ++ [.lk g] <+: tr ∧ gives t g ∧ Closed q j

/-- A task never races with an access whose lock was released before the lock was given to the task. -/
def HandOverVisible (tr : List Ev) : Prop := ∀ p t i j, p ++ [.race t i j] <+: tr → ¬ Given p t j

/-- The events of the lock. -/
def locks (tr : List Ev) : List SharedMutex.Ev := tr.filterMap fun | .lk e => some e | _ => none

end Verif.Hb.Shr
