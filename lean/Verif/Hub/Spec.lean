import Verif.Common.Trace
/-!
# What a user of `koios::async_awaiting_hub` relies on
-/

namespace Verif.Hub

/-- `t`, `u` name suspended tasks, `w` the callers of the wake functions. -/
inductive Ev where
  | registered (t : Nat)            -- `add_awaiting(t)`
  | nextCalled (w : Nat)            -- `w` calls `may_wake_next()`
  | nextReturned (w : Nat) (b : Bool)
  | allCalled (w : Nat)             -- `w` calls `may_wake_all()`
  | allReturned (w : Nat) (b : Bool)
  | woken (w u : Nat)               -- `w`'s call hands `u` to the scheduler
  deriving DecidableEq, Repr

/-- A task is out or asleep; registering while asleep, or being woken while not
registered, is a violation. -/
def sleepStep (t : Nat) : Bool → Ev → Option Bool
  | b, .registered u => if u ≠ t then some b else if b then none else some true
  | b, .woken _ u    => if u ≠ t then some b else if b then some false else none
  | b, _ => some b

def asleep (t : Nat) (tr : List Ev) : Option Bool :=
  tr.foldl (fun b e => b.bind (sleepStep t · e)) (some false)

/-- The state of a caller: not in a call, in `may_wake_next` having woken `n` tasks, in
`may_wake_all` having woken (or not) somebody. -/
inductive Call where
  | out | next (n : Nat) | all (woke : Bool)
  deriving DecidableEq, Repr

/-- `may_wake_next` wakes at most one task and says whether it did; `may_wake_all` says
whether it woke somebody; nobody is woken outside of a call. -/
def callStep (w : Nat) : Call → Ev → Option Call
  | c, .nextCalled v => if v ≠ w then some c else if c = .out then some (.next 0) else none
  | c, .allCalled v => if v ≠ w then some c else if c = .out then some (.all false) else none
  | c, .woken v _ => if v ≠ w then some c else
      match c with
      | .next 0 => some (.next 1)
      | .all _ => some (.all true)
      | _ => none
  | c, .nextReturned v b => if v ≠ w then some c else
      match c with
      | .next n => if b = decide (n = 1) then some .out else none
      | _ => none
  | c, .allReturned v b => if v ≠ w then some c else
      match c with
      | .all r => if b = r then some .out else none
      | _ => none
  | c, .registered _ => some c

def call (w : Nat) (tr : List Ev) : Option Call :=
  tr.foldl (fun c e => c.bind (callStep w · e)) (some .out)

/-- When a call reports that it found nobody (any more), everybody still asleep at that
moment is being woken by another call in progress. -/
def NobodyMissed (tr : List Ev) : Prop :=
  ∀ p w, (p ++ [.nextReturned w false] <+: tr ∨ ∃ b, p ++ [.allReturned w b] <+: tr) →
    ∀ t, asleep t p = some true → ∃ v, v ≠ w ∧ call v p ≠ some .out

end Verif.Hub
