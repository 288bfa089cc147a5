/-!
# What a user relies on about tasks that are destroyed before they have finished (C84)

A suspended task is destroyed when what holds it goes away: the queue of the scheduler, the waiting list of a mutex, the table of an event
loop, a task object that was never started.  Then its local variables are destroyed, each once, together with the tasks it alone owns; and
the tasks that await it do not stay behind for ever.

`p`, `c` name tasks, `x` a local variable.
-/

namespace Verif.Leak

inductive Ev where
  | created (p : Option Nat) (c : Nat)  -- p (or a thread outside of the runtime) calls a coroutine function and holds its task object / future
  | started (c : Nat)                   -- the body of c begins to run, or c is handed to the scheduler
  | made (p x : Nat)                    -- a local variable of p is constructed
  | destroyed (p x : Nat)               -- ... and destroyed
  | awaits (p c : Nat)                  -- p is suspended in co_await on c
  | got (p c : Nat)                     -- co_await on c ends in p
  | finished (c : Nat)                  -- c has returned or thrown
  | frameGone (c : Nat)                 -- the frame of c is destroyed
  | dropped (c : Nat)                   -- the outside thread destroys its future of c
  deriving DecidableEq, Repr

/-- c was destroyed before it had finished. -/
def Aborted (c : Nat) (tr : List Ev) : Prop := .frameGone c ∈ tr ∧ .finished c ∉ tr

/-- p is suspended in co_await on c. -/
def Awaiting (p c : Nat) (tr : List Ev) : Prop := .awaits p c ∈ tr ∧ .got p c ∉ tr

/-- All local variables that c ever had are destroyed. -/
def LocalsGone (c : Nat) (tr : List Ev) : Prop := ∀ x, tr.count (.destroyed c x) = tr.count (.made c x)

/-- The first of the list awaits its own call `c`, the second awaits its own call, the first, and so on. -/
inductive Chain (tr : List Ev) : Nat → List Nat → Prop where
  | nil (c : Nat) : Chain tr c []
  | cons {c p : Nat} {ps : List Nat} : .created (some p) c ∈ tr → Awaiting p c tr → Chain tr p ps → Chain tr c (p :: ps)

end Verif.Leak
