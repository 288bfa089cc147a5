import Verif.Common.Trace
/-!
# What users rely on about the order in which ready tasks run (C92)

`w`, `v` name workers; worker 0 is the one whose queue gets everything that is enqueued without naming a worker.  `x`, `y` name *occasions* on which a task
becomes ready; a task that yields gets a new name.
-/

namespace Verif.Fair

inductive Ev where
  | occurred (w x : Nat)   -- the deadline of a task that went to sleep on worker w has passed
  | ready (x w : Nat)      -- x is put into the queue of worker w: by run(), a wake-up, yield(), or because its deadline has passed
  | started (w x : Nat)    -- worker w runs the task
  | ended (w x : Nat)      -- ... and the task suspends or ends
  deriving DecidableEq, Repr

/-- How many tasks has worker w started? -/
def starts (w : Nat) (tr : List Ev) : Nat := tr.countP fun | .started v _ => v == w | _ => false

def isStarted (x : Nat) (tr : List Ev) : Bool := tr.any fun | .started _ y => y == x | _ => false

/-- Who waits in the queue of worker w, in the order in which they became ready. -/
def waiting (w : Nat) (tr : List Ev) : List Nat :=
  (tr.filterMap fun | .ready x v => if v = w then some x else none | _ => none).filter fun x => !isStarted x tr

/-- While x waits in the queue of a worker, that worker starts at most the tasks that were in the queue before x: whatever is created, woken up or yields later does
not overtake it. -/
def BoundedBypass (tr : List Ev) : Prop :=
  ∀ p x w m, p ++ .ready x w :: m <+: tr → isStarted x m = false → starts w m ≤ (waiting w p).length

/-- A queue is served in order: when a task is started, nobody who became ready in the same queue before it is still waiting. -/
def InOrder (tr : List Ev) : Prop :=
  ∀ p q m v w x y, p ++ .ready x w :: q ++ .ready y w :: m ++ [.started v y] <+: tr → isStarted x (p ++ .ready x w :: q ++ .ready y w :: m) = true

/-- Between a deadline and the moment at which the sleeping task becomes ready the worker starts at most one task. -/
def PromptDeadlines (tr : List Ev) : Prop :=
  ∀ p w x m, p ++ .occurred w x :: m <+: tr → (∀ v, .ready x v ∉ m) → starts w m ≤ 1

end Verif.Fair
