import Verif.Sched.Spec
/-!
# What a task relies on when it sleeps or starts an io_uring operation (C101)

`t` names tasks, `u` threads, as in `Verif.Sched.Spec`, whose events are the `run` events here.
-/

namespace Verif.SchedIo

inductive Ev where
  | run (e : Sched.Ev)          -- what the scheduler does with tasks
  | started (t u : Nat)         -- a sleep or an io_uring operation of task t has been started, on thread u
  | crashed (t u : Nat)         -- starting it used a null pointer (the thread has no timer, no ring)
  deriving DecidableEq, Repr

/-- Thread `u` began to run task `t` by itself, not through the runtime, and the task has done nothing else since. -/
def RunsOutside (t u : Nat) (p : List Ev) : Prop := ∃ a b, p = a ++ .run (.ranHere t u) :: b ∧ ∀ x, .run x ∈ b → x.task ≠ some t

end Verif.SchedIo
