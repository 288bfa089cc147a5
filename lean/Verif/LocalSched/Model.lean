import Verif.LocalSched.Spec
import Verif.Common.Machine
/-!
# Model of local_thread_scheduler (include/koios/local_thread_scheduler.h)

One thread.  The call stack is explicit: a running task may call enqueue() on the same scheduler, which calls run() again, and so on to any depth; tasks are arbitrary
(any number of nested enqueue() calls, returning, suspending or throwing).  The program outside may call enqueue() whenever the stack is empty.
-/

namespace Verif.LocalSched

inductive Frame where
  | loop (t : Nat)    -- in run() (31-39), called from enqueue(t)
  | task (t : Nat)    -- in h() (37), called from run()
  deriving DecidableEq, Repr

structure St where
  stack : List Frame    -- innermost call first
  queue : List Nat      -- m_tasks
  next : Nat

inductive Lbl where
  | enqueue             -- the program (empty stack) or the running task calls enqueue (24-28)
  | loop                -- one iteration of run()
  | leave (threw : Bool)  -- the running task's h() returns or throws
  deriving DecidableEq, Repr

def step (s : St) : Lbl → Option (St × List Ev)
  -- enqueue (24-28): emplace, then run()
  | .enqueue =>
    match s.stack with
    | .loop _ :: _ => none
    | _ => some ({ stack := .loop s.next :: s.stack, queue := s.queue ++ [s.next], next := s.next + 1 }, [.enqueued s.next])
  -- run (31-39): the test of the while, front/pop, h()
  | .loop =>
    match s.stack with
    | .loop t :: rest =>
      match s.queue with
      | [] => some ({ s with stack := rest }, [.returned t])
      | h :: q => some ({ s with stack := .task h :: s.stack, queue := q }, [.started h])
    | _ => none
  -- h() ends; an exception is caught (37)
  | .leave threw =>
    match s.stack with
    | .task h :: rest => some ({ s with stack := rest }, [.stopped h threw])
    | _ => none

def init : St := ⟨[], [], 0⟩
def machine : Machine St Lbl Ev := ⟨init, step⟩

end Verif.LocalSched
