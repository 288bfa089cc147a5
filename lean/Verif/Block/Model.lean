import Verif.Common.Machine
import Verif.Block.Spec
/-!
# Model of dir_mutex::unlock() as a blocking call

src/dir_mutex.cc 148-159: `unlock()` (no waiter in the queue) calls `delete_lock_file().result()`, which enqueues the coroutine
`delete_lock_file` and blocks the calling thread in `future::get()` (include/koios/task.h 184-197, 235-240) until it has ended.  The coroutine
needs a worker to be started; its unlinkat is submitted to the io_uring of that worker, and only that worker looks at its completion
(src/iouring.cc 135-146: one ring per thread); then it needs a worker again to be resumed (src/iouring.cc 59-64).
A worker that runs a task does nothing else until the task suspends or ends (src/thread_pool.cc 72-114).

Simplified: what user tasks do besides unlock() is not modelled, they start and end (or suspend) at any time; unlinkat succeeds; any worker may
take any task (work stealing); the runtime is not stopped.
-/

namespace Verif.Block

/-- A worker. -/
inductive Wk where
  | idle
  | user                 -- runs a user task
  | blocked (d : Nat)    -- a task on it is in unlock(), in future::get() for the deleter of call d
  deriving DecidableEq, Repr

/-- The coroutine delete_lock_file of a call. -/
inductive Del where
  | none
  | queued               -- in a queue of the scheduler, not started
  | inFlight (w : Nat)   -- suspended; its operation is in the ring of worker w
  | completed (w : Nat)  -- the kernel has posted the completion to that ring
  | woken                -- in a queue of the scheduler again
  | done
  deriving DecidableEq, Repr

structure St where
  wk : Nat → Wk
  del : Nat → Del
  next : Nat
  out : Nat → Bool       -- an outside thread is blocked in call d

inductive Lbl where
  | startUser (w : Nat)
  | endUser (w : Nat)
  | unlock (w : Nat)
  | unlockOutside
  | start (w d : Nat)      -- an idle worker starts a deleter: unlinkat is submitted
  | kernel (d : Nat)
  | poll (w d : Nat)       -- an idle worker looks at its ring (before_each_task), finds the completion
  | resume (w d : Nat)     -- an idle worker resumes the deleter, which ends: the future is set
  | ret (w : Nat)          -- future::get() returns in the blocked worker
  | retOutside (d : Nat)
  deriving DecidableEq, Repr

def step (W : Nat) (s : St) : Lbl → Option (St × List Ev)
  | .startUser w => if w < W ∧ s.wk w = .idle then some ({ s with wk := upd s.wk w .user }, []) else none
  | .endUser w => if w < W ∧ s.wk w = .user then some ({ s with wk := upd s.wk w .idle }, []) else none
  | .unlock w =>
    if w < W ∧ s.wk w = .user then
      some ({ s with wk := upd s.wk w (.blocked s.next), del := upd s.del s.next .queued, next := s.next + 1 }, [.calledByTask w s.next])
    else none
  | .unlockOutside =>
    some ({ s with out := upd s.out s.next true, del := upd s.del s.next .queued, next := s.next + 1 }, [.calledOutside s.next])
  | .start w d =>
    if w < W ∧ s.wk w = .idle ∧ s.del d = .queued then some ({ s with del := upd s.del d (.inFlight w) }, []) else none
  | .kernel d =>
    match s.del d with
    | .inFlight w => some ({ s with del := upd s.del d (.completed w) }, [.deleted d])
    | _ => none
  | .poll w d =>
    if w < W ∧ s.wk w = .idle ∧ s.del d = .completed w then some ({ s with del := upd s.del d .woken }, []) else none
  | .resume w d =>
    if w < W ∧ s.wk w = .idle ∧ s.del d = .woken then some ({ s with del := upd s.del d .done }, []) else none
  | .ret w =>
    match s.wk w with
    | .blocked d => if w < W ∧ s.del d = .done then some ({ s with wk := upd s.wk w .user }, [.returned d]) else none
    | _ => none
  | .retOutside d =>
    if s.out d = true ∧ s.del d = .done then some ({ s with out := upd s.out d false }, [.returned d]) else none

def init : St := ⟨fun _ => .idle, fun _ => .none, 0, fun _ => false⟩

/-- The runtime with `W` workers. -/
def machine (W : Nat) : Machine St Lbl Ev := ⟨init, step W⟩

end Verif.Block
