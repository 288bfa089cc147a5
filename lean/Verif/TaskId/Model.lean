import Verif.Common.Machine
import Verif.TaskId.Spec
/-!
# Model of `this_task::get_id` (include/koios/this_task.h 22, include/koios/get_id_aw.h 20-32, src/get_id_aw.cc 10-14)

The awaitable `get_id_aw`, with its member `m_result`, lives in the frame of the task that awaits it.  `await_suspend` runs on the worker that ran the task; as soon as the
handle is in the scheduler's queue another worker may resume the task, while the first one still is in `await_suspend`.  Frames are allocated at any address that no existing
frame has (trusted: operator new); an id is that address (`task_on_the_fly::address`, task_on_the_fly.h 95-99: null if the object has given up the handle).
The queue delivers in any order (`Verif.WSQ`).  A task that waits for something else is `run` all the time.
-/

namespace Verif.TaskId

inductive Pc where
  | none
  | run
  | susp            -- in await_suspend, before the first line
  | stored          -- m_result is written (12)
  | queued          -- the handle is in the queue (13)
  | gone
  deriving DecidableEq, Repr

structure St where
  pc : Nat → Pc
  addr : Nat → Nat              -- of the frame of task t
  result : Nat → Nat            -- m_result of the awaitable in the frame of t
  tails : Nat                   -- calls of await_suspend that have not returned though their handle is in the queue
  live : List Nat               -- the addresses in use

inductive Lbl where
  | make (t a : Nat)            -- the frame is allocated at a
  | ask (t : Nat)               -- co_await get_id(): await_ready is false (24); the handle is moved into `h`
  | store (t : Nat)             -- m_result = h.address() (12)
  | enqueue (t : Nat)           -- get_task_scheduler().enqueue(std::move(h)) (13)
  | ret                         -- some await_suspend returns
  | resume (t : Nat)            -- a worker resumes t; await_resume (26)
  | end_ (t : Nat)              -- the frame is destroyed
  deriving DecidableEq, Repr

/-- task_on_the_fly::address of a handle that is owned -/
def address (owned : Bool) (a : Nat) : Nat := if owned = true then a else 0

def step (s : St) : Lbl → Option (St × List Ev)
  | .make t a =>
    if s.pc t = .none ∧ a ∉ s.live ∧ a ≠ 0 then
      some ({ s with pc := upd s.pc t .run, addr := upd s.addr t a, live := a :: s.live }, [.made t])
    else none
  | .ask t => if s.pc t = .run then some ({ s with pc := upd s.pc t .susp, result := upd s.result t 0 }, [.asked t]) else none
  | .store t => if s.pc t = .susp then some ({ s with pc := upd s.pc t .stored, result := upd s.result t (address true (s.addr t)) }, []) else none
  | .enqueue t => if s.pc t = .stored then some ({ s with pc := upd s.pc t .queued, tails := s.tails + 1 }, []) else none
  | .ret => if 0 < s.tails then some ({ s with tails := s.tails - 1 }, []) else none
  | .resume t => if s.pc t = .queued then some ({ s with pc := upd s.pc t .run }, [.gotId t (s.result t)]) else none
  | .end_ t =>
    if s.pc t = .run ∨ s.pc t = .queued then
      -- the body ends, or the queue is destroyed with the handle in it
      some ({ s with pc := upd s.pc t .gone, live := s.live.erase (s.addr t) }, [.ended t])
    else none

def init : St := ⟨fun _ => .none, fun _ => 0, fun _ => 0, 0, []⟩
def machine : Machine St Lbl Ev := ⟨init, step⟩

end Verif.TaskId
