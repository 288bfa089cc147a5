import Verif.Common.Machine
import Verif.Hub.Spec
/-!
# Model of `koios::async_awaiting_hub` (include/koios/async_awaiting_hub.h 29-86)

One label per operation of the concurrent queue (a linearizable bag, any dequeue order) and
per hand-over to the scheduler.  The scheduler's queue is the event `woken`.
-/

namespace Verif.Hub

/-- Where a caller is: in `may_wake_next` (51-59) before / after its `try_dequeue`; in the loop
of `may_wake_all` (70-82) with its `result`, before / after a successful `try_dequeue`. -/
inductive Pc where
  | idle | next | nextHas (u : Nat) | all (r : Bool) | allHas (u : Nat)
  deriving DecidableEq, Repr

structure St where
  queue : List Nat        -- m_awaitings (85)
  out   : Nat → Bool      -- ghost: the task is not registered (a suspended task is unique)
  pc    : Nat → Pc

inductive Lbl where
  | add (t : Nat)             -- `add_awaiting` (37-40)
  | next (w : Nat)            -- call of `may_wake_next`
  | all (w : Nat)             -- call of `may_wake_all`
  | dequeue (w u : Nat)       -- `try_dequeue` succeeds (54, 75)
  | dequeueNone (w : Nat)     -- `try_dequeue` fails (54-55, 75)
  | enqueue (w : Nat)         -- `get_task_scheduler().enqueue` (57, 79)
  deriving DecidableEq, Repr

def step (s : St) : Lbl → Option (St × List Ev)
  | .add t =>
    if s.out t = true then
      some ({ s with queue := s.queue ++ [t], out := upd s.out t false }, [.registered t])
    else none
  | .next w =>
    if s.pc w = .idle then some ({ s with pc := upd s.pc w .next }, [.nextCalled w]) else none
  | .all w =>
    if s.pc w = .idle then some ({ s with pc := upd s.pc w (.all false) }, [.allCalled w]) else none
  | .dequeue w u =>
    if u ∈ s.queue then
      match s.pc w with
      | .next => some ({ s with queue := s.queue.erase u, pc := upd s.pc w (.nextHas u) }, [])
      | .all _ => some ({ s with queue := s.queue.erase u, pc := upd s.pc w (.allHas u) }, [])
      | _ => none
    else none
  | .dequeueNone w =>
    if s.queue = [] then
      match s.pc w with
      | .next => some ({ s with pc := upd s.pc w .idle }, [.nextReturned w false])
      | .all r => some ({ s with pc := upd s.pc w .idle }, [.allReturned w r])
      | _ => none
    else none
  | .enqueue w =>
    match s.pc w with
    | .nextHas u => some ({ s with out := upd s.out u true, pc := upd s.pc w .idle },
        [.woken w u, .nextReturned w true])
    | .allHas u => some ({ s with out := upd s.out u true, pc := upd s.pc w (.all true) }, [.woken w u])
    | _ => none

def init : St := { queue := [], out := fun _ => true, pc := fun _ => .idle }

def machine : Machine St Lbl Ev := { init := init, step := step }

end Verif.Hub
