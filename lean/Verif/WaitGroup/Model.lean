import Verif.Common.Machine
import Verif.WaitGroup.Spec
/-!
# Model of `koios::wait_group` (include/koios/wait_group.h 12-68)

One label per atomic operation: the `fetch_add`, the `fetch_sub`, the load in `ready()`, one
`enqueue`/`try_dequeue` of `moodycamel::ConcurrentQueue` (a linearizable bag, any dequeue
order), one hand-over to the scheduler (`wake_up`, src/waiting_handle.cc 12-17).
-/

namespace Verif.WaitGroup

/-- Where an agent is. `waking`: in the loop of `wake_up_all` (wait_group.h 56-63);
`waker u`: it has dequeued `u` and not yet called `wake_up`. -/
inductive Pc where
  | idle | missed | queued | waking | waker (u : Nat)
  deriving DecidableEq, Repr

/-- `m_count` (66: `atomic_size_t`, value-initialized to 0) and `m_waitings` (67). -/
structure St where
  cnt   : Nat
  queue : List Nat
  pc    : Nat → Pc

inductive Lbl where
  | add (n : Nat)        -- `add` (15-18)
  | done (t n : Nat)     -- `done` (20-26): the `fetch_sub` and the test
  | dequeue (t u : Nat)  -- `try_dequeue` succeeds (59)
  | wake (t : Nat)       -- `wake_up(t)` (61)
  | drained (t : Nat)    -- `try_dequeue` fails (59), `done` returns
  | wait (t : Nat)       -- `await_ready` (39-42)
  | suspend (t : Nat)    -- `await_suspend` (44-47)
  deriving DecidableEq, Repr

/-- `size_t` arithmetic. -/
def W : Nat := 2 ^ 64

def step (s : St) : Lbl → Option (St × List Ev)
  | .add n => some ({ s with cnt := (s.cnt + n) % W }, [.added n])
  | .done t n =>
    if s.pc t = .idle then
      let c' := (s.cnt + (W - n % W)) % W
      if s.cnt = 1 then some ({ s with cnt := c', pc := upd s.pc t .waking }, [.doneCalled t n])
      else some ({ s with cnt := c' }, [.doneCalled t n, .doneReturned t])
    else none
  | .dequeue t u =>
    if s.pc t = .waking ∧ u ∈ s.queue then
      some ({ s with queue := s.queue.erase u, pc := upd s.pc t (.waker u) }, [])
    else none
  | .wake t =>
    match s.pc t with
    | .waker u => some ({ s with pc := upd (upd s.pc t .waking) u .idle }, [.woken u])
    | _ => none
  | .drained t =>
    if s.pc t = .waking ∧ s.queue = [] then
      some ({ s with pc := upd s.pc t .idle }, [.doneReturned t])
    else none
  | .wait t =>
    if s.pc t = .idle then
      if s.cnt = 0 then some (s, [.asked t, .passed t])
      else some ({ s with pc := upd s.pc t .missed }, [.asked t])
    else none
  | .suspend t =>
    if s.pc t = .missed then
      some ({ s with queue := s.queue ++ [t], pc := upd s.pc t .queued }, [.slept t])
    else none

def init : St := { cnt := 0, queue := [], pc := fun _ => .idle }

def machine : Machine St Lbl Ev := { init := init, step := step }

end Verif.WaitGroup
