import Verif.Common.Machine
import Verif.Pool.Spec
/-!
# Model of `koios::thread_pool` (include/koios/thread_pool.h, src/thread_pool.cc) over
`work_stealing_queue` (include/koios/work_stealing_queue.h) with `N` started workers

`start()` (src/thread_pool.cc 18-28) has returned: the `m_start_working` latch guarantees that
every worker's queue is registered, so the map of queues is fixed; queue `i` belongs to worker
`i`.  The hash map's iteration order is modelled as `0..N-1` (workers are interchangeable).
One label per operation on one underlying queue (any dequeue order; a `try_dequeue` may fail
spuriously, as moodycamel's may under concurrency; `size` is linearizable), per load or store of
a flag.  The condition variable only shortens a bounded sleep (94: `wait_for`), so a
sleep is a step from the second `done` test back to the loop head.  Event loop hooks
(`before_each_task`) do not touch the queue by themselves and are not modelled here.
-/

namespace Verif.Pool

/-- Program counter of a worker (src/thread_pool.cc 56-119).  `mid` says whether the `done`
test is the one after a failed `dequeue` (72) or the loop head (72). -/
inductive Pc where
  | chkReq (mid : Bool)            -- `tk.stop_requested()` (123)
  | chkNow (mid : Bool)            -- `need_stop_now()` (126)
  | chkSize (mid : Bool) (k acc : Nat) -- `m_tasks.empty()` (127): loop of `size()`, queue `k` next
  | deqOwn                         -- `queues[attr.thread_id]->dequeue()` (work_stealing_queue.h 44)
  | steal (k : Nat)                -- the stealing loop (49-53), queue `k` next
  | run (x : Nat)                  -- `task_opt.value()()` (104)
  | exited
  deriving DecidableEq, Repr

/-- Program counter of an `enqueue` call: `need_stop_now()` was tested false (thread_pool.h). -/
structure St where
  queue   : Nat → List Nat    -- the per-worker queues
  pc      : Nat → Pc
  checked : Who → Bool        -- caller is between the test of m_stop_now and the enqueue
  stopReq : Bool              -- m_stop_source
  stopNow : Bool              -- m_stop_now
  joined  : Bool              -- the call_once body of stop() is over
  next    : Nat               -- number of the next accepted task

inductive Lbl where
  | enqTest (a : Who)               -- `if (need_stop_now()) throw` in `enqueue*` (thread_pool.h)
  | enqPush (a : Who) (i : Nat)     -- `m_tasks.enqueue` into queue `i` (work_stealing_queue.h 63-73)
  | work (w : Nat)                  -- next action of worker `w`, dequeues excepted
  | take (w x : Nat)                -- the pending dequeue of `w` yields `x`
  | takeNone (w : Nat)              -- the pending dequeue of `w` fails (queue empty, or spuriously)
  | finish (w : Nat) (threw : Bool) -- the running task returns or throws (caught, 106-117)
  | reqStop                         -- `m_stop_source.request_stop()` (39)
  | setNow                          -- `m_stop_now.store(true)` (52)
  | join                            -- all threads joined (42-46)
  deriving DecidableEq, Repr

/-- May this caller be calling `enqueue` now? A worker's task only while it runs. -/
def active (s : St) : Who → Bool
  | .ext _ => true
  | .wrk w => match s.pc w with | .run _ => true | _ => false

/-- Outcome of `done` (src/thread_pool.cc 121-128). -/
def afterDone (mid : Bool) (done : Bool) : Pc :=
  if done then .exited            -- leave the loop (72, 77)
  else if mid then .chkReq false  -- sleep (78-99), then loop head
  else .deqOwn                    -- loop body

/-- Events of that outcome. -/
def doneEv (w : Nat) (done : Bool) : List Ev := if done then [.exited w] else []

def step (N : Nat) (s : St) : Lbl → Option (St × List Ev)
  | .enqTest a =>
    if active s a = true ∧ s.checked a = false then
      if s.stopNow then some (s, [.enqCalled a, .refused a])
      else some ({ s with checked := upd s.checked a true }, [.enqCalled a])
    else none
  | .enqPush a i =>
    if active s a = true ∧ s.checked a = true ∧ i < N then
      some ({ s with queue := upd s.queue i (s.queue i ++ [s.next]), next := s.next + 1,
                     checked := upd s.checked a false }, [.enqueued a s.next])
    else none
  | .work w =>
    if w < N then
      match s.pc w with
      | .chkReq mid =>
        if s.stopReq then some ({ s with pc := upd s.pc w (.chkNow mid) }, [])
        else some ({ s with pc := upd s.pc w (afterDone mid false) }, [])
      | .chkNow mid =>
        if s.stopNow then some ({ s with pc := upd s.pc w (afterDone mid true) }, doneEv w true)
        else some ({ s with pc := upd s.pc w (.chkSize mid 0 0) }, [])
      | .chkSize mid k acc =>
        if k < N then
          some ({ s with pc := upd s.pc w (.chkSize mid (k + 1) (acc + (s.queue k).length)) }, [])
        else some ({ s with pc := upd s.pc w (afterDone mid (acc == 0)) }, doneEv w (acc == 0))
      | _ => none
    else none
  | .take w x =>
    if w < N then
      match s.pc w with
      | .deqOwn =>
        if x ∈ s.queue w then
          some ({ s with queue := upd s.queue w ((s.queue w).erase x), pc := upd s.pc w (.run x) },
            [.started w x])
        else none
      | .steal k =>
        if k < N ∧ x ∈ s.queue k then
          some ({ s with queue := upd s.queue k ((s.queue k).erase x), pc := upd s.pc w (.run x) },
            [.started w x])
        else none
      | _ => none
    else none
  | .takeNone w =>
    if w < N then
      match s.pc w with
      | .deqOwn =>
        some ({ s with pc := upd s.pc w (.steal 0) }, [])
      | .steal k =>
        if k < N then
          some ({ s with pc := upd s.pc w (.steal (k + 1)) }, [])
        else some ({ s with pc := upd s.pc w (.chkReq true) }, [])
      | _ => none
    else none
  | .finish w threw =>
    match s.pc w with
    | .run x =>
      if s.checked (.wrk w) = false then
        some ({ s with pc := upd s.pc w (.chkReq false) }, [.finished w x threw])
      else none
    | _ => none
  | .reqStop =>
    if s.stopReq = false then some ({ s with stopReq := true }, [.stopRequested]) else none
  | .setNow =>
    if s.stopNow = false then some ({ s with stopNow := true }, [.stopNow]) else none
  | .join =>
    if s.stopReq = true ∧ s.joined = false ∧ ((List.range N).all fun w => s.pc w == .exited) = true then
      some ({ s with joined := true }, [.joined])
    else none

/-- All `N` workers are at the loop head (72). -/
def init : St :=
  { queue := fun _ => [], pc := fun _ => .chkReq false, checked := fun _ => false,
    stopReq := false, stopNow := false, joined := false, next := 0 }

def machine (N : Nat) : Machine St Lbl Ev := { init := init, step := step N }

end Verif.Pool
