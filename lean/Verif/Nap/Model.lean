import Verif.Common.Machine
import Verif.Nap.Spec
/-!
# Model of the sleeping of `koios::thread_pool`'s workers (src/thread_pool.cc 36-128, include/koios/thread_pool.h 132-135, 173-245)

`N` started workers over a `work_stealing_queue` (include/koios/work_stealing_queue.h 40-75): one queue per worker, scanned one after the other.  Simplifications: a
`try_dequeue` from a non-empty queue succeeds (moodycamel's may fail spuriously, which only adds naps); `m_tasks.empty()` is one action (Verif/Pool/Model.lean has it
queue by queue); the event loops' `max_sleep_duration` is any duration, and `before_each_task` is not modelled (Verif/EvLoop).  Time passes only while every worker
sleeps, executes a task or has exited, and while no caller is between the two actions of `enqueue` or `stop`.
-/

namespace Verif.Nap

/-- Where a worker is in `thread_pool::consumer` (src/thread_pool.cc 72-118). -/
inductive Pc where
  | head                 -- `while (!this->done(token))` (72)
  | scan (k : Nat)       -- in `m_tasks.dequeue(cattr)` (75): k = 0 the own queue, k = j + 1 queue j (work_stealing_queue.h 43-53)
  | again                -- nothing found: `if (this->done(token)) break` (77)
  | sleepy               -- has `m_lock` (78), goes to wait (98)
  | nap (until_ : Nat)   -- in `m_cond.wait_for(lk, actual_waiting_time)` (98)
  | run (x : Nat)        -- `task_opt.value()()` (104)
  | gone
  deriving DecidableEq, Repr

structure St where
  queue   : Nat → List Nat
  pc      : Nat → Pc
  owed    : Nat          -- callers between `m_tasks.enqueue` and `wake_up()` (thread_pool.h 187-188)
  owedAll : Bool         -- stop() between `request_stop()` and `notify_all()` (thread_pool.cc 39-40)
  stopReq : Bool         -- m_stop_source
  stopNow : Bool         -- m_stop_now
  next    : Nat          -- number of the next task
  now     : Nat          -- the clock

inductive Lbl where
  | tick
  | push (i : Nat)       -- `m_tasks.enqueue` puts a task into queue i
  | notify (u : Nat)     -- `m_cond.notify_one()` wakes up worker u
  | notifyNobody         -- ... nobody waits
  | quick                -- `m_stop_now.store(true)` (52)
  | reqStop              -- `m_stop_source.request_stop()` (39)
  | notifyAll            -- `m_cond.notify_all()` (40, 44)
  | work (w : Nat)       -- next action of worker w, if it is determined
  | take (w x : Nat)     -- the `try_dequeue` of worker w yields x
  | sleep (w d : Nat)    -- worker w begins to wait, max_sleep_duration is d
  | spurious (w : Nat)   -- wait_for returns without reason
  | finish (w : Nat)     -- the task ends
  deriving DecidableEq, Repr

/-- The longest nap, in milliseconds: `waiting_latch` (80), without profiling mode. -/
def latch : Nat := 500

/-- `actual_waiting_time` (81-82). -/
def napTime (d : Nat) : Nat := if latch < d then latch else d

/-- Is the time for worker `w` allowed to pass? -/
def patient (now : Nat) : Pc → Bool
  | .nap t => now < t
  | .run _ => true
  | .gone => true
  | _ => false

/-- `done` (121-128). -/
def done (N : Nat) (s : St) : Bool := s.stopReq && (s.stopNow || (List.range N).all fun i => (s.queue i).isEmpty)

/-- The queue that a scan at position `k` of worker `w` looks at. -/
def target (w : Nat) : Nat → Nat
  | 0 => w
  | k + 1 => k

def wakeAll (pc : Nat → Pc) : Nat → Pc := fun w => match pc w with | .nap _ => .head | q => q

def step (N : Nat) (s : St) : Lbl → Option (St × List Ev)
  | .tick =>
    if s.owed = 0 ∧ s.owedAll = false ∧ ((List.range N).all fun w => patient s.now (s.pc w)) = true then
      some ({ s with now := s.now + 1 }, [.tick])
    else none
  | .push i =>
    if i < N then
      some ({ s with queue := upd s.queue i (s.queue i ++ [s.next]), next := s.next + 1, owed := s.owed + 1 }, [.enqueued s.next])
    else none
  | .notify u =>
    if 0 < s.owed ∧ u < N then
      match s.pc u with
      | .nap _ => some ({ s with pc := upd s.pc u .head, owed := s.owed - 1 }, [])
      | _ => none
    else none
  | .notifyNobody =>
    if 0 < s.owed ∧ ((List.range N).all fun w => match s.pc w with | .nap _ => false | _ => true) = true then
      some ({ s with owed := s.owed - 1 }, [])
    else none
  | .quick => if s.stopNow = false then some ({ s with stopNow := true }, [.stopNow]) else none
  | .reqStop => if s.stopReq = false then some ({ s with stopReq := true, owedAll := true }, [.stopRequested]) else none
  | .notifyAll => if s.stopReq = true then some ({ s with pc := wakeAll s.pc, owedAll := false }, []) else none
  | .work w =>
    if w < N then
      match s.pc w with
      | .head =>
        if done N s then some ({ s with pc := upd s.pc w .gone }, [.exited w])
        else some ({ s with pc := upd s.pc w (.scan 0) }, [])
      | .scan k =>
        if k ≤ N then
          if s.queue (target w k) = [] then some ({ s with pc := upd s.pc w (.scan (k + 1)) }, []) else none
        else some ({ s with pc := upd s.pc w .again }, [])
      | .again =>
        if done N s then some ({ s with pc := upd s.pc w .gone }, [.exited w])
        else some ({ s with pc := upd s.pc w .sleepy }, [])
      | .nap t => if t ≤ s.now then some ({ s with pc := upd s.pc w .head }, []) else none
      | _ => none
    else none
  | .take w x =>
    if w < N then
      match s.pc w with
      | .scan k =>
        if k ≤ N ∧ x ∈ s.queue (target w k) then
          some ({ s with queue := upd s.queue (target w k) ((s.queue (target w k)).erase x), pc := upd s.pc w (.run x) }, [.started w x])
        else none
      | _ => none
    else none
  | .sleep w d =>
    if w < N ∧ s.pc w = .sleepy then some ({ s with pc := upd s.pc w (.nap (s.now + napTime d)) }, []) else none
  | .spurious w =>
    if w < N then
      match s.pc w with
      | .nap _ => some ({ s with pc := upd s.pc w .head }, [])
      | _ => none
    else none
  | .finish w =>
    match s.pc w with
    | .run x => some ({ s with pc := upd s.pc w .head }, [.finished w x])
    | _ => none

def init : St :=
  { queue := fun _ => [], pc := fun _ => .head, owed := 0, owedAll := false, stopReq := false, stopNow := false, next := 0, now := 0 }

def machine (N : Nat) : Machine St Lbl Ev := { init := init, step := step N }

end Verif.Nap
