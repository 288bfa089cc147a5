import Verif.Common.Machine
import Verif.Idle.Spec
/-!
# Model of the idle report of `koios::thread_pool::consumer` (src/thread_pool.cc 68-118)

`N` workers, `start()` has returned (so `m_consumer_attrs.size()` is `N`: thread_pool.h 243-248).  Everything between the lock (78) and the wait (98), and between the end of
the wait and the end of the scope (100), is done under `m_lock`, and only there are `m_sleeping_thrs` and (after the start) `m_last_health_check_tp` accessed: one action each.
Simplifications: the clock is monotone (`system_clock` need not be); the outcome of `before_each_task`, of `dequeue` and of `has_pending_event`, and when a nap ends, are
arbitrary; printing takes no time.
-/

namespace Verif.Idle

/-- Where a worker is. -/
inductive Pc where
  | head                   -- `while (!this->done(token))` (72)
  | polled (did : Bool)    -- `has_executed_something` (74)
  | nap                    -- in `wait_for` (98)
  | run                    -- executes a task (104)
  | gone
  deriving DecidableEq, Repr

structure St where
  pc       : Nat → Pc
  noTask   : Nat → Nat     -- `no_task` (71), one per worker
  sleeping : Nat           -- m_sleeping_thrs
  last     : Nat           -- m_last_health_check_tp, in ms
  now      : Nat

inductive Lbl where
  | tick
  | poll (w : Nat) (did : Bool)      -- `before_each_task()` (74)
  | take (w : Nat)                   -- `dequeue` yields a task (75), `no_task = 0` (103)
  | finish (w : Nat)                 -- the task returns or throws (104-117)
  | sleep (w : Nat) (pend : Bool)    -- `dequeue` yields nothing: 78-98; pend: the answer of has_pending_event() (90)
  | wake (w : Nat)                   -- `wait_for` returns, `fetch_sub` (98-99)
  | leave (w : Nat)                  -- `done(token)` (72, 77)
  deriving DecidableEq, Repr

/-- 15s (91) in ms: the comparison of whole seconds (87) is the same as that of milliseconds. -/
def pause : Nat := 15000

/-- Lines 84-97: `++no_task`, then the conjunction, evaluated from left to right. -/
def check (N : Nat) (s : St) (w : Nat) (did pend : Bool) : St × List Ev :=
  if s.sleeping = N - 1 then
    let s1 := { s with noTask := upd s.noTask w (s.noTask w + 1) }
    if (s.noTask w + 1) % (N + 1) = 0 ∧ did = false then
      if pend = false ∧ pause ≤ s.now - s.last then ({ s1 with last := s.now }, [.pending w pend, .reported w])
      else (s1, [.pending w pend])
    else (s1, [])
  else (s, [])

def step (N : Nat) (s : St) : Lbl → Option (St × List Ev)
  | .tick => some ({ s with now := s.now + 1 }, [.tick])
  | .poll w did =>
    if w < N ∧ s.pc w = .head then some ({ s with pc := upd s.pc w (.polled did) }, [.polled w did]) else none
  | .take w =>
    if w < N then
      match s.pc w with
      | .polled _ => some ({ s with pc := upd s.pc w .run, noTask := upd s.noTask w 0 }, [.started w])
      | _ => none
    else none
  | .finish w =>
    if s.pc w = .run then some ({ s with pc := upd s.pc w .head }, [.finished w]) else none
  | .sleep w pend =>
    if w < N then
      match s.pc w with
      | .polled did =>
        let c := check N s w did pend
        some ({ c.1 with pc := upd s.pc w .nap, sleeping := s.sleeping + 1 }, c.2 ++ [.slept w])
      | _ => none
    else none
  | .wake w =>
    if s.pc w = .nap then some ({ s with pc := upd s.pc w .head, sleeping := s.sleeping - 1 }, [.awoke w]) else none
  | .leave w =>
    if w < N then
      match s.pc w with
      | .head | .polled _ => some ({ s with pc := upd s.pc w .gone }, [])
      | _ => none
    else none

def init : St := { pc := fun _ => .head, noTask := fun _ => 0, sleeping := 0, last := 0, now := 0 }

def machine (N : Nat) : Machine St Lbl Ev := ⟨init, step N⟩

end Verif.Idle
