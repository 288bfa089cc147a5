import Verif.Common.Machine
import Verif.SharedMutex.Spec
/-!
# Model of `koios::shared_mutex`

src/coroutine_shared_mutex.cc, include/koios/coroutine_shared_mutex.h,
include/koios/acq_lk_aw.h (`acq_lk_aw`, `acq_shr_lk_aw`).  Every member function holds
`m_lock` during its whole body, so one label is one member function call (or one
resumption of a task by the scheduler).
-/

namespace Verif.SharedMutex

/-- `shared_mutex::holding_state` (coroutine_shared_mutex.h 52). -/
inductive Hold where | no | shr | uni | shrDuringUni
  deriving DecidableEq, Repr

/-- What a task is doing between API calls and grants.
`missShr`/`missUni`: `await_ready` answered false, `await_suspend` not yet run;
`qShr`/`qUni`: its handle is in `m_shr_waitings`/`m_uni_waitings`;
`wokeShr`/`wokeUni`: it was given to the scheduler. -/
inductive Act where | none | missShr | qShr | wokeShr | missUni | qUni | wokeUni
  deriving DecidableEq, Repr

/-- A task: does it own a unique_lock, a shared_lock, and what is it doing. -/
structure Task where
  uni : Bool := false
  shr : Bool := false
  act : Act := .none
  deriving DecidableEq, Repr

/-- The members of `shared_mutex` (coroutine_shared_mutex.h 64-69) and the tasks.
`cnt` is `m_shr_cnt`, an integer here (the unsigned wrap-around of `toolpex::ref_count`
at zero is represented by negative numbers).  `pending` is the set of
`acq_shr_lk_aw::await_suspend` calls (acq_lk_aw.h 84-88) that have executed line 86 but not
yet line 87; when the task of such a call is resumed meanwhile (by another thread), its
awaiter object is gone and the call becomes `stale`.  `dead` is set by undefined behaviour; nothing is enabled after it.
Simplification: `health_check` assertions are taken as compiled out. -/
structure St where
  hold    : Hold
  cnt     : Int
  writer  : Option Nat
  shrQ    : List Nat
  uniQ    : List Nat
  task    : Nat → Task
  pending : List Nat
  stale   : List Nat
  dead    : Bool

/-- Which lock object is unlocked (`release()` itself does not know). -/
inductive Kind where | shr | uni
  deriving DecidableEq, Repr

/-- Atomic actions.  `ps`/`pu` are the scheduler's/queue's choice of which waiting
reader/writer `try_dequeue` yields. -/
inductive Lbl where
  | askShr (t : Nat)                 -- await_ready of acquire_shared()
  | suspShr (t : Nat)                -- await_suspend line 86: add_shr_waiting
  | wakeNext (t ps pu : Nat)         -- await_suspend line 87: try_wake_up_next
  | wakeStale (t : Nat)              -- the same, after `t` was already resumed
  | askUni (t : Nat)                 -- await_ready of acquire()
  | suspUni (t : Nat)                -- await_suspend: add_waiting
  | resume (t : Nat)                 -- scheduler resumes a woken task: await_resume
  | unlock (t : Nat) (k : Kind) (ps pu : Nat)  -- lock_base::unlock -> release()
  deriving DecidableEq, Repr

/-- `try_dequeue`: an arbitrary element of a non-empty queue (`hint` if present). -/
def pick (q : List Nat) (hint : Nat) : Option Nat := if hint ∈ q then some hint else q.head?

/-- `try_wake_up_next_uni_impl` (cc 111-121). -/
def wakeUni (s : St) (pu : Nat) : St × List Ev :=
  if s.hold = .no then
    match pick s.uniQ pu with
    | some u => ({ s with uniQ := s.uniQ.erase u, hold := .uni, writer := some u,
                          task := upd s.task u { s.task u with act := .wokeUni } }, [.wokenUni u])
    | none => (s, [])
  else (s, [])

/-- `try_wake_up_shr_impl` (cc 123-132). Note that `m_shr_cnt` is not incremented. -/
def wakeShr (s : St) (ps : Nat) : St × List Ev :=
  if s.hold = .uni then (s, [])
  else
    match pick s.shrQ ps with
    | some u => ({ s with shrQ := s.shrQ.erase u, hold := .shr,
                          task := upd s.task u { s.task u with act := .wokeShr } }, [.wokenShr u])
    | none => (s, [])

/-- `try_wake_up_next` (cc 12-18). -/
def tryWakeUpNext (s : St) (ps pu : Nat) : St × List Ev :=
  let r := wakeUni s pu
  if r.1.hold = .uni then r
  else
    let q := wakeShr r.1 ps
    (q.1, r.2 ++ q.2)

/-- `release` (cc 66-92).  In state `NO` the code asserts; with assertions compiled out it
does nothing.  Line 91 (`if not held: m_state = NO`) is a no-op in every branch. -/
def release (s : St) (ps pu : Nat) : St × List Ev :=
  match s.hold with
  | .shr =>
    let s1 := { s with cnt := s.cnt - 1 }
    if s.cnt = 1 then wakeUni { s1 with hold := .no } pu else (s1, [])
  | .uni =>
    let r := wakeShr { s with hold := .no, writer := none } ps
    if r.1.hold = .shr ∨ r.1.hold = .shrDuringUni then r
    else
      let q := wakeUni r.1 pu
      (q.1, r.2 ++ q.2)
  | .shrDuringUni => ({ s with hold := .uni }, [])
  | .no => (s, [])

/-- `lock_base::unlock` of `t`'s lock object of kind `k`: forget it, then `release()`
(lock_base.h 46-53). -/
def dropLock (s : St) (t : Nat) : Kind → St
  | .shr => { s with task := upd s.task t { s.task t with shr := false } }
  | .uni => { s with task := upd s.task t { s.task t with uni := false } }

def relEv (t : Nat) : Kind → Ev
  | .shr => .releasedShr t
  | .uni => .releasedUni t

/-- One action. -/
def step (s : St) (l : Lbl) : Option (St × List Ev) :=
  if s.dead then none else
  match l with
  | .askShr t =>  -- acq_shr_lk_aw::await_ready, hold_this_shr_immediately (cc 20-30)
    if (s.task t).act = .none ∧ (s.task t).shr = false then
      if s.hold = .uni then
        some ({ s with task := upd s.task t { s.task t with act := .missShr } }, [.askedShr t])
      else
        some ({ s with cnt := s.cnt + 1, hold := .shr,
                       task := upd s.task t { s.task t with shr := true } },
              [.askedShr t, .grantedShr t])
    else none
  | .suspShr t => -- add_shr_waiting (cc 32-44)
    if (s.task t).act = .missShr then
      if s.writer = some t then
        some ({ s with hold := .shrDuringUni, pending := t :: s.pending,
                       task := upd s.task t { s.task t with act := .wokeShr } },
              [.sleptShr t, .wokenShr t])
      else
        some ({ s with shrQ := s.shrQ ++ [t], pending := t :: s.pending,
                       task := upd s.task t { s.task t with act := .qShr } }, [.sleptShr t])
    else none
  | .wakeNext t ps pu => -- acq_lk_aw.h 87; reads `this->m_mutex` of the awaiter in `t`'s frame
    if t ∈ s.pending then
      some (tryWakeUpNext { s with pending := s.pending.erase t } ps pu)
    else none
  | .wakeStale t =>      -- the awaiter has been destroyed: undefined behaviour
    if t ∈ s.stale then some ({ s with dead := true }, [.ub t]) else none
  | .askUni t => -- acq_lk_aw::await_ready, hold_this_immediately (cc 46-49): always false
    if (s.task t).act = .none ∧ (s.task t).uni = false then
      some ({ s with task := upd s.task t { s.task t with act := .missUni } }, [.askedUni t])
    else none
  | .suspUni t => -- add_waiting (cc 51-64)
    if (s.task t).act = .missUni then
      if s.hold = .no then
        some ({ s with hold := .uni, writer := some t,
                       task := upd s.task t { s.task t with act := .wokeUni } },
              [.sleptUni t, .wokenUni t])
      else
        some ({ s with uniQ := s.uniQ ++ [t],
                       task := upd s.task t { s.task t with act := .qUni } }, [.sleptUni t])
    else none
  | .resume t => -- await_resume (acq_lk_aw.h 38-41, 96-99)
    match (s.task t).act with
    | .wokeShr =>
      some ({ s with pending := s.pending.filter (· ≠ t),
                     stale := s.pending.filter (· = t) ++ s.stale,
                     task := upd s.task t { s.task t with act := .none, shr := true } },
            [.grantedShr t])
    | .wokeUni =>
      some ({ s with task := upd s.task t { s.task t with act := .none, uni := true } },
            [.grantedUni t])
    | _ => none
  | .unlock t k ps pu =>
    if (s.task t).act = .none ∧ ((k = .shr ∧ (s.task t).shr = true) ∨ (k = .uni ∧ (s.task t).uni = true)) then
      let r := release (dropLock s t k) ps pu
      some (r.1, relEv t k :: r.2)
    else none

/-- A fresh shared_mutex (coroutine_shared_mutex.h 64-69). -/
def init : St :=
  { hold := .no, cnt := 0, writer := none, shrQ := [], uniQ := [], task := fun _ => {},
    pending := [], stale := [], dead := false }

def machine : Machine St Lbl Ev := { init := init, step := step }

end Verif.SharedMutex
