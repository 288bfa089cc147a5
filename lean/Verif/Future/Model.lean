import Verif.Common.Machine
import Verif.Future.Spec
/-!
# Model of `koios::future`, `koios::promise` (include/koios/future.h) and `future_aw`
(include/koios/future_aw.h)

The producer stores its result once (`set_value` of the shared state, future.h 42-49; the
`toolpex::callback_promise` in between is trusted to invoke the callback once).  The consumer is
one thread of control (a coroutine, or a thread for `get()`); it performs any sequence of
operations.  Every critical section of `shared_state::m_lock` is one label; `future::m_ff` and
`m_has_got` are only touched by the consumer.
-/

namespace Verif.Future

/-- Where the consumer is. -/
inductive Pc where
  | idle
  | suspending          -- `await_ready` was false, before `await_suspend` (future_aw.h 36)
  | suspended           -- parked in the shared state
  | woken               -- in the scheduler, before `await_resume`
  | resuming            -- `await_ready` was true, before `await_resume`
  | getWait             -- in `get()`, before `wait_util_has_value` (future.h 143)
  | blocked (n : Bool)  -- inside of `m_cond.wait(lk)` (70); `n`: notified
  | getFetch            -- after it (144)
  deriving DecidableEq, Repr

structure St where
  ff     : Option Res   -- shared_state::m_ff (37)
  fut    : Option Res   -- future::m_ff (170)
  got    : Bool         -- future::m_has_got (171)
  parked : Bool         -- shared_state::m_waiting is not empty (36)
  done   : Bool         -- the producer has produced
  pc     : Pc
  deriving DecidableEq, Repr

inductive Lbl where
  | produce (r : Res)   -- `shared_state::set_value` (42-49)
  | ready               -- `future::ready()` (149-155)
  | nonblk              -- `future::get_nonblk()` (106-134)
  | await               -- `co_await`: `await_ready` = `ready()` (future_aw.h 31-34)
  | suspend             -- `await_suspend` = `shared_state::set_waiting` (51-58)
  | resume              -- `await_resume` = `get_nonblk()` (future_aw.h 41-44)
  | get                 -- `future::get()`: the test of m_has_got (139-142)
  | lockWait            -- `wait_util_has_value` up to return or `m_cond.wait` (66-71)
  | notified            -- `m_cond.wait` returns after a notification
  | spurious            -- `m_cond.wait` returns without one
  | fetch               -- `get()` 144-146
  deriving DecidableEq, Repr

/-- `if (!m_ff) m_ff = m_ss->get_future_frame_ptr();` (109-112, 144-145, 152-153): the frame moves
from the shared state (60-64) into the future. -/
def pull (s : St) : St :=
  match s.fut with
  | some _ => s
  | none => { s with fut := s.ff, ff := none }

/-- `get_nonblk()` (106-134). -/
def nonblk (s : St) : St × Ret :=
  let s := pull s
  match s.fut with
  | none => (s, .outOfRange)
  | some r => if s.got then (s, .logicError) else ({ s with got := true }, .res r)

def step (s : St) : Lbl → Option (St × List Ev)
  | .produce r =>
    if s.done = false then
      let s := { s with ff := some r, done := true }
      -- `if (m_waiting) wake_up(...)` (46-47)
      let (s, e) := if s.parked then ({ s with parked := false, pc := .woken }, [Ev.woken]) else (s, [])
      -- `m_cond.notify_one()` (48)
      let s := match s.pc with | .blocked _ => { s with pc := .blocked true } | _ => s
      some (s, .produced r :: e)
    else none
  | .ready =>
    if s.pc = .idle then some (pull s, [.readyRet (pull s).fut.isSome]) else none
  | .nonblk =>
    if s.pc = .idle then some ((nonblk s).1, [.nonblkRet (nonblk s).2]) else none
  | .await =>
    if s.pc = .idle then
      some ({ pull s with pc := if (pull s).fut.isSome then .resuming else .suspending }, [.awaitCalled])
    else none
  | .suspend =>
    if s.pc = .suspending then
      if s.ff.isSome then some ({ s with pc := .woken }, [.suspended, .woken])
      else some ({ s with parked := true, pc := .suspended }, [.suspended])
    else none
  | .resume =>
    if s.pc = .resuming ∨ s.pc = .woken then
      some ({ (nonblk s).1 with pc := .idle }, [.awaitRet (nonblk s).2])
    else none
  | .get =>
    if s.pc = .idle then
      if s.got then some (s, [.getCalled, .getRet .logicError])
      else some ({ s with pc := .getWait }, [.getCalled])
    else none
  | .lockWait =>
    if s.pc = .getWait then
      if s.ff.isSome then some ({ s with pc := .getFetch }, [])
      else some ({ s with pc := .blocked false }, [])
    else none
  | .notified =>
    if s.pc = .blocked true then some ({ s with pc := .getFetch }, []) else none
  | .spurious =>
    match s.pc with
    | .blocked _ => some ({ s with pc := .getFetch }, [.spurious])
    | _ => none
  | .fetch =>
    if s.pc = .getFetch then
      some ({ (nonblk s).1 with pc := .idle }, [.getRet (nonblk s).2])
    else none

def init : St := { ff := none, fut := none, got := false, parked := false, done := false, pc := .idle }

def machine : Machine St Lbl Ev := { init := init, step := step }

end Verif.Future
