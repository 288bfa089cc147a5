import Verif.Hb.ShrSpec
import Verif.Hb.FutureProps
import Verif.SharedMutex.Model
/-!
# koios::shared_mutex under the C++ memory model (src/coroutine_shared_mutex.cc 12-132, include/koios/acq_lk_aw.h 24-41, 76-99)

The machine `Verif.SharedMutex` with views as in `Verif.Hb.MutexModel`.  Views travel through `m_lock` and through the scheduler's queue.  Every member takes m_lock
except `hold_this_immediately` (46-49).
Simplification: the two waiting queues and `m_shr_cnt` are only used under m_lock, so the views they carry are part of what m_lock carries.
-/

namespace Verif.Hb.Shr

structure St where
  m : SharedMutex.St
  n : Nat                 -- accesses made so far
  wr : Nat → Bool         -- access i was a write
  view : Nat → View       -- of each task
  pendV : Nat → View      -- of the thread that is still in t's await_suspend
  lockV : View            -- carried by m_lock
  readyV : Nat → View     -- carried by t's entry in the scheduler's queue

inductive Lbl where
  | sm (l : SharedMutex.Lbl)
  | access (t : Nat) (w : Bool)
  deriving DecidableEq, Repr

/-- The tasks handed to the scheduler during the action. -/
def woke (e : List SharedMutex.Ev) (u : Nat) : Bool := e.contains (.wokenShr u) || e.contains (.wokenUni u)

/-- A critical section of m_lock by a thread with view v, in which the tasks of `e` are woken. -/
def crit (s : St) (v : View) (e : List SharedMutex.Ev) : St :=
  { s with
    lockV := v.join s.lockV
    readyV := fun u => if woke e u = true then v.join s.lockV else s.readyV u }

/-- ... by task t itself. -/
def critT (s : St) (t : Nat) (e : List SharedMutex.Ev) : St :=
  { crit s (s.view t) e with view := upd s.view t ((s.view t).join s.lockV) }

/-- The effect of an action of the lock on the views. -/
def mem (s : St) (e : List SharedMutex.Ev) : SharedMutex.Lbl → St
  | .askShr t => critT s t e
  | .suspShr t => { critT s t e with pendV := upd s.pendV t ((s.view t).join s.lockV) }   -- acq_lk_aw.h 86; 87 is still to come on this thread
  | .wakeNext t _ _ => crit s (s.pendV t) e
  | .wakeStale _ => s
  | .askUni _ => s                                                                        -- no lock is taken (46-49)
  | .suspUni t => critT s t e
  | .resume t => { s with view := upd s.view t ((s.view t).join (s.readyV t)) }
  | .unlock t _ _ _ => critT s t e

/-- The conflicting earlier accesses the view misses. -/
def missing (s : St) (t : Nat) (w : Bool) : List Ev :=
  (List.range s.n).filterMap fun j => if (w || s.wr j) && !s.view t j then some (.race t s.n j) else none

/-- May t access the data?  A writer needs the unique_lock. -/
def mayAccess (m : SharedMutex.St) (t : Nat) (w : Bool) : Bool :=
  decide ((m.task t).act = .none) && ((m.task t).uni || ((m.task t).shr && !w))

def step (s : St) : Lbl → Option (St × List Ev)
  | .sm l =>
    match SharedMutex.step s.m l with
    | none => none
    | some (m', e) => some ({ mem s e l with m := m' }, e.map .lk)
  | .access t w =>
    if s.m.dead = false ∧ mayAccess s.m t w = true then
      some ({ s with
        n := s.n + 1
        wr := upd s.wr s.n w
        view := upd s.view t (fun i => s.view t i || i == s.n) }, .access t s.n w :: missing s t w)
    else none

def init : St := ⟨SharedMutex.init, 0, fun _ => false, fun _ => View.empty, fun _ => View.empty, View.empty, fun _ => View.empty⟩
def machine : Machine St Lbl Ev := ⟨init, step⟩

end Verif.Hb.Shr
