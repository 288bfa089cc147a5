import Verif.Hb.FutureSpec
import Verif.Hb.WgProps
import Verif.Future.Model
/-!
# koios::future under the C++ memory model (include/koios/future.h 31-72, 106-155, src/waiting_handle.cc 21-25)

The machine `Verif.Future` with views as in `Verif.Hb.MutexModel`.  Views travel
* through `shared_state::m_lock`: locking gets the view of the last unlock, unlocking leaves the view of the unlocking thread;
* through the scheduler's queue (`wake_up`).
The pointer that moves from the shared state into the future carries no view by itself, and a condition variable carries none either.
Which members take the lock is a parameter, so that it can be said which of the lock_guards are needed for this.
-/

namespace Verif.Hb.Fut

/-- Which members of shared_state take m_lock. -/
structure Locks where
  set : Bool          -- set_value (future.h 44)
  waiting : Bool      -- set_waiting (53)
  frame : Bool        -- get_future_frame_ptr (62)
  wait : Bool         -- wait_util_has_value (68)
  deriving DecidableEq, Repr

/-- All of them. -/
def code : Locks := ⟨true, true, true, true⟩

structure St where
  f : Future.St
  n : Nat             -- writes so far
  prod : View         -- of the producer
  cons : View         -- of the consumer
  lockV : View        -- carried by m_lock
  readyV : View       -- carried by the consumer's entry in the scheduler's queue

inductive Lbl where
  | fut (l : Future.Lbl)
  | write             -- the producer writes the next location
  | read (i : Nat)    -- the consumer reads location i
  deriving DecidableEq, Repr

/-- A critical section of the consumer. -/
def section_ (b : Bool) (s : St) : St :=
  if b = true then
    { s with
      cons := s.cons.join s.lockV
      lockV := s.cons.join s.lockV }
  else s

/-- `if (!m_ff) m_ff = m_ss->get_future_frame_ptr();` (109-112, 144-145, 152-153): locks only if the future has no frame yet. -/
def pullV (k : Locks) (s : St) : St := if s.f.fut.isSome = true then s else section_ k.frame s

/-- set_value (42-49): m_lock is held while the waiting task is enqueued. -/
def produceV (k : Locks) (s : St) : St :=
  let v := if k.set = true then s.prod.join s.lockV else s.prod
  { s with
    prod := v
    lockV := if k.set = true then v else s.lockV
    readyV := if s.f.parked = true then v else s.readyV }

/-- set_waiting (51-58): if the result is there, the consumer wakes itself up. -/
def waitingV (k : Locks) (s : St) : St :=
  let s := section_ k.waiting s
  if s.f.ff.isSome = true then { s with readyV := s.cons } else s

/-- The effect of an action of the future on the views. -/
def mem (k : Locks) (s : St) : Future.Lbl → St
  | .produce _ => produceV k s
  | .ready => pullV k s
  | .nonblk => pullV k s
  | .await => pullV k s
  | .suspend => waitingV k s
  | .resume => pullV k { s with cons := if s.f.pc = .woken then s.cons.join s.readyV else s.cons }
  | .get => s
  | .lockWait => section_ k.wait s
  | .notified => section_ k.wait s       -- m_cond.wait locks again
  | .spurious => section_ k.wait s
  | .fetch => pullV k s

def step (k : Locks) (s : St) : Lbl → Option (St × List Ev)
  | .fut l =>
    match Future.step s.f l with
    | none => none
    | some (f', e) => some ({ mem k s l with f := f' }, e.map .fut)
  | .write => some ({ s with n := s.n + 1, prod := fun i => s.prod i || i == s.n }, [.wrote s.n])
  | .read i => if s.f.pc = .idle ∧ i < s.n then some (s, [if s.cons i = true then .saw i else .stale i]) else none

def init : St := ⟨Future.init, 0, View.empty, View.empty, View.empty, View.empty⟩
def machine (k : Locks) : Machine St Lbl Ev := ⟨init, step k⟩

end Verif.Hb.Fut
