import Verif.Hb.MutexSpec
import Verif.Mutex.Model
/-!
# koios::mutex under the C++ memory model (include/koios/coroutine_mutex.h 69-90, src/coroutine_mutex.cc 39-53)

The machine `Verif.Mutex` with *views*: for every task the set of accesses to the protected data that happen before its next step.  Views travel
along synchronizes-with edges only:
* `m_flag`: a release store makes the flag carry the view of the storing task; a relaxed store makes it carry nothing; a read-modify-write continues the
  release sequence (the flag keeps what it carries) and, if it releases, adds the view of its task; if it acquires, the task gets what the flag carries.
  There are no plain loads of the flag, so the order of execution is its modification order.
* `m_waitings`, and the queue of the scheduler: the dequeuing thread gets the view the enqueuing thread had (the contract of moodycamel::ConcurrentQueue).
Sequenced-before within a task (a task resumed on another thread gets its own view back with its handle).
The memory orders are parameters, so that it can be said which of them are needed.
-/

namespace Verif.Hb

/-- The memory orders of the operations on m_flag. -/
structure Orders where
  tasAcq : Bool       -- test_and_set acquires (coroutine_mutex.h 71)
  tasRel : Bool       -- test_and_set releases (71)
  clearRel : Bool     -- the clear in release() releases (88)
  giveUpRel : Bool    -- the clear in try_wake_up_next releases (coroutine_mutex.cc 51)
  deriving DecidableEq, Repr

/-- memory_order_acq_rel (coroutine_mutex.h 71); the default, seq_cst (88); memory_order_release (coroutine_mutex.cc 51). -/
def code : Orders := ⟨true, true, true, true⟩

/-- A set of accesses. -/
abbrev View := Nat → Bool

def View.join (a b : View) : View := fun i => a i || b i
def View.empty : View := fun _ => false

structure St where
  m : Mutex.St
  n : Nat                 -- accesses made so far
  view : Nat → View       -- of each task
  flagV : View            -- carried by m_flag
  queueV : Nat → View     -- carried by the waiter's entry in m_waitings
  readyV : Nat → View     -- carried by the task's entry in the scheduler's queue

inductive Lbl where
  | mx (l : Mutex.Lbl)
  | access (t : Nat)      -- the task makes an access to the protected data
  deriving DecidableEq, Repr

/-- test_and_set by t. -/
def tas (o : Orders) (s : St) (t : Nat) : St :=
  { s with
    view := if o.tasAcq = true then upd s.view t ((s.view t).join s.flagV) else s.view
    flagV := if o.tasRel = true then s.flagV.join (s.view t) else s.flagV }

/-- A clear by t. -/
def clearF (rel : Bool) (s : St) (t : Nat) : St := { s with flagV := if rel = true then s.view t else View.empty }

/-- The effect of an action of the mutex on the views. -/
def mem (o : Orders) (s : St) : Mutex.Lbl → St
  | .acquire t => tas o s t
  | .tryAcquire t => tas o s t
  | .retake t => tas o s t
  | .suspend t => { s with queueV := upd s.queueV t (s.view t) }
  | .dequeue t u => { s with view := upd s.view t ((s.view t).join (s.queueV u)) }
  | .dequeueNone _ => s
  | .wake t =>
    match s.m.pc t with
    | .relWake u => { s with readyV := upd s.readyV u (s.view t) }
    | _ => s
  | .resume t => { s with view := upd s.view t ((s.view t).join (s.readyV t)) }
  | .unlock t => clearF o.clearRel s t
  | .clear t => clearF o.giveUpRel s t

/-- The first earlier access that the view misses. -/
def missing (v : View) (n : Nat) : Option Nat := (List.range n).find? fun i => !v i

def step (o : Orders) (weak : Bool) (s : St) : Lbl → Option (St × List Ev)
  | .mx l =>
    match Mutex.step weak s.m l with
    | none => none
    | some (m', _) => some ({ mem o s l with m := m' }, [])
  | .access t =>
    if s.m.pc t = .holding then
      some ({ s with n := s.n + 1, view := upd s.view t (fun i => s.view t i || i == s.n) },
        [match missing (s.view t) s.n with
          | none => .access t s.n
          | some j => .race t s.n j])
    else none

def init : St := ⟨Mutex.init, 0, fun _ => View.empty, View.empty, fun _ => View.empty, fun _ => View.empty⟩
def machine (o : Orders) (weak : Bool) : Machine St Lbl Ev := ⟨init, step o weak⟩

end Verif.Hb
