import Verif.FileAppend.Spec
import Verif.Mutex.Model
/-!
# Model of concurrent unique_file_state::append_async (src/unique_file_state.cc 23-47)

The lock m_fs_io_lock is the machine of `Verif.Mutex`, every atomic operation of it a step of its own; a call is a coroutine with its own `left` (a 64-bit size_t).

Simplified: a coroutine that is resumed goes on at its next label at any later time; the kernel writes the k bytes at one moment between submission and completion of the write; which bytes
they are is the subject of C45.  A call is made once for every name t (names are not reused).
-/

namespace Verif.FileAppend

inductive Phase where
  | out                      -- not called
  | asking                   -- before m_fs_io_lock.acquire() (31)
  | locking                  -- in it
  | writing (left : Nat)     -- before `left > 0` (33)
  | inflight (left : Nat)    -- in uring::write (35)
  | over (ok : Bool)         -- before co_return ec (40)
  | leaving                  -- the result is set; the destructors of the frame are running or have run
  deriving DecidableEq, Repr

structure St where
  m : Mutex.St
  phase : Nat → Phase
  size : Nat → Nat           -- buffer.size_bytes()
  alive : Bool
  ub : Bool

inductive Lbl where
  | call (t n : Nat)
  | lock (l : Mutex.Lbl)
  | test (t : Nat)
  | done (t k : Nat)
  | fail (t : Nat)
  | deliver (t : Nat)
  | destroy
  deriving DecidableEq, Repr

/-- when the code of append_async makes a step of the lock -/
def may (s : St) : Mutex.Lbl → Bool
  | .acquire t => s.phase t = .asking
  | .tryAcquire _ => false
  | .unlock t => s.phase t = .leaving          -- ~unique_lock of `lk`, after return_value
  | _ => true

/-- what a step of the lock means for append_async: await_resume has returned `lk` -/
def entered (s : St) : List Mutex.Ev → Nat → Phase
  | .granted t :: _ => upd s.phase t (.writing (s.size t))
  | .asked t :: es => entered { s with phase := upd s.phase t .locking } es
  | _ :: es => entered s es
  | [] => s.phase

/-- release() of `lk` has returned: the frame is gone -/
def gone (e : List Mutex.Ev) : List Ev := e.filterMap fun x => match x with | .returned t => some (.gone t) | _ => none

/-- `this` is used (a woken waiter that is resumed does not touch the lock, neither does wake_up; the kernel writes to the descriptor it was given) -/
def Lbl.uses : Lbl → Bool
  | .lock (.resume _) => false
  | .lock (.wake _) => false
  | .lock _ => true
  | .test _ => true
  | _ => false

/-- subtraction of size_t -/
def sub64 (a b : Nat) : Nat := if b ≤ a then a - b else a + 2 ^ 64 - b

def stepLive (s : St) : Lbl → Option (St × List Ev)
  | .call t n => if s.phase t = .out ∧ n < 2 ^ 64 then some ({ s with phase := upd s.phase t .asking, size := upd s.size t n }, [.called t n]) else none
  | .lock l =>
    if may s l = true then
      match Mutex.step false s.m l with
      | some (m', e) => some ({ s with m := m', phase := entered s e }, gone e)
      | none => none
    else none
  -- while (left > 0) (33)
  | .test t =>
    match s.phase t with
    | .writing left => some ({ s with phase := upd s.phase t (if left = 0 then .over true else .inflight left) }, [])
    | _ => none
  -- left -= ret.nbytes_delivered() (37)
  | .done t k =>
    match s.phase t with
    | .inflight left => if k ≤ s.size t then some ({ s with phase := upd s.phase t (.writing (sub64 left k)) }, [.wrote t k]) else none
    | _ => none
  -- if ((ec = ret.error_code())) break (36)
  | .fail t =>
    match s.phase t with
    | .inflight _ => some ({ s with phase := upd s.phase t (.over false) }, [.failed t])
    | _ => none
  -- co_return ec (40): return_value wakes the caller, then `lk` is destroyed
  | .deliver t =>
    match s.phase t with
    | .over ok => some ({ s with phase := upd s.phase t .leaving }, [.delivered t ok])
    | _ => none
  | .destroy => if s.alive = true then some ({ s with alive := false }, [.destroyed]) else none

/-- Using the destroyed object is undefined behaviour. -/
def step (s : St) (l : Lbl) : Option (St × List Ev) :=
  if s.ub = true then none
  else
    match stepLive s l with
    | none => none
    | some p => if l.uses && !s.alive then some ({ s with ub := true }, [.undefined]) else some p

def init : St := ⟨Mutex.init, fun _ => .out, fun _ => 0, true, false⟩

def machine : Machine St Lbl Ev := ⟨init, step⟩

end Verif.FileAppend
