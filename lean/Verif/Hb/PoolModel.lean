import Verif.Pool.Model
import Verif.Hb.MutexModel
import Verif.Hb.PoolSpec
/-!
# koios::thread_pool under the C++ memory model (include/koios/thread_pool.h 174-243, src/thread_pool.cc 36-119, include/koios/std_queue_wrapper.h 29-43)

The machine `Verif.Pool` with views as in `Verif.Hb.MutexModel`.  Views travel
* through the queue: with each entry (moodycamel_queue_wrapper: the contract of moodycamel::ConcurrentQueue), or through the mutex of the queue (std_queue_wrapper);
* along the program order of a worker: from a callable to the next one on the same thread;
* through `join()` of a worker's thread (thread_pool.cc 45), and from the thread that executed the body of `call_once` (38) to the others;
* through a `std::future`.
`m_cond`, `m_sleeping_thrs` (relaxed) and `m_lock` (not taken by `enqueue`) carry none; the loads of the stop flags are left out (that takes views away only).

A callable is a user's function, or resumes a coroutine.  A coroutine that suspends leaves its handle somewhere (in a mutex's queue, in a future, ...); whoever takes it
from there to put it into the pool gets the view it was left with: all these places are protected by a lock or a queue (`Verif.Hb`: C87-C91).
-/

namespace Verif.Hb.Pl
open Pool (Who)

/-- How the queue synchronises. -/
inductive QSync where
  | entry       -- moodycamel_queue_wrapper.cc
  | lock        -- std_queue_wrapper.h 31, 37
  | relaxed     -- not at all
  deriving DecidableEq, Repr

structure Sync where
  q : QSync
  joins : Bool  -- `thr.join()` (thread_pool.cc 45)
  deriving DecidableEq, Repr

/-- The runtime's pool (task_scheduler.h 24). -/
def code : Sync := ⟨.entry, true⟩
/-- A pool over std_queue_wrapper. -/
def codeStd : Sync := ⟨.lock, true⟩

/-- Where the handle of a coroutine is. -/
inductive CSt where
  | none
  | parked (v : View)
  | item (x : Nat)      -- in callable x: queued, or running, or x is its last one
  deriving Inhabited

structure St where
  p : Pool.St
  n : Nat                       -- writes so far
  view : Act → View
  thr : Nat → View              -- of worker w between callables
  entryV : Nat → View           -- carried by the queue's entry for x
  lockV : Nat → View            -- carried by the mutex of queue i
  coro : Nat → Option Nat       -- the coroutine that callable x resumes
  cst : Nat → CSt
  fin : Nat → Bool              -- callable x has ended
  onceV : View                  -- carried by m_stop_once_flag

inductive Lbl where
  | pool (l : Pool.Lbl)                          -- everything but the following
  | push (a : Who) (i : Nat) (c : Option Nat)    -- enqueue: a new callable is put into queue i (thread_pool.h 187, 196)
  | take (w x : Nat)                             -- dequeue (thread_pool.cc 75)
  | finish (w : Nat) (threw : Bool)
  | park (w : Nat)                               -- the coroutine running on w suspends
  | write (a : Who)
  | read (a : Who) (i : Nat)
  | get (a : Who) (x : Nat)
  | join (k : Nat)                               -- stop() in the thread that executes the body of call_once
  | passive (k : Nat)                            -- stop() in another thread
  deriving DecidableEq, Repr

/-- Whose code does the thread execute? -/
def actor (s : St) : Who → Option Act
  | .ext k => some (.ext k)
  | .wrk w => match s.p.pc w with
    | .run x => some (.item x)
    | _ => none

def CSt.isItem (x : Nat) : CSt → Bool
  | .item y => y == x
  | _ => false

/-- Is it user code?  Not between the suspension of a coroutine and the return to the worker's loop. -/
def user (s : St) : Act → Bool
  | .ext _ => true
  | .item x => match s.coro x with
    | none => true
    | some c => (s.cst c).isItem x

/-- what whoever resumes the coroutine gets with its handle -/
def handle (s : St) : Option Nat → View
  | none => View.empty
  | some c => match s.cst c with
    | .parked v => v
    | _ => View.empty

/-- may somebody have the handle? -/
def free (s : St) : Option Nat → Bool
  | none => true
  | some c => match s.cst c with
    | .item _ => false
    | _ => true

/-- the handle is now in callable x -/
def moved (s : St) (x : Nat) : Option Nat → Nat → CSt
  | none => s.cst
  | some c => upd s.cst c (.item x)

/-- enqueue of callable x = next by act, which has the view v -/
def pushV (k : Sync) (s : St) (act : Act) (v : View) (i x : Nat) : St :=
  match k.q with
  | .entry => { s with view := upd s.view act v, entryV := upd s.entryV x v }
  | .lock => { s with view := upd s.view act (v.join (s.lockV i)), lockV := upd s.lockV i (v.join (s.lockV i)) }
  | .relaxed => { s with view := upd s.view act v }

/-- The queue from which worker w takes. -/
def src (s : St) (w : Nat) : Nat :=
  match s.p.pc w with
  | .steal k => k
  | _ => w

/-- what the dequeuing thread gets with x from queue i -/
def carried (k : Sync) (s : St) (i x : Nat) : View :=
  match k.q with
  | .entry => s.entryV x
  | .lock => s.lockV i
  | .relaxed => View.empty

/-- what joining the first m workers gives -/
def joined (s : St) : Nat → View
  | 0 => View.empty
  | m + 1 => (joined s m).join (s.thr m)

def step (N : Nat) (k : Sync) (s : St) : Lbl → Option (St × List Ev)
  | .pool l =>
    match l with
    | .enqPush _ _ | .take _ _ | .finish _ _ | .join => none
    | l => match Pool.step N s.p l with
      | none => none
      | some (p', e) => some ({ s with p := p' }, e.map .pool)
  | .push a i c =>
    match actor s a with
    | none => none
    | some act =>
      if free s c = true then
        match Pool.step N s.p (.enqPush a i) with
        | none => none
        | some (p', _) =>
          let x := s.p.next
          let s1 := pushV k s act ((s.view act).join (handle s c)) i x
          some ({ s1 with
            p := p'
            coro := upd s.coro x c
            cst := moved s x c }, [.submit act x c])
      else none
  | .take w x =>
    match Pool.step N s.p (.take w x) with
    | none => none
    | some (p', e) =>
      let i := src s w
      let v := (s.thr w).join (carried k s i x)
      some ({ s with
        p := p'
        view := upd s.view (.item x) v
        lockV := if k.q = .lock then upd s.lockV i v else s.lockV }, e.map .pool)
  | .finish w threw =>
    match s.p.pc w with
    | .run x =>
      match Pool.step N s.p (.finish w threw) with
      | none => none
      | some (p', e) => some ({ s with p := p', thr := upd s.thr w (s.view (.item x)), fin := upd s.fin x true }, e.map .pool)
    | _ => none
  | .park w =>
    match s.p.pc w with
    | .run x =>
      match s.coro x with
      | none => none
      | some c => if (s.cst c).isItem x = true then some ({ s with cst := upd s.cst c (.parked (s.view (.item x))) }, [.parked c]) else none
    | _ => none
  | .write a =>
    match actor s a with
    | none => none
    | some act =>
      if user s act = true then
        some ({ s with n := s.n + 1, view := upd s.view act (fun j => s.view act j || j == s.n) }, [.wrote act s.n])
      else none
  | .read a i =>
    match actor s a with
    | none => none
    | some act =>
      if user s act = true ∧ i < s.n then some (s, [if s.view act i = true then .saw act i else .stale act i]) else none
  | .get a x =>
    match actor s a with
    | none => none
    | some act =>
      if user s act = true ∧ s.fin x = true ∧ s.coro x = none then
        some ({ s with view := upd s.view act ((s.view act).join (s.view (.item x))) }, [.got act x])
      else none
  | .join t =>
    match Pool.step N s.p .join with
    | none => none
    | some (p', _) =>
      let v := (s.view (.ext t)).join (if k.joins = true then joined s N else View.empty)
      some ({ s with p := p', view := upd s.view (.ext t) v, onceV := v }, [.stopped t])
  | .passive t =>
    if s.p.joined = true then some ({ s with view := upd s.view (.ext t) ((s.view (.ext t)).join s.onceV) }, [.stopped t]) else none

def init : St :=
  { p := Pool.init, n := 0, view := fun _ => View.empty, thr := fun _ => View.empty, entryV := fun _ => View.empty, lockV := fun _ => View.empty,
    coro := fun _ => none, cst := fun _ => .none, fin := fun _ => false, onceV := View.empty }

def machine (N : Nat) (k : Sync) : Machine St Lbl Ev := ⟨init, step N k⟩

end Verif.Hb.Pl
