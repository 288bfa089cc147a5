import Verif.DirMutex.Spec
import Verif.Common.Machine
/-!
# Model of dir_mutex (src/dir_mutex.cc, include/koios/dir_mutex.h)

Any number of objects for one directory, in any number of processes, and any number of tasks.  The file system is the Boolean `file` (does the lock file
exist); openat with O_CREAT|O_EXCL and unlinkat are atomic (POSIX).

Simplified: queue operations of the awaiting hub are atomic (see `Hub`); the order in which waiters are taken from the queue is arbitrary; sleeping pollers may wake at any
time; errors of openat other than EEXIST and of unlinkat do not occur; a lock is released through its guard only.
-/

namespace Verif.DirMutex

/-- where a task is -/
inductive Pc where
  | idle
  | failed (o : Nat)      -- create_lock_file() returned false, the poller is started; not yet in the queue (between await_ready and await_suspend)
  | waiting (o : Nat)     -- in the queue of `o`
  | woken (o : Nat)       -- taken from the queue, being resumed
  | holding (o : Nat)     -- has the guard
  | unlocking (o : Nat)   -- in unlock(), before may_wake_next()
  | deleting (o : Nat)    -- in unlock(), may_wake_next() returned false
  deriving DecidableEq, Repr

structure St where
  file : Bool
  pc : Nat → Pc
  pend : Nat → List Nat      -- ghost: the tasks that are `failed` at an object
  hub : Nat → List Nat       -- m_awaitings of each object
  pollers : Nat → Nat        -- running polling_lock_file coroutines of each object
  created : Nat → Nat        -- pollers that have created the lock file and are about to call may_wake_next()
  dead : Nat → Bool          -- the destructor has begun

inductive Lbl where
  | acquire (t o : Nat)          -- await_ready
  | suspend (t : Nat)            -- await_suspend
  | resume (t : Nat)             -- await_resume
  | unlock (t : Nat)             -- the guard's unlock() begins
  | wake (t : Nat) (x : Option Nat)   -- may_wake_next() in unlock(); x: the waiter taken
  | delete (t : Nat)             -- delete_lock_file().result()
  | poll (o : Nat)               -- one pass of a poller's loop
  | pollWake (o : Nat) (x : Option Nat) -- may_wake_next() in a poller
  | destroy (o : Nat)            -- ~dir_mutex: cancel_all_polling()
  | destroyUnlock (o : Nat)      -- ~dir_mutex: unlock()
  deriving DecidableEq

def init : St := ⟨false, fun _ => .idle, fun _ => [], fun _ => [], fun _ => 0, fun _ => 0, fun _ => false⟩

def step (s : St) : Lbl → Option (St × List Ev)
  -- dir_mutex_acq_aw::await_ready (51-54), hold_this_immediately (133-146), create_lock_file (80-96), await_resume (61-64)
  | .acquire t o =>
    if s.pc t = .idle ∧ s.dead o = false then
      if s.file = false then some ({ s with file := true, pc := upd s.pc t (.holding o) }, [.acquired t o])
      else some ({ s with pc := upd s.pc t (.failed o), pend := upd s.pend o (t :: s.pend o),
                          pollers := upd s.pollers o (s.pollers o + 1) }, [.contended t o])
    else none
  -- await_suspend (56-59)
  | .suspend t =>
    match s.pc t with
    | .failed o => some ({ s with pc := upd s.pc t (.waiting o), pend := upd s.pend o ((s.pend o).erase t),
                                  hub := upd s.hub o (s.hub o ++ [t]) }, [])
    | _ => none
  -- await_resume (61-64)
  | .resume t =>
    match s.pc t with
    | .woken o => some ({ s with pc := upd s.pc t (.holding o) }, [.acquired t o])
    | _ => none
  -- dir_mutex_guard::unlock (30-37)
  | .unlock t =>
    match s.pc t with
    | .holding o => some ({ s with pc := upd s.pc t (.unlocking o) }, [.released t])
    | _ => none
  -- dir_mutex::unlock (153-159): may_wake_next()
  | .wake t x =>
    match s.pc t, x with
    | .unlocking o, none => if s.hub o = [] then some ({ s with pc := upd s.pc t (.deleting o) }, []) else none
    | .unlocking o, some x =>
      if x ∈ s.hub o then
        some ({ s with hub := upd s.hub o ((s.hub o).erase x), pc := upd (upd s.pc t .idle) x (.woken o) }, [])
      else none
    | _, _ => none
  -- dir_mutex::unlock (153-159), delete_lock_file (148-151)
  | .delete t =>
    match s.pc t with
    | .deleting _ => some ({ s with file := false, pc := upd s.pc t .idle }, [])
    | _ => none
  -- polling_lock_file (98-112): stop_requested() is checked, then create_lock_file()
  | .poll o =>
    if s.pollers o = 0 then none
    else if s.file = true then some (s, [])
    else some ({ s with file := true, pollers := upd s.pollers o (s.pollers o - 1), created := upd s.created o (s.created o + 1) }, [])
  -- polling_lock_file (107-108): may_wake_next(); its result is not looked at
  | .pollWake o x =>
    if s.created o = 0 then none
    else match x with
      | none => if s.hub o = [] then some ({ s with created := upd s.created o (s.created o - 1) }, [.ownerless o]) else none
      | some x =>
        if x ∈ s.hub o then
          some ({ s with hub := upd s.hub o ((s.hub o).erase x), pc := upd s.pc x (.woken o),
                         created := upd s.created o (s.created o - 1) }, [])
        else none
  -- ~dir_mutex (127-131): cancel_all_polling() (114-125)
  | .destroy o =>
    if s.dead o = true then none else some ({ s with dead := upd s.dead o true, pollers := upd s.pollers o 0 }, [.destroyed o])
  -- ~dir_mutex: the pollers have ended (item.get()), unlock(); an object with waiting tasks must not be destroyed
  | .destroyUnlock o =>
    if s.dead o = true ∧ s.created o = 0 ∧ s.hub o = [] then some ({ s with file := false }, []) else none

def machine : Machine St Lbl Ev := ⟨init, step⟩

end Verif.DirMutex
