import Verif.Monitor.Spec
import Verif.Common.Machine
/-!
# Model of mutex_monitor (src/mutex_monitor.cc, include/koios/mutex_monitor.h) and of the mutex' registration (src/coroutine_mutex.cc 13-36)

Any number of threads and mutexes; std::call_once and std::shared_mutex are as the C++ standard says.  A mutex is constructed where no other object lives and destroyed once,
not while one of its member functions runs (otherwise the program has undefined behaviour already).

Simplified: writing the line of one mutex to the log is one step; `InUse` starts with the awaiter's creation (what awaiting does is in `Mutex`).
-/

namespace Verif.Monitor

/-- the object at an address -/
inductive Obj where
  | absent
  | alive
  | dying (t : Nat)     -- thread t runs the destructor
  deriving DecidableEq, Repr

/-- m_once of a mutex -/
inductive Once where
  | fresh
  | running (t : Nat)
  | done
  deriving DecidableEq, Repr

inductive Pc where
  | idle
  | once (m : Nat)          -- in the function given to call_once
  | regWait (m : Nat)       -- m_cleanning was false; mutex_monitor::add_event(REGISTER, m), before the lock
  | regHeld (m : Nat)       -- with m_lock
  | regDone (m : Nat)       -- back in call_once
  | dtor (m : Nat)          -- ~mutex
  | deregWait (m : Nat)
  | deregHeld (m : Nat)
  | deregDone (m : Nat)
  | printing (rest done : List Nat)   -- print_status with the shared lock: mutexes to visit and visited
  deriving DecidableEq, Repr

structure St where
  obj : Nat → Obj
  once : Nat → Once
  map : List (Nat × Nat)    -- m_mutexes
  maxid : Nat               -- m_maxid
  writer : Option Nat       -- m_lock
  readers : List Nat
  cleaning : Bool           -- event_loop::m_cleanning
  term : Bool               -- std::terminate was called
  pc : Nat → Pc

inductive Lbl where
  | construct (m : Nat)
  | acquire (t m : Nat)
  | check (t : Nat)
  | lock (t : Nat)
  | body (t : Nat)
  | finish (t : Nat)
  | destroy (t m : Nat)
  | print (t : Nat) (ks : List Nat)   -- ks: the order in which the hash map is iterated
  | visit (t : Nat)
  | stop
  deriving DecidableEq

def init : St := ⟨fun _ => .absent, fun _ => .fresh, [], 0, none, [], false, false, fun _ => .idle⟩

/-- register_mutex (19-23): m_mutexes[m] = m_maxid++ -/
def assign (map : List (Nat × Nat)) (m i : Nat) : List (Nat × Nat) := (m, i) :: map.filter (fun p => p.1 != m)

/-- deregister_mutex (25-29): m_mutexes.erase(m) -/
def erase (map : List (Nat × Nat)) (m : Nat) : List (Nat × Nat) := map.filter (fun p => p.1 != m)

def keys (map : List (Nat × Nat)) : List Nat := map.map Prod.fst

def stepLive (s : St) : Lbl → Option (St × List Ev)
  -- mutex::mutex (coroutine_mutex.cc 29-31)
  | .construct m =>
    if s.obj m = .absent then some ({ s with obj := upd s.obj m .alive, once := upd s.once m .fresh }, [.constructed m]) else none
  -- mutex::acquire / try_acquire (coroutine_mutex.cc 13-27): call_once
  | .acquire t m =>
    if s.pc t = .idle ∧ s.obj m = .alive then
      match s.once m with
      | .fresh => some ({ s with once := upd s.once m (.running t), pc := upd s.pc t (.once m) }, [])
      | .running _ => none
      | .done => some (s, [.used m])
    else none
  -- event_loop::add_event (event_loop.h 70-81); acquire, try_acquire and ~mutex are noexcept
  | .check t =>
    match s.pc t with
    | .once m => if s.cleaning = true then some ({ s with term := true }, [.terminated]) else some ({ s with pc := upd s.pc t (.regWait m) }, [])
    | .dtor m => if s.cleaning = true then some ({ s with term := true }, [.terminated]) else some ({ s with pc := upd s.pc t (.deregWait m) }, [])
    | _ => none
  -- mutex_monitor::add_event (9-17): the unique_lock
  | .lock t =>
    match s.pc t with
    | .regWait m =>
      if s.writer = none ∧ s.readers = [] then some ({ s with writer := some t, pc := upd s.pc t (.regHeld m) }, []) else none
    | .deregWait m =>
      if s.writer = none ∧ s.readers = [] then some ({ s with writer := some t, pc := upd s.pc t (.deregHeld m) }, []) else none
    | _ => none
  -- the switch (12-16), the lock's destructor
  | .body t =>
    match s.pc t with
    | .regHeld m => some ({ s with map := assign s.map m s.maxid, maxid := s.maxid + 1, writer := none, pc := upd s.pc t (.regDone m) },
        [.registered m s.maxid])
    | .deregHeld m => some ({ s with map := erase s.map m, writer := none, pc := upd s.pc t (.deregDone m) }, [])
    | _ => none
  -- call_once returns / ~mutex ends
  | .finish t =>
    match s.pc t with
    | .regDone m => some ({ s with once := upd s.once m .done, pc := upd s.pc t .idle }, [.used m])
    | .deregDone m => some ({ s with obj := upd s.obj m .absent, pc := upd s.pc t .idle }, [.freed m])
    | _ => none
  -- mutex::~mutex (coroutine_mutex.cc 33-36)
  | .destroy t m =>
    if s.pc t = .idle ∧ s.obj m = .alive ∧ (s.once m = .fresh ∨ s.once m = .done) then
      some ({ s with obj := upd s.obj m (.dying t), pc := upd s.pc t (.dtor m) }, [.dying m])
    else none
  -- mutex_monitor::print_status (37-44): the shared_lock
  | .print t ks =>
    if s.pc t = .idle ∧ s.writer = none ∧ ks.Perm (keys s.map) then
      some ({ s with readers := t :: s.readers, pc := upd s.pc t (.printing ks []) }, [])
    else none
  -- the loop (40-43) and the lock's destructor
  | .visit t =>
    match s.pc t with
    | .printing (m :: rest) done => some ({ s with pc := upd s.pc t (.printing rest (done ++ [m])) }, [.touched m])
    | .printing [] done => some ({ s with readers := s.readers.erase t, pc := upd s.pc t .idle }, [.printed done])
    | _ => none
  -- event_loop::stop (event_loop.h 95-100)
  | .stop => some ({ s with cleaning := true }, [.stopped])

/-- nothing happens after std::terminate -/
def step (s : St) (l : Lbl) : Option (St × List Ev) := if s.term = true then none else stepLive s l

def machine : Machine St Lbl Ev := ⟨init, step⟩

end Verif.Monitor
