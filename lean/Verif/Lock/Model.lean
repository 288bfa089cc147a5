import Verif.Common.Machine
/-!
# Model of the RAII locks: `lock_base` (include/koios/lock_base.h 14-62), `unique_lock`
(include/koios/unique_lock.h 34-68), `shared_lock` (include/koios/shared_lock.h 17-48)

Both lock classes share `lock_base` and have the same `lock`/`try_lock`; mutexes are
numbered, and whether an acquisition is granted is up to the mutex (the client of this
model).  Every granted acquisition gets a fresh number `k` (ghost).
-/

namespace Verif.Lock

inductive Ev where
  | acquired (k m : Nat)   -- acquisition `k`: the ownership of mutex `m` was granted
  | released (k m : Nat)   -- `m.release()` was called for acquisition `k`
  | threw                  -- `lock()`/`try_lock()` without a mutex: koios::exception
  | assertFailed           -- `toolpex_assert(!owns_lock())` failed
  deriving DecidableEq, Repr

/-- Members `m_mutex`, `m_owns` (lock_base.h 60-61); `tok` is ghost: the number of the
acquisition this object was given last. -/
structure Obj where
  mutex : Option Nat
  owns  : Bool
  tok   : Nat
  deriving DecidableEq, Repr

structure St where
  obj  : Nat → Option Obj
  next : Nat
  dead : Bool

inductive Lbl where
  | mkDefault (d : Nat)            -- `lock_base() = default` (lock_base.h 23)
  | grant (d m : Nat)              -- `lock_base(Mutex&)` built by await_resume (18-21)
  | moveCtor (d s : Nat)           -- (25-29)
  | moveAssign (d s : Nat)         -- (31-39)
  | unlock (d : Nat)               -- (46-53)
  | relock (d : Nat)               -- `lock()` (unique_lock.h 40-51), acquisition granted
  | tryRelock (d : Nat) (ok : Bool) -- `try_lock()` (unique_lock.h 53-67), `ok`: granted
  | dtor (d : Nat)                 -- (55)
  deriving DecidableEq, Repr

/-- `unlock()` (lock_base.h 46-53). -/
def unlock (o : Obj) : Obj × List Ev :=
  match o.mutex with
  | some m => if o.owns then ({ o with owns := false }, [.released o.tok m]) else (o, [])
  | none => (o, [])

/-- What `std::exchange(other.m_mutex, nullptr)`, `std::exchange(other.m_owns, false)` leave
behind (lock_base.h 26-27, 35-36). -/
def movedFrom (o : Obj) : Obj := { o with mutex := none, owns := false }

def step (s : St) (l : Lbl) : Option (St × List Ev) :=
  if s.dead then none else
  match l with
  | .mkDefault d =>   -- m_mutex{}, m_owns{true}
    if s.obj d = none then
      some ({ s with obj := upd s.obj d (some { mutex := none, owns := true, tok := 0 }) }, [])
    else none
  | .grant d m =>
    if s.obj d = none then
      some ({ s with obj := upd s.obj d (some { mutex := some m, owns := true, tok := s.next }),
                     next := s.next + 1 }, [.acquired s.next m])
    else none
  | .moveCtor d src =>
    match s.obj d, s.obj src with
    | none, some o => some ({ s with obj := upd (upd s.obj src (some (movedFrom o))) d (some o) }, [])
    | _, _ => none
  | .moveAssign d src =>
    match s.obj d, s.obj src with
    | some od, some _ =>
      let r := unlock od
      let obj1 := upd s.obj d (some r.1)
      match obj1 src with
      | some o2 => some ({ s with obj := upd (upd obj1 src (some (movedFrom o2))) d (some o2) }, r.2)
      | none => none
    | _, _ => none
  | .unlock d =>
    match s.obj d with
    | some o => some ({ s with obj := upd s.obj d (some (unlock o).1) }, (unlock o).2)
    | none => none
  | .relock d =>
    match s.obj d with
    | some o =>
      match o.mutex with
      | none => some (s, [.threw])
      | some m =>
        if o.owns then some ({ s with dead := true }, [.assertFailed])
        else some ({ s with obj := upd s.obj d (some { o with owns := true, tok := s.next }),
                            next := s.next + 1 }, [.acquired s.next m])
    | none => none
  | .tryRelock d ok =>
    match s.obj d with
    | some o =>
      match o.mutex with
      | none => some (s, [.threw])
      | some m =>
        if o.owns then some ({ s with dead := true }, [.assertFailed])
        else if ok then
          some ({ s with obj := upd s.obj d (some { o with owns := true, tok := s.next }),
                         next := s.next + 1 }, [.acquired s.next m])
        else some (s, [])
    | none => none
  | .dtor d =>
    match s.obj d with
    | some o => some ({ s with obj := upd s.obj d none }, (unlock o).2)
    | none => none

def init : St := { obj := fun _ => none, next := 0, dead := false }

def machine : Machine St Lbl Ev := { init := init, step := step }

/-- `owns_lock()` (lock_base.h 57) of the object in slot `d`. -/
def ownsLock (s : St) (d : Nat) : Bool :=
  match s.obj d with
  | some o => o.owns
  | none => false

end Verif.Lock
