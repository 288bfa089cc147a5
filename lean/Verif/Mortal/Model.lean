import Verif.Mortal.Spec
import Verif.Mutex.Model
import Verif.WaitGroup.Model
import Verif.Hub.Model
/-!
# Destruction of mutexes, wait_groups and hubs

The machines of `Verif.Mutex`, `Verif.WaitGroup` and `Verif.Hub` with one more action, the destruction of the object.  After it no member function
is called (`begins`), but calls that were executing go on; an action that accesses a data member of the object (`touches`) is then undefined
behaviour.  The destructors themselves: coroutine_mutex.cc 33-36 (the notification of the monitor is the subject of C52 and C66), the others are implicit.
-/

namespace Verif.Mortal

structure MSt (σ : Type) where
  obj : σ
  alive : Bool
  bad : Bool

inductive MLbl (Λ : Type) where
  | act (l : Λ)
  | destroy
  deriving DecidableEq, Repr

/-- `M` with destruction. -/
def mortal {σ Λ ε : Type} (M : Machine σ Λ ε) (begins touches : Λ → Bool) : Machine (MSt σ) (MLbl Λ) (MEv ε) where
  init := ⟨M.init, true, false⟩
  step s
    | .act l =>
      if s.bad = true then none
      else if s.alive = false ∧ begins l = true then none
      else match M.step s.obj l with
        | none => none
        | some (o, e) =>
          if s.alive = false ∧ touches l = true then some ({ s with bad := true }, [.undefined])
          else some ({ s with obj := o }, e.map .api)
    | .destroy => if s.alive = true ∧ s.bad = false then some ({ s with alive := false }, [.destroyed]) else none

/-- acquire(), try_acquire(), unlock(): coroutine_mutex.h 41-43, lock_base.h 46-53 -/
def mutexBegins : Mutex.Lbl → Bool
  | .acquire _ | .tryAcquire _ | .unlock _ => true
  | _ => false

/-- accesses to m_flag and m_waitings: coroutine_mutex.h 69-77, 86-90, coroutine_mutex.cc 41, 45, 51.  `wake` (cc 47) uses the local handle;
`resume` (acq_lk_aw.h 38-41) only copies the reference. -/
def mutexTouches : Mutex.Lbl → Bool
  | .wake _ | .resume _ => false
  | _ => true

def mutex (weak : Bool) := mortal (Mutex.machine weak) mutexBegins mutexTouches

/-- add(), done(), wait(): wait_group.h 15-53 -/
def wgBegins : WaitGroup.Lbl → Bool
  | .add _ | .done _ _ | .wait _ => true
  | _ => false

/-- accesses to m_count and m_waitings: wait_group.h 17, 22, 30, 46, 59; `wake` (61) uses the local handle -/
def wgTouches : WaitGroup.Lbl → Bool
  | .wake _ => false
  | _ => true

def waitGroup := mortal WaitGroup.machine wgBegins wgTouches

/-- add_awaiting, may_wake_next, may_wake_all: async_awaiting_hub.h 37-82 -/
def hubBegins : Hub.Lbl → Bool
  | .add _ | .next _ | .all _ => true
  | _ => false

/-- accesses to m_awaitings: 39, 54, 75 (the call itself, `next` and `all`, does not access it) -/
def hubTouches : Hub.Lbl → Bool
  | .add _ | .dequeue _ _ | .dequeueNone _ => true
  | _ => false

def hub := mortal Hub.machine hubBegins hubTouches

end Verif.Mortal
