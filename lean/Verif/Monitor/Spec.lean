import Verif.Common.Trace
/-!
# What a user of the mutex monitor relies on (C52, C66)

`m` names addresses of mutexes (an address can be used again after the mutex there is gone), `t` names threads.
-/

namespace Verif.Monitor

inductive Ev where
  | constructed (m : Nat)
  | used (m : Nat)                 -- acquire() or try_acquire() has returned its awaiter
  | registered (m i : Nat)         -- the monitor has recorded the mutex, with number i
  | dying (m : Nat)                -- the destructor begins
  | freed (m : Nat)                -- the destructor has ended
  | touched (m : Nat)              -- print_status() calls the mutex' own print_status()
  | printed (ms : List Nat)        -- print_status() has ended, having listed these mutexes
  | stopped                        -- event_loop::stop()
  | terminated                     -- std::terminate
  deriving DecidableEq

/-- there is a mutex object at address m (possibly being destroyed) -/
def Exists (m : Nat) (tr : List Ev) : Prop := OpenIn (.constructed m) (.freed m) tr

/-- the mutex at m has been used and its destruction has not begun -/
def InUse (m : Nat) (tr : List Ev) : Prop := OpenIn (.used m) (.dying m) tr

end Verif.Monitor
