import Verif.Common.Machine
import Verif.Common.Trace
/-!
# What a user of `connect_get_sock` and `bind_get_sock_tcp` relies on (C80)
-/

namespace Verif.Sock

/-- A call of one of the two functions; `addr` stands for the socket address made from the IP address and the port. -/
inductive Job where
  | connect (addr flags : Nat)
  | bind (addr : Nat) (reusePort reuseAddr : Bool) (flags : Nat)
  deriving DecidableEq, Repr

/-- What is done with the new socket. -/
inductive Act where
  | reusePort | reuseAddr
  | bind (addr : Nat)
  | connect (addr : Nat)
  deriving DecidableEq, Repr

/-- What has to be done with the socket before it may be returned. -/
def Job.acts : Job → List Act
  | .connect a _ => [.connect a]
  | .bind a rp ra _ => (if rp then [.reusePort] else []) ++ (if ra then [.reuseAddr] else []) ++ [.bind a]

def Job.flags : Job → Nat
  | .connect _ f => f
  | .bind _ _ _ f => f

inductive Ev where
  | askedSocket (flags : Nat)         -- a non-blocking stream socket is asked for
  | opened (fd : Nat)                 -- the kernel has opened it
  | connecting (addr fd : Nat)        -- the connection is asked for
  | did (a : Act) (fd : Nat)          -- a system call on the socket, successful
  | failed (code : Nat)               -- a system call failed with this error
  | closed (fd : Nat)
  | returned (fd : Nat)               -- the caller gets the socket
  | threw (code : Nat)                -- the caller gets an exception; `code` is what its error_code() says, 0 is "success"
  | destroyed                         -- the coroutine is destroyed while it is suspended
  deriving DecidableEq, Repr

/-- The successful calls on the socket `fd`, in order. -/
def doneOn (fd : Nat) (tr : List Ev) : List Act :=
  tr.filterMap fun | .did a n => if n = fd then some a else none | _ => none

def isOutcome : Ev → Bool
  | .returned _ => true
  | .threw _ => true
  | _ => false

end Verif.Sock
