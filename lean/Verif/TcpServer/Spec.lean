import Verif.Common.Trace
/-!
# What a user of tcp_server relies on (C53, C69, C70, C71)

`i` names the accept loops (one per worker), `c` connections, `u` callers.
-/

namespace Verif.TcpServer

inductive Ev where
  | startCalled
  | startFailed                -- bind or listen failed: start() throws
  | launched (i : Nat)         -- start() hands accept loop i to a worker's queue
  | startReturned
  | began (i : Nat)            -- the worker begins to run the loop
  | acceptBegan (i : Nat)      -- an accept on the listening socket is submitted
  | connected (c : Nat)        -- the kernel accepts connection c for one of the accepts
  | overtaken (c : Nat)        -- the same, but the kernel delivers the completion of the accept's time-out first (see C63)
  | called (c : Nat)           -- the user's callback is started with connection c
  | left (i : Nat)             -- the loop is over
  | stopCalled
  | isStop (u : Nat) (b : Bool)   -- is_stop() answers
  | untilCalled (u : Nat)
  | untilReturned (u : Nat)    -- until_done_async() / until_done_blk() is over
  | destroyed                  -- the server object
  | undefined                  -- the destroyed server object is used
  deriving DecidableEq, Repr

/-- accepts submitted by loop i -/
def isAccept (i : Nat) : Ev → Bool
  | .acceptBegan j => j == i
  | _ => false

/-- the kernel has accepted connection c for the server -/
def Accepted (c : Nat) (tr : List Ev) : Prop := Ev.connected c ∈ tr ∨ Ev.overtaken c ∈ tr

/-- all accept loops of a server on n workers have begun to run -/
def AllBegan (n : Nat) (tr : List Ev) : Prop := ∀ i, i < n → Ev.began i ∈ tr

/-- all accept loops are over -/
def AllLeft (n : Nat) (tr : List Ev) : Prop := ∀ i, i < n → Ev.left i ∈ tr

end Verif.TcpServer
