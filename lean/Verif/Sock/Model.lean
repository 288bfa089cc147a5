import Verif.Sock.Spec
import Verif.Cancel.Props
/-!
# Model of `connect_get_sock` and `bind_get_sock_tcp`

src/iouring_awaitables.cc 13-59.  Between `co_await` and resumption the operation completes in the kernel; a suspended coroutine may be
destroyed (the pool is stopped).  `toolpex::unique_posix_fd` closes in its destructor; `toolpex::errret_thrower` throws an exception
with errno if the value streamed into it is negative; `toolpex::posix_exception` reports the error code it is given (toolpex: assumed).
-/

namespace Verif.Sock
open Verif.OpBatch (mkRet errorCode)

inductive Pc where
  | idle
  | sockWait                                     -- 18 / 36: co_await uring::socket(…)
  | sockDone (ret : Int)                         -- completed, not resumed yet
  | run (fd : Nat) (todo : List Act)             -- `sock` / `sockfd` owns fd
  | connWait (fd : Nat) (todo : List Act)        -- 22: co_await uring::connect(…)
  | connDone (fd : Nat) (ret : Int) (todo : List Act)
  | orphan                                       -- destroyed while the socket operation was in flight
  | fin
  deriving DecidableEq, Repr

inductive Lbl where
  | start
  | sockRet (ret : Int)       -- the kernel completes the socket operation
  | resume (stale : Int)      -- the coroutine is resumed; `stale` is the errno of the thread when the result was stored
  | call                      -- the coroutine starts the connect operation
  | connRet (ret : Int)
  | sys (err : Nat)           -- a synchronous system call; err is 0 or the error
  | ret                       -- co_return
  | destroy                   -- the suspended coroutine is destroyed
  deriving DecidableEq, Repr

/-- the flags handed to uring::socket: 19 `flags`; 35: the parameter is not used -/
def socketFlags : Job → Nat
  | .connect _ f => f
  | .bind _ _ _ _ => 0

/-- what the function does after it has the socket: 23; 46-56 -/
def todo : Job → List Act
  | .connect a _ => [.connect a]
  | .bind a rp ra _ => (if rp then [.reusePort] else []) ++ (if ra then [.reuseAddr] else []) ++ [.bind a]

/-- what error_code() of the exception says: connect_get_sock throws uring_exception (21, 25), bind_get_sock_tcp
toolpex::posix_exception (38) -/
def thrown (j : Job) (code : Int) : Nat :=
  match j with
  | .connect _ _ => (Cancel.uringException code).errorCode.toNat
  | .bind _ _ _ _ => code.toNat

def step (j : Job) (p : Pc) : Lbl → Option (Pc × List Ev)
  | .start => match p with
    | .idle => some (.sockWait, [.askedSocket (socketFlags j)])
    | _ => none
  -- the kernel refuses a socket operation with flags (C77)
  | .sockRet ret => if 0 ≤ ret ∧ socketFlags j ≠ 0 then none else match p with
    | .sockWait => some (.sockDone ret, if 0 ≤ ret then [.opened ret.toNat] else [.failed ret.natAbs])
    | .orphan => some (.fin, if 0 ≤ ret then [.opened ret.toNat] else [.failed ret.natAbs])
    | _ => none
  | .resume stale => match p with
    -- 20-22 / 36-40: an error is thrown, get_socket_fd() makes the owner
    | .sockDone ret =>
      if errorCode (mkRet stale ret) ≠ 0 then some (.fin, [.threw (thrown j (errorCode (mkRet stale ret)))])
      else some (.run ret.toNat (todo j), [])
    -- 24-25
    | .connDone fd ret rest =>
      if errorCode (mkRet stale ret) ≠ 0 then some (.fin, [.closed fd, .threw (thrown j (errorCode (mkRet stale ret)))])
      else some (.run fd rest, [])
    | _ => none
  | .call => match p with
    | .run fd (.connect a :: rest) => some (.connWait fd rest, [.connecting a fd])
    | _ => none
  | .connRet ret => match p with
    | .connWait fd rest =>
      match j with
      | .connect a _ => some (.connDone fd ret rest, if 0 ≤ ret then [.did (.connect a) fd] else [.failed ret.natAbs])
      | _ => none
    | _ => none
  -- 46-56: et << setsockopt(…), et << bind(…)
  | .sys err => match p with
    | .run fd (x :: rest) =>
      match x with
      | .connect _ => none
      | x => if err = 0 then some (.run fd rest, [.did x fd]) else some (.fin, [.failed err, .closed fd, .threw err])
    | _ => none
  -- 27 / 58
  | .ret => match p with
    | .run fd [] => some (.fin, [.returned fd])
    | _ => none
  | .destroy => match p with
    | .sockWait => some (.orphan, [.destroyed])
    | .sockDone _ => some (.fin, [.destroyed])
    | .connWait fd _ => some (.fin, [.destroyed, .closed fd])
    | .connDone fd _ _ => some (.fin, [.destroyed, .closed fd])
    | _ => none

def machine (j : Job) : Machine Pc Lbl Ev := ⟨.idle, step j⟩

end Verif.Sock
