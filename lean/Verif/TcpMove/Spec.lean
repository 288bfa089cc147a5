import Verif.Common.Trace
/-!
# What a user relies on who moves a tcp_server (C114)

`o`, `a`, `b` name server objects, `i` accept loops, `c` connections.
-/

namespace Verif.TcpMove

inductive Ev where
  | created (o : Nat)
  | moved (a b : Nat)          -- `tcp_server b{ std::move(a) };`
  | launched (o i : Nat)       -- `o.start()` hands accept loop i to a worker
  | began (i : Nat)
  | acceptBegan (i : Nat)      -- loop i submits an accept
  | connected (i c : Nat)      -- loop i accepts connection c
  | noSocket (i : Nat)         -- the accept of loop i fails: there is no such socket
  | left (i : Nat)             -- loop i is over
  | stopCalled (o : Nat)
  | isStop (o : Nat) (r : Bool)
  | untilReturned (o : Nat)    -- until_done_async()/until_done_blk() of o is over
  | destroyed (o : Nat)
  | undefined                  -- a destroyed object is used
  deriving DecidableEq, Repr

/-- Where the server is now that was in `o`. -/
def whereIs (o : Nat) (tr : List Ev) : Nat :=
  tr.foldl (fun o e => match e with | .moved a b => if a = o then b else o | _ => o) o

/-- No object is moved that has been started. -/
def MovedBeforeStart (tr : List Ev) : Prop := ∀ a b i, Ev.moved a b ∈ tr → Ev.launched a i ∉ tr

/-- A server object is destroyed only when its accept loops have begun and are over. -/
def DestroyedAfterEnd (tr : List Ev) : Prop := ∀ p o, p ++ [Ev.destroyed o] <+: tr → ∀ i, Ev.launched o i ∈ p → Ev.left i ∈ p

end Verif.TcpMove
