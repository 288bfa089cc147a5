import Verif.Common.Trace
/-!
# What a user of deplete_send_buffer relies on (C58)

Times are nanoseconds of the system clock (which may jump, also backwards).
-/

namespace Verif.TcpUtil

inductive Ev where
  | clock (n : Int)            -- system_clock::now() answers n
  | queue (k : Nat)            -- ioctl(SIOCOUTQ) answers k unsent bytes
  | ioctlError (e : Nat)       -- ioctl fails with errno e
  | slept                      -- a sleep of 1 ms begins
  | returned (r : Bool) (ec : Nat)   -- the coroutine's result, and the error code left in ec (0: untouched)
  deriving DecidableEq, Repr

/-- one unsuccessful look at the send queue, followed by a sleep that ends before the deadline -/
structure Round where
  unsent : Nat
  now : Int

def Round.events (r : Round) : List Ev := [.queue r.unsent, .clock r.now, .slept]

/-- a round is justified: something was unsent, and a sleep of 1 ms (10^6 ns) that begins now ends before the deadline -/
def Round.Ok (deadline : Int) (r : Round) : Prop := 0 < r.unsent ∧ r.now + 1000000 < deadline

/-- what may follow the rounds: the answer and its reason -/
inductive Ending (deadline : Int) : List Ev → Prop where
  | empty : Ending deadline [.queue 0, .returned true 0]
  | error (e : Nat) (he : e ≠ 0) : Ending deadline [.ioctlError e, .returned false e]
  | late (k : Nat) (n : Int) (hk : 0 < k) (hn : deadline ≤ n + 1000000) : Ending deadline [.queue k, .clock n, .returned false 0]

/-- a complete, correct execution that starts at time n with a time-out of `timeout` ms -/
def Correct (timeout : Int) (tr : List Ev) : Prop :=
  ∃ (n : Int) (rs : List Round) (fin : List Ev), tr = .clock n :: rs.flatMap Round.events ++ fin ∧ (∀ r ∈ rs, r.Ok (n + timeout * 1000000)) ∧ Ending (n + timeout * 1000000) fin

def isSleep : Ev → Bool
  | .slept => true
  | _ => false

end Verif.TcpUtil
