import Verif.Common.Trace
/-!
# What a user of io_uring batches relies on (C35, C36, C37, C39)

`c` identifies a coroutine, `b` one execution of a batch (one `co_await batch.execute()`).
-/

namespace Verif.Uring

inductive Ev where
  /-- coroutine c executes a batch of n operations; the batch object still carries k results of earlier executions,
  q entries wait in the submission ring -/
  | submitted (c b n k q : Nat)
  | completed (b i : Nat) (res : Int)       -- the kernel has finished operation i of execution b with result res
  | overflowed (b : Nat)                    -- that completion finds the completion ring full: the kernel keeps it aside
  | resumed (c b : Nat) (rets : List Int)   -- c is handed to the scheduler; the batch carries the results rets
  | refused (c b : Nat)                     -- c tried to execute a batch but the loop is stopped: c is destroyed
  | destroyed (c b : Nat)                   -- c is destroyed with the loop
  | cleared (k : Nat)                       -- clear() of a batch object that carries k results
  | pollBegan (hit : Bool) (out : Nat)      -- the loop is polled; hit: there is a completion in the ring; out of them wait outside of the ring
  | polled                                  -- the poll is over
  | stopped                                 -- this thread's loop was stopped
  | cleaned                                 -- stop was requested
  | ended                                   -- the loop is destroyed
  | ub                                      -- null pointer write, failed assertion or access to an empty vector
  deriving DecidableEq, Repr

/-- The results the kernel has delivered for execution `b`, in order. -/
def results (b : Nat) (tr : List Ev) : List Int :=
  tr.filterMap fun | .completed b' _ r => if b' = b then some r else none | _ => none

/-- The ends an execution can come to. -/
def ending (b : Nat) : Ev → Bool
  | .resumed _ b' _ => b' == b
  | .refused _ b' => b' == b
  | .destroyed _ b' => b' == b
  | _ => false

def endings (b : Nat) (tr : List Ev) : Nat := tr.countP (ending b)

/-- Batches are used as intended: not empty, no results left over in them, no more operations than free entries in
the submission ring (1024 entries), and clear() is called on executed batches only. -/
def Proper (tr : List Ev) : Prop :=
  (∀ c b n k q, Ev.submitted c b n k q ∈ tr → 1 ≤ n ∧ k = 0 ∧ q + n ≤ 1024) ∧ ∀ k, Ev.cleared k ∈ tr → 1 ≤ k

/-- Some execution has been accepted and has not come to an end. -/
def Outstanding (tr : List Ev) : Prop := ∃ c b n k q, Ev.submitted c b n k q ∈ tr ∧ endings b tr = 0

/-- The completion ring has never been full. -/
def NoOverflow (tr : List Ev) : Prop := ∀ b, Ev.overflowed b ∉ tr

/-- Number of operations of executions that have not ended. -/
def openOps (tr : List Ev) : Nat :=
  (tr.map fun | .submitted _ b n _ _ => if endings b tr = 0 then n else 0 | _ => 0).sum

/-- No completion has found the ring full since the beginning, or since a submission with at most 2048 operations in flight. -/
def CaughtUp (tr : List Ev) : Prop :=
  ∃ a b, tr = a ++ b ∧ NoOverflow b ∧ (a = [] ∨ openOps a ≤ 2048 ∧ ∃ a' c i n k q, a = a' ++ [.submitted c i n k q])

/-- A batch has been executed in `tr` (and accepted by the loop). -/
def Submits (tr : List Ev) : Prop := ∃ c b n k q, Ev.submitted c b n k q ∈ tr

def missStep (m : Nat) : Ev → Nat
  | .pollBegan false _ => m + 1
  | .pollBegan true _ => 0
  | .submitted _ _ _ _ _ => 0
  | _ => m

/-- Number of polls without a completion since the last poll with one or the last submission. -/
def misses (tr : List Ev) : Nat := tr.foldl missStep 0

end Verif.Uring
