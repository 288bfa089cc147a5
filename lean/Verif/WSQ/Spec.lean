import Verif.Common.Trace
/-!
# What a user of `koios::work_stealing_queue` relies on

Threads (callers) are numbered `a`; `tid` is the thread id in the `per_consumer_attr` argument;
tasks are numbered in the order in which they were enqueued.
-/

namespace Verif.WSQ

/-- The public operations. -/
inductive Op where
  | add (tid : Nat)    -- `thread_specific_preparation({tid})`
  | enq (tid : Nat)    -- `enqueue({tid}, task)`
  | deq (tid : Nat)    -- `dequeue({tid})`
  | size               -- `size()`
  deriving DecidableEq, Repr

inductive Ev where
  | called (a : Nat) (o : Op)
  | added (a tid : Nat)        -- `thread_specific_preparation` returns
  | enqueued (a x : Nat)       -- `enqueue` returns, the task got number `x`
  | got (a x : Nat)            -- `dequeue` returns task `x`
  | gotNone (a : Nat)          -- `dequeue` returns nullopt
  | sizeIs (a n : Nat)         -- `size()` returns `n`
  | ub (a : Nat)               -- undefined behaviour (null or end iterator dereferenced)
  deriving DecidableEq, Repr

def timesEnqueued (x : Nat) (tr : List Ev) : Nat :=
  tr.countP fun | .enqueued _ y => y == x | _ => false
def timesGot (x : Nat) (tr : List Ev) : Nat :=
  tr.countP fun | .got _ y => y == x | _ => false
def allEnqueued (tr : List Ev) : Nat := tr.countP fun | .enqueued _ _ => true | _ => false
def allGot (tr : List Ev) : Nat := tr.countP fun | .got _ _ => true | _ => false

/-- `tid`'s registration has returned. -/
def Registered (tid : Nat) (tr : List Ev) : Prop := ∃ a, Ev.added a tid ∈ tr

/-- Callers respect the contract: nobody enqueues before some worker is registered, nobody
dequeues for a thread that is not registered. -/
def Disciplined (tr : List Ev) : Prop :=
  (∀ p a tid, p ++ [.called a (.enq tid)] <+: tr → ∃ t, Registered t p) ∧
  (∀ p a tid, p ++ [.called a (.deq tid)] <+: tr → Registered tid p)

end Verif.WSQ
