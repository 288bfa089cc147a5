import Verif.Uring.Spec
/-!
# What a user of io_uring operations relies on about the memory they name (C99)

The buffers, addresses and the batch object of an execution belong to the task that awaits it: they may be freed as soon as the task goes on, or is destroyed.
-/

namespace Verif.UringMem

inductive Ev where
  | loop (e : Uring.Ev)        -- an event of the io_uring loop of one worker
  | touched (b i : Nat)        -- the kernel reads or writes memory named by operation i of execution b
  deriving DecidableEq, Repr

def loopEvents (tr : List Ev) : List Uring.Ev := tr.filterMap fun | .loop e => some e | .touched _ _ => none

/-- Every access of the kernel is to memory of an execution that has been submitted and has not ended. -/
def KernelSafe (tr : List Ev) : Prop :=
  ∀ p b i, p ++ [.touched b i] <+: tr → (∃ c n k q, Uring.Ev.submitted c b n k q ∈ loopEvents p) ∧ Uring.endings b (loopEvents p) = 0

end Verif.UringMem
