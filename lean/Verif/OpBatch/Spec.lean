import Verif.Common.Trace
/-!
# What a user of `op_batch` relies on (C38, C40, C41, C62, C63)
-/

namespace Verif.OpBatch

/-- A call on a batch under construction. -/
inductive Call where
  | prep (op : Nat)                -- some prep_* call; `op` stands for the operation with all its arguments
  | timeout (tp : Option Nat)      -- timeout(tp); `none`: time_point::max() or duration::max()
  deriving DecidableEq, Repr

/-- What one entry handed to the kernel asks for. -/
inductive Kind where
  | op (op : Nat)
  | timeout (tp : Nat)
  deriving DecidableEq, Repr

/-- The user's operations in the order in which they were queued. -/
def ops (cs : List Call) : List Nat := cs.filterMap fun | .prep o => some o | _ => none

/-- The time-out that counts: the last one that was set. -/
def deadline (cs : List Call) : Option Nat :=
  (cs.filterMap fun | .timeout (some t) => some t | _ => none).getLast?

/-- What the kernel has to be asked for: the operations in order, then the time-out. -/
def intended (cs : List Call) : List Kind :=
  (ops cs).map .op ++ (deadline cs).toList.map .timeout

def ETIME : Int := 62
def ECANCELED : Int := 125

/-- What the kernel does with the entries of one submission: entry `i` is started, or reports its result. -/
inductive KEv where
  | began (i : Nat)
  | cqe (i : Nat) (res : Int)
  deriving DecidableEq, Repr

/-- The results in the order in which they were reported. -/
def reported (tr : List KEv) : List Int := tr.filterMap fun | .cqe _ r => some r | _ => none

end Verif.OpBatch
