import Verif.Common.Machine
import Verif.Common.Trace
/-!
# What a user of descriptor-producing operations relies on (C79)

`openat`, `socket` and `accept` produce a result object; `get_fd()`, `get_socket_fd()` and `get_client()` turn it into an owner
(`unique_posix_fd`), whose destructor closes the descriptor.
-/

namespace Verif.Fd

/-- What can be observed.  `r` names a result, `o` an owner, `n` a descriptor number, `k` an open file. -/
inductive Ev where
  | opened (r n k : Nat)                          -- the operation succeeded: the kernel opened the file `k` under the number `n`
  | failed (r : Nat)                              -- the operation failed
  | took (r o : Nat)                              -- get_fd() on `r` produced the owner `o`
  | threw (r : Nat)                               -- get_fd() on `r` threw
  | discarded (r : Nat)                           -- the last copy of the result is gone
  | closed (r o n : Nat) (k : Option Nat)         -- the owner `o`, made from `r`, called close(n); `k` is the file it closed
  deriving DecidableEq, Repr

/-- Nobody calls get_fd() twice on the same result. -/
def TakesOnce (tr : List Ev) : Prop := ∀ r a b c o o', tr ≠ a ++ .took r o :: b ++ .took r o' :: c

end Verif.Fd
