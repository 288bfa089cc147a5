import Verif.Fd.Spec
/-!
# Model of descriptor results and their owners

src/iouring_ioret.cc 38-47 (`get_fd`), 55-62 (`get_client`), include/koios/iouring_ioret.h 46-76.  `toolpex::unique_posix_fd` is
not part of the repository; assumed: it can only be moved, and closes its descriptor when it is destroyed or overwritten.  The kernel gives a
new file a number that is not in use (any such number: POSIX says the lowest one).
-/

namespace Verif.Fd

structure St where
  table : Nat → Option Nat            -- the descriptor table: number → open file
  nfile : Nat                         -- the number of files opened so far
  res : Nat → Option Int              -- `ret` of the result objects; ioret_for_any_base is copyable, all copies of a result are `r`
  used : Nat → Bool                   -- the operation has been started (result names are not reused)
  own : Nat → Option (Nat × Nat)      -- a unique_posix_fd that holds a descriptor, and (ghost) the result it was made from

def St.init : St := ⟨fun _ => none, 0, fun _ => none, fun _ => false, fun _ => none⟩

inductive Lbl where
  | succeed (r n : Nat)     -- the operation behind `r` completes with the new descriptor `n`
  | fail (r : Nat) (e : Nat)
  | getFd (r o : Nat)
  | discard (r : Nat)       -- the last copy of the result is destroyed: ioret has no destructor of its own
  | move (o o' : Nat)
  | destroy (o : Nat)
  deriving DecidableEq, Repr

/-- close(n), called by the owner `o` made from `r` -/
def close (s : St) (o n r : Nat) : St × List Ev :=
  ({ s with table := upd s.table n none, own := upd s.own o none }, [.closed r o n (s.table n)])

def step (s : St) : Lbl → Option (St × List Ev)
  -- the kernel; iouring.cc add_ret stores the number
  | .succeed r n =>
    if s.used r = false ∧ s.table n = none then
      some ({ s with table := upd s.table n (some s.nfile), nfile := s.nfile + 1, used := upd s.used r true,
                     res := upd s.res r (some n) }, [.opened r n s.nfile])
    else none
  | .fail r e =>
    if s.used r = false ∧ 0 < e then
      some ({ s with used := upd s.used r true, res := upd s.res r (some (-e)) }, [.failed r])
    else none
  -- get_fd (iouring_ioret.cc 38-47), get_client (55-62): throws if the result is an error, else `return { ret }`
  | .getFd r o =>
    match s.res r, s.own o with
    | some v, none => if v < 0 then some (s, [.threw r]) else some ({ s with own := upd s.own o (some (v.toNat, r)) }, [.took r o])
    | _, _ => none
  -- the results are plain data (iouring_ioret.h 17-37)
  | .discard r => if (s.res r).isSome then some ({ s with res := upd s.res r none }, [.discarded r]) else none
  | .move o o' =>
    match s.own o, s.own o' with
    | some x, none => if o = o' then none else some ({ s with own := upd (upd s.own o none) o' (some x) }, [])
    | _, _ => none
  | .destroy o =>
    match s.own o with
    | some (n, r) => some (close s o n r)
    | none => none

def machine : Machine St Lbl Ev := ⟨St.init, step⟩

end Verif.Fd
