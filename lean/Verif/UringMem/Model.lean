import Verif.Uring.Model
import Verif.UringMem.Spec
/-!
# Model of the kernel's accesses to the memory of io_uring operations

On top of `Verif.Uring.machine`.  The kernel may access the memory of an operation at any time from its submission to its completion.
`~iouring_event_loop_perthr` (include/koios/iouring.h 42-45) calls io_uring_queue_exit, which unmaps the rings and closes the descriptor and returns; the kernel
cancels the operations it is still working on later, on its own (trusted: io_uring_queue_exit(3), io_uring_setup(2)).  Then the members are destroyed, with them the tasks in m_opreps.
-/

namespace Verif.UringMem

structure St where
  base : Uring.St
  orph : List Uring.Sqe        -- operations of the closed ring the kernel has not cancelled yet

inductive Lbl where
  | base (l : Uring.Lbl)
  | touch (j : Nat)            -- the kernel accesses the memory of the j-th operation it is working on
  | touchOrphan (j : Nat)      -- the same for the closed ring
  | cancel (j : Nat)           -- the kernel gives up an operation of the closed ring
  deriving DecidableEq, Repr

def step (s : St) : Lbl → Option (St × List Ev)
  | .base l =>
    match Uring.step s.base l with
    | some (b, e) =>
      some ({ base := b, orph := if l = .destroy then s.base.kern else s.orph }, e.map .loop)
    | none => none
  | .touch j =>
    match s.base.kern[j]? with
    | some x => if s.base.dead = false then some (s, [.touched x.b x.i]) else none
    | none => none
  | .touchOrphan j =>
    match s.orph[j]? with
    | some x => some (s, [.touched x.b x.i])
    | none => none
  | .cancel j => some ({ s with orph := s.orph.eraseIdx j }, [])

def machine : Machine St Lbl Ev := { init := ⟨Uring.init, []⟩, step := step }

end Verif.UringMem
