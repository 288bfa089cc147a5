import Verif.SchedIo.Spec
import Verif.Sched.Model
/-!
# Starting sleeps and io_uring operations, on top of the machine `Sched` (C101)

The loops are per thread: `timer_event_loop::m_impl_ptrs` and the thread_local `iouring_event_loop::m_impl` are filled by thread_specific_preparation, in the worker threads only.
-/

namespace Verif.SchedIo

structure St where
  base : Sched.St
  dead : Bool          -- the program has crashed

inductive Lbl where
  | base (l : Sched.Lbl)
  /-- sleep_await::await_suspend (this_task.h 39-42) → timer_event_loop::add_event, cur_thread_ptr (timer.h 143-157, 193-207): `m_impl_ptrs[id]` is a null pointer on a thread
  that is not a worker; ioret_aw / op_batch_execute_aw → iouring_event_loop::add_event (iouring.cc 156-162): `toolpex_assert(m_impl)`, then `m_impl->add_event` -/
  | start (t : Nat)

def step (ws : List Nat) (s : St) : Lbl → Option (St × List Ev)
  | .base l =>
    if s.dead = true then none
    else match Sched.step ws s.base l with
      | none => none
      | some (b, e) => some ({ s with base := b }, e.map .run)
  | .start t =>
    if s.dead = true then none
    else match s.base.place t with
      | .running u =>
        if u ∈ ws then
          -- the task is now owned by the loop of thread u
          match Sched.step ws s.base (.suspend t) with
          | none => none
          | some (b, e) => some ({ s with base := b }, .started t u :: e.map .run)
        else some ({ s with dead := true }, [.crashed t u])
      | _ => none

def machine (ws : List Nat) : Machine St Lbl Ev := ⟨⟨Sched.init, false⟩, step ws⟩

end Verif.SchedIo
