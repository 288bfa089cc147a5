import Verif.Common.Machine
import Verif.FutMany.Spec
/-!
# Model of `koios::future` objects over one shared state

include/koios/future.h, include/koios/future_aw.h.  `Verif.Future` models one future object and its blocking `get()`; here there are any number of future objects, which are moved, and any number of
tasks that await them.  One label is one critical section of `shared_state::m_lock` (28-72) or one operation on a future object.  Simplifications: no `get()` (see C10); assertions (`toolpex_assert`)
are taken as compiled out.
-/

namespace Verif.FutMany
open Verif.Future (Res Ret)

/-- The members of `future` (future.h 168-171): does `m_ss` refer to the shared state, `m_ff`, `m_has_got`. -/
structure Obj where
  ss : Bool := false
  fr : Option Res := none
  got : Bool := false
  deriving DecidableEq, Repr

/-- A task: not awaiting; between `await_ready` and `await_suspend`; in the shared state; in the scheduler; between `await_ready` (true) and `await_resume`; destroyed. -/
inductive Pc where | idle | suspending (o : Nat) | suspended (o : Nat) | woken (o : Nat) | resuming (o : Nat) | gone
  deriving DecidableEq, Repr

/-- `shared_state` (future.h 31-37): `m_ff`, `m_waiting`; the future objects and the tasks.  `dead`: undefined behaviour has happened. -/
structure St where
  done : Bool
  ff : Option Res
  waiting : Option Nat
  obj : Nat → Obj
  pc : Nat → Pc
  dead : Bool

inductive Lbl where
  | produce (r : Res)
  | getFuture (o : Nat)
  | move (a b : Nat)
  | valid (o : Nat)
  | ready (o : Nat)
  | nonblk (o : Nat)
  | await (t o : Nat)
  | suspend (t : Nat)
  | resume (t : Nat)
  deriving DecidableEq, Repr

/-- `if (!m_ff) m_ff = m_ss->get_future_frame_ptr();` (future.h 109-112, 152-153; 60-64): the result moves from the shared state into the object. -/
def pull (s : St) (o : Nat) : St :=
  if (s.obj o).fr = none then { s with obj := upd s.obj o { s.obj o with fr := s.ff }, ff := none } else s

/-- `get_nonblk()` after the pull (113-133). -/
def answerOf (x : Obj) : Ret :=
  match x.fr with
  | none => .outOfRange
  | some r => if x.got = true then .logicError else .res r

/-- `m_has_got = true` (122), reached unless the function has thrown before. -/
def takeObj (x : Obj) : Obj := if x.fr = none then x else { x with got := true }

/-- `get_nonblk()` (future.h 106-134): first the pull, then the answer. -/
def nonblk (s : St) (o : Nat) : St × Ret :=
  ({ pull s o with obj := upd (pull s o).obj o (takeObj ((pull s o).obj o)) }, answerOf ((pull s o).obj o))

/-- A use of `m_ss` when it is null and `m_ff` is null too: a null dereference. -/
def nullUse (s : St) (o : Nat) : Bool := !(s.obj o).ss && (s.obj o).fr.isNone

/-- `wake_up(std::move(m_waiting))` in set_value (46-47): the waiting task, if there is one, goes to the scheduler. -/
def wakePc (s : St) : Nat → Pc :=
  match s.waiting with
  | none => s.pc
  | some t => match s.pc t with
    | .suspended o => upd s.pc t (.woken o)
    | _ => s.pc

def wakeEv (s : St) : List Ev :=
  match s.waiting with
  | none => []
  | some t => [.woken t]

/-- `m_waiting = std::move(t)` (55): task_on_the_fly's move assignment destroys what was there (task_on_the_fly.h 50-57). -/
def overwritePc (s : St) : Nat → Pc :=
  match s.waiting with
  | none => s.pc
  | some t => upd s.pc t .gone

def overwriteEv (s : St) : List Ev :=
  match s.waiting with
  | none => []
  | some t => [.destroyed t]

def stepLive (s : St) : Lbl → Option (St × List Ev)
  | .produce r =>            -- shared_state::set_value (42-49), once per promise
    if s.done = false then
      some ({ s with done := true, ff := some r, waiting := none, pc := wakePc s }, [.produced r] ++ wakeEv s)
    else none
  | .getFuture o =>          -- promise::get_future (187-190) assigned to `o`
    some ({ s with obj := upd s.obj o { ss := true, fr := none, got := false } }, [.gotFuture o])
  | .move a b =>             -- future's defaulted move assignment (87); the bool is copied
    if a ≠ b then
      some ({ s with obj := upd (upd s.obj b (s.obj a)) a { ss := false, fr := none, got := (s.obj a).got } }, [.moved a b])
    else none
  | .valid o => some (s, [.validRet o (s.obj o).ss])     -- 163-166
  | .ready o =>              -- 149-155
    if nullUse s o then some ({ s with dead := true }, [.ub o])
    else some (pull s o, [.readyRet o ((pull s o).obj o).fr.isSome])
  | .nonblk o =>             -- 106-134
    if nullUse s o then some ({ s with dead := true }, [.ub o])
    else some ((nonblk s o).1, [.nonblkRet o (nonblk s o).2])
  | .await t o =>            -- future_aw::await_ready (future_aw.h 31-34)
    if s.pc t = .idle then
      if nullUse s o then some ({ s with dead := true }, [.ub o])
      else if ((pull s o).obj o).fr.isSome then some ({ pull s o with pc := upd s.pc t (.resuming o) }, [.awaitCalled t o])
      else some ({ pull s o with pc := upd s.pc t (.suspending o) }, [.awaitCalled t o])
    else none
  | .suspend t =>            -- future_aw::await_suspend (36-39), shared_state::set_waiting (51-58)
    match s.pc t with
    | .suspending o =>
      if (s.obj o).ss = false then some ({ s with dead := true }, [.ub o])
      else if s.ff.isSome then
        some ({ s with waiting := none, pc := upd (overwritePc s) t (.woken o) }, overwriteEv s ++ [.suspended t, .woken t])
      else some ({ s with waiting := some t, pc := upd (overwritePc s) t (.suspended o) }, overwriteEv s ++ [.suspended t])
    | _ => none
  | .resume t =>             -- future_aw::await_resume (41-44)
    match s.pc t with
    | .woken o | .resuming o =>
      if nullUse s o then some ({ s with dead := true }, [.ub o])
      else some ({ (nonblk s o).1 with pc := upd s.pc t .idle }, [.awaitRet t o (nonblk s o).2])
    | _ => none

def step (s : St) (l : Lbl) : Option (St × List Ev) := if s.dead = true then none else stepLive s l

/-- A new promise; every future object is default constructed. -/
def init : St := { done := false, ff := none, waiting := none, obj := fun _ => {}, pc := fun _ => .idle, dead := false }

def machine : Machine St Lbl Ev := { init := init, step := step }

end Verif.FutMany
