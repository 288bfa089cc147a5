import Verif.Common.Machine
import Verif.Leak.Spec
/-!
# Model of the ownership of suspended tasks

* A task object owns the handle of a task that was not started (include/koios/task.h 281, task_on_the_fly.h 85, 96-102) and its future
  (task.h 282), which is the only future of that task (task.h 84-89, 275: it is moved, never copied) and owns the shared state together with
  the promise in the frame (include/koios/future.h 169, 213: shared_ptr).
* `co_await` on a task or future puts the handle of the awaiting task into the shared state (future_aw.h 36-39, future.h 51-58), which
  destroys it when it is destroyed (future.h 36).
* A handle in the queue of the scheduler, in the waiting list of a mutex, hub or wait_group, in the heap of the timer or the table of an
  io_uring loop is destroyed with that container.

Simplified: the destructions caused by one action are not interleaved with other actions, but they are done one by one, in the order of C++:
local variables last constructed first, then the promise; m_future before m_coro_handle.  What destructors of user variables do is not
modelled (see C66 and C68 for locks).  A task may await tasks it has called itself, and tasks whose future is held outside of the runtime.
The outside thread may destroy its future while a task awaits it (resuming that task would then be undefined; not modelled).
toolpex::callback_promise does nothing when it is destroyed unfulfilled.
-/

namespace Verif.Leak

inductive FSt where
  | none
  | fresh                   -- suspended at its initial suspend point; the handle is in the task object
  | queued (o : Option Nat) -- in the queue of the scheduler; `some c`: woken by the end of c
  | running
  | waiting (c : Nat)       -- the handle is in the shared state of c
  | parked (k : Nat)        -- the handle is in container k (mutex, timer, io_uring table, ...)
  | doomed                  -- handle.destroy() has been called
  | dying                   -- its locals are being destroyed by handle.destroy()
  | ending                  -- its locals are being destroyed after co_return
  | gone
  deriving DecidableEq, Repr

inductive Loc where
  | plain (x : Nat)
  | obj (c : Nat)           -- the task object (or future) of c
  deriving DecidableEq, Repr

inductive Holder where
  | nobody
  | task (p : Nat)          -- a local variable of p
  | outside
  deriving DecidableEq, Repr

/-- What is to be destroyed next. -/
inductive Item where
  | frame (f : Nat)
  | loc (f : Nat) (l : Loc)
  | prom (f : Nat)          -- the promise and the memory of the frame
  deriving DecidableEq, Repr

structure St where
  st : Nat → FSt
  locs : Nat → List Loc     -- first constructed first
  holder : Nat → Holder     -- who has the future
  prom : Nat → Bool         -- the promise exists
  fin : Nat → Bool          -- the result is stored
  waiter : Nat → Option Nat -- shared_state::m_waiting
  next : Nat
  pending : List Item

inductive Lbl where
  | call (p : Nat) (lz : Bool)
  | callOutside (lz : Bool)
  | make (p x : Nat)
  | pop (p : Nat)             -- the last local variable of p goes out of scope
  | run (p c : Nat)           -- run(), run_and_get_future(): c is handed to the scheduler
  | runOutside (c : Nat)
  | await (p c : Nat)
  | park (p k : Nat)
  | unpark (p : Nat)
  | take (p : Nat)            -- a worker resumes p
  | finish (p : Nat)
  | dropContainer (k : Nat)
  | dropQueue
  | dropOutside (c : Nat)
  | cascade
  deriving DecidableEq, Repr

/-- The future of c is destroyed: the task object's handle with it (if c was not started); if the promise is gone too, so is the shared state. -/
def dropFut (s : St) (c : Nat) : St :=
  if s.st c = .fresh then { s with holder := upd s.holder c .nobody, st := upd s.st c .doomed, pending := .frame c :: s.pending }
  else if s.prom c = true then { s with holder := upd s.holder c .nobody }
  else match s.waiter c with
    | some p => { s with holder := upd s.holder c .nobody, waiter := upd s.waiter c none, st := upd s.st p .doomed, pending := .frame p :: s.pending }
    | none => { s with holder := upd s.holder c .nobody }

/-- The promise of c is destroyed; if there is no future, so is the shared state. -/
def dropProm (s : St) (c : Nat) : St :=
  if s.holder c = .nobody then
    match s.waiter c with
    | some p => { s with prom := upd s.prom c false, waiter := upd s.waiter c none, st := upd (upd s.st c .gone) p .doomed,
                         pending := .frame p :: s.pending }
    | none => { s with prom := upd s.prom c false, st := upd s.st c .gone }
  else { s with prom := upd s.prom c false, st := upd s.st c .gone }

/-- handle.destroy() on every task of which `q` holds. -/
def doomAll (s : St) (q : FSt → Bool) : St :=
  { s with st := fun f => if f < s.next ∧ q (s.st f) = true then .doomed else s.st f,
           pending := ((List.range s.next).filter fun f => q (s.st f)).map .frame }

def create (s : St) (lz : Bool) (h : Holder) : St :=
  { s with st := upd s.st s.next (if lz then .fresh else .running), holder := upd s.holder s.next h, prom := upd s.prom s.next true,
           next := s.next + 1 }

def isQueued : FSt → Bool
  | .queued _ => true
  | _ => false

/-- One destruction: `i` is the next item, `r` the others. -/
def destroy1 (s : St) (r : List Item) : Item → St × List Ev
  | .frame f => ({ s with st := upd s.st f .dying, locs := upd s.locs f [], pending := (s.locs f).reverse.map (.loc f) ++ .prom f :: r }, [])
  | .loc f (.plain x) => ({ s with pending := r }, [.destroyed f x])
  | .loc _ (.obj c) => (dropFut { s with pending := r } c, [])
  | .prom f => (dropProm { s with pending := r } f, [.frameGone f])

/-- An action of a running task, a worker or the program outside. -/
def act (s : St) : Lbl → Option (St × List Ev)
  | .cascade => none
  | .call p lz =>
    if s.st p = .running then
      let s' := create s lz (.task p)
      some ({ s' with locs := upd s'.locs p (s.locs p ++ [.obj s.next]) }, .created (some p) s.next :: if lz then [] else [.started s.next])
    else none
  | .callOutside lz => some (create s lz .outside, .created none s.next :: if lz then [] else [.started s.next])
  | .make p x => if s.st p = .running then some ({ s with locs := upd s.locs p (s.locs p ++ [.plain x]) }, [.made p x]) else none
  | .pop p =>
    if s.st p = .running then
      match (s.locs p).getLast? with
      | none => none
      | some l => some ({ s with locs := upd s.locs p (s.locs p).dropLast, pending := [.loc p l] }, [])
    else none
  | .run p c =>
    if s.st p = .running ∧ s.holder c = .task p ∧ s.st c = .fresh then some ({ s with st := upd s.st c (.queued none) }, [.started c]) else none
  | .runOutside c =>
    if s.holder c = .outside ∧ s.st c = .fresh then some ({ s with st := upd s.st c (.queued none) }, [.started c]) else none
  | .await p c =>
    if s.st p = .running ∧ (s.holder c = .task p ∨ s.holder c = .outside ∧ c ≠ p) ∧ s.waiter c = none then
      if s.fin c = true then some (s, [.awaits p c, .got p c])
      else if s.st c = .fresh then
        some ({ s with st := upd (upd s.st c (.queued none)) p (.waiting c), waiter := upd s.waiter c (some p) }, [.started c, .awaits p c])
      else some ({ s with st := upd s.st p (.waiting c), waiter := upd s.waiter c (some p) }, [.awaits p c])
    else none
  | .park p k => if s.st p = .running then some ({ s with st := upd s.st p (.parked k) }, []) else none
  | .unpark p =>
    match s.st p with
    | .parked _ => some ({ s with st := upd s.st p (.queued none) }, [])
    | _ => none
  | .take p =>
    match s.st p with
    | .queued o => some ({ s with st := upd s.st p .running }, match o with | none => [] | some c => [.got p c])
    | _ => none
  | .finish p =>
    if s.st p = .running then
      let pend := (s.locs p).reverse.map (Item.loc p) ++ [.prom p]
      match s.waiter p with
      | none => some ({ s with fin := upd s.fin p true, st := upd s.st p .ending, locs := upd s.locs p [], pending := pend }, [.finished p])
      | some q => some ({ s with fin := upd s.fin p true, waiter := upd s.waiter p none, st := upd (upd s.st p .ending) q (.queued (some p)),
                                 locs := upd s.locs p [], pending := pend }, [.finished p])
    else none
  | .dropContainer k => some (doomAll s (fun x => x == .parked k), [])
  | .dropQueue => some (doomAll s isQueued, [])
  | .dropOutside c => if s.holder c = .outside then some (dropFut s c, [.dropped c]) else none

def step (s : St) (l : Lbl) : Option (St × List Ev) :=
  match s.pending with
  | [] => act s l
  | i :: r => if l = .cascade then some (destroy1 s r i) else none

def init : St := ⟨fun _ => .none, fun _ => [], fun _ => .nobody, fun _ => false, fun _ => false, fun _ => none, 0, []⟩

def machine : Machine St Lbl Ev := ⟨init, step⟩

end Verif.Leak
