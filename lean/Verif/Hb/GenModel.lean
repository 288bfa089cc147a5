import Verif.Hb.GenSpec
import Verif.Hb.WgProps
import Verif.Generator.Model
/-!
# koios::generator under the C++ memory model (include/koios/generator.h 38-245, generator_shared_state.h 13-101, src/waiting_handle.cc)

The machine `Verif.Generator` with views as in `Verif.Hb.MutexModel`, and one refinement: `return_void` (generator.h 101-105) is called before the local variables of the
body are destroyed ([stmt.return.coroutine], [dcl.fct.def.coroutine]); they go, and then the frame, in the thread of the body, after the consumer was handed to the scheduler.
A coroutine that is suspended and resumed knows what the entry in the scheduler's queue carries, and nothing else.  Views travel
* through `shared_state::m_lock`;
* through the scheduler's queue (`wake_up`).
`m_finalized` carries a view as well (release/acquire); it is not needed and left out.
-/

namespace Verif.Hb.Gen
open Generator (Act)

/-- What synchronises. -/
structure Sync where
  lock : Bool      -- m_lock
  queue : Bool     -- the scheduler's queue
  deriving DecidableEq, Repr

def code : Sync := ⟨true, true⟩

structure St where
  g : Generator.St
  n : Nat             -- accesses so far
  cons : View         -- of the consumer
  body : View         -- of the thread that runs the body
  lockV : View        -- carried by m_lock
  readyC : View       -- carried by the consumer's entry in the scheduler's queue
  unw : Bool          -- the body has come to its end, its local variables and its frame are still there

inductive Lbl where
  | gen (l : Generator.Lbl)
  | consumerAccess
  | bodyAccess
  | localsAccess
  | unwound           -- the local variables are destroyed, and (destroy_aw, promise_base.h) the frame
  deriving DecidableEq, Repr

/-- locking m_lock with the view `v`: the view afterwards; unlocking leaves the same view -/
def locked (k : Sync) (s : St) (v : View) : View := if k.lock = true then v.join s.lockV else v
def unlocked (k : Sync) (s : St) (v : View) : View := if k.lock = true then v.join s.lockV else s.lockV
/-- what a queue entry carries -/
def queued (k : Sync) (v : View) : View := if k.queue = true then v else View.empty

/-- The effect of an action of the generator on the views. -/
def mem (k : Sync) (s : St) : Generator.Lbl → St
  | .setWaiting => { s with cons := locked k s s.cons, lockV := unlocked k s s.cons }      -- generator_shared_state.h 61-66
  | .wakeGen =>                                                                            -- 54-59, generator.h 79
    { s with cons := locked k s s.cons, lockV := unlocked k s s.cons, body := queued k (locked k s s.cons) }
  | .resume => { s with cons := if s.g.c = .woken then s.readyC else s.cons }
  | .drop => { s with cons := locked k s s.cons, lockV := unlocked k s s.cons }            -- try_finalize 88-95
  | .park => { s with body := locked k s s.body, lockV := unlocked k s s.body }            -- 47-52
  | .wakeCons =>                                                                           -- 68-74, generator.h 137
    { s with body := locked k s s.body, lockV := unlocked k s s.body, readyC := queued k (locked k s s.body) }
  | .retWake =>                                                                            -- 68-74, generator.h 104
    { s with body := locked k s s.body, lockV := unlocked k s s.body, readyC := queued k (locked k s s.body), unw := true }
  | .ask | .act | .unpause => s

/-- An access with the view `v`: which of the earlier accesses does it race with? -/
def races (v : View) (n : Nat) : List Ev := ((List.range n).filter fun j => !v j).map (.race n)

def consumerTouch (s : St) : St × List Ev :=
  ({ s with n := s.n + 1, cons := fun i => s.cons i || i == s.n }, .access .consumer s.n :: races s.cons s.n)
def bodyTouch (w : Who) (s : St) : St × List Ev :=
  ({ s with n := s.n + 1, body := fun i => s.body i || i == s.n }, .access w s.n :: races s.body s.n)

/-- The events of an action, except that the frame lives on after return_void. -/
def evs : Generator.Lbl → List Generator.Ev → List Ev
  | .retWake, _ => []
  | _, e => e.map .gen

/-- Does the action use m_yielded_val, which no lock protects (generator_shared_state.h 97-100)?  set_value in yield_value (generator.h 117-118), get_value in await_resume
(85-86). -/
def usesSlot (b : Nat → Act) (g : Generator.St) : Generator.Lbl → Option Who
  | .act => match b g.pos with
    | .yield _ => if g.fin = true then none else some .body
    | _ => none
  | .resume => if g.fin = true then none else some .consumer
  | _ => none

def step (b : Nat → Act) (k : Sync) (s : St) : Lbl → Option (St × List Ev)
  | .gen l =>
    match Generator.step b s.g l with
    | none => none
    | some (g', e) =>
      let s' := mem k s l
      match usesSlot b s.g l with
      | none => some ({ s' with g := g' }, evs l e)
      | some .consumer => some ({ (consumerTouch s').1 with g := g' }, (consumerTouch s').2 ++ evs l e)
      | some w => some ({ (bodyTouch w s').1 with g := g' }, (bodyTouch w s').2 ++ evs l e)
  -- the consumer is not in a co_await
  | .consumerAccess => if s.g.c = .idle ∨ s.g.c = .gone then some (consumerTouch s) else none
  | .bodyAccess => if s.g.g = .running then some (bodyTouch .body s) else none
  | .localsAccess => if s.unw = true then some (bodyTouch .locals s) else none
  | .unwound => if s.unw = true then some ({ s with unw := false }, [.gen .frameDestroyed]) else none

def init : St := ⟨Generator.init, 0, View.empty, View.empty, View.empty, View.empty, false⟩
def machine (b : Nat → Act) (k : Sync) : Machine St Lbl Ev := ⟨init, step b k⟩

end Verif.Hb.Gen
