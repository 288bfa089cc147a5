import Verif.Common.Machine
import Verif.Generator.Spec
/-!
# Model of `koios::generator` (include/koios/generator.h 38-245, generator_shared_state.h 13-101)

One consumer task owns the generator object and awaits `next_value_async()`; the generator body is a
second coroutine.  One label per critical section / atomic access; consumer and body may run on
different threads.
Simplification: the `toolpex_assert`s are modelled as an error event would be, by the state `bad`,
and proved unreachable.
-/

namespace Verif.Generator

/-- Consumer. -/
inductive CPc where
  | idle
  | ready       -- await_ready answered true (generator.h 71-74), before await_resume
  | susp1       -- await_ready answered false, before set_waiting_coro (78)
  | susp2       -- before get_generator_coro + wake_up (79)
  | waiting     -- suspended; its handle is in m_waiting_coro
  | woken       -- handed to the scheduler, before await_resume (82-89)
  | gone        -- the generator object was destroyed
  deriving DecidableEq, Repr

/-- The body's coroutine. -/
inductive GPc where
  | parked      -- suspended, its handle is in m_generator_coro
  | running     -- before its next action
  | paused      -- suspended in some other co_await
  | yielding    -- value stored, in yield_generator_getter_aw::await_suspend, before set_generator_coro (136)
  | waking      -- after set_generator_coro, before wake_up(get_waiting_coro()) (137)
  | returning   -- return_void: finalized set, before wake_up (104)
  | ended       -- final_suspend = suspend_never: frame destroyed
  | killed      -- frame destroyed by try_finalize
  | stuck       -- unhandled_exception rethrew (107): suspended at the final suspend point for ever
  deriving DecidableEq, Repr

structure St where
  pos   : Nat          -- next action of the body
  g     : GPc
  c     : CPc
  slot  : Option Nat   -- m_yielded_val
  fin   : Bool         -- m_finalized
  wtg   : Bool         -- m_waiting_coro is not empty
  bad   : Bool         -- an assertion failed / empty handle used
  deriving DecidableEq, Repr

inductive Lbl where
  | ask          -- next_value_async + await_ready (71-74, 241-244)
  | setWaiting   -- (78)
  | wakeGen      -- (79): get_generator_coro, wake_up
  | resume       -- await_resume (82-89)
  | drop         -- ~generator: try_finalize (generator_shared_state.h 88-95)
  | act          -- the body executes its next action
  | unpause      -- the body is resumed after a pause
  | park         -- (128-136)
  | wakeCons     -- (137)
  | retWake      -- (104)
  deriving DecidableEq, Repr

def step (body : Nat → Act) (s : St) : Lbl → Option (St × List Ev)
  | .ask =>
    if s.c = .idle then some ({ s with c := if s.fin then .ready else .susp1 }, [.asked]) else none
  | .setWaiting =>
    if s.c = .susp1 then some ({ s with c := .susp2, wtg := true, bad := s.bad || s.wtg }, []) else none
  | .wakeGen =>
    if s.c = .susp2 then
      if s.g = .parked then some ({ s with c := .waiting, g := .running }, [])
      else some ({ s with c := .waiting, bad := true }, [])   -- toolpex_assert(!!m_generator_coro)
    else none
  | .resume =>
    if s.c = .ready ∨ s.c = .woken then
      if s.fin then some ({ s with c := .idle }, [.got none])
      else
        match s.slot with
        | some v => some ({ s with c := .idle, slot := none }, [.got (some v)])
        | none => some ({ s with c := .idle, bad := true }, [])  -- get_value() of an empty slot
    else none
  | .drop =>
    if s.c = .idle then
      if s.g = .parked then
        some ({ s with c := .gone, fin := true, g := .killed, bad := s.bad || s.wtg }, [.dropped, .frameDestroyed])
      else some ({ s with c := .gone, fin := true, bad := s.bad || s.wtg }, [.dropped])
    else none
  | .act =>
    if s.g = .running then
      match body s.pos with
      | .yield v =>
        -- yield_value (112-118): `if (!finalized()) set_value(val)`
        some ({ s with pos := s.pos + 1, g := .yielding, slot := if s.fin then s.slot else some v },
          [.ran (.yield v)])
      | .pause => some ({ s with pos := s.pos + 1, g := .paused }, [.ran .pause])
      | .ret => some ({ s with pos := s.pos + 1, g := .returning, fin := true }, [.ran .ret])
      | .throw => some ({ s with pos := s.pos + 1, g := .stuck }, [.ran .throw])
    else none
  | .unpause => if s.g = .paused then some ({ s with g := .running }, []) else none
  | .park =>
    if s.g = .yielding then
      if s.fin then some ({ s with g := .killed, bad := s.bad || s.wtg }, [.frameDestroyed]) -- (130-133)
      else some ({ s with g := .waking }, [])
    else none
  | .wakeCons =>
    if s.g = .waking then
      if s.wtg ∧ s.c = .waiting then some ({ s with g := .parked, wtg := false, c := .woken }, [])
      else some ({ s with g := .parked, bad := true }, [])
    else none
  | .retWake =>
    if s.g = .returning then
      if s.wtg ∧ s.c = .waiting then
        some ({ s with g := .ended, wtg := false, c := .woken }, [.frameDestroyed])
      else some ({ s with g := .ended, bad := true }, [.frameDestroyed])
    else none

/-- The generator object has just been returned to the caller (get_return_object 96-99, _type 232-236). -/
def init : St := { pos := 0, g := .parked, c := .idle, slot := none, fin := false, wtg := false, bad := false }

def machine (body : Nat → Act) : Machine St Lbl Ev := { init := init, step := step body }

end Verif.Generator
