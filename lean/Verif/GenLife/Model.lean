import Verif.GenLife.Spec
/-!
# Model of the ownership between generator objects, shared states and coroutine frames

include/koios/generator.h 187-244 (`_generator::_type`), 55-60, 96-105, 128-139 (the promise), include/koios/generator_shared_state.h 13-101.

The shared state of coroutine `k` is kept alive by the generator objects that point to it and by the promise in the coroutine's frame
(`m_shared_state`, generator.h 60); the frame is owned by the shared state (`m_generator_coro`) while the body is suspended in
`co_yield`.  Simplified: one request at a time, by the task that owns the variable; values are not modelled (see `Generator`); a body that
throws is not modelled (C27).
-/

namespace Verif.GenLife

/-- The frame of a coroutine. -/
inductive Frame where
  | absent               -- no such coroutine yet
  | parked               -- suspended; the handle is in the shared state's m_generator_coro
  | out                  -- being run, or waiting for something else; the consumer is in m_waiting_coro
  | gone
  deriving DecidableEq, Repr

structure St where
  obj : Nat → Option (Option Nat)     -- the generator variables that exist, and their m_shared_state (`none`: moved from)
  frame : Nat → Frame
  fin : Nat → Bool                    -- m_finalized
  next : Nat
  aborted : Bool                      -- a toolpex_assert failed

def St.init : St := ⟨fun _ => none, fun _ => .absent, fun _ => false, 0, false⟩

inductive Lbl where
  | make (o : Nat)
  | move (o o' : Nat)
  | assign (o o' : Nat)
  | drop (o : Nat)
  | ask (o : Nat)
  | yield (k : Nat)
  | ret (k : Nat)
  deriving DecidableEq, Repr

def step (s : St) (l : Lbl) : Option (St × List Ev) :=
  if s.aborted then none else
  match l with
  -- get_return_object (96-99) and the private constructor (232-236): the handle goes into the shared state
  | .make o =>
    if s.obj o = none then
      some ({ s with obj := upd s.obj o (some (some s.next)), frame := upd s.frame s.next .parked, next := s.next + 1 }, [.made o s.next])
    else none
  -- 222: the shared_ptr is moved
  | .move o o' =>
    match s.obj o, s.obj o' with
    | some p, none => some ({ s with obj := upd (upd s.obj o' (some p)) o (some none) }, [.moved o o'])
    | _, _ => none
  -- 223: `= default`, the shared_ptr is moved; the target's old shared state loses a reference, try_finalize() is not called
  | .assign o o' =>
    match s.obj o, s.obj o' with
    | some p, some _ =>
      some ((if o = o' then s else { s with obj := upd (upd s.obj o' (some p)) o (some none) }), [.assigned o o'])
    | _, _ => none
  -- ~_type (224-229); try_finalize (generator_shared_state.h 88-95): destroying m_generator_coro destroys the frame
  | .drop o =>
    match s.obj o with
    | none => none
    | some none => some ({ s with obj := upd s.obj o none }, [.dropped o])
    | some (some k) =>
      if s.frame k = .out then some ({ s with aborted := true }, [.aborted o])     -- toolpex_assert(!m_waiting_coro)
      else if s.frame k = .parked then
        some ({ s with obj := upd s.obj o none, fin := upd s.fin k true, frame := upd s.frame k .gone }, [.dropped o, .frameDestroyed k])
      else some ({ s with obj := upd s.obj o none, fin := upd s.fin k true }, [.dropped o])
  -- next_value_async (241-244), get_yielded_aw (71-80): nothing to resume if finalized
  | .ask o =>
    match s.obj o with
    | some (some k) =>
      if s.fin k then some (s, [])
      else if s.frame k = .parked then some ({ s with frame := upd s.frame k .out }, [.resumed k])
      else some ({ s with aborted := true }, [.aborted o])     -- assertions in set_waiting_coro, get_generator_coro
    | _ => none
  -- yield_generator_getter_aw::await_suspend (128-139)
  | .yield k =>
    if s.frame k = .out then
      if s.fin k then some ({ s with frame := upd s.frame k .gone }, [.frameDestroyed k])
      else some ({ s with frame := upd s.frame k .parked }, [.yielded k])
    else none
  -- return_void (101-105), final_suspend: the frame is destroyed
  | .ret k =>
    if s.frame k = .out then
      some ({ s with fin := upd s.fin k true, frame := upd s.frame k .gone }, [.returned k, .frameDestroyed k])
    else none

def machine : Machine St Lbl Ev := ⟨St.init, step⟩

end Verif.GenLife
