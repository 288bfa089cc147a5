import Verif.Common.Machine
/-!
# Model of `koios::task_on_the_fly` (include/koios/task_on_the_fly.h 28-113)

`task_on_the_fly` objects live in numbered slots.  Every construction from a
`std::coroutine_handle` hands over one suspension of a coroutine to the library; it gets a
fresh number `k` (the "hand-over").
-/

namespace Verif.Fly

/-- API-visible events. -/
inductive Ev where
  | handed (k : Nat)     -- a suspended coroutine was wrapped: hand-over `k`
  | resumed (k : Nat)    -- the coroutine of hand-over `k` was resumed
  | destroyed (k : Nat)  -- the coroutine frame of hand-over `k` was destroyed
  | abandoned (k : Nat)  -- the caller explicitly gave the ownership up (`give_up_ownership`)
  | ub                   -- undefined behaviour: null handle or resuming without ownership
  deriving DecidableEq, Repr

/-- The two members (h 108, 112); the handle is the number of the hand-over, `none` is the
null handle. -/
structure Obj where
  h    : Option Nat
  owns : Bool
  deriving DecidableEq, Repr

structure St where
  obj  : Nat → Option Obj
  next : Nat
  dead : Bool

inductive Lbl where
  | mkDefault (d : Nat)      -- `task_on_the_fly()` (31)
  | mk (d : Nat)             -- from the handle of a suspended coroutine (33-42)
  | mkNull (d : Nat)         -- from a null coroutine_handle (33-42)
  | moveCtor (d s : Nat)     -- (44-47)
  | moveAssign (d s : Nat)   -- (49-56)
  | invoke (d : Nat)         -- `operator()` (66-70)
  | giveUp (d : Nat)         -- `give_up_ownership` (93)
  | dtor (d : Nat)           -- destructor (85)
  deriving DecidableEq, Repr

/-- `destroy()` (96-102): the object afterwards and the effect. -/
def destroy (o : Obj) : Obj × List Ev :=
  if o.owns then
    ({ o with owns := false }, [match o.h with | some k => .destroyed k | none => .ub])
  else (o, [])

/-- `exchange_ownership()` (104): the object afterwards. -/
def disown (o : Obj) : Obj := { o with owns := false }

def step (s : St) (l : Lbl) : Option (St × List Ev) :=
  if s.dead then none else
  match l with
  | .mkDefault d =>
    if s.obj d = none then
      some ({ s with obj := upd s.obj d (some { h := none, owns := false }) }, [])
    else none
  | .mk d =>
    if s.obj d = none then
      some ({ s with obj := upd s.obj d (some { h := some s.next, owns := true }),
                     next := s.next + 1 }, [.handed s.next])
    else none
  | .mkNull d =>
    if s.obj d = none then
      some ({ s with obj := upd s.obj d (some { h := none, owns := true }) }, [])
    else none
  | .moveCtor d src =>
    match s.obj d, s.obj src with
    | none, some o =>
      some ({ s with obj := upd (upd s.obj src (some (disown o))) d (some o) }, [])
    | _, _ => none
  | .moveAssign d src =>
    match s.obj d, s.obj src with
    | some od, some _ =>
      let r := destroy od
      let obj1 := upd s.obj d (some r.1)
      -- `other` is read after `destroy()`: matters when `d = src`
      match obj1 src with
      | some o2 =>
        some ({ s with obj := upd (upd obj1 src (some (disown o2))) d (some o2),
                       dead := decide (Ev.ub ∈ r.2) }, r.2)
      | none => none
    | _, _ => none
  | .invoke d =>
    match s.obj d with
    | some o =>
      match o.owns, o.h with
      | true, some k => some ({ s with obj := upd s.obj d (some (disown o)) }, [.resumed k])
      | _, _ => some ({ s with dead := true }, [.ub])
    | none => none
  | .giveUp d =>
    match s.obj d with
    | some o => some ({ s with obj := upd s.obj d (some (disown o)) },
        match o.owns, o.h with | true, some k => [.abandoned k] | _, _ => [])
    | none => none
  | .dtor d =>
    match s.obj d with
    | some o =>
      let r := destroy o
      some ({ s with obj := upd s.obj d none, dead := decide (Ev.ub ∈ r.2) }, r.2)
    | none => none

def init : St := { obj := fun _ => none, next := 0, dead := false }

def machine : Machine St Lbl Ev := { init := init, step := step }

/-- `operator bool` / `valid()` (72-73) of the object in slot `d`. -/
def valid (s : St) (d : Nat) : Bool :=
  match s.obj d with
  | some o => o.owns && o.h.isSome
  | none => false

end Verif.Fly
