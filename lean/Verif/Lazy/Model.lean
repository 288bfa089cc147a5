import Verif.Common.Machine
import Verif.Lazy.Spec
/-!
# Model of `make_lazy` (include/koios/functional.h 26-43)

Two overloads.  If `f` returns an eager task, make_lazy is itself a coroutine: `f` and the arguments are copied into its frame, `f` is called when it is resumed the first
time (34), and the frame is destroyed after `f`'s result was delivered to it (promise_base.h 36: final_suspend is suspend_never).  If `f` returns a lazy task, make_lazy is an
ordinary function (37-43): its parameter `f` is destroyed when it returns, while the coroutine of `f` (whose `*this` is that parameter, if `f` is a closure) has not begun.

The end of a coroutine is as in `Verif.Scope`: `co_return` delivers the result, then the local variables are destroyed, then the frame; an exception is delivered after
the local variables are gone.  `W1`: the runtime has one worker, which destroys the local variables before it picks another task.
Simplified: the coroutine of an eager `f` begins in the same step in which make_lazy calls it; what `f` does between its uses of captured variables, and the arguments, are left out; `run()`, `run_and_get_future()`, `co_await` are one action, and done
once (task.h 154-223).
-/

namespace Verif.Lazy

inductive Inner where
  | none | fresh | queued | run
  | unwind (e : Nat)      -- an exception leaves the body, local variables are being destroyed
  | tail                  -- the result was delivered, local variables are being destroyed
  | gone
  deriving DecidableEq, Repr

inductive Outer where
  | none | fresh | queued
  | wait                  -- in `co_await f(...)` (34)
  | woken
  | closing               -- its result was delivered
  | gone
  deriving DecidableEq, Repr

structure Tk where
  inner : Inner           -- the coroutine of `f`
  outer : Outer           -- the coroutine make_lazy, if it is one
  alive : Bool            -- does the copy of `f` that the coroutine of `f` refers to exist?
  res   : Option Res      -- result of `f`
  taken : Bool            -- the result of the task has been fetched
  deriving DecidableEq, Repr

abbrev St := Nat → Tk

inductive Lbl where
  | make (i : Nat) (lz : Bool)
  | start (i : Nat)
  | pick (i : Nat)               -- a worker picks the task
  | use (i : Nat)
  | ret (i v : Nat)              -- co_return v
  | throw_ (i e : Nat)
  | unwound (i : Nat)            -- unhandled_exception (task.h 78)
  | innerEnd (i : Nat)           -- frame of `f`'s coroutine
  | outerBack (i : Nat)          -- `co_return co_await ...` (34) goes on
  | outerEnd (i : Nat)           -- frame of make_lazy, with its copy of `f`
  | take (i : Nat)
  deriving DecidableEq, Repr

/-- the coroutine make_lazy awaits the result of `f` -/
def wake : Outer → Outer
  | .wait => .woken
  | o => o

def step (W1 : Bool) (s : St) : Lbl → Option (St × List Ev)
  | .make i lz =>
    if (s i).inner = .none ∧ (s i).outer = .none then
      -- lz: the closure is gone with the parameter (39-43); otherwise it lives in the frame (30)
      some (upd s i (if lz then ⟨.fresh, .none, false, none, false⟩ else ⟨.none, .fresh, true, none, false⟩), [.made i lz])
    else none
  | .start i =>
    if (s i).inner = .fresh then some (upd s i { s i with inner := .queued }, [.started i])
    else if (s i).outer = .fresh then some (upd s i { s i with outer := .queued }, [.started i])
    else none
  | .pick i =>
    if (s i).inner = .queued then some (upd s i { s i with inner := .run }, [.began i])
    else if (s i).outer = .queued then some (upd s i { s i with outer := .wait, inner := .run }, [.began i])
    else none
  | .use i =>
    match (s i).inner with
    | .run | .unwind _ => some (s, [.used i false (s i).alive])
    | .tail => some (s, [.used i true (s i).alive])
    | _ => none
  | .ret i v =>
    if (s i).inner = .run then
      some (upd s i { s i with inner := .tail, res := some (.val v), outer := wake (s i).outer }, [.finished i (.val v)])
    else none
  | .throw_ i e => if (s i).inner = .run then some (upd s i { s i with inner := .unwind e }, []) else none
  | .unwound i =>
    match (s i).inner with
    | .unwind e => some (upd s i { s i with inner := .tail, res := some (.exc e), outer := wake (s i).outer }, [.finished i (.exc e)])
    | _ => none
  | .innerEnd i => if (s i).inner = .tail then some (upd s i { s i with inner := .gone }, []) else none
  | .outerBack i =>
    if (s i).outer = .woken ∧ (W1 = true → (s i).inner = .gone) then some (upd s i { s i with outer := .closing }, []) else none
  | .outerEnd i => if (s i).outer = .closing then some (upd s i { s i with outer := .gone, alive := false }, []) else none
  | .take i =>
    match (s i).res with
    | some r =>
      if (s i).taken = false ∧ ((s i).outer = .none ∨ (s i).outer = .closing ∨ (s i).outer = .gone) then
        some (upd s i { s i with taken := true }, [.delivered i r])
      else none
    | none => none

def init : St := fun _ => ⟨.none, .none, false, none, false⟩

def machine (W1 : Bool) : Machine St Lbl Ev := ⟨init, step W1⟩

end Verif.Lazy
