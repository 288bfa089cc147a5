import Verif.Functional.Spec
import Verif.Common.Machine
/-!
# Model of co_await_all, for_each, for_each_dispatch_evenly (include/koios/functional.h)

One call of co_await_all with `n` awaitables.  The coroutine is one agent; the awaitables run concurrently and complete at any time, in any order, with any
result (labels `complete`).
-/

namespace Verif.Functional

/-- The parameters of a call.
`eager`: the awaitables run already (futures of running tasks); otherwise each one is started by the co_await, or, in for_each, by the dereference of the iterator of the
transform view just before it (functional.h 103-109 with 69 resp. 82: the view is lazy).
`order`: the order in which the co_awaits happen.  For the range versions (61-86) it is the order of the range.  For the variadic version (45-51)
the co_awaits are arguments of one call of make_tuple and their order is unspecified. -/
structure Cfg where
  n : Nat
  eager : Bool
  order : List Nat

/-- a valid call: every argument is awaited exactly once -/
def Cfg.Ok (c : Cfg) : Prop := c.order.Perm (List.range c.n)

structure St where
  started : Nat → Bool
  result : Nat → Option (Except Nat Nat)
  todo : List Nat                       -- awaitables not awaited yet
  waiting : Option Nat                  -- the co_await in progress
  got : Nat → Option Nat                -- the results collected so far, at the positions of their arguments
  done : Bool

inductive Lbl where
  | complete (i : Nat) (r : Except Nat Nat)  -- environment
  | await                                -- co_await of the next awaitable begins
  | resume                               -- it yields
  | finish                               -- co_return
  deriving DecidableEq

def init (c : Cfg) : St :=
  ⟨fun i => c.eager && decide (i < c.n), fun _ => none, c.order, none, fun _ => none, false⟩

/-- One step. -/
def step (c : Cfg) (s : St) : Lbl → Option (St × List Ev)
  | .complete i r =>
    if s.started i = true ∧ s.result i = none then some ({ s with result := upd s.result i (some r) }, [.completed i r]) else none
  | .await =>
    if s.done = false ∧ s.waiting = none then
      match s.todo with
      | [] => none
      | i :: rest =>
        if s.started i = true then some ({ s with todo := rest, waiting := some i }, [])
        else some ({ s with started := upd s.started i true, todo := rest, waiting := some i }, [.started i])
    else none
  | .resume =>
    match s.waiting with
    | none => none
    | some i =>
      if s.done = true then none
      else match s.result i with
        | none => none
        | some (.ok v) => some ({ s with waiting := none, got := upd s.got i (some v) }, [])
        | some (.error x) => some ({ s with waiting := none, done := true }, [.returned (.error x)])
  | .finish =>
    if s.done = false ∧ s.waiting = none ∧ s.todo = [] then
      some ({ s with done := true }, [.returned (.ok ((List.range c.n).map fun i => (s.got i).getD 0))])
    else none

def machine (c : Cfg) : Machine St Lbl Ev := ⟨init c, step c⟩

/-- co_await_all(range) and the co_await_all inside for_each: the order of the range -/
def rangeCfg (n : Nat) (eager : Bool) : Cfg := ⟨n, eager, List.range n⟩

/-! ### for_each_dispatch_evenly (123-143) -/

/-- `dispatcher.fetch_add(1)`: the old value; size_t wraps around -/
def fetchAdd (d : Nat) : Nat × Nat := (d, (d + 1) % 2 ^ 64)

/-- The fetch_adds of all concurrent calls, in the order in which they happen (`who`: the call each one belongs to): the pairs (call, worker).  `w` =
thr_attrs.size(). -/
def dispatch (w : Nat) : Nat → List Nat → List (Nat × Nat)
  | _, [] => []
  | d, c :: cs => (c, (fetchAdd d).1 % w) :: dispatch w (fetchAdd d).2 cs

/-! ### for_each_int (145-155)

`return for_each(rv::iota(beg, end), ...)`: the range is a temporary of for_each_int; the coroutine for_each takes it by reference.  `task<>` is eager
(task.h 291-292, promise_base.h 38): the body of for_each runs inside the call up to its first suspension and has then moved the range into its view
(functional.h 103); later steps of the loop only touch the view, which lives in the coroutine frames. -/

inductive FrameEv where
  | rangeCreated
  | taskReturned
  | rangeDestroyed
  | rangeRead
  | viewRead
  deriving DecidableEq

/-- the events of `co_await for_each_int(...)` in order: create the temporary, call for_each (which runs its body at once only if the task type is not lazy;
`k` elements are processed before the first suspension, `m` after it), destroy the temporary at the end of the full-expression of the return statement,
then the caller awaits the task -/
def forEachIntOf (lazy : Bool) (k m : Nat) : List FrameEv :=
  let first := FrameEv.rangeRead :: List.replicate k .viewRead
  [.rangeCreated] ++ (if lazy then [] else first) ++ [.taskReturned, .rangeDestroyed] ++ (if lazy then first else []) ++ List.replicate m .viewRead

/-- task.h 291-292: the default of `task` is eager_aw -/
def taskIsLazy : Bool := false

def forEachInt (k m : Nat) : List FrameEv := forEachIntOf taskIsLazy k m

end Verif.Functional
