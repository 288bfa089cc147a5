import Verif.Common.Machine
import Verif.Scope.Spec
/-!
# Model of the end of a task: order of the result, the destruction of the local variables and the awaiting task

What the compiler makes of a coroutine ([dcl.fct.def.coroutine]) together with `task::promise_type` (include/koios/task.h 71-79),
`return_value_or_void` (include/koios/return_value_or_void.h 38-41, 58-62, 72-75), `destroy_aw` (include/koios/promise_base.h 36),
`future_aw` (include/koios/future_aw.h 31-44), `shared_state` (include/koios/future.h 42-58), `task::operator co_await` (include/koios/task.h
215-223) and the worker loop (src/thread_pool.cc 72-97).

`co_return v` calls `return_value(v)` first, which stores the result and wakes the awaiting task; then the local variables are destroyed, then
(final_suspend = suspend_never) the frame.  An exception destroys the local variables first, then `unhandled_exception()` stores it.

A function is a list of instructions and a final `co_return` or `throw`.  Any number of functions, recursion included.  Every worker has a
call stack, because an eager task runs on its caller's stack until its first suspension.
Simplified: the test whether the result is there and the registration of the waiting task are one action (see `Verif.Future`, C08); a result
is asked for once; tasks are awaited where they are called, or never; stolen and requeued tasks are "ready", any worker may pick them.
-/

namespace Verif.Scope

inductive Instr where
  | mk (x : Nat)                        -- a local variable
  | call (k : Nat) (lazy caught : Bool) -- co_await of a call of function k; inside try { } catch (...) { } or not
  deriving DecidableEq, Repr

structure Fn where
  code : List Instr
  fin : Res                             -- co_return v, or throw
  deriving DecidableEq, Repr

inductive Ph where
  | absent
  | ready                     -- not started; in a queue of the scheduler
  | run
  | await (c : Nat) (ca : Bool)    -- running, before `co_await` of the task c it has called
  | wait (c : Nat) (ca : Bool)     -- suspended; m_waiting of c's shared state
  | queued (c : Nat) (ca : Bool)   -- woken: in a queue of the scheduler
  | woken (c : Nat) (ca : Bool)    -- resumed, before await_resume
  | unwind (e : Nat)          -- an exception leaves the function body
  | closing                   -- the result is stored
  | dead
  deriving DecidableEq, Repr

structure Tk where
  code : List Instr
  fin : Res
  locals : List Nat           -- live local variables, youngest first
  ph : Ph
  res : Option Res            -- shared_state::m_ff
  waiter : Option Nat         -- shared_state::m_waiting
  deriving DecidableEq, Repr

structure St where
  n : Nat
  tk : Nat → Tk
  stack : Nat → List Nat      -- per worker, innermost first

inductive Lbl where
  | pick (w t : Nat)          -- an idle worker takes a task from a queue (thread_pool.cc 75-93)
  | go (w : Nat)              -- the worker executes the next action of the task on top of its stack
  | get                       -- an outside thread in future::get() of task 0
  deriving DecidableEq, Repr

def setPh (s : St) (t : Nat) (p : Ph) : St := { s with tk := upd s.tk t { s.tk t with ph := p } }

def pop (s : St) (w : Nat) : St := { s with stack := upd s.stack w (s.stack w).tail }

/-- promise::set_value / set_exception, shared_state::set_value (future.h 42-49). -/
def setResult (s : St) (t : Nat) (r : Res) : St :=
  let s1 := { s with tk := upd s.tk t { s.tk t with res := some r, ph := .closing, waiter := none } }
  match (s.tk t).waiter with
  | none => s1
  | some p =>
    match (s1.tk p).ph with
    | .wait c ca => setPh s1 p (.queued c ca)
    | _ => s1

/-- await_resume (future_aw.h 41-44, future.h 106-134): the value, or the exception is thrown again. -/
def resumeWith (s : St) (t c : Nat) (ca : Bool) (r : Res) : St × List Ev :=
  match r with
  | .val _ => (setPh s t .run, [.got t c r])
  | .exc e => (setPh s t (if ca then .run else .unwind e), [.got t c r])

def newTk (f : Fn) (lazy : Bool) : Tk := ⟨f.code, f.fin, [], if lazy then .ready else .run, none, none⟩

def go (prog : Nat → Fn) (s : St) (w t : Nat) : Option (St × List Ev) :=
  match (s.tk t).ph with
  | .run =>
    match (s.tk t).code with
    | .mk x :: rest => some ({ s with tk := upd s.tk t { s.tk t with code := rest, locals := x :: (s.tk t).locals } }, [.made t x])
    -- the call: an eager task (suspend_never) starts on this stack; a lazy one is enqueued by operator co_await (task.h 221)
    | .call k lz ca :: rest =>
      some ({ n := s.n + 1,
              tk := upd (upd s.tk t { s.tk t with code := rest, ph := .await s.n ca }) s.n (newTk (prog k) lz),
              stack := if lz then s.stack else upd s.stack w (s.n :: s.stack w) }, [.called t s.n])
    | [] =>
      match (s.tk t).fin with
      | .val v => some (setResult s t (.val v), [])                     -- co_return: return_value, before the locals are destroyed
      | .exc e => some (setPh s t (.unwind e), [])
  | .await c ca =>
    match (s.tk c).res with
    | some r => some (resumeWith s t c ca r)                            -- await_ready
    | none =>                                                           -- await_suspend: set_waiting
      some (pop (setPh { s with tk := upd s.tk c { s.tk c with waiter := some t } } t (.wait c ca)) w, [])
  | .woken c ca =>
    match (s.tk c).res with
    | some r => some (resumeWith s t c ca r)
    | none => none
  | .unwind e =>
    match (s.tk t).locals with
    | x :: xs => some ({ s with tk := upd s.tk t { s.tk t with locals := xs } }, [.destroyed t x])
    | [] => some (setResult s t (.exc e), [])                           -- unhandled_exception (task.h 78)
  | .closing =>
    match (s.tk t).locals with
    | x :: xs => some ({ s with tk := upd s.tk t { s.tk t with locals := xs } }, [.destroyed t x])
    | [] => some (pop (setPh s t .dead) w, [.frameDestroyed t])         -- final_suspend: suspend_never
  | _ => none

/-- The runtime with `W` workers. -/
def step (prog : Nat → Fn) (W : Nat) (s : St) : Lbl → Option (St × List Ev)
  | .pick w t =>
    if w < W ∧ s.stack w = [] then
      match (s.tk t).ph with
      | .ready => some ({ setPh s t .run with stack := upd s.stack w [t] }, [])
      | .queued c ca => some ({ setPh s t (.woken c ca) with stack := upd s.stack w [t] }, [])
      | _ => none
    else none
  | .go w =>
    if w < W then
      match s.stack w with
      | t :: _ => go prog s w t
      | [] => none
    else none
  | .get =>
    match (s.tk 0).res with
    | some r => some (s, [.gotOutside 0 r])
    | none => none

/-- Task 0, a call of function 0, was enqueued from outside. -/
def init (prog : Nat → Fn) : St := ⟨1, fun t => if t = 0 then newTk (prog 0) true else ⟨[], .val 0, [], .absent, none, none⟩, fun _ => []⟩

def machine (prog : Nat → Fn) (W : Nat) : Machine St Lbl Ev := ⟨init prog, step prog W⟩

end Verif.Scope
