import Verif.Common.Trace
/-!
# What a user of `koios::future` / `koios::promise` relies on

One promise, its future, and the consumer that owns the future.
-/

namespace Verif.Future

/-- What the task produced. -/
inductive Res where
  | val (v : Nat)
  | exc (e : Nat)
  deriving DecidableEq, Repr

/-- How `get_nonblk()`, `get()` or `co_await` ends: the task's value is returned or the task's
exception rethrown (`res`), or the call throws by itself. -/
inductive Ret where
  | res (r : Res)
  | outOfRange        -- "not ready!"
  | logicError        -- "has been got."
  deriving DecidableEq, Repr

inductive Ev where
  | produced (r : Res)       -- `set_value` / `set_exception` has stored the result
  | readyRet (b : Bool)      -- `ready()` returns
  | nonblkRet (x : Ret)      -- `get_nonblk()` returns / throws
  | awaitCalled              -- the consumer starts `co_await future`
  | suspended                -- the consumer is handed to the shared state
  | woken                    -- the consumer is handed to the scheduler
  | awaitRet (x : Ret)       -- `co_await future` returns / throws
  | getCalled                -- blocking `get()` called
  | spurious                 -- the condition variable wakes up without a notification
  | getRet (x : Ret)         -- `get()` returns / throws
  deriving DecidableEq, Repr

/-- The result in the history, if there is one. -/
def resultIn (p : List Ev) : Option Res :=
  p.findSome? fun | .produced r => some r | _ => none

/-- Has the result been handed out? -/
def handedOut (p : List Ev) : Bool :=
  p.any fun | .nonblkRet (.res _) | .awaitRet (.res _) | .getRet (.res _) => true | _ => false

/-- What an immediate retrieval after the history `p` must answer. -/
def answer (p : List Ev) : Ret :=
  match resultIn p with
  | none => .outOfRange
  | some r => if handedOut p then .logicError else .res r

/-- What a retrieval that waits for the result must answer. -/
def finalAnswer (p : List Ev) (r : Res) : Ret := if handedOut p then .logicError else .res r

def times (e : Ev) (tr : List Ev) : Nat := tr.count e

/-- How often the result was handed out. -/
def handOuts (tr : List Ev) : Nat :=
  tr.countP fun | .nonblkRet (.res _) | .awaitRet (.res _) | .getRet (.res _) => true | _ => false

end Verif.Future
