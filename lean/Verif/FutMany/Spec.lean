import Verif.Common.Trace
import Verif.Future.Spec
/-!
# Future objects that are moved around, and several futures of one promise (C110)

Future objects are numbered, tasks that await are numbered.
-/

namespace Verif.FutMany
open Verif.Future (Res Ret)

inductive Ev where
  | produced (r : Res)              -- the promise got its result
  | gotFuture (o : Nat)             -- `o = promise.get_future()`
  | moved (a b : Nat)               -- `b = std::move(a)`
  | validRet (o : Nat) (b : Bool)   -- `o.valid()` answered `b`
  | readyRet (o : Nat) (b : Bool)   -- `o.ready()` answered `b`
  | nonblkRet (o : Nat) (x : Ret)   -- `o.get_nonblk()` returned or threw
  | awaitCalled (t o : Nat)         -- task `t` begins `co_await o`
  | suspended (t : Nat)             -- `t` is handed to the shared state
  | woken (t : Nat)                 -- `t` is handed to the scheduler
  | awaitRet (t o : Nat) (x : Ret)  -- the `co_await` of `t` returned or threw
  | destroyed (t : Nat)             -- the coroutine `t` is destroyed inside of its `co_await`
  | ub (o : Nat)                    -- the future `o`, which refers to nothing, is used
  deriving DecidableEq, Repr

/-- Which object is "the" future, when get_future() is called once: moves take it along, and moving another future onto it drops it. -/
def currentFrom : Option Nat → List Ev → Option Nat
  | c, [] => c
  | _, .gotFuture o :: tr => currentFrom (some o) tr
  | c, .moved a b :: tr => currentFrom (if c = some a then some b else if c = some b then none else c) tr
  | c, _ :: tr => currentFrom c tr

def current (tr : List Ev) : Option Nat := currentFrom none tr

/-- get_future() is called at most once. -/
def Single (tr : List Ev) : Prop := tr.countP (fun | .gotFuture _ => true | _ => false) ≤ 1

def isHandOut : Ev → Bool
  | .nonblkRet _ (.res _) | .awaitRet _ _ (.res _) => true
  | _ => false

def handedOut (p : List Ev) : Bool := p.any isHandOut

/-- what an immediate retrieval must answer -/
def answer (p : List Ev) : Ret :=
  match p.findSome? (fun | .produced r => some r | _ => none) with
  | none => .outOfRange
  | some r => if handedOut p then .logicError else .res r

def Produced (p : List Ev) : Prop := ∃ r, Ev.produced r ∈ p

/-- `a` has happened and, since then, nothing that ends it -/
def OpenUntil (a : Ev) (ends : Ev → Bool) (p : List Ev) : Prop := ∃ q r, p = q ++ a :: r ∧ ∀ x ∈ r, ends x = false

def endsAwait (t : Nat) : Ev → Bool
  | .awaitRet u _ _ | .destroyed u => u == t
  | _ => false

def endsSleep (t : Nat) : Ev → Bool
  | .woken u | .destroyed u => u == t
  | _ => false

/-- `t` is inside of `co_await o` -/
def Awaiting (t o : Nat) (p : List Ev) : Prop := OpenUntil (.awaitCalled t o) (endsAwait t) p

/-- `t` sleeps in the shared state -/
def Asleep (t : Nat) (p : List Ev) : Prop := OpenUntil (.suspended t) (endsSleep t) p

/-- an operation on a future object by its owner -/
def isUse : Ev → Bool
  | .awaitCalled _ _ | .moved _ _ | .readyRet _ _ | .nonblkRet _ _ => true
  | _ => false

/-- Future objects are used by one task at a time: while a task awaits, nobody else awaits, moves or asks. -/
def OneAtATime (tr : List Ev) : Prop := ∀ p x, p ++ [x] <+: tr → isUse x = true → ∀ t o, ¬ Awaiting t o p

end Verif.FutMany
