import Verif.Pool.Model
import Verif.PoolFut.Spec
/-!
# Model of the futures of `thread_pool::enqueue` (include/koios/thread_pool.h 83-90, 108-117, 200-243)

On top of `Verif.Pool.machine`: the closure in the queue of a task with a future calls a `std::packaged_task` (trusted: it stores the value or the exception of its
function; when it is destroyed without having been called, the future gets `broken_promise`).  A task of `enqueue_no_future` has no such wrapper.  The two steps of the
result - the function ends, the worker goes on - are one.
-/

namespace Verif.PoolFut

structure St where
  base   : Pool.St
  hasFut : Nat → Bool            -- task x was put into the pool by `enqueue`
  res    : Nat → Option Res      -- the shared state of the future of x
  taken  : Nat → Bool            -- get() has been called with success
  dead   : Bool                  -- the pool has been destroyed

inductive Lbl where
  | base (l : Pool.Lbl)          -- everything but `enqPush` and `finish`
  | push (a : Pool.Who) (i : Nat) (fut : Bool)  -- `enqueue` (fut) or `enqueue_no_future` puts its task into queue i (thread_pool.h 187, 213-219)
  | finish (w : Nat) (o : Out)   -- the function executed by worker w ends (thread_pool.cc 104-117)
  | destroy                      -- ~thread_pool (thread_pool.cc 30-34), then ~invocable_queue_wrapper destroys the remaining closures
  | get (x : Nat)                -- get() of the future of x
  deriving DecidableEq, Repr

def isExn : Out → Bool
  | .exn _ => true
  | .ret _ => false

/-- Is x in one of the queues? -/
def inQueue (N : Nat) (b : Pool.St) (x : Nat) : Bool := (List.range N).any fun i => (b.queue i).contains x

def step (N : Nat) (s : St) : Lbl → Option (St × List Ev)
  | .base l =>
    if s.dead = true then none else
    match l with
    | .enqPush _ _ => none
    | .finish _ _ => none
    | l =>
      match Pool.step N s.base l with
      | some (b, e) => some ({ s with base := b }, e.map .pool)
      | none => none
  | .push a i fut =>
    if s.dead = true then none else
    match Pool.step N s.base (.enqPush a i) with
    | some (b, e) =>
      some ({ s with base := b, hasFut := upd s.hasFut s.base.next fut }, e.map .pool ++ if fut = true then [.future s.base.next] else [])
    | none => none
  | .finish w o =>
    if s.dead = true then none else
    match s.base.pc w with
    | .run x =>
      if s.hasFut x = true then
        -- the packaged_task catches the exception: the worker sees the closure return
        match Pool.step N s.base (.finish w false) with
        | some (b, e) => some ({ s with base := b, res := upd s.res x (some (.out o)) }, .ran x o :: e.map .pool)
        | none => none
      else
        match Pool.step N s.base (.finish w (isExn o)) with
        | some (b, e) => some ({ s with base := b }, .ran x o :: e.map .pool)
        | none => none
    | _ => none
  | .destroy =>
    if s.dead = true ∨ s.base.joined = false then none else
    some ({ s with dead := true, res := fun x => if inQueue N s.base x = true ∧ s.hasFut x = true then some .broken else s.res x }, [.destroyed])
  | .get x =>
    if s.hasFut x = false ∨ s.taken x = true then none else
    match s.res x with
    | some r => some ({ s with taken := upd s.taken x true }, [.got x r])
    | none => none                -- blocks

def init : St := { base := Pool.init, hasFut := fun _ => false, res := fun _ => none, taken := fun _ => false, dead := false }

def machine (N : Nat) : Machine St Lbl Ev := { init := init, step := step N }

end Verif.PoolFut
