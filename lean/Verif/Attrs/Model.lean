import Verif.Attrs.Spec
import Verif.Life.Model
/-!
# Going through the list of workers, on top of the machine `Life` (C102)

`m_consumer_attrs` holds pointers to the local variables `cattr` of the workers' function (src/thread_pool.cc 60-65, include/koios/thread_pool.h 237-242): they live until that function
returns.  `consumer_attrs()` (thread_pool.h 168-171) returns the vector itself, without the lock under which it is written.
-/

namespace Verif.Attrs

open Life (Who)

structure St where
  base : Life.St
  look : Who → Option (List Nat × List Nat)   -- a thread going through the list: what it has read, what is left
  ub : Bool

inductive Lbl where
  | base (l : Life.Lbl)
  | look (c : Who)
  | next (c : Who)
  | quit (c : Who)          -- the loop is left early: this worker was the one looked for

/-- the thread whose program this is a step of -/
def actor : Life.Lbl → Option Who
  | .poll i | .begin i | .finish i | .leave i => some (.wrk i)
  | .stop c | .advance c => some c
  | .destroy | .dtor => some .main
  | _ => none

/-- The thread runs user code: a worker in a task, another thread between start() and the destructor. -/
def inUserCode (b : Life.St) : Who → Bool
  | .main => b.mpc == .user && b.call .main == .idle
  | .ext k => b.mpc == .user && b.call (.ext k) == .idle
  | .wrk i => b.wpc i == .run && b.call (.wrk i) == .idle

def step (n : Nat) (manual loops : Bool) (s : St) (l : Lbl) : Option (St × List Ev) :=
  if s.ub = true then none
  else match l with
  | .base l =>
    match actor l with
    | some c =>
      match s.look c with
      | some _ => none
      | none =>
        match Life.step n manual loops s.base l with
        | some (b, e) => some ({ s with base := b }, e.map .life)
        | none => none
    | none =>
      match Life.step n manual loops s.base l with
      | some (b, e) => some ({ s with base := b }, e.map .life)
      | none => none
  -- the beginning of `for (attr : consumer_attrs())` in turn_into_scheduler (src/this_task.cc 16), of for_each_dispatch_evenly (include/koios/functional.h 129); the push_backs of
  -- the workers that are still to come are not ordered with these reads
  | .look c =>
    match s.look c with
    | some _ => none
    | none =>
      if s.base.dead = false ∧ inUserCode s.base c = true then
        if s.base.attrs.length < n then some ({ s with ub := true }, [.lookBegan c, .raced c])
        else some ({ s with look := upd s.look c (some ([], s.base.attrs)) }, [.lookBegan c])
      else none
  -- `attr->thread_id` (this_task.cc 18), `*thr_attrs[...]` (functional.h 138); the end of the loop
  | .next c =>
    match s.look c with
    | none => none
    | some (seen, []) =>
      if s.base.dead = false ∧ inUserCode s.base c = true then some ({ s with look := upd s.look c none }, [.listed c seen]) else none
    | some (seen, i :: rest) =>
      if s.base.dead = false ∧ inUserCode s.base c = true then
        if s.base.wpc i = .exited then some ({ s with ub := true }, [.dangling c i])
        else some ({ s with look := upd s.look c (some (seen ++ [i], rest)) }, [.looked c i])
      else none
  -- `co_return` (this_task.cc 18)
  | .quit c =>
    match s.look c with
    | none => none
    | some _ => if s.base.dead = false ∧ inUserCode s.base c = true then some ({ s with look := upd s.look c none }, []) else none

def machine (n : Nat) (manual loops : Bool) : Machine St Lbl Ev := ⟨⟨Life.init, fun _ => none, false⟩, step n manual loops⟩

end Verif.Attrs
