/-!
# What a user relies on about the end of an awaited task (C82)

When `co_await f(args)` has delivered its result, the call is over: every local variable of `f`, its parameters and its frame have been
destroyed, in that order, as after a call of an ordinary function.  So `f` may keep references to variables of the caller.

`t`, `c` name tasks (calls of coroutine functions); `x` a local variable, by its name in the function.
-/

namespace Verif.Scope

inductive Res where
  | val (v : Nat)
  | exc (e : Nat)
  deriving DecidableEq, Repr

inductive Ev where
  | made (t x : Nat)             -- a local variable of task t is constructed
  | destroyed (t x : Nat)        -- ... and destroyed
  | called (t c : Nat)           -- task t calls a coroutine function; c is the new task
  | frameDestroyed (t : Nat)     -- parameters and frame of t
  | got (t c : Nat) (r : Res)    -- `co_await` on c is done in t, with result r
  | gotOutside (t : Nat) (r : Res)  -- a thread outside the runtime gets the result of t from future::get()
  deriving DecidableEq, Repr

/-- All local variables that task c ever had are destroyed. -/
def LocalsGone (c : Nat) (tr : List Ev) : Prop := ∀ x, tr.count (.destroyed c x) = tr.count (.made c x)

/-- The call is over. -/
def Over (c : Nat) (tr : List Ev) : Prop := LocalsGone c tr ∧ .frameDestroyed c ∈ tr

end Verif.Scope
