/-!
# What a user of nested tasks relies on (C14)

The programmer writes coroutine bodies as if they were ordinary functions: `co_return v`,
`throw e`, `auto t = child();` and `co_await t`.  `den` is that reading: a child is an ordinary
call whose result - value or exception - appears at the `co_await`.  No task, future or scheduler
occurs in this file.
-/

namespace Verif.Nest

inductive Exc where
  | user (e : Nat)   -- an exception of the user's
  | hasBeenGot       -- std::logic_error "has been got.": the same task is awaited a second time
  deriving DecidableEq, Repr

inductive Res where
  | val (v : Nat)
  | exc (e : Exc)
  deriving DecidableEq, Repr

/-- A coroutine body.  `spawn lazy child rest`: `auto t = child();`, the new task is the next
local variable.  `await i k`: `co_await` the `i`-th local task; the continuation receives the
returned value or the raised exception and goes on as it likes: let it pass (`k (.exc e) = .throw e`),
catch it, translate it.  `start i rest`: `run()` on the `i`-th local task, which need not be awaited after that (a second `run()` of a lazy task is undefined behaviour, see C13: programs here are
without it, and an eager task is started already).  `yield` and `sleep d`: `co_await` of this_task::yield() and this_task::sleep_for(d).  Bodies branch over every possible result and have any depth. -/
inductive Body where
  | ret (v : Nat)
  | throw (e : Exc)
  | spawn (lazy : Bool) (child : Body) (rest : Body)
  | await (i : Nat) (k : Res → Body)
  | start (i : Nat) (rest : Body)
  | yield (rest : Body)
  | sleep (d : Nat) (rest : Body)

/-- The direct reading. `env`: for each local task its result, and whether it was consumed already.
(`await` of a variable that was never declared is not a program; it is given the same meaning as a
second `await`.) -/
def den : Body → List (Res × Bool) → Res
  | .ret v, _ => .val v
  | .throw e, _ => .exc e
  | .spawn _ c rest, env => den rest (env ++ [(den c [], false)])
  | .await i k, env =>
    match env[i]? with
    | some (r, false) => den (k r) (env.set i (r, true))
    | _ => den (k (.exc .hasBeenGot)) env
  | .start _ rest, env => den rest env
  | .yield rest, env => den rest env
  | .sleep _ rest, env => den rest env

/-- What calling the body yields. -/
def result (b : Body) : Res := den b []

/-- Number of actions the body and everything it spawns may need. -/
def work : Body → List (Res × Bool) → Nat
  | .ret _, _ => 1
  | .throw _, _ => 1
  | .spawn _ c rest, env => 1 + work c [] + work rest (env ++ [(den c [], false)])
  | .await i k, env =>
    match env[i]? with
    | some (r, false) => 2 + work (k r) (env.set i (r, true))
    | _ => 2 + work (k (.exc .hasBeenGot)) env
  | .start _ rest, env => 1 + work rest env
  | .yield rest, env => 1 + work rest env
  | .sleep _ rest, env => 1 + work rest env

/-- `co_await child()` with continuation `k`. -/
def call (lazy : Bool) (child : Body) (k : Res → Body) : Body := .spawn lazy child (.await 0 k)

/-- A body wrapped in one caller per element of the list, innermost first: each caller awaits the
previous body and continues with its own continuation. -/
def nested (b : Body) : List (Bool × (Res → Body)) → Body
  | [] => b
  | (lz, k) :: ks => nested (call lz b k) ks

/-- What the user sees. -/
inductive Ev where
  | got (t : Nat) (c : Nat) (r : Res)  -- `co_await` of task `c` in the body of task `t` yields `r`
  | finished (t : Nat) (r : Res)       -- the body of task `t` ended with `r`
  deriving DecidableEq, Repr

end Verif.Nest
