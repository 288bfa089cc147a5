import Verif.Pool.Spec
/-!
# What users of `thread_pool::enqueue` rely on about the `std::future` it returns (C97)

The events of the pool (Verif/Pool/Spec.lean) and what happens to results.  `x` names an accepted function.
-/

namespace Verif.PoolFut

/-- How a function ends: it returns a value or an exception leaves it. -/
inductive Out where
  | ret (v : Nat)
  | exn (v : Nat)
  deriving DecidableEq, Repr

/-- What a future can tell. -/
inductive Res where
  | out (o : Out)
  | broken           -- std::future_error, broken_promise
  deriving DecidableEq, Repr

inductive Ev where
  | pool (e : Pool.Ev)
  | future (x : Nat)               -- the call that put x into the pool returns a std::future
  | ran (x : Nat) (o : Out)        -- function x ends
  | got (x : Nat) (r : Res)        -- get() of the future of x ends
  | destroyed                      -- the pool is destroyed
  deriving DecidableEq, Repr

/-- What happened to the pool. -/
def poolTrace (tr : List Ev) : List Pool.Ev := tr.filterMap fun | .pool e => some e | _ => none

/-- Futures tell what the function did; that the promise is broken only if the function was never started. -/
def Truthful (tr : List Ev) : Prop :=
  ∀ p x r, p ++ [.got x r] <+: tr →
    match r with
    | .out o => .ran x o ∈ p
    | .broken => (∀ o, .ran x o ∉ p) ∧ ∀ w, .pool (.started w x) ∉ p

/-- Exceptions of functions whose caller has a future go there, not into the log. -/
def Contained (tr : List Ev) : Prop := ∀ w x, .future x ∈ tr → .pool (.finished w x true) ∉ tr

end Verif.PoolFut
