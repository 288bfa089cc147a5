import Verif.Common.Trace
/-!
# What a user of `make_lazy(f, args...)` relies on (C106)

`f` may be a lambda with captures; `i` names a call of make_lazy, i.e. a task.  `lz` says whether `f` itself returns a lazy task.
-/

namespace Verif.Lazy

inductive Res where
  | val (v : Nat)
  | exc (e : Nat)
  deriving DecidableEq, Repr

inductive Ev where
  | made (i : Nat) (lz : Bool)           -- make_lazy has returned the task
  | started (i : Nat)                    -- the task is run or awaited
  | began (i : Nat)                      -- the body of `f` begins
  | used (i : Nat) (late ok : Bool)      -- `f` uses something it has captured; late: in a destructor of a local variable, after its `co_return`; ok: the captures exist
  | finished (i : Nat) (r : Res)         -- `f` co_returns or throws
  | delivered (i : Nat) (r : Res)        -- whoever waits for the task gets the result
  deriving DecidableEq, Repr

/-- Nothing of `f` runs before the task is started; and it runs at most once. -/
def RunsWhenStarted (tr : List Ev) : Prop :=
  (∀ p i, p ++ [.began i] <+: tr → .started i ∈ p) ∧ ∀ i, tr.count (.began i) ≤ 1

/-- The result of the task is the result of `f`. -/
def ResultOfF (tr : List Ev) : Prop := ∀ p i r, p ++ [.delivered i r] <+: tr → .finished i r ∈ p

/-- What `f` has captured exists whenever `f` uses it. -/
def NoDangling (tr : List Ev) : Prop := ∀ i late, .used i late false ∉ tr

end Verif.Lazy
