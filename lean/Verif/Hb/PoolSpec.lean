import Verif.Pool.Spec
/-!
# What tasks and their users rely on about memory when work moves between threads (C107)

Callables put into the pool are numbered 0, 1, 2, ... in the order in which they were accepted.  A callable is a function of the user, or one resumption of a
coroutine: a coroutine is resumed by several callables one after the other, maybe on different threads.
-/

namespace Verif.Hb.Pl

/-- Who reads and writes: a thread outside of the pool, or what callable `x` executes. -/
inductive Act where
  | ext (k : Nat)
  | item (x : Nat)
  deriving DecidableEq, Repr

/-- Writes are numbered 0, 1, 2, ...; each goes to a location of its own. -/
inductive Ev where
  | pool (e : Pool.Ev)                             -- another event of the pool
  | submit (a : Act) (x : Nat) (c : Option Nat)    -- `a` has put callable `x` into the pool; `some c`: it starts, or resumes, coroutine `c`
  | parked (c : Nat)                               -- coroutine `c` suspends
  | wrote (a : Act) (i : Nat)
  | saw (a : Act) (i : Nat)                        -- `a` reads location i and sees the write
  | stale (a : Act) (i : Nat)                      -- `a` reads location i, but the write does not happen before the read: a data race
  | got (a : Act) (x : Nat)                        -- `get()` of the std::future of callable `x` has returned to `a`
  | stopped (k : Nat)                              -- `stop()` or `quick_stop()` has returned to thread `k`
  deriving DecidableEq, Repr

/-- `a` has written, or has seen, the value of location `i`. -/
def Knew (a : Act) (i : Nat) (tr : List Ev) : Prop := .wrote a i ∈ tr ∨ .saw a i ∈ tr

/-- What somebody knew when he submitted a callable (or started a task, or woke it up), the callable finds. -/
def StartVisible (tr : List Ev) : Prop :=
  ∀ p x i, p ++ [.stale (.item x) i] <+: tr → ¬ ∃ q a c, q ++ [.submit a x c] <+: p ∧ Knew a i q

/-- A coroutine finds what it has written or seen before, on whatever threads it was resumed. -/
def TaskVisible (tr : List Ev) : Prop :=
  ∀ p x i, p ++ [.stale (.item x) i] <+: tr → ¬ ∃ c a b y, .submit a x (some c) ∈ p ∧ .submit b y (some c) ∈ p ∧ Knew (.item y) i p

/-- Who has got the result of a callable finds what the callable has written or seen. -/
def ResultVisible (tr : List Ev) : Prop :=
  ∀ p a i, p ++ [.stale a i] <+: tr → ¬ ∃ q x, q ++ [.got a x] <+: p ∧ Knew (.item x) i q

/-- A thread to which `stop()` has returned finds everything that any callable, ever, has written or seen. -/
def StopVisible (tr : List Ev) : Prop :=
  ∀ p k i, p ++ [.stale (.ext k) i] <+: tr → .stopped k ∈ p → ∀ x, ¬ Knew (.item x) i p

end Verif.Hb.Pl
