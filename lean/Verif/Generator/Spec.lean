import Verif.Common.Trace
/-!
# What a user of `koios::generator` relies on (C26, C27)

The body of a generator is an arbitrary, possibly endless, sequence of actions; action number `i` is
`body i`.
-/

namespace Verif.Generator

/-- What the body does next. -/
inductive Act where
  | yield (v : Nat)  -- co_yield v
  | pause            -- co_await something else (a timer, io, ...)
  | ret              -- co_return / end of the body
  | throw            -- an exception leaves the body
  deriving DecidableEq, Repr

/-- Values of the yields among the first `n` actions (nothing happens after `ret` / `throw`). -/
def valsFrom (body : Nat → Act) : Nat → Nat → List Nat
  | _, 0 => []
  | i, n + 1 =>
    match body i with
    | .yield v => v :: valsFrom body (i + 1) n
    | .pause => valsFrom body (i + 1) n
    | .ret => []
    | .throw => []

def vals (body : Nat → Act) (n : Nat) : List Nat := valsFrom body 0 n

/-- The body ends normally, having yielded exactly `vs`. -/
def EndsWith (body : Nat → Act) (vs : List Nat) : Prop :=
  ∃ n, body n = .ret ∧ (∀ i, i < n → body i ≠ .ret ∧ body i ≠ .throw) ∧ vs = vals body n

inductive Ev where
  | asked                    -- the consumer evaluates `co_await g.next_value_async()`
  | got (x : Option Nat)     -- ... which yields a value or nullopt
  | ran (a : Act)            -- the body executes an action
  | dropped                  -- the consumer destroys the generator object
  | frameDestroyed           -- the coroutine frame of the generator is destroyed
  deriving DecidableEq, Repr

/-- What the consumer has been given, in order. -/
def gots (tr : List Ev) : List (Option Nat) := tr.filterMap fun | .got x => some x | _ => none

def times (e : Ev) (tr : List Ev) : Nat := tr.count e

/-- A request is outstanding: the last of the consumer's events is `asked`. -/
def pendingStep (b : Bool) : Ev → Bool
  | .asked => true
  | .got _ => false
  | _ => b
def pending (tr : List Ev) : Bool := tr.foldl pendingStep false

end Verif.Generator
