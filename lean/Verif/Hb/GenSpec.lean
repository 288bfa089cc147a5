import Verif.Generator.Spec
/-!
# What the two sides of a generator rely on about data they share (C91)

The body of a generator runs only between a request and its answer, the consumer only outside; so both may use the same data (a buffer that the body
fills and the consumer drains, say) without a lock.
-/

namespace Verif.Hb.Gen

inductive Who where
  | consumer   -- the task that owns the generator object, between two requests
  | body       -- the body of the generator, including the place where a yielded value is kept
  | locals     -- destructors of local variables of the body, run because the body has come to its end
  deriving DecidableEq, Repr

/-- Accesses to the shared data are numbered 0, 1, 2, ... in the order in which they are made; any two of them are taken to conflict. -/
inductive Ev where
  | gen (e : Generator.Ev)          -- an event of the generator
  | access (w : Who) (i : Nat)
  | race (i j : Nat)                -- access j < i does not happen before access i: a data race
  deriving DecidableEq, Repr

/-- Data that both sides use, destructors of the body's local variables included, are never subject to a data race. -/
def RaceFree (tr : List Ev) : Prop := ∀ i j, .race i j ∉ tr

/-- No destructor of a local variable of a body that has come to its end touches the shared data. -/
def LocalsPrivate (tr : List Ev) : Prop := ∀ i, .access .locals i ∉ tr

/-- When the consumer is told that there are no more values, the body's coroutine is destroyed. -/
def OverAtEnd (tr : List Ev) : Prop := ∀ p, p ++ [.gen (.got none)] <+: tr → .gen .frameDestroyed ∈ p

end Verif.Hb.Gen
