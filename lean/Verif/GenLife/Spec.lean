import Verif.Common.Machine
import Verif.Common.Trace
/-!
# What a user of generator objects relies on (C81)

A `generator<T>` variable owns its coroutine: it can be moved, assigned and destroyed, and when nobody owns the coroutine any more, its
frame (with all its local variables) is destroyed.  `o` names a generator variable, `k` a generator coroutine.
-/

namespace Verif.GenLife

inductive Ev where
  | made (o k : Nat)           -- a generator function was called, `o` is the variable it initialised, `k` the new coroutine
  | moved (o o' : Nat)         -- o' = generator(std::move(o))
  | assigned (o o' : Nat)      -- o' = std::move(o), o' being a variable that exists already
  | dropped (o : Nat)          -- the variable is destroyed
  | resumed (k : Nat)          -- the body continues, because a value was asked for
  | yielded (k : Nat)          -- the body is suspended again
  | returned (k : Nat)         -- the body has run to its end
  | frameDestroyed (k : Nat)   -- the frame and all local variables in it are destroyed
  | aborted (o : Nat)          -- the program is aborted by an assertion: `o` was destroyed, or asked for a value
  deriving DecidableEq, Repr

/-- What one event changes about which coroutine every variable owns. -/
def ownsStep (f : Nat → Option Nat) : Ev → Nat → Option Nat
  | .made o k => upd f o (some k)
  | .moved o o' => upd (upd f o' (f o)) o none
  | .assigned o o' => if o = o' then f else upd (upd f o' (f o)) o none
  | .dropped o => upd f o none
  | _ => f

/-- Which coroutine a variable owns. -/
def owns (tr : List Ev) : Nat → Option Nat := tr.foldl ownsStep (fun _ => none)

def activeStep (k : Nat) (b : Bool) : Ev → Bool
  | .resumed k' => if k' = k then true else b
  | .yielded k' => if k' = k then false else b
  | .frameDestroyed k' => if k' = k then false else b
  | _ => b

/-- The body is between `resumed` and the next `yielded` (or its end). -/
def active (k : Nat) (tr : List Ev) : Bool := tr.foldl (activeStep k) false

/-- Nobody assigns to a variable that owns a coroutine. -/
def NoOverwrite (tr : List Ev) : Prop := ∀ a o o' b, tr = a ++ .assigned o o' :: b → o ≠ o' → owns a o' = none

end Verif.GenLife
