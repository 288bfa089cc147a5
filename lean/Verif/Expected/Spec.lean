/-!
# What a user of koios::expected relies on (C47)
-/

namespace Verif.Expected

/-- What can be thrown: std::bad_variant_access, or something a continuation throws. -/
inductive Exc where
  | badVariantAccess
  | user (n : Nat)
  deriving DecidableEq, Repr

/-- A result as the user thinks of it: a value or an error. -/
inductive Res (T E : Type) where
  | ok (t : T)
  | err (e : E)
  deriving DecidableEq, Repr

/-- Running a list of fallible steps one after the other: the calls that are made (step number and argument) and the outcome.  An error or an
exception ends the sequence. -/
def railway {T E : Type} : Nat → Res T E → List (T → Except Exc (Res T E)) → List (Nat × T) × Except Exc (Res T E)
  | _, r, [] => ([], .ok r)
  | _, .err e, _ :: _ => ([], .ok (.err e))
  | k, .ok t, f :: fs =>
    match f t with
    | .error x => ([(k, t)], .error x)
    | .ok r => ((k, t) :: (railway (k + 1) r fs).1, (railway (k + 1) r fs).2)

end Verif.Expected
