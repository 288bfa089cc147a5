import Verif.Expected.Spec
/-!
# Model of koios::expected (include/koios/expected.h)

Not modelled: overload resolution and the concepts; what is modelled is what the selected constructors and members do.
-/

namespace Verif.Expected

/-- std::variant<T, E>: one of the alternatives, or none of them after an exception during an assignment -/
inductive Var (T E : Type) where
  | v0 (t : T)
  | v1 (e : E)
  | valueless
  deriving DecidableEq, Repr

variable {T U W E : Type}

/-- variant::index(); npos = 2^64 - 1 -/
def Var.index : Var T E → Nat
  | v0 _ => 0
  | v1 _ => 1
  | valueless => 2 ^ 64 - 1

/-- expected_base::has_value (expected.h 40) -/
def hasValue (x : Var T E) : Bool := x.index == 0

/-- expected_base::value (43): get<0> -/
def value : Var T E → Except Exc T
  | .v0 t => .ok t
  | _ => .error .badVariantAccess

/-- expected_base::error (42): get<1> -/
def error : Var T E → Except Exc E
  | .v1 e => .ok e
  | _ => .error .badVariantAccess

/-- expected(Val&&) (94-99) -/
def ofValue (t : T) : Var T E := .v0 t

/-- expected(unexpected_tag_t, Args...) (101-106); also the conversion from unexpected_t (164-168) -/
def ofError (e : E) : Var T E := .v1 e

/-- Implicit move assignment of the variant: when the alternative changes, the new one is constructed in place; `throws`: that construction
throws. -/
def assign (dst src : Var T E) (throws : Bool) : Var T E :=
  match dst, src with
  | .v0 t, .v0 t' => if throws then .v0 t else .v0 t'
  | .v1 e, .v1 e' => if throws then .v1 e else .v1 e'
  | _, .valueless => .valueless
  | _, s => if throws then .valueless else s

/-- and_then (113-137) with a continuation returning an expected, on an lvalue: the object afterwards and the result.  `mT`, `mE`: what is left of a value
or an error that was moved from. -/
def andThen (mT : T → T) (mE : E → E) (x : Var T E) (f : T → Except Exc (Var U E)) : Var T E × Except Exc (Var U E) :=
  if hasValue x then
    match value x with
    | .ok t => (.v0 (mT t), f t)
    | .error z => (x, .error z)
  else
    match error x with
    | .ok e => (.v1 (mE e), .ok (ofError e))
    | .error z => (x, .error z)

/-- A task, as far as co_awaiting it is concerned: it is run at the co_await and yields a result or throws. -/
abbrev Task (A : Type) := Unit → Except Exc A

/-- koios::identity (functional.h 21-24) -/
def identity {A : Type} (a : A) : Task A := fun _ => .ok a

/-- and_then (113-137) with a continuation returning a task of an expected; the call itself may throw -/
def andThenTask (mT : T → T) (mE : E → E) (x : Var T E) (f : T → Except Exc (Task (Var U E))) :
    Var T E × Except Exc (Task (Var U E)) :=
  if hasValue x then
    match value x with
    | .ok t => (.v0 (mT t), f t)
    | .error z => (x, .error z)
  else
    match error x with
    | .ok e => (.v1 (mE e), .ok (identity (ofError e)))
    | .error z => (x, .error z)

/-- `e.and_then(f0).and_then(f1)...`: the calls made and the result.  Every and_then is applied to the result of the one before; each step records its calls. -/
def chain (mT : T → T) (mE : E → E) : Nat → Except Exc (Var T E) → List (T → Except Exc (Var T E)) → List (Nat × T) × Except Exc (Var T E)
  | _, r, [] => ([], r)
  | _, .error z, _ :: _ => ([], .error z)
  | k, .ok x, f :: fs =>
    let called := if hasValue x then (match value x with | .ok t => [(k, t)] | .error _ => []) else []
    let c := chain mT mE (k + 1) (andThen mT mE x f).2 fs
    (called ++ c.1, c.2)

/-- expected_base<void, Err> (49-80): std::optional<Err>, `none` = success -/
abbrev VoidExp (E : Type) := Option E

/-- 65 -/
def vHasValue (x : VoidExp E) : Bool := !x.isSome

/-- 73-76 -/
def vValue : VoidExp E → Except Exc Unit
  | some _ => .error .badVariantAccess
  | none => .ok ()

/-- 67-71 -/
def vError : VoidExp E → Except Exc E
  | some e => .ok e
  | none => .error .badVariantAccess

/-- koios::ok() (191-194) converted with expected_void_t::operator expected<void, Err> (174-182, 108-111) -/
def vOk : VoidExp E := none

/-- (56-63) -/
def vOfError (e : E) : VoidExp E := some e

/-- and_then on expected<void, Err>: the continuation takes no argument -/
def vAndThen (mE : E → E) (x : VoidExp E) (f : Unit → Except Exc (Var U E)) : VoidExp E × Except Exc (Var U E) :=
  if vHasValue x then (x, f ())
  else
    match vError x with
    | .ok e => (some (mE e), .ok (ofError e))
    | .error z => (x, .error z)

end Verif.Expected
