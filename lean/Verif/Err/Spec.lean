/-!
# What a user relies on when an operation fails (C93)

An error code is a category and a number; the number 0 means success whatever the category
(std::error_code::operator bool).
-/

namespace Verif.Err

inductive Cat where
  | system | generic | koios
  deriving DecidableEq, Repr

structure Code where
  cat : Cat
  val : Nat
  deriving DecidableEq, Repr

/-- a default-constructed std::error_code -/
def success : Code := ⟨.system, 0⟩

def Code.isError (c : Code) : Prop := c.val ≠ 0

/-- What a call that has ended tells its caller. -/
inductive Told where
  | fine (n : Nat)             -- it returned `n` and there is no error code, or the error code says success
  | code (c : Code) (n : Nat)  -- it returned `n` and the error code is `c`
  | exc (c : Code)             -- it threw an exception whose error_code() is `c`
  | excOther                   -- it threw an exception that has no error code
  deriving DecidableEq, Repr

/-- The caller is told that the operation failed with `c`. -/
def Told.blames (t : Told) (c : Code) : Prop := t = .exc c ∨ ∃ n, t = .code c n

/-- The caller is told nothing about any failure. -/
def Told.silent (t : Told) : Prop := ∃ n, t = .fine n

end Verif.Err
