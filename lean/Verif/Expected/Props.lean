import Verif.Expected.Model
/-!
# C47: expected
-/

namespace Verif.Expected

variable {T U W E : Type}

/-- the object as the user thinks of it -/
def Res.toVar : Res T E → Var T E
  | .ok t => ofValue t
  | .err e => ofError e

/-- **C47, alternatives.**  An expected made from a value gives that value back, and error() throws; made from an error the other way round; has_value() tells
which.  The same for expected<void, E>. -/
theorem alternatives (r : Res T E) :
    match r with
    | .ok t => hasValue r.toVar = true ∧ value r.toVar = .ok t ∧ error r.toVar = .error .badVariantAccess
    | .err e => hasValue r.toVar = false ∧ error r.toVar = .ok e ∧ value r.toVar = .error .badVariantAccess := by
  cases r <;> simp [Res.toVar, ofValue, ofError, hasValue, Var.index, value, error]

theorem alternatives_void (r : Option E) :
    match r with
    | none => vHasValue (vOk (E := E)) = true ∧ vValue (vOk (E := E)) = .ok () ∧ vError (vOk (E := E)) = .error .badVariantAccess
    | some e => vHasValue (vOfError e) = false ∧ vError (vOfError e) = .ok e ∧ vValue (vOfError e) = .error .badVariantAccess := by
  cases r <;> simp [vOk, vOfError, vHasValue, vValue, vError]

/-- **C47.**  In every state, also after an assignment that threw: value() succeeds iff has_value(), value() and error() never both succeed. -/
theorem value_iff_has_value (x : Var T E) :
    ((∃ t, value x = .ok t) ↔ hasValue x = true) ∧ ¬ ((∃ t, value x = .ok t) ∧ ∃ e, error x = .ok e) := by
  cases x <;> simp [hasValue, Var.index, value, error]

/-- **C47, left identity.** -/
theorem and_then_left_identity (mT : T → T) (mE : E → E) (t : T) (f : T → Except Exc (Var U E)) :
    (andThen mT mE (ofValue t) f).2 = f t := by
  simp [andThen, ofValue, hasValue, Var.index, value]

/-- **C47, right identity**, for every value or error. -/
theorem and_then_right_identity (mT : T → T) (mE : E → E) (r : Res T E) :
    (andThen mT mE r.toVar (fun t => .ok (ofValue t))).2 = .ok r.toVar := by
  cases r <;> simp [andThen, Res.toVar, ofValue, ofError, hasValue, Var.index, value, error]

/-- **C47, associativity**, in every state of the object and for all continuations, throwing ones included. -/
theorem and_then_assoc (mT : T → T) (mU : U → U) (mE : E → E) (x : Var T E) (f : T → Except Exc (Var U E))
    (g : U → Except Exc (Var W E)) :
    (match (andThen mT mE x f).2 with
      | .ok y => (andThen mU mE y g).2
      | .error z => .error z)
    = (andThen mT mE x (fun t => match f t with
        | .ok y => (andThen mU mE y g).2
        | .error z => .error z)).2 := by
  cases x <;> simp [andThen, ofError, hasValue, Var.index, value, error]

/-- **C47, errors.**  An error is passed on unchanged, whatever the continuation, and the continuation is not run (the result does not depend on it). -/
theorem and_then_error (mT : T → T) (mE : E → E) (e : E) (f : T → Except Exc (Var U E)) :
    (andThen mT mE (ofError e) f).2 = .ok (ofError e) := by
  simp [andThen, ofError, hasValue, Var.index, error]

/-- the user's view of a continuation -/
def lift (f : T → Except Exc (Res T E)) (t : T) : Except Exc (Var T E) := (f t).map Res.toVar

/-- **C47, chains.**  For every start and every list of continuations, including ones that fail or throw: a chain of and_then makes exactly the calls of the
railway specification, in that order and with these arguments, and has its outcome. -/
theorem chain_is_railway (mT : T → T) (mE : E → E) (r : Res T E) (fs : List (T → Except Exc (Res T E))) (k : Nat) :
    chain mT mE k (.ok r.toVar) (fs.map lift) = ((railway k r fs).1, (railway k r fs).2.map Res.toVar) := by
  induction fs generalizing r k with
  | nil => cases r <;> simp [chain, railway, Except.map]
  | cons f fs ih =>
    cases r with
    | err e =>
      simp only [List.map_cons, chain, Res.toVar, and_then_error]
      have h1 : ∀ (k : Nat) (gs : List (T → Except Exc (Var T E))), chain mT mE k (.ok (ofError e)) gs = ([], .ok (ofError e)) := by
        intro k gs
        induction gs generalizing k with
        | nil => simp [chain]
        | cons g gs ihg => simp only [chain, and_then_error, ihg]; simp [hasValue, ofError, Var.index]
      rw [h1]
      simp [railway, Except.map, Res.toVar, hasValue, ofError, Var.index]
    | ok t =>
      simp only [List.map_cons, chain, Res.toVar, and_then_left_identity, railway]
      simp only [hasValue, ofValue, Var.index, value, beq_self_eq_true, if_true, lift]
      cases hf : f t with
      | error x => cases fs <;> simp [Except.map, chain]
      | ok r' =>
        simp only [Except.map]
        rw [ih]
        simp [Except.map]

/-- **C47, tasks.**  and_then with a continuation returning a task gives a task with the same outcome as the plain version. -/
theorem and_then_task (mT : T → T) (mE : E → E) (x : Var T E) (f : T → Except Exc (Task (Var U E))) :
    (match (andThenTask mT mE x f).2 with
      | .ok t => t ()
      | .error z => .error z)
    = (andThen mT mE x (fun t => match f t with
        | .ok k => k ()
        | .error z => .error z)).2 ∧
    (andThenTask mT mE x f).1 = (andThen mT mE x (fun t => match f t with
        | .ok k => k ()
        | .error z => .error z)).1 := by
  cases x <;> simp [andThenTask, andThen, identity, ofError, hasValue, Var.index, value, error]

/-- **C47, void.**  expected<void, E> behaves as expected with a value of one element. -/
theorem void_and_then (mE : E → E) (x : VoidExp E) (f : Unit → Except Exc (Var U E)) :
    (vAndThen mE x f).2 = (andThen id mE (match x with | none => ofValue () | some e => ofError e) f).2 := by
  cases x <;> simp [vAndThen, vHasValue, vError, andThen, ofValue, ofError, hasValue, Var.index, value, error]

/-- and_then keeps the alternative of the object it is called on -/
theorem and_then_keeps_alternative (mT : T → T) (mE : E → E) (x : Var T E) (f : T → Except Exc (Var U E)) :
    (andThen mT mE x f).1.index = x.index := by
  cases x <;> simp [andThen, hasValue, Var.index, value, error]

/-- **What a user may not expect**: and_then moves out of the object even if the object is not a temporary; a second and_then on the same object
hands the moved-from value to its continuation. -/
theorem and_then_consumes_refuted (mT : T → T) (mE : E → E) (t : T) (f g : T → Except Exc (Var U E)) :
    (andThen mT mE (andThen mT mE (ofValue t) f).1 g).2 = g (mT t) := by
  simp [andThen, ofValue, hasValue, Var.index, value]

/-- **What fails after an assignment that threw**: neither alternative is held, and and_then throws. -/
theorem valueless_refuted (mT : T → T) (mE : E → E) (t : T) (e : E) (f : T → Except Exc (Var U E)) :
    hasValue (assign (ofError e) (ofValue t) true) = false ∧ error (assign (ofError e) (ofValue t) true) = .error .badVariantAccess ∧
      (andThen mT mE (assign (ofError e) (ofValue t) true) f).2 = .error .badVariantAccess := by
  simp [assign, ofError, ofValue, hasValue, Var.index, error, andThen]

/-- An assignment that does not throw gives the assigned object. -/
theorem assign_ok (x y : Var T E) : assign x y false = y := by
  cases x <;> cases y <;> simp [assign]

/-! ### A concrete chain: parse, check, fail; the last continuation is not run -/

example : chain (E := String) id id 0 (.ok (ofValue 5)) [fun n : Nat => .ok (ofValue (n + 1)), fun n => if n > 5 then .ok (ofError "big") else .ok (ofValue n),
    fun _ => .error (.user 1)] = ([(0, 5), (1, 6)], .ok (ofError "big")) := by rfl

end Verif.Expected
